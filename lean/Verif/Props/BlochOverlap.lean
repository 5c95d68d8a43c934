/-
Properties C62 and C76: the overlaps of meanas/fdfd/bloch.py.
-/
import Verif.Model.Bloch
import Mathlib.Analysis.SpecialFunctions.Pow.Real
import Mathlib.Analysis.Complex.Trigonometric
import Mathlib.Algebra.BigOperators.Field

set_option linter.unusedSectionVars false

namespace Meanas.Props

open Complex Meanas.Bloch

variable {sh : Fin 3 → ℕ}

/-- The sum over the grid of the x component of `a × b`. -/
noncomputable def fluxX (a b : VField sh ℂ) : ℂ := ∑ x, (a 1 x * b 2 x - a 2 x * b 1 x)

/-- What `inner_product` is for: the sum of `(eR × hL - eL × hR)_x` for fields scaled to `∑ (e × h)_x / 2 = 1`, that is divided by square roots
`sL, sR` of the two sums. -/
noncomputable def overlap (L R : EH sh) (sL sR : ℂ) : ℂ := (fluxX R.e L.h - fluxX L.e R.h) / (sL * sR)

theorem csqrt_sq (z : ℂ) : csqrt z * csqrt z = z := by
  unfold csqrt
  by_cases h : z = 0
  · subst h; rw [zero_cpow (by norm_num)]; simp
  · rw [← cpow_add _ _ h]; norm_num

theorem csqrt_eq_one {z : ℂ} : csqrt z = 1 ↔ z = 1 := by
  constructor
  · intro h
    have := csqrt_sq z
    rw [h] at this
    simpa using this.symm
  · rintro rfl
    simp [csqrt]

theorem csqrt_ne_zero {z : ℂ} (h : z ≠ 0) : csqrt z ≠ 0 := fun hc => h (by rw [← csqrt_sq z, hc, zero_mul])

theorem norm2_eq (F : EH sh) : norm2 F = fluxX F.e F.h / 2 := rfl

theorem innerProduct_some {L R : EH sh} (hL : fluxX L.e L.h ≠ 0) (hR : fluxX R.e R.h ≠ 0) :
    innerProduct L R = some (
      ∑ x, ((R.div (csqrt (norm2 R))).e 1 x * (L.div (csqrt (norm2 L))).h 2 x - (R.div (csqrt (norm2 R))).e 2 x
        - (L.div (csqrt (norm2 L))).h 1 x)
      - ∑ x, ((L.div (csqrt (norm2 L))).e 1 x * (R.div (csqrt (norm2 R))).h 2 x - (L.div (csqrt (norm2 L))).e 2 x
        - (R.div (csqrt (norm2 R))).h 1 x), L.div (csqrt (norm2 L)), R.div (csqrt (norm2 R))) := by
  unfold innerProduct
  rw [if_neg]
  rw [norm2_eq, norm2_eq]
  simp [hL, hR]

/-- **C62.** For fields with nonzero flux, `inner_product` returns the overlap plus the terms `eR_z hL_y - eR_z - hL_y` and
`-(eL_z hR_y - eL_z - hR_y)` of the scaled fields (a minus sign in place of a product), and it leaves the scaled fields in the arrays. -/
theorem C62_value_partial {L R : EH sh} (hL : fluxX L.e L.h ≠ 0) (hR : fluxX R.e R.h ≠ 0) :
    ∃ (v sL sR : ℂ) (L' R' : EH sh), innerProduct L R = some (v, L', R')
      ∧ sL * sL = fluxX L.e L.h / 2 ∧ sR * sR = fluxX R.e R.h / 2
      ∧ (∀ c x, L'.e c x = L.e c x / sL ∧ L'.h c x = L.h c x / sL ∧ R'.e c x = R.e c x / sR ∧ R'.h c x = R.h c x / sR)
      ∧ v = overlap L R sL sR + ∑ x, (R.e 2 x / sR * (L.h 1 x / sL) - R.e 2 x / sR - L.h 1 x / sL)
          - ∑ x, (L.e 2 x / sL * (R.h 1 x / sR) - L.e 2 x / sL - R.h 1 x / sR) := by
  refine ⟨_, csqrt (norm2 L), csqrt (norm2 R), _, _, innerProduct_some hL hR, csqrt_sq _, csqrt_sq _,
    fun c x => ⟨rfl, rfl, rfl, rfl⟩, ?_⟩
  unfold overlap fluxX
  simp only [sub_div, Finset.sum_div, EH.div, Finset.sum_sub_distrib]
  have e1 : ∀ (a b s t : ℂ), a / s * (b / t) = a * b / (t * s) := fun a b s t => by rw [div_mul_div_comm, mul_comm s t]
  simp only [e1]
  simp only [mul_comm (csqrt (norm2 R)) (csqrt (norm2 L))]
  ring

/-- **C62.** For fields whose only components across x are Ey and Hz, the value is the overlap. -/
theorem C62_polarised_partial {L R : EH sh} (hL : fluxX L.e L.h ≠ 0) (hR : fluxX R.e R.h ≠ 0)
    (h1 : L.e 2 = 0 ∧ L.h 1 = 0) (h2 : R.e 2 = 0 ∧ R.h 1 = 0) :
    ∃ (v sL sR : ℂ) (L' R' : EH sh), innerProduct L R = some (v, L', R')
      ∧ sL * sL = fluxX L.e L.h / 2 ∧ sR * sR = fluxX R.e R.h / 2 ∧ v = overlap L R sL sR := by
  obtain ⟨v, sL, sR, L', R', h, a, b, -, e⟩ := C62_value_partial hL hR
  refine ⟨v, sL, sR, L', R', h, a, b, ?_⟩
  rw [e, h1.1, h1.2, h2.1, h2.2]
  simp

/-- **C62, disagreement: the arrays.** Whenever the call returns numbers, it changes the arrays of a field unless that field was already scaled. -/
theorem C62_modifies_partial {L R : EH sh} (hL : fluxX L.e L.h ≠ 0) (hR : fluxX R.e R.h ≠ 0) :
    ∃ (v : ℂ) (L' R' : EH sh), innerProduct L R = some (v, L', R')
      ∧ (L' = L ↔ fluxX L.e L.h = 2) ∧ (R' = R ↔ fluxX R.e R.h = 2) := by
  refine ⟨_, _, _, innerProduct_some hL hR, ?_, ?_⟩
  all_goals
    have key : ∀ F : EH sh, fluxX F.e F.h ≠ 0 → (F.div (csqrt (norm2 F)) = F ↔ fluxX F.e F.h = 2) := by
      intro F hF
      have hn : norm2 F = 1 ↔ fluxX F.e F.h = 2 := by
        rw [norm2_eq, div_eq_one_iff_eq two_ne_zero]
      rw [← hn, ← csqrt_eq_one]
      constructor
      · intro h
        by_contra hc
        apply hF
        have hne : csqrt (norm2 F) ≠ 0 := csqrt_ne_zero (by rw [norm2_eq]; simpa using hF)
        have hz : ∀ c x, F.e c x = 0 := by
          intro c x
          have h1 : F.e c x / csqrt (norm2 F) = F.e c x := congrFun (congrFun (congrArg EH.e h) c) x
          by_contra hq
          apply hc
          rw [div_eq_iff hne] at h1
          have := mul_left_cancel₀ hq ((mul_one _).trans h1)
          exact this.symm
        unfold fluxX
        simp [hz]
      · intro h
        rw [h]
        cases F
        simp [EH.div]
  · exact key L hL
  · exact key R hR

/-- **C62, disagreement: the value.** On every nonempty grid there are two fields, both already scaled, whose overlap is 0 while the function returns
minus the number of cells minus 2. -/
theorem C62_fails_partial (x0 : Idx sh) :
    ∃ L R : EH sh, fluxX L.e L.h = 2 ∧ fluxX R.e R.h = 2 ∧ overlap L R 1 1 = 0
      ∧ ∃ L' R', innerProduct L R = some (-(Fintype.card (Idx sh) : ℂ) - 2, L', R') := by
  have hN : (Fintype.card (Idx sh) : ℂ) ≠ 0 := Nat.cast_ne_zero.2 (Fintype.card_pos_iff.2 ⟨x0⟩).ne'
  generalize hM : (Fintype.card (Idx sh) : ℂ) = N at hN
  let L : EH sh := ⟨fun c _ => if c = 1 then 1 else 0, fun c _ => if c = 2 then 2 / N else 0⟩
  let R : EH sh := ⟨fun c _ => if c = 2 then 1 else 0, fun c _ => if c = 1 then -2 / N else 0⟩
  have hsum : ∀ z : ℂ, ∑ _x : Idx sh, z = N * z := fun z => by rw [Finset.sum_const, Finset.card_univ, nsmul_eq_mul, hM]
  have hL : fluxX L.e L.h = 2 := by
    simp only [fluxX, L]
    simp only [if_true, hsum]
    simp only [show (2 : Fin 3) ≠ 1 from by decide, if_false]
    field_simp; ring
  have hR : fluxX R.e R.h = 2 := by
    simp only [fluxX, R]
    simp only [if_true, hsum]
    simp only [show (1 : Fin 3) ≠ 2 from by decide, if_false]
    field_simp; ring
  refine ⟨L, R, hL, hR, ?_, ?_⟩
  · simp only [overlap, fluxX, L, R]
    simp [show (1 : Fin 3) ≠ 2 from by decide, show (2 : Fin 3) ≠ 1 from by decide]
  · refine ⟨L, R, ?_⟩
    have nL : csqrt (norm2 L) = 1 := csqrt_eq_one.2 (by rw [norm2_eq, hL]; norm_num)
    have nR : csqrt (norm2 R) = 1 := csqrt_eq_one.2 (by rw [norm2_eq, hR]; norm_num)
    have d1 : ∀ F : EH sh, F.div 1 = F := fun F => by cases F; simp [EH.div]
    rw [innerProduct_some (by rw [hL]; norm_num) (by rw [hR]; norm_num), nL, nR, d1, d1]
    congr 2
    simp only [L, R]
    simp only [if_true, show (1 : Fin 3) ≠ 2 from by decide, show (2 : Fin 3) ≠ 1 from by decide, if_false, hsum]
    field_simp
    ring

/-! ### trq -/

theorem csqrt_neg_one : csqrt (-1) = I := by
  unfold csqrt
  rw [cpow_def_of_ne_zero (by norm_num), log_neg_one]
  have : (Real.pi : ℂ) * I * (1 / 2) = Real.pi / 2 * I := by ring
  rw [this, exp_pi_div_two_mul_I]

theorem csqrt_one : csqrt 1 = 1 := csqrt_eq_one.2 rfl

/-- Multiples of the two fields. -/
noncomputable def sc (F : EH sh) (a b : ℂ) : EH sh := ⟨fun c x => a * F.e c x, fun c x => b * F.h c x⟩

theorem innerProduct_sc {F : EH sh} (hF : fluxX F.e F.h = 2) (hp : F.e 2 = 0 ∧ F.h 1 = 0) {a b c d : ℂ} (ha : a * b ≠ 0) (hc : c * d ≠ 0) :
    innerProduct (sc F a b) (sc F c d) = some ((2 * c * b - 2 * a * d) / (csqrt (a * b) * csqrt (c * d)),
      sc F (a / csqrt (a * b)) (b / csqrt (a * b)), sc F (c / csqrt (c * d)) (d / csqrt (c * d))) := by
  have hfl : ∀ a b c d : ℂ, fluxX (sc F a b).e (sc F c d).h = a * d * 2 := by
    intro a b c d
    rw [← hF]
    unfold fluxX sc
    rw [Finset.mul_sum]
    exact Finset.sum_congr rfl fun x _ => by ring
  have hn : ∀ a b : ℂ, norm2 (sc F a b) = a * b := fun a b => by
    rw [norm2_eq, hfl]; ring
  have hd : ∀ a b z : ℂ, (sc F a b).div z = sc F (a / z) (b / z) := fun a b z => by
    unfold EH.div sc
    congr 1 <;> funext c x <;> ring
  have hs : ∑ x, F.e 1 x * F.h 2 x = 2 := by
    rw [← hF]
    unfold fluxX
    rw [hp.1, hp.2]
    simp
  rw [innerProduct_some (by rw [hfl]; simpa using ha) (by rw [hfl]; simpa using hc), hn, hn, hd, hd]
  congr 2
  have h2 : ∀ x, F.e 2 x = 0 := fun x => congrFun hp.1 x
  have h1 : ∀ x, F.h 1 x = 0 := fun x => congrFun hp.2 x
  simp only [sc, h1, h2, mul_zero, sub_zero]
  have e : ∀ p q : ℂ, ∑ x, p * F.e 1 x * (q * F.h 2 x) = p * q * 2 := fun p q => by
    rw [← hs, Finset.mul_sum]
    exact Finset.sum_congr rfl fun x _ => by ring
  rw [e, e]
  ring

theorem sc_flip (F : EH sh) (a b : ℂ) : (sc F a b).flip = sc F a (-b) := by
  unfold EH.flip sc
  congr 1
  funext c x
  simp

/-- **C76, disagreement.** For every field with nonzero flux whose only components across x are Ey and Hz, `trq` with that field as input and a copy of
it as output raises an AssertionError (it should report full transmission): the arrays it passes to `inner_product` four times are scaled anew in
each call. -/
theorem C76_raises_partial {F : EH sh} (hF : fluxX F.e F.h ≠ 0) (hp : F.e 2 = 0 ∧ F.h 1 = 0) : trq F F = .error "AssertionError" := by
  set F' : EH sh := F.div (csqrt (norm2 F)) with hF'
  have hz : csqrt (norm2 F) ≠ 0 := csqrt_ne_zero (by rw [norm2_eq]; simpa using hF)
  have hfl : fluxX F'.e F'.h = 2 := by
    have hq := csqrt_sq (norm2 F)
    have : fluxX F'.e F'.h = fluxX F.e F.h / (csqrt (norm2 F) * csqrt (norm2 F)) := by
      unfold fluxX
      rw [Finset.sum_div]
      refine Finset.sum_congr rfl fun x _ => ?_
      simp only [hF', EH.div]
      field_simp
    rw [this, hq, norm2_eq]
    field_simp
  have hp' : F'.e 2 = 0 ∧ F'.h 1 = 0 := by
    constructor
    · funext x; show F.e 2 x / _ = 0; rw [hp.1]; simp
    · funext x; show F.h 1 x / _ = 0; rw [hp.2]; simp
  have h1 : ∃ v, innerProduct F F = some (v, sc F' 1 1, sc F' 1 1) := by
    have : sc F' 1 1 = F' := by cases h : F'; simp [sc]
    rw [this, hF']
    exact ⟨_, innerProduct_some hF hF⟩
  obtain ⟨pp, h1⟩ := h1
  have hI : (1 : ℂ) / I = -I := by rw [one_div, inv_I]
  have h2 := innerProduct_sc hfl hp' (a := 1) (b := 1) (c := 1) (d := -1) (by norm_num) (by norm_num)
  have h3 := innerProduct_sc hfl hp' (a := 1) (b := -1) (c := -I) (d := 1) (by norm_num) (by simp)
  have hs := csqrt_sq (-I)
  simp only [mul_one, one_mul, csqrt_one, csqrt_neg_one, div_one, hI] at h2 h3
  set s := csqrt (-I) with hsd
  have hs0 : s ≠ 0 := fun hc => by rw [hc] at hs; simp at hs
  have h4 := innerProduct_sc hfl hp' (a := -I) (b := -1) (c := -I / s) (d := -(1 / s)) (by simp) (by simp [hs0])
  have hne : (2 - 2 * -1) / I ≠ -((2 * -I * -1 - 2) / (I * s)) := by
    intro hc
    rw [div_eq_iff I_ne_zero, neg_mul, div_mul_eq_mul_div, eq_neg_iff_add_eq_zero] at hc
    field_simp at hc
    have h5 : 4 * s = 2 - 2 * I := by linear_combination hc
    have h6 : (4 * s) * (4 * s) = (2 - 2 * I) * (2 - 2 * I) := by rw [h5]
    have h7 : (-8 : ℂ) * I = 0 := by linear_combination h6 - 16 * hs + 4 * I_sq
    simp at h7
  unfold trq
  rw [h1]
  simp only [sc_flip, h2]
  have e1 : (⟨(sc F' (-I) (-1 / I)).e, (sc F' 1 1).h⟩ : EH sh) = sc F' (-I) 1 := rfl
  simp only [e1, h3]
  simp only [sc_flip, h4]
  rw [if_pos hne]
  split_ifs <;> rfl

theorem csqrt_I_mul : csqrt I * csqrt (-I) = 1 := by
  unfold csqrt
  rw [cpow_def_of_ne_zero I_ne_zero, cpow_def_of_ne_zero (neg_ne_zero.2 I_ne_zero), ← Complex.exp_add, log_I, log_neg_I, ← Complex.exp_zero]
  congr 1
  ring

/-- `innerProduct_sc` for two different fields. -/
theorem innerProduct_sc2 {F G : EH sh} (hF : fluxX F.e F.h = 2) (hG : fluxX G.e G.h = 2) (hpF : F.e 2 = 0 ∧ F.h 1 = 0) (hpG : G.e 2 = 0 ∧ G.h 1 = 0)
    {a b c d : ℂ} (ha : a * b ≠ 0) (hc : c * d ≠ 0) :
    innerProduct (sc F a b) (sc G c d) = some ((fluxX G.e F.h * c * b - fluxX F.e G.h * a * d) / (csqrt (a * b) * csqrt (c * d)),
      sc F (a / csqrt (a * b)) (b / csqrt (a * b)), sc G (c / csqrt (c * d)) (d / csqrt (c * d))) := by
  have hfl : ∀ (F G : EH sh) (a b c d : ℂ), fluxX (sc F a b).e (sc G c d).h = a * d * fluxX F.e G.h := by
    intro F G a b c d
    unfold fluxX sc
    rw [Finset.mul_sum]
    exact Finset.sum_congr rfl fun x _ => by ring
  have hn : ∀ F : EH sh, fluxX F.e F.h = 2 → ∀ a b : ℂ, norm2 (sc F a b) = a * b := fun F hF a b => by
    rw [norm2_eq, hfl, hF]; ring
  have hd : ∀ (F : EH sh) (a b z : ℂ), (sc F a b).div z = sc F (a / z) (b / z) := fun F a b z => by
    unfold EH.div sc
    congr 1 <;> funext c x <;> ring
  rw [innerProduct_some (by rw [hfl, hF]; simpa using ha) (by rw [hfl, hG]; simpa using hc), hn F hF, hn G hG, hd, hd]
  congr 2
  have f2 : ∀ x, F.e 2 x = 0 := fun x => congrFun hpF.1 x
  have f1 : ∀ x, F.h 1 x = 0 := fun x => congrFun hpF.2 x
  have g2 : ∀ x, G.e 2 x = 0 := fun x => congrFun hpG.1 x
  have g1 : ∀ x, G.h 1 x = 0 := fun x => congrFun hpG.2 x
  simp only [fluxX, sc, f1, f2, g1, g2, mul_zero, sub_zero]
  have e : ∀ (F G : EH sh) (p q : ℂ), ∑ x, p * F.e 1 x * (q * G.h 2 x) = p * q * ∑ x, F.e 1 x * G.h 2 x := fun F G p q => by
    rw [Finset.mul_sum]
    exact Finset.sum_congr rfl fun x _ => by ring
  rw [e, e]
  ring

/-- **C76, disagreement, in general.** For any two fields with nonzero flux whose only components across x are Ey and Hz, `trq` never returns
numbers: it raises an AssertionError, or returns NaN. -/
theorem C76_never_returns_partial {F G : EH sh} (hF : fluxX F.e F.h ≠ 0) (hG : fluxX G.e G.h ≠ 0) (hpF : F.e 2 = 0 ∧ F.h 1 = 0)
    (hpG : G.e 2 = 0 ∧ G.h 1 = 0) (t r : ℂ) : trq F G ≠ .ok (some (t, r)) := by
  have hfl : ∀ F : EH sh, fluxX F.e F.h ≠ 0 → fluxX (F.div (csqrt (norm2 F))).e (F.div (csqrt (norm2 F))).h = 2 := by
    intro F hF
    have hz : csqrt (norm2 F) ≠ 0 := csqrt_ne_zero (by rw [norm2_eq]; simpa using hF)
    have hq := csqrt_sq (norm2 F)
    have : fluxX (F.div (csqrt (norm2 F))).e (F.div (csqrt (norm2 F))).h = fluxX F.e F.h / (csqrt (norm2 F) * csqrt (norm2 F)) := by
      unfold fluxX
      rw [Finset.sum_div]
      refine Finset.sum_congr rfl fun x _ => ?_
      simp only [EH.div]
      field_simp
    rw [this, hq, norm2_eq]
    field_simp
  have hdp : ∀ F : EH sh, F.e 2 = 0 ∧ F.h 1 = 0 → (F.div (csqrt (norm2 F))).e 2 = 0 ∧ (F.div (csqrt (norm2 F))).h 1 = 0 := by
    intro F hp
    constructor
    · funext x; show F.e 2 x / _ = 0; rw [hp.1]; simp
    · funext x; show F.h 1 x / _ = 0; rw [hp.2]; simp
  have hfF := hfl F hF
  have hfG := hfl G hG
  have hdF := hdp F hpF
  have hdG := hdp G hpG
  have h1 := innerProduct_some hG hF
  set F' : EH sh := F.div (csqrt (norm2 F)) with hF'
  set G' : EH sh := G.div (csqrt (norm2 G)) with hG'
  have one : ∀ F : EH sh, sc F 1 1 = F := fun F => by cases F; simp [sc]
  have h1' : innerProduct G F = some (fluxX F'.e G'.h - fluxX G'.e F'.h, sc G' 1 1, sc F' 1 1) := by
    rw [h1, one, one]
    congr 2
    have f2 : ∀ x, F'.e 2 x = 0 := fun x => congrFun hdF.1 x
    have f1 : ∀ x, F'.h 1 x = 0 := fun x => congrFun hdF.2 x
    have g2 : ∀ x, G'.e 2 x = 0 := fun x => congrFun hdG.1 x
    have g1 : ∀ x, G'.h 1 x = 0 := fun x => congrFun hdG.2 x
    simp only [fluxX, f1, f2, g1, g2, mul_zero, sub_zero]
  have hI : (1 : ℂ) / I = -I := by rw [one_div, inv_I]
  have h2 := innerProduct_sc2 hfG hfF hdG hdF (a := 1) (b := 1) (c := 1) (d := -1) (by norm_num) (by norm_num)
  have h3 := innerProduct_sc2 hfG hfF hdG hdF (a := 1) (b := -1) (c := -I) (d := 1) (by norm_num) (by simp)
  have hs := csqrt_sq (-I)
  have hws := csqrt_I_mul
  simp only [mul_one, one_mul, csqrt_one, csqrt_neg_one, div_one, hI] at h2 h3
  set s := csqrt (-I) with hsd
  have hs0 : s ≠ 0 := fun hc => by rw [hc] at hs; simp at hs
  have h4 := innerProduct_sc2 hfG hfF hdG hdF (a := -I) (b := -1) (c := -I / s) (d := -(1 / s)) (by simp) (by simp [hs0])
  have hm : (-I / s * -(1 / s)) = -1 := by
    field_simp
    rw [sq, hs]; ring
  have hm1 : (-I * -1) = I := by ring
  rw [hm, hm1, csqrt_neg_one] at h4
  unfold trq
  rw [h1']
  simp only [sc_flip, h2]
  have e1 : (⟨(sc F' (-I) (-1 / I)).e, (sc F' 1 1).h⟩ : EH sh) = sc F' (-I) 1 := rfl
  simp only [e1, h3]
  have e2 : (⟨(sc G' (-I) (-1 / I)).e, (sc G' 1 1).h⟩ : EH sh) = sc G' (-I) 1 := rfl
  simp only [e2, sc_flip, h4]
  generalize fluxX F'.e G'.h = a
  generalize fluxX G'.e F'.h = b
  intro h
  split_ifs at h with k1 k2 k3
  · simp at h
  rw [not_not] at k1 k2
  have hw0 : csqrt I ≠ 0 := left_ne_zero_of_mul_eq_one hws
  have hab : a = b := by
    have : (a * (-I / s) * -1 - b * -I * -(1 / s)) / (csqrt I * I) = (a - b) / (csqrt I * s) := by
      field_simp
    rw [this, hws, div_one] at k1
    linear_combination k1 / 2
  subst hab
  have ha : a ≠ 0 := fun hc => k3 (by rw [hc]; simp)
  rw [div_eq_iff I_ne_zero, ← neg_div, div_mul_eq_mul_div, eq_div_iff (mul_ne_zero I_ne_zero hs0)] at k2
  have h5 : a * I * (2 * s - (1 - I)) = 0 := by linear_combination k2
  have h6 : 2 * s - (1 - I) = 0 := (mul_eq_zero.1 h5).resolve_left (mul_ne_zero ha I_ne_zero)
  have h7 : (-2 : ℂ) * I = 0 := by linear_combination -4 * hs + (2 * s + 1 - I) * h6 + I_sq
  simp at h7

/-- The fields of C62_polarised_partial, C76_raises_partial and C76_never_returns_partial exist on every nonempty grid: Ey = Hz = 1. -/
example (x0 : Idx sh) : ∃ F : EH sh, fluxX F.e F.h ≠ 0 ∧ F.e 2 = 0 ∧ F.h 1 = 0 := by
  have hN : (Fintype.card (Idx sh) : ℂ) ≠ 0 := Nat.cast_ne_zero.2 (Fintype.card_pos_iff.2 ⟨x0⟩).ne'
  refine ⟨⟨fun c _ => if c = 1 then 1 else 0, fun c _ => if c = 2 then 1 else 0⟩, ?_, ?_, ?_⟩
  · simp only [fluxX, if_true, show (2 : Fin 3) ≠ 1 from by decide, if_false]
    rw [Finset.sum_const, Finset.card_univ, nsmul_eq_mul]
    simpa using hN
  · funext x; rfl
  · funext x; rfl

/-- C76: whenever `trq` returns numbers `(t, r)`, they satisfy `4 t = (r² - 1) pn` and `r pn = -pp`, `pp` and `pn` being what the first two calls of
`inner_product` return (the second one on the arrays as the first has left them). -/
theorem C76_returns {F G : EH sh} {t r : ℂ} (h : trq F G = .ok (some (t, r))) :
    ∃ pp pn G₁ F₁ X, innerProduct G F = some (pp, G₁, F₁) ∧ innerProduct G₁ F₁.flip = some (pn, X) ∧ pn ≠ 0 ∧ r * pn = -pp ∧ 4 * t = (r ^ 2 - 1) * pn := by
  unfold trq at h
  cases h1 : innerProduct G F with
  | none => rw [h1] at h; simp at h
  | some P =>
    obtain ⟨pp, G₁, F₁⟩ := P
    simp only [h1] at h
    cases h2 : innerProduct G₁ F₁.flip with
    | none => rw [h2] at h; simp at h
    | some P =>
      obtain ⟨pn, G₂, F₂⟩ := P
      simp only [h2] at h
      cases h3 : innerProduct G₂.flip ⟨F₂.e, F₁.h⟩ with
      | none => rw [h3] at h; simp at h
      | some P =>
        obtain ⟨np, G₃, F₃⟩ := P
        simp only [h3] at h
        cases h4 : innerProduct (EH.mk G₃.e G₂.h).flip F₃.flip with
        | none => rw [h4] at h; simp at h
        | some P =>
          obtain ⟨nn, Y⟩ := P
          simp only [h4] at h
          split_ifs at h with k1 k2 k3
          · simp at h
          · rw [not_not] at k1 k2
            simp only [Except.ok.injEq, Option.some.injEq, Prod.mk.injEq] at h
            refine ⟨pp, pn, G₁, F₁, _, rfl, h2, k3, ?_, ?_⟩
            · rw [← h.2]; field_simp
            · have e1 : nn = -pp := by rw [k1]; ring
              have e2 : np = -pn := by rw [k2]; ring
              rw [← h.1, ← h.2, e1, e2]
              field_simp
              ring

namespace TrqWitness

/-- Fields on one cell, without x components. -/
def one (e1 e2 h1 h2 : ℂ) : EH (fun _ => 1) := ⟨fun c _ => ![0, e1, e2] c, fun c _ => ![0, h1, h2] c⟩

theorem ip_one {a1 a2 b1 b2 c1 c2 d1 d2 nL nR sL sR : ℂ} (hL : (a1 * b2 - a2 * b1) / 2 = nL) (hR : (c1 * d2 - c2 * d1) / 2 = nR) (hL0 : nL ≠ 0) (hR0 : nR ≠ 0)
    (hsL : csqrt nL = sL) (hsR : csqrt nR = sR) :
    innerProduct (one a1 a2 b1 b2) (one c1 c2 d1 d2) = some ((c1 / sR * (b2 / sL) - c2 / sR - b1 / sL) - (a1 / sL * (d2 / sR) - a2 / sL - d1 / sR),
      one (a1 / sL) (a2 / sL) (b1 / sL) (b2 / sL), one (c1 / sR) (c2 / sR) (d1 / sR) (d2 / sR)) := by
  have n1 : norm2 (one a1 a2 b1 b2) = nL := by rw [← hL]; simp [norm2, one]
  have n2 : norm2 (one c1 c2 d1 d2) = nR := by rw [← hR]; simp [norm2, one]
  have dv : ∀ p q r s z : ℂ, (one p q r s).div z = one (p / z) (q / z) (r / z) (s / z) := by
    intro p q r s z
    simp only [EH.div, one]
    congr 1 <;> funext c x <;> revert c <;> exact fun c => by fin_cases c <;> simp
  unfold innerProduct
  rw [n1, n2, if_neg (by simp [hL0, hR0]), hsL, hsR, dv, dv]
  simp [one]

theorem flip_one (a b c d : ℂ) : (one a b c d).flip = one a b (-c) (-d) := by
  simp only [EH.flip, one]
  congr 1
  funext c x
  fin_cases c <;> simp

end TrqWitness

open TrqWitness

/-- **C76, disagreement.** With Ez beside Ey and Hz, `trq` does return numbers for some fields; but for a field and a copy of it, whose transmission
is `1`, these can be `r = 0` together with a transmission of another magnitude. -/
theorem C76_wrong_partial : ∃ (F : EH (fun _ => 1)) (t : ℂ), fluxX F.e F.h ≠ 0 ∧ trq F F = .ok (some (t, 0)) ∧ ‖t‖ ≠ 1 := by
  have hs := csqrt_sq (-I)
  have hz := csqrt_sq I
  have hzs := csqrt_I_mul
  set s := csqrt (-I) with hsd
  set z := csqrt I with hzd
  have hI := I_sq
  have z1 : 1 + I * z ≠ 0 := by
    intro h
    have h2 : (I * z) ^ 2 = 1 := by rw [show I * z = -1 by linear_combination h]; ring
    have h3 : -I = (1 : ℂ) := by rw [← h2]; linear_combination (-(z * z)) * hI + hz
    have := congrArg Complex.re h3
    simp at this
  have s0 : s ≠ 0 := right_ne_zero_of_mul_eq_one hzs
  have z0 : z ≠ 0 := left_ne_zero_of_mul_eq_one hzs
  obtain ⟨ρ, hρ⟩ : ∃ ρ, ρ * (1 + I * z) = 4 * I - 2 * (1 + I) * z := ⟨(4 * I - 2 * (1 + I) * z) / (1 + I * z), div_mul_cancel₀ _ z1⟩
  have e1 := ip_one (a1 := 1) (a2 := ρ) (b1 := 0) (b2 := 2) (c1 := 1) (c2 := ρ) (d1 := 0) (d2 := 2) (nL := 1) (nR := 1) (by ring) (by ring) one_ne_zero one_ne_zero csqrt_one csqrt_one
  simp only [div_one] at e1
  have e2 := ip_one (a1 := 1) (a2 := ρ) (b1 := 0) (b2 := 2) (c1 := 1) (c2 := ρ) (d1 := -0) (d2 := -2) (nL := 1) (nR := -1) (by ring) (by ring) one_ne_zero (by norm_num) csqrt_one csqrt_neg_one
  simp only [div_one] at e2
  have e3 := ip_one (a1 := 1) (a2 := ρ) (b1 := -0) (b2 := -2) (c1 := 1 / I) (c2 := ρ / I) (d1 := 0) (d2 := 2) (nL := -1) (nR := -I) (sR := s) (by ring) (by rw [one_div, inv_I]; ring) (by norm_num)
    (neg_ne_zero.2 I_ne_zero) csqrt_neg_one hsd.symm
  have e4 := ip_one (a1 := 1 / I) (a2 := ρ / I) (b1 := -0) (b2 := -2) (c1 := 1 / I / s) (c2 := ρ / I / s) (d1 := -(0 / s)) (d2 := -(2 / s)) (nL := I) (nR := -1) (sL := z)
    (by rw [one_div, inv_I]; ring) (by rw [one_div, inv_I, show (2 : ℂ) / s = 2 * z by rw [div_eq_iff s0]; linear_combination -2 * hzs, show -I / s = -I * z by rw [div_eq_iff s0]; linear_combination I * hzs]; linear_combination I * hz + hI) I_ne_zero (by norm_num) hzd.symm csqrt_neg_one
  have sinv : s⁻¹ = z := (eq_inv_of_mul_eq_one_left hzs).symm
  have zinv : z⁻¹ = s := (eq_inv_of_mul_eq_one_right hzs).symm
  have is : I * s = z := by linear_combination s * (-hz) + z * hzs
  refine ⟨one 1 ρ 0 2, -(-4 * I + ρ * (1 + I)) / 4, by simp [fluxX, one], ?_, ?_⟩
  · unfold trq
    rw [e1]
    simp only [flip_one, e2]
    have f1 : (⟨(one (1 / I) (ρ / I) (-0 / I) (-2 / I)).e, (one 1 ρ 0 2).h⟩ : EH (fun _ => 1)) = one (1 / I) (ρ / I) 0 2 := rfl
    simp only [f1, e3, flip_one, e4]
    simp only [div_eq_mul_inv, inv_I, sinv, zinv]
    rw [if_neg, if_neg, if_neg]
    · congr 3
      · linear_combination hρ / 4 - (z / 2) * hI
      · simp
    · intro h
      have h1 : ρ * (1 + I) = 4 * I := by linear_combination h
      have h2 : (4 * I - 2 * (1 + I) * z) * (1 + I) = 4 * I * (1 + I * z) := by rw [← hρ]; linear_combination (1 + I * z) * h1
      have h3 : z * (1 - I) = 1 := by linear_combination h2 / 4 + (3 / 2 * z - 1) * hI
      have h4 : (z * (1 - I)) ^ 2 = 2 := by linear_combination (-2 * I) * hz + (z ^ 2 - 2) * hI
      rw [h3] at h4
      norm_num at h4
    · rw [not_not]
      linear_combination hρ - 2 * z * hI
    · rw [not_not]
      linear_combination -ρ * is - ρ * z * hI
  · intro h
    set n : ℂ := (I - 1) * z with hn
    have n2 : n ^ 2 = 2 := by rw [hn]; linear_combination (-2 * I) * hz + (z ^ 2 - 2) * hI
    have zn : z = -(1 + I) / 2 * n := by rw [hn]; linear_combination (z / 2) * hI
    have ht : -(-4 * I + ρ * (1 + I)) / 4 * (1 + I * z) = 1 + n := by rw [hn]; linear_combination (-(1 + I) / 4) * hρ + (3 / 2 * z - 1) * hI
    have hN := congrArg (fun w : ℂ => ‖w‖ ^ 2) ht
    simp only [norm_mul, h, one_mul] at hN
    obtain ⟨x, hx⟩ : ∃ x : ℝ, n = x ∧ x ^ 2 = 2 := by
      have : (n - Real.sqrt 2) * (n + Real.sqrt 2) = 0 := by
        have : ((Real.sqrt 2 : ℝ) : ℂ) ^ 2 = 2 := by exact_mod_cast Real.sq_sqrt (by norm_num : (0 : ℝ) ≤ 2)
        linear_combination n2 - this
      rcases mul_eq_zero.1 this with h | h
      · exact ⟨Real.sqrt 2, sub_eq_zero.1 h, Real.sq_sqrt (by norm_num)⟩
      · exact ⟨-Real.sqrt 2, by push_cast; exact eq_neg_of_add_eq_zero_left h, by rw [neg_sq]; exact Real.sq_sqrt (by norm_num)⟩
    rw [zn, hx.1, Complex.sq_norm, Complex.sq_norm, Complex.normSq_apply, Complex.normSq_apply] at hN
    simp at hN
    have hx2 := hx.2
    nlinarith

end Meanas.Props
