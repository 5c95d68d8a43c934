/-
C19: cpml_params (meanas/fdtd/pml.py:23-93).
-/
import Verif.Model.Pml
import Mathlib.Analysis.SpecialFunctions.Integrals.Basic
import Mathlib.Analysis.Convex.SpecificFunctions.Basic

namespace Meanas.Props

open Fdtd

/-- C19: `cpml_params` succeeds exactly for a valid axis, polarity ±1, thickness > 2 and positive `epsilon_eff`. -/
theorem C19_accepts (A : CpmlArgs) :
    (∃ r, cpmlParams A = .ok r) ↔
      (0 ≤ A.axis ∧ A.axis ≤ 2) ∧ (A.polarity = -1 ∨ A.polarity = 1) ∧ 2 < A.thickness ∧ 0 < A.epsEff := by
  unfold cpmlParams
  by_cases h1 : 0 ≤ A.axis ∧ A.axis < 3
  · rw [dif_pos h1]
    by_cases h2 : A.polarity = -1 ∨ A.polarity = 1
    · rw [if_pos h2]
      by_cases h3 : A.thickness ≤ 2
      · rw [if_pos h3]
        exact ⟨(by rintro ⟨r, hr⟩; cases hr), by rintro ⟨_, _, h, _⟩; omega⟩
      · rw [if_neg h3]
        by_cases h4 : A.epsEff ≤ 0
        · rw [if_pos h4]
          exact ⟨(by rintro ⟨r, hr⟩; cases hr), by rintro ⟨_, _, _, h⟩; exact absurd h (not_lt.2 h4)⟩
        · rw [if_neg h4]
          exact ⟨fun _ => ⟨by omega, h2, by omega, not_le.1 h4⟩, fun _ => ⟨_, rfl⟩⟩
    · rw [if_neg h2]
      exact ⟨(by rintro ⟨r, hr⟩; cases hr), by rintro ⟨_, h, _⟩; exact absurd h h2⟩
  · rw [dif_neg h1]
    exact ⟨(by rintro ⟨r, hr⟩; cases hr), by rintro ⟨h, _⟩; omega⟩

/-- Physically meaningful parameters: the conditions under which the profile functions are defined. -/
structure GoodArgs (A : CpmlArgs) : Prop where
  dt : 0 < A.dt
  lnR : A.lnR < 0
  mu : 0 < A.muEff
  m : 0 < A.m
  ma : 0 ≤ A.ma
  alpha : 0 ≤ A.cfsAlpha

/-- `(1 - e^{-z})/z` is non-increasing. -/
theorem one_sub_exp_div_anti {z w : ℝ} (hz : 0 < z) (hzw : z ≤ w) :
    (1 - Real.exp (-w)) / w ≤ (1 - Real.exp (-z)) / z := by
  have hw : 0 < w := lt_of_lt_of_le hz hzw
  have hc := convexOn_exp.2 (Set.mem_univ (-w)) (Set.mem_univ (0 : ℝ)) 
    (show (0 : ℝ) ≤ z / w by positivity) (show (0 : ℝ) ≤ 1 - z / w by rw [sub_nonneg, div_le_one hw]; exact hzw) (by ring)
  simp only [smul_eq_mul, mul_zero, add_zero, Real.exp_zero, mul_one] at hc
  have e : z / w * -w = -z := by field_simp
  rw [e] at hc
  rw [div_le_div_iff₀ hw hz]
  have : Real.exp (-z) * w ≤ (z / w * Real.exp (-w) + (1 - z / w)) * w := mul_le_mul_of_nonneg_right hc hw.le
  have e2 : (z / w * Real.exp (-w) + (1 - z / w)) * w = z * Real.exp (-w) + w - z := by field_simp; ring
  nlinarith

/-- `r = sigma/kappa` and `alpha` as functions of the normalised depth `y = x/thickness`. -/
noncomputable def rOf (A : CpmlArgs) (y : ℝ) : ℝ :=
  y ^ A.m * (-A.lnR / 2 * (A.m + 1)) / (1 + y ^ A.m * (Real.sqrt (A.epsEff * A.muEff) - 1))

/-- see `rOf` -/
noncomputable def alphaOf (A : CpmlArgs) (y : ℝ) : ℝ := (1 - y) ^ A.ma * A.cfsAlpha

theorem kappa_pos (A : CpmlArgs) (hA : GoodArgs A) (he : 0 < A.epsEff) {y : ℝ} (h0 : 0 < y) (h1 : y ≤ 1) :
    0 < 1 + y ^ A.m * (Real.sqrt (A.epsEff * A.muEff) - 1) := by
  have hs0 : 0 < y ^ A.m := Real.rpow_pos_of_pos h0 _
  have hs1 : y ^ A.m ≤ 1 := Real.rpow_le_one h0.le h1 hA.m.le
  have hk : 0 < Real.sqrt (A.epsEff * A.muEff) := Real.sqrt_pos.2 (mul_pos he hA.mu)
  nlinarith

theorem sigmaMax_pos (A : CpmlArgs) (hA : GoodArgs A) : 0 < -A.lnR / 2 * (A.m + 1) := by
  have := hA.lnR; have := hA.m
  apply mul_pos <;> linarith

theorem rOf_pos (A : CpmlArgs) (hA : GoodArgs A) (he : 0 < A.epsEff) {y : ℝ} (h0 : 0 < y) (h1 : y ≤ 1) : 0 < rOf A y :=
  div_pos (mul_pos (Real.rpow_pos_of_pos h0 _) (sigmaMax_pos A hA)) (kappa_pos A hA he h0 h1)

theorem alphaOf_nonneg (A : CpmlArgs) (hA : GoodArgs A) {y : ℝ} (h1 : y ≤ 1) : 0 ≤ alphaOf A y :=
  mul_nonneg (Real.rpow_nonneg (by linarith) _) hA.alpha

theorem cpmlPar_eq (A : CpmlArgs) (hA : GoodArgs A) (he : 0 < A.epsEff) {x : ℝ} (h0 : 0 < x / A.thickness)
    (h1 : x / A.thickness ≤ 1) :
    let r := rOf A (x / A.thickness)
    let α := alphaOf A (x / A.thickness)
    (cpmlPar A x).p0 = Real.exp (-((r + α) * A.dt)) ∧
    (cpmlPar A x).p1 = -(r * A.dt * ((1 - Real.exp (-((r + α) * A.dt))) / ((r + α) * A.dt))) ∧
    (cpmlPar A x).p2 = 1 / (1 + (x / A.thickness) ^ A.m * (Real.sqrt (A.epsEff * A.muEff) - 1)) := by
  intro r α
  have hk := kappa_pos A hA he h0 h1
  have hr : 0 < r := rOf_pos A hA he h0 h1
  have ha : 0 ≤ α := alphaOf_nonneg A hA h1
  have hdt := hA.dt
  have hp0 : (cpmlPar A x).p0 = Real.exp (-((r + α) * A.dt)) := by
    simp only [cpmlPar, r, α, rOf, alphaOf]; congr 1; ring
  refine ⟨hp0, ?_, rfl⟩
  have hp1 : (cpmlPar A x).p1 = ((x / A.thickness) ^ A.m * (-A.lnR / 2 * (A.m + 1)))
      / ((x / A.thickness) ^ A.m * (-A.lnR / 2 * (A.m + 1))
        + (1 + (x / A.thickness) ^ A.m * (Real.sqrt (A.epsEff * A.muEff) - 1)) * α) * ((cpmlPar A x).p0 - 1) := rfl
  have hs : (x / A.thickness) ^ A.m * (-A.lnR / 2 * (A.m + 1))
      = r * (1 + (x / A.thickness) ^ A.m * (Real.sqrt (A.epsEff * A.muEff) - 1)) := by
    simp only [r, rOf]; rw [div_mul_cancel₀ _ hk.ne']
  rw [hp1, hs, hp0]
  generalize (1 + (x / A.thickness) ^ A.m * (Real.sqrt (A.epsEff * A.muEff) - 1)) = k at hk
  have hra : r + α ≠ 0 := by linarith
  have : r * k + k * α ≠ 0 := by
    have : r * k + k * α = k * (r + α) := by ring
    rw [this]; exact mul_ne_zero hk.ne' hra
  field_simp
  ring

/-- C19 (one cell): bounds of the parameters for normalised depth in (0, 1]. -/
theorem cpmlPar_bounds (A : CpmlArgs) (hA : GoodArgs A) (he : 0 < A.epsEff) {x : ℝ} (h0 : 0 < x / A.thickness)
    (h1 : x / A.thickness ≤ 1) :
    (0 < (cpmlPar A x).p0 ∧ (cpmlPar A x).p0 < 1) ∧ (-1 < (cpmlPar A x).p1 ∧ (cpmlPar A x).p1 < 0) ∧
    0 < (cpmlPar A x).p2 ∧ (1 ≤ A.epsEff * A.muEff → (cpmlPar A x).p2 ≤ 1) := by
  obtain ⟨e0, e1, e2⟩ := cpmlPar_eq A hA he h0 h1
  have hk := kappa_pos A hA he h0 h1
  have hr := rOf_pos A hA he h0 h1
  have ha := alphaOf_nonneg A hA h1
  have hdt := hA.dt
  rw [e0, e1, e2]
  generalize rOf A (x / A.thickness) = r at *
  generalize alphaOf A (x / A.thickness) = α at *
  have hz : 0 < (r + α) * A.dt := by positivity
  have hex : Real.exp (-((r + α) * A.dt)) < 1 := by rw [Real.exp_lt_one_iff]; linarith
  have hpos := Real.exp_pos (-((r + α) * A.dt))
  refine ⟨⟨hpos, hex⟩, ⟨?_, ?_⟩, by positivity, ?_⟩
  · have : r * A.dt * ((1 - Real.exp (-((r + α) * A.dt))) / ((r + α) * A.dt))
        = r / (r + α) * (1 - Real.exp (-((r + α) * A.dt))) := by
      field_simp
    rw [this, neg_lt_neg_iff]
    have h2 : r / (r + α) ≤ 1 := by rw [div_le_one (by linarith)]; linarith
    have h3 : 0 < r / (r + α) := by positivity
    nlinarith
  · have : 0 < r * A.dt * ((1 - Real.exp (-((r + α) * A.dt))) / ((r + α) * A.dt)) := by
      have : 0 < 1 - Real.exp (-((r + α) * A.dt)) := by linarith
      positivity
    linarith
  · intro hem
    rw [div_le_one hk]
    have hs0 : 0 < (x / A.thickness) ^ A.m := Real.rpow_pos_of_pos h0 _
    have : 1 ≤ Real.sqrt (A.epsEff * A.muEff) := by rw [Real.one_le_sqrt]; exact hem
    nlinarith

theorem rOf_strictMono (A : CpmlArgs) (hA : GoodArgs A) (he : 0 < A.epsEff) {y y' : ℝ} (h0 : 0 < y) (hy : y < y')
    (h1 : y' ≤ 1) : rOf A y < rOf A y' := by
  have k1 := kappa_pos A hA he h0 (hy.le.trans h1)
  have k2 := kappa_pos A hA he (h0.trans hy) h1
  have hs := sigmaMax_pos A hA
  have hlt : y ^ A.m < y' ^ A.m := Real.rpow_lt_rpow h0.le hy hA.m
  unfold rOf
  rw [div_lt_div_iff₀ k1 k2]
  generalize y ^ A.m = s at *
  generalize y' ^ A.m = s' at *
  generalize -A.lnR / 2 * (A.m + 1) = σ at *
  have : s' * σ * (1 + s * (Real.sqrt (A.epsEff * A.muEff) - 1)) - s * σ * (1 + s' * (Real.sqrt (A.epsEff * A.muEff) - 1))
      = (s' - s) * σ := by ring
  have : 0 < (s' - s) * σ := mul_pos (by linarith) hs
  linarith

theorem alphaOf_anti (A : CpmlArgs) (hA : GoodArgs A) {y y' : ℝ} (hy : y ≤ y') (h1 : y' ≤ 1) :
    alphaOf A y' ≤ alphaOf A y :=
  mul_le_mul_of_nonneg_right (Real.rpow_le_rpow (by linarith) (by linarith) hA.ma) hA.alpha

/-- C19 (two cells): deeper cells absorb more. `p1` (the gain of the auxiliary field) becomes strictly more negative;
without the CFS term `p0` strictly decreases and `p1 = p0 - 1`. -/
theorem cpmlPar_mono (A : CpmlArgs) (hA : GoodArgs A) (he : 0 < A.epsEff) {x x' : ℝ} (h0 : 0 < x / A.thickness)
    (hx : x / A.thickness < x' / A.thickness) (h1 : x' / A.thickness ≤ 1) :
    (cpmlPar A x').p1 < (cpmlPar A x).p1 ∧
    (A.cfsAlpha = 0 → (cpmlPar A x').p0 < (cpmlPar A x).p0 ∧ (cpmlPar A x).p1 = (cpmlPar A x).p0 - 1) ∧
    (1 ≤ A.epsEff * A.muEff → (cpmlPar A x').p2 ≤ (cpmlPar A x).p2) := by
  obtain ⟨e0, e1, e2⟩ := cpmlPar_eq A hA he h0 (hx.le.trans h1)
  obtain ⟨e0', e1', e2'⟩ := cpmlPar_eq A hA he (h0.trans hx) h1
  have hr := rOf_pos A hA he h0 (hx.le.trans h1)
  have ha := alphaOf_nonneg A hA h1
  have hrr := rOf_strictMono A hA he h0 hx h1
  have haa := alphaOf_anti A hA hx.le h1
  have hdt := hA.dt
  refine ⟨?_, ?_, ?_⟩
  · rw [e1, e1', neg_lt_neg_iff]
    generalize rOf A (x / A.thickness) = r at *
    generalize alphaOf A (x / A.thickness) = α at *
    generalize rOf A (x' / A.thickness) = r' at *
    generalize alphaOf A (x' / A.thickness) = α' at *
    -- step 1: decrease alpha
    have s1 : r * A.dt * ((1 - Real.exp (-((r + α) * A.dt))) / ((r + α) * A.dt))
        ≤ r * A.dt * ((1 - Real.exp (-((r + α') * A.dt))) / ((r + α') * A.dt)) :=
      mul_le_mul_of_nonneg_left (one_sub_exp_div_anti (by positivity) (by nlinarith)) (by positivity)
    refine lt_of_le_of_lt s1 ?_
    -- step 2: increase r
    have q1 : r * A.dt * ((1 - Real.exp (-((r + α') * A.dt))) / ((r + α') * A.dt))
        = r / (r + α') * (1 - Real.exp (-((r + α') * A.dt))) := by field_simp
    have q2 : r' * A.dt * ((1 - Real.exp (-((r' + α') * A.dt))) / ((r' + α') * A.dt))
        = r' / (r' + α') * (1 - Real.exp (-((r' + α') * A.dt))) := by
      have : r' + α' ≠ 0 := by linarith
      field_simp
    rw [q1, q2]
    have f1 : r / (r + α') ≤ r' / (r' + α') := by
      rw [div_le_div_iff₀ (by linarith) (by linarith)]; nlinarith
    have f2 : Real.exp (-((r' + α') * A.dt)) < Real.exp (-((r + α') * A.dt)) := by
      rw [Real.exp_lt_exp]; nlinarith
    have f3 : Real.exp (-((r + α') * A.dt)) < 1 := by
      rw [Real.exp_lt_one_iff]; have : 0 < (r + α') * A.dt := by positivity
      linarith
    have f4 : 0 < r' / (r' + α') := div_pos (by linarith) (by linarith)
    calc r / (r + α') * (1 - Real.exp (-((r + α') * A.dt)))
        ≤ r' / (r' + α') * (1 - Real.exp (-((r + α') * A.dt))) := mul_le_mul_of_nonneg_right f1 (by linarith)
      _ < r' / (r' + α') * (1 - Real.exp (-((r' + α') * A.dt))) := mul_lt_mul_of_pos_left (by linarith) f4
  · intro hc
    have z : ∀ y, alphaOf A y = 0 := fun y => by simp [alphaOf, hc]
    rw [e0, e0', e1, z, z]
    simp only [add_zero]
    refine ⟨by rw [Real.exp_lt_exp]; nlinarith, ?_⟩
    field_simp; ring
  · intro hem
    rw [e2, e2']
    have k1 := kappa_pos A hA he h0 (hx.le.trans h1)
    apply one_div_le_one_div_of_le k1
    have : 1 ≤ Real.sqrt (A.epsEff * A.muEff) := by rw [Real.one_le_sqrt]; exact hem
    have h2 : (x / A.thickness) ^ A.m ≤ (x' / A.thickness) ^ A.m := Real.rpow_le_rpow h0.le hx.le hA.m.le
    nlinarith

/-- What `cpml_params` returns, when it returns. -/
theorem cpmlParams_ok {A : CpmlArgs} {D : CpmlDict} (h : cpmlParams A = .ok D) :
    (0 ≤ A.axis ∧ A.axis < 3) ∧ (A.polarity = -1 ∨ A.polarity = 1) ∧ 2 < A.thickness ∧ 0 < A.epsEff ∧
    (D.axis : ℤ) = A.axis ∧ (D.t : ℤ) = A.thickness ∧ (D.low = true ↔ A.polarity = -1) ∧
    (∀ i, D.paramE i = cpmlPar A (cpmlXe A.polarity D.t i)) ∧ (∀ i, D.paramH i = cpmlPar A (cpmlXh A.polarity D.t i)) := by
  unfold cpmlParams at h
  split_ifs at h with h1 h2 h3 h4
  cases h
  refine ⟨h1, h2, by omega, not_le.1 h4, by simp; omega, by simp; omega, ?_, fun _ => rfl, fun _ => rfl⟩
  simp only [decide_eq_true_eq]; omega

/-- Depths are in (0, thickness], growing towards the outer edge (towards index 0 on the low side, towards the last
index on the high side). -/
theorem depth_bounds {A : CpmlArgs} {D : CpmlDict} (h : cpmlParams A = .ok D) (i : Fin D.t) :
    (0 < cpmlXe A.polarity D.t i / A.thickness ∧ cpmlXe A.polarity D.t i / A.thickness ≤ 1) ∧
    (0 < cpmlXh A.polarity D.t i / A.thickness ∧ cpmlXh A.polarity D.t i / A.thickness ≤ 1) := by
  obtain ⟨_, hp, ht, _, _, htt, _⟩ := cpmlParams_ok h
  have hT : (0 : ℝ) < A.thickness := by exact_mod_cast (by omega : (0 : ℤ) < A.thickness)
  have hTt : (A.thickness : ℝ) = (D.t : ℝ) := by rw [← htt]; simp
  have hi : ((i : ℕ) : ℝ) + 1 ≤ (D.t : ℝ) := by exact_mod_cast i.isLt
  have hi0 : (0 : ℝ) ≤ ((i : ℕ) : ℝ) := Nat.cast_nonneg _
  have hD : (0 : ℝ) < (D.t : ℝ) := hTt ▸ hT
  unfold cpmlXe cpmlXh
  rw [hTt, div_le_one hD, div_le_one hD]
  rcases hp with hp | hp
  · rw [hp, if_neg (by norm_num), if_neg (by norm_num)]
    exact ⟨⟨div_pos (by linarith) hD, by linarith⟩, div_pos (by norm_num; linarith) hD, by norm_num; linarith⟩
  · rw [hp, if_pos (by norm_num), if_pos (by norm_num)]
    exact ⟨⟨div_pos (by norm_num; linarith) hD, by norm_num; linarith⟩, div_pos (by linarith) hD, by linarith⟩

/-- C19: bounds for every parameter returned. -/
theorem C19_bounds (A : CpmlArgs) (hA : GoodArgs A) (D : CpmlDict) (h : cpmlParams A = .ok D) (i : Fin D.t) :
    ∀ P ∈ [D.paramE i, D.paramH i],
      (0 < P.p0 ∧ P.p0 < 1) ∧ (-1 < P.p1 ∧ P.p1 ≤ 0) ∧ 0 < P.p2 ∧ (1 ≤ A.epsEff * A.muEff → P.p2 ≤ 1) := by
  obtain ⟨_, hp, ht, he, _, htt, _, hE, hH⟩ := cpmlParams_ok h
  obtain ⟨⟨a1, a2⟩, b1, b2⟩ := depth_bounds h i
  intro P hP
  simp only [List.mem_cons, List.not_mem_nil, or_false] at hP
  rcases hP with rfl | rfl
  · rw [hE]
    obtain ⟨c1, c2, c3⟩ := cpmlPar_bounds A hA he a1 a2
    exact ⟨c1, ⟨c2.1, c2.2.le⟩, c3⟩
  · rw [hH]
    obtain ⟨c1, c2, c3⟩ := cpmlPar_bounds A hA he b1 b2
    exact ⟨c1, ⟨c2.1, c2.2.le⟩, c3⟩

/-- C19: absorption grows towards the outer edge. `i` is further out than `j`: a smaller index in a low-side
layer, a larger one in a high-side layer. -/
theorem C19_monotone (A : CpmlArgs) (hA : GoodArgs A) (D : CpmlDict) (h : cpmlParams A = .ok D) (i j : Fin D.t)
    (hij : if D.low then (i : ℕ) < j else (j : ℕ) < i) :
    ((D.paramE i).p1 < (D.paramE j).p1 ∧ (D.paramH i).p1 < (D.paramH j).p1) ∧
    (A.cfsAlpha = 0 → ((D.paramE i).p0 < (D.paramE j).p0 ∧ (D.paramH i).p0 < (D.paramH j).p0) ∧
      (D.paramE j).p1 = (D.paramE j).p0 - 1 ∧ (D.paramH j).p1 = (D.paramH j).p0 - 1) ∧
    (1 ≤ A.epsEff * A.muEff → (D.paramE i).p2 ≤ (D.paramE j).p2 ∧ (D.paramH i).p2 ≤ (D.paramH j).p2) := by
  obtain ⟨_, hp, ht, he, _, htt, hlow, hE, hH⟩ := cpmlParams_ok h
  have hT : (0 : ℝ) < A.thickness := by exact_mod_cast (by omega : (0 : ℤ) < A.thickness)
  obtain ⟨⟨a1, a2⟩, b1, b2⟩ := depth_bounds h i
  obtain ⟨⟨a3, a4⟩, b3, b4⟩ := depth_bounds h j
  have hlt : cpmlXe A.polarity D.t j / A.thickness < cpmlXe A.polarity D.t i / A.thickness ∧
      cpmlXh A.polarity D.t j / A.thickness < cpmlXh A.polarity D.t i / A.thickness := by
    have hij' : if D.low then ((i : ℕ) : ℝ) < ((j : ℕ) : ℝ) else ((j : ℕ) : ℝ) < ((i : ℕ) : ℝ) := by
      split_ifs with hl <;> simp only [hl, if_true, if_false, Bool.false_eq_true] at hij <;> exact_mod_cast hij
    unfold cpmlXe cpmlXh
    rcases hp with hp' | hp'
    · have hl : D.low = true := hlow.2 hp'
      rw [hl] at hij'
      simp only [if_true] at hij'
      rw [hp']; norm_num
      constructor <;> apply div_lt_div_of_pos_right _ hT <;> linarith
    · have hl : ¬ D.low = true := fun hl => by have := hlow.1 hl; omega
      simp only [hl, if_false, Bool.false_eq_true] at hij'
      rw [hp']; norm_num
      constructor <;> apply div_lt_div_of_pos_right _ hT <;> linarith
  obtain ⟨c1, c2, c3⟩ := cpmlPar_mono A hA he a3 hlt.1 a2
  obtain ⟨d1, d2, d3⟩ := cpmlPar_mono A hA he b3 hlt.2 b2
  rw [hE, hE, hH, hH]
  exact ⟨⟨c1, d1⟩, fun hc => ⟨⟨(c2 hc).1, (d2 hc).1⟩, (c2 hc).2, (d2 hc).2⟩, fun hem => ⟨c3 hem, d3 hem⟩⟩

/-- C19: the high-side layer is the mirror image of the low-side layer. Mirroring the grid exchanges the half-cell
offsets of the two lattices, so the E parameters of one side are the reversed H parameters of the other. -/
theorem C19_mirror (A : CpmlArgs) (Dlow Dhigh : CpmlDict) (hl : cpmlParams { A with polarity := -1 } = .ok Dlow)
    (hh : cpmlParams { A with polarity := 1 } = .ok Dhigh) (i : Fin Dlow.t) (j : Fin Dhigh.t)
    (hij : (i : ℕ) + j + 1 = Dlow.t) :
    Dlow.t = Dhigh.t ∧ Dhigh.paramE j = Dlow.paramH i ∧ Dhigh.paramH j = Dlow.paramE i := by
  obtain ⟨_, _, _, _, _, t1, _, e1, h1⟩ := cpmlParams_ok hl
  obtain ⟨_, _, _, _, _, t2, _, e2, h2⟩ := cpmlParams_ok hh
  have ht : Dlow.t = Dhigh.t := by have := t1.trans t2.symm; omega
  have hij' : ((i : ℕ) : ℝ) + ((j : ℕ) : ℝ) + 1 = (Dlow.t : ℝ) := by exact_mod_cast hij
  refine ⟨ht, ?_, ?_⟩
  · rw [e2, h1]
    have : cpmlXe 1 Dhigh.t j = cpmlXh (-1) Dlow.t i := by
      unfold cpmlXe cpmlXh; norm_num; linarith
    show cpmlPar _ (cpmlXe 1 Dhigh.t j) = cpmlPar _ (cpmlXh (-1) Dlow.t i)
    rw [this]; rfl
  · rw [h2, e1]
    have : cpmlXh 1 Dhigh.t j = cpmlXe (-1) Dlow.t i := by
      unfold cpmlXe cpmlXh; norm_num; linarith
    show cpmlPar _ (cpmlXh 1 Dhigh.t j) = cpmlPar _ (cpmlXe (-1) Dlow.t i)
    rw [this]; rfl

/-- How deep a point at coordinate `pos` along an axis of `n` cells (E samples at `0, 1, ...`, H samples half a cell
further) lies inside a layer of `t` cells, counted from the layer's inner edge. -/
noncomputable def depthIn (low : Prop) [Decidable low] (n t : ℕ) (pos : ℝ) : ℝ :=
  if low then t - pos else pos - (n - t - 1 / 2)

/-- C19 (placement): on an axis of `n` cells the layer covers exactly the `thickness` outermost cells of the side given by
`polarity`, and the parameters there are the profile at the depth of the E and of the H sample. -/
theorem C19_placement (A : CpmlArgs) (D : CpmlDict) (h : cpmlParams A = .ok D) (n : ℕ) (hn : A.thickness ≤ n)
    (i : Fin n) :
    ((layerOf D n).reg i = true ↔
      (if A.polarity = -1 then ((i : ℕ) : ℤ) < A.thickness else (n : ℤ) - 1 - (i : ℕ) < A.thickness)) ∧
    ((layerOf D n).reg i = true →
      (let P := cpmlPar A (depthIn (A.polarity = -1) n A.thickness.toNat (i : ℕ))
       (layerOf D n).pe i = (P.p0, P.p1, P.p2)) ∧
      (let P := cpmlPar A (depthIn (A.polarity = -1) n A.thickness.toNat ((i : ℕ) + 1 / 2))
       (layerOf D n).ph i = (P.p0, P.p1, P.p2))) := by
  obtain ⟨_, hp, ht, he, _, htt, hlow, hE, hH⟩ := cpmlParams_ok h
  have htn : A.thickness.toNat = D.t := by omega
  have hi := i.isLt
  rw [htn]
  by_cases q : A.polarity = -1
  · have hl : D.low = true := hlow.2 q
    refine ⟨?_, ?_⟩
    · simp only [layerOf, hl, if_true, q, decide_eq_true_eq]; omega
    · intro hr
      have hr' : (i : ℕ) < D.t := by simpa [layerOf, hl] using hr
      refine ⟨?_, ?_⟩
      · simp only [layerOf, hl, if_true, hr', dif_pos, hE, depthIn, q]
        simp [cpmlXe]
      · simp only [layerOf, hl, if_true, hr', dif_pos, hH, depthIn, q]
        have : cpmlXh (-1) D.t ⟨i, hr'⟩ = (D.t : ℝ) - (((i : ℕ) : ℝ) + 1 / 2) := by
          simp [cpmlXh]; ring
        rw [this]
  · have hq : A.polarity = 1 := by tauto
    have hl : D.low = false := by
      have : ¬ D.low = true := fun z => q (hlow.1 z)
      simpa using this
    refine ⟨?_, ?_⟩
    · simp only [layerOf, hl, if_false, q, decide_eq_true_eq, Bool.false_eq_true]; omega
    · intro hr
      have hr' : n - D.t ≤ (i : ℕ) := by simpa [layerOf, hl] using hr
      have hlt : (i : ℕ) - (n - D.t) < D.t := by omega
      have hc : (((i : ℕ) - (n - D.t) : ℕ) : ℝ) = ((i : ℕ) : ℝ) - ((n : ℝ) - D.t) := by
        rw [Nat.cast_sub hr', Nat.cast_sub (by omega)]
      refine ⟨?_, ?_⟩
      · simp only [layerOf, hl, if_false, hlt, dif_pos, hE, depthIn, q, Bool.false_eq_true]
        have : cpmlXe A.polarity D.t ⟨(i : ℕ) - (n - D.t), hlt⟩ = ((i : ℕ) : ℝ) - ((n : ℝ) - D.t - 1 / 2) := by
          rw [hq]; simp only [cpmlXe, hc]; norm_num; ring
        rw [this]
      · simp only [layerOf, hl, if_false, hlt, dif_pos, hH, depthIn, q, Bool.false_eq_true]
        have : cpmlXh A.polarity D.t ⟨(i : ℕ) - (n - D.t), hlt⟩
            = ((i : ℕ) : ℝ) + 1 / 2 - ((n : ℝ) - D.t - 1 / 2) := by
          rw [hq]; simp only [cpmlXh, hc]; norm_num; ring
        rw [this]

/-- C88: `ln_R_per_layer` is the designed attenuation. Without `cfs_alpha` the parameters at depth `x` are those of a
conductivity `S (x/thickness)^m` and a stretch `1 + (kappa - 1)(x/thickness)^m` that ends at
`sqrt(epsilon_eff mu_eff)`, and a wave crossing the layer and back is attenuated by `exp(ln_R_per_layer)` per cell. -/
theorem C88_attenuation (A : CpmlArgs) (hA : GoodArgs A) (h0 : A.cfsAlpha = 0) (D : CpmlDict) (h : cpmlParams A = .ok D) :
    ∃ S : ℝ, Real.exp (-2 * ∫ x in (0 : ℝ)..A.thickness, S * (x / A.thickness) ^ A.m)
        = Real.exp A.lnR ^ A.thickness.toNat ∧
      ∀ (n : ℕ), A.thickness ≤ n → ∀ (i : Fin n), (layerOf D n).reg i = true →
        (∀ P pos, (P = (layerOf D n).pe i ∧ pos = ((i : ℕ) : ℝ)) ∨ (P = (layerOf D n).ph i ∧ pos = ((i : ℕ) : ℝ) + 1 / 2) →
          let y := depthIn (A.polarity = -1) n A.thickness.toNat pos / A.thickness
          P.2.2 = 1 / (1 + (Real.sqrt (A.epsEff * A.muEff) - 1) * y ^ A.m) ∧
          P.1 = Real.exp (-(S * y ^ A.m) * P.2.2 * A.dt) ∧ P.2.1 = P.1 - 1) := by
  obtain ⟨_, hp, ht, he, _, htt, hlow, hE, hH⟩ := cpmlParams_ok h
  have hT : (0 : ℝ) < A.thickness := by exact_mod_cast (by omega : (0 : ℤ) < A.thickness)
  refine ⟨-A.lnR / 2 * (A.m + 1), ?_, ?_⟩
  · rw [← Real.exp_nat_mul]
    congr 1
    have e1 : ∫ x in (0 : ℝ)..A.thickness, -A.lnR / 2 * (A.m + 1) * (x / A.thickness) ^ A.m
        = -A.lnR / 2 * A.thickness := by
      rw [intervalIntegral.integral_const_mul]
      have := intervalIntegral.integral_comp_div (a := (0 : ℝ)) (b := (A.thickness : ℝ)) (fun y : ℝ => y ^ A.m) hT.ne'
      rw [this, zero_div, div_self hT.ne', integral_rpow (Or.inl (by have := hA.m; linarith))]
      have hm : A.m + 1 ≠ 0 := by have := hA.m; linarith
      rw [Real.zero_rpow hm, Real.one_rpow]
      rw [smul_eq_mul, sub_zero]
      field_simp
    have e2 : ((A.thickness.toNat : ℕ) : ℝ) = A.thickness := by
      exact_mod_cast (Int.toNat_of_nonneg (by omega : 0 ≤ A.thickness))
    rw [e1, e2]; ring
  · intro n hn i hr P pos hP
    obtain ⟨hreg, hpar⟩ := C19_placement A D h n hn i
    obtain ⟨qe, qh⟩ := hpar hr
    have hreg' := hreg.1 hr
    have hTt : ((A.thickness.toNat : ℕ) : ℝ) = A.thickness := by
      exact_mod_cast (Int.toNat_of_nonneg (by omega : 0 ≤ A.thickness))
    have hin : ((i : ℕ) : ℝ) + 1 ≤ n := by exact_mod_cast i.isLt
    have key : ∀ pos : ℝ, pos = ((i : ℕ) : ℝ) ∨ pos = ((i : ℕ) : ℝ) + 1 / 2 →
        0 < depthIn (A.polarity = -1) n A.thickness.toNat pos / A.thickness := by
      intro pos hpos
      refine div_pos ?_ hT
      unfold depthIn
      rw [hTt]
      by_cases q : A.polarity = -1
      · rw [if_pos q] at hreg' ⊢
        have : (((i : ℕ) : ℤ) : ℝ) + 1 ≤ (A.thickness : ℝ) := by exact_mod_cast hreg'
        have : ((i : ℕ) : ℝ) + 1 ≤ (A.thickness : ℝ) := by simpa using this
        rcases hpos with e | e <;> rw [e] <;> linarith
      · rw [if_neg q] at hreg' ⊢
        have h1 : (n : ℤ) ≤ (i : ℕ) + A.thickness := by omega
        have h2 : (n : ℝ) ≤ ((i : ℕ) : ℝ) + A.thickness := by exact_mod_cast h1
        rcases hpos with e | e <;> rw [e] <;> linarith
    have main : ∀ x : ℝ, 0 < x / A.thickness →
        (cpmlPar A x).p2 = 1 / (1 + (Real.sqrt (A.epsEff * A.muEff) - 1) * (x / A.thickness) ^ A.m) ∧
        (cpmlPar A x).p0 = Real.exp (-(-A.lnR / 2 * (A.m + 1) * (x / A.thickness) ^ A.m) * (cpmlPar A x).p2 * A.dt) ∧
        (cpmlPar A x).p1 = (cpmlPar A x).p0 - 1 := by
      intro x hx
      have hs : (x / A.thickness) ^ A.m * (-A.lnR / 2 * (A.m + 1)) ≠ 0 :=
        mul_ne_zero (Real.rpow_pos_of_pos hx _).ne' (sigmaMax_pos A hA).ne'
      refine ⟨?_, ?_, ?_⟩
      · simp only [cpmlPar]; ring_nf
      · simp only [cpmlPar, h0]
        congr 1; ring
      · simp only [cpmlPar, h0, mul_zero, add_zero]
        rw [div_self hs, one_mul]
    rcases hP with ⟨rfl, rfl⟩ | ⟨rfl, rfl⟩
    · rw [qe]; exact main _ (key _ (Or.inl rfl))
    · rw [qh]; exact main _ (key _ (Or.inr rfl))

-- Non-vacuous: the default arguments with a positive time step.
example : GoodArgs { axis := 0, polarity := 1, dt := 1/2 } ∧
    ∃ D, cpmlParams { axis := 0, polarity := 1, dt := 1/2 } = .ok D := by
  refine ⟨⟨?_, ?_, ?_, ?_, ?_, ?_⟩, (C19_accepts _).2 ?_⟩ <;> norm_num

end Meanas.Props
