/-
C37, C38, C68: meanas/fdfd/scpml.py.
-/
import Verif.Model.Scpml
import Mathlib.Tactic.LinearCombination
import Mathlib.Tactic.FieldSimp
import Mathlib.Algebra.BigOperators.Fin
import Mathlib.Analysis.Complex.Basic

namespace Meanas.Props

open Complex Scpml

/-! ### C37 -/

/-- C37: every width has real part 1. -/
theorem C37_real_part {d : ℕ} (shape : Fin d → ℕ) (th : Fin d → ℤ) (omega : ℂ) (epsEff : ℝ) (s : Option (ℝ → ℝ)) (a : Fin d)
    (i : Fin (shape a)) :
    ((uniformGridScpml shape th omega epsEff s a).1 i).re = 1 ∧ ((uniformGridScpml shape th omega epsEff s a).2 i).re = 1 := by
  have key : ∀ (c v : ℝ), (1 + I * (v : ℂ) / (c : ℂ)).re = 1 := by
    intro c v
    rw [mul_div_assoc, ← ofReal_div, mul_comm, add_re, re_ofReal_mul]; simp
  simp only [uniformGridScpml, uniformAxis]
  by_cases ht : th a > 0
  · simp only [if_pos ht]; exact ⟨key _ _, key _ _⟩
  · simp only [if_neg ht]; exact ⟨one_re, one_re⟩

/-- C37: thickness 0 gives a grid of ones. -/
theorem C37_zero_thickness {d : ℕ} (shape : Fin d → ℕ) (th : Fin d → ℤ) (omega : ℂ) (epsEff : ℝ) (s : Option (ℝ → ℝ)) (a : Fin d)
    (h : th a = 0) (i : Fin (shape a)) :
    (uniformGridScpml shape th omega epsEff s a).1 i = 1 ∧ (uniformGridScpml shape th omega epsEff s a).2 i = 1 := by
  simp only [uniformGridScpml, uniformAxis, h, gt_iff_lt, lt_irrefl, if_false, and_self]

theorem ll_zero {u n t : ℝ} (h1 : t ≤ u) (h2 : u ≤ n - t) : ll u n t = 0 := by
  rw [ll, max_eq_right (by linarith), max_eq_right (by linarith)]; simp

theorem ll_mirror (u n t : ℝ) : ll (n - u) n t = ll u n t := by
  rw [ll, ll, show t - (n - u) = u - (n - t) by ring, show n - u - (n - t) = t - u by ring, add_comm]

/-- C37: outside the two layers the widths are exactly 1, for every profile that vanishes at distance 0. Positions are `i` for the
first list and `i + 1/2` for the second, the layers are `[0, th)` and `(n - th, n]`. -/
theorem C37_outside {d : ℕ} (shape : Fin d → ℕ) (th : Fin d → ℤ) (omega : ℂ) (epsEff : ℝ) (s : ℝ → ℝ) (hs : s 0 = 0) (a : Fin d)
    (i : Fin (shape a)) :
    (th a ≤ (i : ℕ) ∧ (i : ℕ) ≤ (shape a : ℤ) - th a → (uniformGridScpml shape th omega epsEff (some s) a).1 i = 1) ∧
    (th a ≤ (i : ℕ) ∧ (i : ℕ) + 1 ≤ (shape a : ℤ) - th a → (uniformGridScpml shape th omega epsEff (some s) a).2 i = 1) := by
  simp only [uniformGridScpml, uniformAxis]
  constructor
  · rintro ⟨h1, h2⟩
    split
    · have h1' : ((th a : ℤ) : ℝ) ≤ ((i : ℕ) : ℝ) := by exact_mod_cast h1
      have h2' : ((i : ℕ) : ℝ) ≤ (shape a : ℝ) - ((th a : ℤ) : ℝ) := by exact_mod_cast h2
      simp only [ll_zero h1' h2', Option.getD_some]; simp [hs]
    · rfl
  · rintro ⟨h1, h2⟩
    split
    · have h1' : ((th a : ℤ) : ℝ) ≤ ((i : ℕ) : ℝ) := by exact_mod_cast h1
      have h2' : ((i : ℕ) : ℝ) + 1 ≤ (shape a : ℝ) - ((th a : ℤ) : ℝ) := by exact_mod_cast h2
      have h3 : ll (((i : ℕ) : ℝ) + 0.5) (shape a) (th a : ℤ) = 0 := ll_zero (by norm_num; linarith) (by norm_num; linarith)
      simp only [h3, Option.getD_some]; simp [hs]
    · rfl

/-- C37: the default profile vanishes at distance 0, so `C37_outside` applies to it. -/
theorem C37_default_outside {d : ℕ} (shape : Fin d → ℕ) (th : Fin d → ℤ) (omega : ℂ) (epsEff : ℝ) (a : Fin d) (i : Fin (shape a))
    (h1 : th a ≤ (i : ℕ)) (h2 : (i : ℕ) + 1 ≤ (shape a : ℤ) - th a) :
    (uniformGridScpml shape th omega epsEff none a).1 i = 1 ∧ (uniformGridScpml shape th omega epsEff none a).2 i = 1 := by
  have hs : sFactor (-16) 4 0 = 0 := by
    simp only [sFactor]; rw [Real.zero_rpow (by norm_num)]; simp
  have := C37_outside shape th omega epsEff (sFactor (-16) 4) hs a i
  exact ⟨this.1 ⟨h1, by omega⟩, this.2 ⟨h1, h2⟩⟩

/-- C37: mirror symmetry about the centre for the second list (positions `i + 1/2`): it equals its own reversal. -/
theorem C37_mirror_b {d : ℕ} (shape : Fin d → ℕ) (th : Fin d → ℤ) (omega : ℂ) (epsEff : ℝ) (s : Option (ℝ → ℝ)) (a : Fin d)
    (i j : Fin (shape a)) (hij : (i : ℕ) + j + 1 = shape a) :
    (uniformGridScpml shape th omega epsEff s a).2 i = (uniformGridScpml shape th omega epsEff s a).2 j := by
  have h : ((j : ℕ) : ℝ) + 0.5 = (shape a : ℝ) - (((i : ℕ) : ℝ) + 0.5) := by
    have : ((i : ℕ) : ℝ) + (j : ℕ) + 1 = (shape a : ℝ) := by exact_mod_cast hij
    linarith
  simp only [uniformGridScpml, uniformAxis]
  by_cases ht : th a > 0
  · simp only [if_pos ht, h, ll_mirror]
  · simp only [if_neg ht]

/-- C37: for the first list (positions `i`) the mirror image of entry `i` is entry `n - i`. -/
theorem C37_mirror_a_partial {d : ℕ} (shape : Fin d → ℕ) (th : Fin d → ℤ) (omega : ℂ) (epsEff : ℝ) (s : Option (ℝ → ℝ)) (a : Fin d)
    (i j : Fin (shape a)) (hij : (i : ℕ) + j = shape a) :
    (uniformGridScpml shape th omega epsEff s a).1 i = (uniformGridScpml shape th omega epsEff s a).1 j := by
  have h : ((j : ℕ) : ℝ) = (shape a : ℝ) - ((i : ℕ) : ℝ) := by
    have : ((i : ℕ) : ℝ) + (j : ℕ) = (shape a : ℝ) := by exact_mod_cast hij
    linarith
  simp only [uniformGridScpml, uniformAxis]
  by_cases ht : th a > 0
  · simp only [if_pos ht, h, ll_mirror]
  · simp only [if_neg ht]

/-- C37 (disagreement): the first list (the E-cell widths, `n` cells between consecutive E positions) is not mirror symmetric: its first
entry is more strongly stretched than its last. -/
theorem C37_mirror_a_wrong_partial :
    (uniformGridScpml (d := 1) (fun _ => 10) (fun _ => 2) 1 1 none 0).1 0 ≠ (uniformGridScpml (d := 1) (fun _ => 10) (fun _ => 2) 1 1 none 0).1 9 := by
  have h0 : ll 0 10 2 = 1 := by norm_num [ll]
  have h9 : ll 9 10 2 = 1 / 2 := by norm_num [ll]
  intro h
  have h' : (1 : ℂ) + I * (sFactor (-16) 4 (ll ((0 : ℕ) : ℝ) ((10 : ℕ) : ℝ) ((2 : ℤ) : ℝ)) : ℂ) / (sCorrection 1 1 : ℝ)
      = 1 + I * (sFactor (-16) 4 (ll ((9 : ℕ) : ℝ) ((10 : ℕ) : ℝ) ((2 : ℤ) : ℝ)) : ℂ) / (sCorrection 1 1 : ℝ) := h
  have e1 : sCorrection 1 1 = 1 := by simp [sCorrection]
  rw [show ll ((0 : ℕ) : ℝ) ((10 : ℕ) : ℝ) ((2 : ℤ) : ℝ) = 1 by rw [← h0]; norm_num,
    show ll ((9 : ℕ) : ℝ) ((10 : ℕ) : ℝ) ((2 : ℤ) : ℝ) = 1 / 2 by rw [← h9]; norm_num, e1] at h'
  have h3 : ((1 : ℝ) / 2) ^ (4 : ℝ) = (1 / 2) ^ (4 : ℕ) := by rw [← Real.rpow_natCast]; norm_num
  have v1 : sFactor (-16) 4 1 = -40 := by simp only [sFactor, Real.one_rpow]; norm_num
  have v2 : sFactor (-16) 4 (1 / 2) = -5 / 2 := by simp only [sFactor, h3]; norm_num
  rw [v1, v2] at h'
  have := congrArg Complex.im h'
  norm_num at this

/-- C37: with the default profile family (`ln_R < 0`, `m > 0`) and positive real frequency, the imaginary part is never positive, and it is at
least as large in magnitude in a cell closer to the edge. -/
theorem C37_default_sign (lnR m : ℝ) (hR : lnR < 0) (hm : 0 < m) {d : ℕ} (shape : Fin d → ℕ) (th : Fin d → ℤ) (omega : ℂ) (epsEff : ℝ)
    (ho : 0 < omega.re) (he : 0 < epsEff) (a : Fin d) (i : Fin (shape a)) :
    ((uniformGridScpml shape th omega epsEff (some (sFactor lnR m)) a).1 i).im ≤ 0 ∧
    ((uniformGridScpml shape th omega epsEff (some (sFactor lnR m)) a).2 i).im ≤ 0 := by
  have hc : 0 < sCorrection epsEff omega := mul_pos (Real.sqrt_pos.2 he) ho
  have key : ∀ v : ℝ, (1 + I * (v : ℂ) / ((sCorrection epsEff omega : ℝ) : ℂ)).im = v / sCorrection epsEff omega := by
    intro v
    rw [mul_div_assoc, ← ofReal_div, mul_comm, add_im, im_ofReal_mul]; simp
  have hll : ∀ u n t : ℝ, 0 < t → 0 ≤ ll u n t := fun u n t ht =>
    div_nonneg (add_nonneg (le_max_right _ _) (le_max_right _ _)) ht.le
  have hneg : ∀ l : ℝ, 0 ≤ l → sFactor lnR m l ≤ 0 := by
    intro l hl
    refine mul_nonpos_of_nonpos_of_nonneg ?_ (Real.rpow_nonneg hl m)
    nlinarith
  simp only [uniformGridScpml, uniformAxis]
  split
  · rename_i ht
    have ht' : (0 : ℝ) < ((th a : ℤ) : ℝ) := by exact_mod_cast ht
    simp only [key]
    exact ⟨div_nonpos_of_nonpos_of_nonneg (hneg _ (hll _ _ _ ht')) hc.le, div_nonpos_of_nonpos_of_nonneg (hneg _ (hll _ _ _ ht')) hc.le⟩
  · simp

/-- C37: growth towards the edge, for non-overlapping layers: going outward in either layer the (nonpositive) imaginary part
decreases strictly. -/
theorem C37_default_growth (lnR m : ℝ) (hR : lnR < 0) (hm : 0 < m) {d : ℕ} (shape : Fin d → ℕ) (th : Fin d → ℤ) (omega : ℂ) (epsEff : ℝ)
    (ho : 0 < omega.re) (he : 0 < epsEff) (a : Fin d) (hover : 2 * th a ≤ shape a) (i j : Fin (shape a)) (hij : (i : ℕ) < j) :
    ((j : ℕ) < th a →
      ((uniformGridScpml shape th omega epsEff (some (sFactor lnR m)) a).1 i).im
        < ((uniformGridScpml shape th omega epsEff (some (sFactor lnR m)) a).1 j).im ∧
      ((uniformGridScpml shape th omega epsEff (some (sFactor lnR m)) a).2 i).im
        < ((uniformGridScpml shape th omega epsEff (some (sFactor lnR m)) a).2 j).im) ∧
    ((shape a : ℤ) - th a ≤ (i : ℕ) → 0 < th a →
      ((uniformGridScpml shape th omega epsEff (some (sFactor lnR m)) a).1 j).im
        < ((uniformGridScpml shape th omega epsEff (some (sFactor lnR m)) a).1 i).im ∧
      ((uniformGridScpml shape th omega epsEff (some (sFactor lnR m)) a).2 j).im
        < ((uniformGridScpml shape th omega epsEff (some (sFactor lnR m)) a).2 i).im) := by
  have hc : 0 < sCorrection epsEff omega := mul_pos (Real.sqrt_pos.2 he) ho
  have key : ∀ v : ℝ, (1 + I * (v : ℂ) / ((sCorrection epsEff omega : ℝ) : ℂ)).im = v / sCorrection epsEff omega := by
    intro v
    rw [mul_div_assoc, ← ofReal_div, mul_comm, add_im, im_ofReal_mul]; simp
  have hmono : ∀ l l' : ℝ, 0 ≤ l → l < l' → sFactor lnR m l' < sFactor lnR m l := by
    intro l l' h0 hl
    refine mul_lt_mul_of_neg_left (Real.rpow_lt_rpow h0 hl hm) ?_
    nlinarith
  have hijr : ((i : ℕ) : ℝ) < ((j : ℕ) : ℝ) := by exact_mod_cast hij
  have hov : 2 * ((th a : ℤ) : ℝ) ≤ (shape a : ℝ) := by exact_mod_cast hover
  have hjn : ((j : ℕ) : ℝ) + 1 ≤ (shape a : ℝ) := by exact_mod_cast j.2
  constructor
  · intro hj
    have ht : 0 < th a := by omega
    have hj' : ((j : ℕ) : ℝ) + 1 ≤ ((th a : ℤ) : ℝ) := by exact_mod_cast hj
    have htr : (0 : ℝ) < ((th a : ℤ) : ℝ) := by exact_mod_cast ht
    have lo : ∀ u : ℝ, u ≤ ((th a : ℤ) : ℝ) → ll u (shape a) (th a : ℤ) = (((th a : ℤ) : ℝ) - u) / (th a : ℤ) := by
      intro u hu
      rw [ll, max_eq_left (by linarith), max_eq_right (by linarith), add_zero]
    simp only [uniformGridScpml, uniformAxis, if_pos ht, key]
    constructor
    · refine div_lt_div_of_pos_right (hmono _ _ ?_ ?_) hc
      · rw [lo _ (by linarith)]; exact div_nonneg (by linarith) htr.le
      · rw [lo _ (by linarith), lo _ (by linarith)]; exact div_lt_div_of_pos_right (by linarith) htr
    · refine div_lt_div_of_pos_right (hmono _ _ ?_ ?_) hc
      · rw [lo _ (by linarith)]; exact div_nonneg (by linarith) htr.le
      · rw [lo _ (by linarith), lo _ (by linarith)]; exact div_lt_div_of_pos_right (by linarith) htr
  · intro hi ht
    have hi' : (shape a : ℝ) - ((th a : ℤ) : ℝ) ≤ ((i : ℕ) : ℝ) := by exact_mod_cast hi
    have htr : (0 : ℝ) < ((th a : ℤ) : ℝ) := by exact_mod_cast ht
    have hi2 : ∀ u : ℝ, (shape a : ℝ) - ((th a : ℤ) : ℝ) ≤ u → ll u (shape a) (th a : ℤ) = (u - ((shape a : ℝ) - (th a : ℤ))) / (th a : ℤ) := by
      intro u hu
      rw [ll, max_eq_right (by linarith), max_eq_left (by linarith), zero_add]
    simp only [uniformGridScpml, uniformAxis, if_pos ht, key]
    constructor
    · refine div_lt_div_of_pos_right (hmono _ _ ?_ ?_) hc
      · rw [hi2 _ (by linarith)]; exact div_nonneg (by linarith) htr.le
      · rw [hi2 _ (by linarith), hi2 _ (by linarith)]; exact div_lt_div_of_pos_right (by linarith) htr
    · refine div_lt_div_of_pos_right (hmono _ _ ?_ ?_) hc
      · rw [hi2 _ (by linarith)]; exact div_nonneg (by linarith) htr.le
      · rw [hi2 _ (by linarith), hi2 _ (by linarith)]; exact div_lt_div_of_pos_right (by linarith) htr

/-! ### C38 -/

/-- A profile that is real on real distances. -/
def RealProfile (s : ℂ → ℂ) : Prop := ∀ x : ℝ, (s x).im = 0

theorem default_realProfile : RealProfile (sFactorC (-16) 4) := by
  intro x
  have : ((x : ℂ) ^ ((4 : ℝ) : ℂ)) = ((x ^ 4 : ℝ) : ℂ) := by
    rw [show ((4 : ℝ) : ℂ) = ((4 : ℕ) : ℂ) by norm_num, cpow_natCast]; push_cast; rfl
  simp only [sFactorC, this]
  rw [show (((4 : ℝ) : ℂ) + 1) * ((-16 : ℝ) : ℂ) / 2 = ((-40 : ℝ) : ℂ) by push_cast; norm_num, ← ofReal_mul]
  exact ofReal_im _

theorem pos_real {n : ℕ} (a : Fin n → ℝ) (i : ℕ) :
    pos (fun j => (a j : ℂ)) i = ((∑ j : Fin n, if (j : ℕ) < i then a j else 0 : ℝ) : ℂ) := by
  simp only [pos, ofReal_sum]
  refine Finset.sum_congr rfl fun j _ => ?_
  split <;> simp

theorem factor_real {s : ℂ → ℂ} (hs : RealProfile s) (num d : ℝ) (corr : ℝ) {v : ℂ} (h : factor s num d corr = some v) : v.re = 1 := by
  simp only [factor, divN] at h
  by_cases hd : (d : ℂ) = 0
  · simp [hd] at h
  by_cases hc : (corr : ℂ) = 0
  · simp [hd, hc] at h
  simp only [hd, hc, if_false, Option.bind_eq_bind, Option.bind_some, Option.pure_def, Option.some.injEq] at h
  have h2 : s ((num : ℂ) / d) = (((s ((num : ℂ) / d)).re : ℝ) : ℂ) := by
    apply Complex.ext
    · simp
    · rw [← ofReal_div, hs]; simp
  rw [h2] at h
  rw [← h, mul_comm I, mul_div_right_comm, mul_div_right_comm, ← ofReal_div, ← ofReal_div, add_re, re_ofReal_mul]
  simp

theorem factor_some {s : ℂ → ℂ} {num d : ℂ} {corr : ℝ} (hd : d ≠ 0) (hc : corr ≠ 0) :
    factor s num d corr = some (1 + I * s (num / d) / d / corr) := by
  have hc' : (corr : ℂ) ≠ 0 := by exact_mod_cast hc
  simp [factor, divN, hd, hc]

theorem pos_sub {n : ℕ} {dx dx' : Fin n → ℂ} {k i : ℕ} (hki : k ≤ i) (h : ∀ j : Fin n, k ≤ (j : ℕ) → (j : ℕ) < i → dx j = dx' j) :
    pos dx i - pos dx k = pos dx' i - pos dx' k := by
  simp only [pos, ← Finset.sum_sub_distrib]
  refine Finset.sum_congr rfl fun j _ => ?_
  by_cases h1 : (j : ℕ) < k
  · rw [if_pos h1, if_pos h1, if_pos (by omega), if_pos (by omega)]; ring
  · by_cases h2 : (j : ℕ) < i
    · rw [if_pos h2, if_neg h1, if_pos h2, if_neg h1, h j (by omega) h2]
    · simp [h1, h2]

/-- The distance-dependent factor of one cell, as a function of the list of widths only. -/
noncomputable def frontA {n : ℕ} (s : ℂ → ℂ) (corr : ℝ) (t : ℕ) (dx : Fin n → ℂ) (i : Fin n) : Option ℂ :=
  factor s (pos dx t - (pos dx i + pos dx (i + 1)) / 2) (pos dx t - pos dx 0) corr
noncomputable def frontB {n : ℕ} (s : ℂ → ℂ) (corr : ℝ) (t : ℕ) (dx : Fin n → ℂ) (i : Fin n) : Option ℂ :=
  factor s (pos dx t - pos dx i) (pos dx t - pos dx 0) corr
noncomputable def backA {n : ℕ} (s : ℂ → ℂ) (corr : ℝ) (t : ℕ) (dx : Fin n → ℂ) (i : Fin n) : Option ℂ :=
  factor s ((pos dx i + pos dx (i + 1)) / 2 - pos dx (n - t)) (pos dx n - pos dx (n - t)) corr
noncomputable def backB {n : ℕ} (s : ℂ → ℂ) (corr : ℝ) (t : ℕ) (dx : Fin n → ℂ) (i : Fin n) : Option ℂ :=
  factor s (pos dx i - pos dx (n - t)) (pos dx n - pos dx (n - t)) corr

theorem stretch_front {n : ℕ} (dxA dxB : Fin n → ℂ) {p : ℤ} (hp : 0 < p) (corr : ℝ) {t : ℕ} (ht : t ≤ n) (s : ℂ → ℂ) :
    stretchAxis dxA dxB p corr t s =
      .ok (fun i => if (i : ℕ) < t then (frontA s corr t dxA i).map (dxA i * ·) else some (dxA i),
           fun i => if (i : ℕ) < t then (frontB s corr t dxA i).map (dxB i * ·) else some (dxB i)) := by
  simp only [stretchAxis, if_neg (not_lt.2 ht), gt_iff_lt, if_pos hp]; rfl

theorem stretch_back {n : ℕ} (dxA dxB : Fin n → ℂ) {p : ℤ} (hp : ¬ 0 < p) (corr : ℝ) {t : ℕ} (h0 : t ≠ 0) (ht : t ≤ n) (s : ℂ → ℂ) :
    stretchAxis dxA dxB p corr t s =
      .ok (fun i => if n - t ≤ (i : ℕ) then (backA s corr t dxA i).map (dxA i * ·) else some (dxA i),
           fun i => if n - t ≤ (i : ℕ) then (backB s corr t dxA i).map (dxB i * ·) else some (dxB i)) := by
  simp only [stretchAxis, if_neg (not_lt.2 ht), gt_iff_lt, if_neg hp, if_neg h0]
  refine congrArg Except.ok ?_
  refine Prod.ext (funext fun i => ?_) (funext fun i => ?_) <;> (by_cases h : n - t ≤ (i : ℕ) <;> simp [h, backA, backB])

theorem front_congr {n : ℕ} (s : ℂ → ℂ) (corr : ℝ) {t : ℕ} {dx dx' : Fin n → ℂ} (h : ∀ j : Fin n, (j : ℕ) < t → dx j = dx' j) (i : Fin n)
    (hi : (i : ℕ) < t) : frontA s corr t dx i = frontA s corr t dx' i ∧ frontB s corr t dx i = frontB s corr t dx' i := by
  have e1 := pos_sub (k := 0) (i := t) (Nat.zero_le _) (fun j _ hj => h j hj)
  have e2 := pos_sub (dx := dx) (dx' := dx') (k := i) (i := t) hi.le (fun j _ hj => h j hj)
  have e3 := pos_sub (dx := dx) (dx' := dx') (k := i + 1) (i := t) hi (fun j _ hj => h j hj)
  simp only [frontA, frontB, e1, e2]
  refine ⟨?_, trivial⟩
  rw [show pos dx t - (pos dx i + pos dx (i + 1)) / 2 = pos dx' t - (pos dx' i + pos dx' (i + 1)) / 2 by linear_combination e2 / 2 + e3 / 2]

theorem back_congr {n : ℕ} (s : ℂ → ℂ) (corr : ℝ) {t : ℕ} {dx dx' : Fin n → ℂ} (h : ∀ j : Fin n, n - t ≤ (j : ℕ) → dx j = dx' j) (i : Fin n)
    (hi : n - t ≤ (i : ℕ)) : backA s corr t dx i = backA s corr t dx' i ∧ backB s corr t dx i = backB s corr t dx' i := by
  have e1 := pos_sub (k := n - t) (i := n) (Nat.sub_le _ _) (fun j hj _ => h j hj)
  have e2 := pos_sub (dx := dx) (dx' := dx') (k := n - t) (i := i) hi (fun j hj _ => h j hj)
  have e3 := pos_sub (dx := dx) (dx' := dx') (k := n - t) (i := i + 1) (by omega) (fun j hj _ => h j hj)
  simp only [backA, backB, e1, e2]
  refine ⟨?_, trivial⟩
  rw [show (pos dx i + pos dx (i + 1)) / 2 - pos dx (n - t) = (pos dx' i + pos dx' (i + 1)) / 2 - pos dx' (n - t) by
    linear_combination e2 / 2 + e3 / 2]

theorem posSum_pos {n : ℕ} {a : Fin n → ℝ} (ha : ∀ i, 0 < a i) {k i : ℕ} (hki : k < i) (hi : i ≤ n) :
    pos (fun j => (a j : ℂ)) i - pos (fun j => (a j : ℂ)) k ≠ 0 := by
  rw [pos_real, pos_real, ← ofReal_sub, ofReal_ne_zero, ← Finset.sum_sub_distrib]
  refine ne_of_gt (Finset.sum_pos' (fun j _ => ?_) ⟨⟨k, by omega⟩, Finset.mem_univ _, ?_⟩)
  · by_cases h1 : (j : ℕ) < k
    · rw [if_pos h1, if_pos (by omega)]; simp
    · by_cases h2 : (j : ℕ) < i
      · simp [h1, h2, (ha j).le]
      · simp [h1, h2]
  · simp [hki, ha]

variable {d : ℕ} {sh : Fin d → ℕ}

/-- A pair of width lists, and the same as a result that contains no NaN. -/
abbrev CGrid (sh : Fin d → ℕ) := ((a : Fin d) → Fin (sh a) → ℂ) × ((a : Fin d) → Fin (sh a) → ℂ)
def okGrid (g : CGrid sh) : Except String (((a : Fin d) → Fin (sh a) → Option ℂ) × ((a : Fin d) → Fin (sh a) → Option ℂ)) :=
  .ok (fun a i => some (g.1 a i), fun a i => some (g.2 a i))

/-- The cell `i` of an axis with `n` cells is in the layer of `thickness` cells at the front (`polarity > 0`) or the back. -/
def InLayer (n : ℕ) (polarity : ℤ) (thickness : ℕ) (i : ℕ) : Prop := if 0 < polarity then i < thickness else n - thickness ≤ i

theorem profile_some (s : Option (ℂ → ℂ)) (hs : ∀ f, s = some f → RealProfile f) :
    RealProfile (s.getD (sFactorC (-16) 4)) := by
  cases s with
  | none => exact default_realProfile
  | some f => exact hs f rfl

/-- C38: on a grid with positive real widths and a layer of at least one cell, the call returns a grid without NaN, in which
every width keeps its real part, every width outside the layer and every width of another axis is unchanged. -/
theorem C38_layer_only (a b : (x : Fin d) → Fin (sh x) → ℝ) (ha : ∀ x i, 0 < a x i) (axis : Fin d) (polarity : ℤ) (omega : ℂ)
    (epsEff : ℝ) (ho : omega.re ≠ 0) (he : 0 < epsEff) (t : ℕ) (ht0 : 0 < t) (ht : t ≤ sh axis) (s : Option (ℂ → ℂ))
    (hs : ∀ f, s = some f → RealProfile f) :
    ∃ g : CGrid sh, stretchWithScpml (fun x i => (a x i : ℂ), fun x i => (b x i : ℂ)) axis polarity omega epsEff t s = okGrid g ∧
      (∀ x i, (g.1 x i).re = a x i ∧ (g.2 x i).re = b x i) ∧
      (∀ x (i : Fin (sh x)), ¬ (x = axis ∧ InLayer (sh x) polarity t i) → g.1 x i = a x i ∧ g.2 x i = b x i) := by
  have hc : sCorrection epsEff omega ≠ 0 := mul_ne_zero (Real.sqrt_pos.2 he).ne' ho
  have hprof := profile_some s hs
  simp only [stretchWithScpml]
  generalize (s.getD (sFactorC (-16) 4)) = f at hprof
  -- all factors have real part 1
  have hre : ∀ (num dd : ℝ) (w : ℝ), (dd : ℂ) ≠ 0 → ∃ v : ℂ, (factor f num dd (sCorrection epsEff omega)).map ((w : ℂ) * ·) = some v ∧ v.re = w := by
    intro num dd w hdd
    have h1 := factor_some (s := f) (num := num) (corr := sCorrection epsEff omega) hdd hc
    refine ⟨_, by rw [h1, Option.map_some], ?_⟩
    rw [re_ofReal_mul, factor_real hprof _ _ _ h1, mul_one]
  have key : ∃ r : (Fin (sh axis) → ℂ) × (Fin (sh axis) → ℂ),
      stretchAxis (fun i => (a axis i : ℂ)) (fun i => (b axis i : ℂ)) polarity (sCorrection epsEff omega) t f
        = .ok (fun i => some (r.1 i), fun i => some (r.2 i)) ∧
      (∀ i, (r.1 i).re = a axis i ∧ (r.2 i).re = b axis i) ∧
      (∀ i : Fin (sh axis), ¬ InLayer (sh axis) polarity t i → r.1 i = a axis i ∧ r.2 i = b axis i) := by
    by_cases hp : 0 < polarity
    · have hd : pos (fun i => (a axis i : ℂ)) t - pos (fun i => (a axis i : ℂ)) 0 ≠ 0 := posSum_pos (ha axis) ht0 ht
      have hA : ∀ i : Fin (sh axis), ∃ v : ℂ, (frontA f (sCorrection epsEff omega) t (fun i => (a axis i : ℂ)) i).map ((a axis i : ℂ) * ·) = some v
          ∧ v.re = a axis i := by
        intro i
        simp only [frontA, pos_real] at hd ⊢
        have := hre ((∑ j : Fin (sh axis), if (j : ℕ) < t then a axis j else 0) - ((∑ j : Fin (sh axis), if (j : ℕ) < i then a axis j else 0)
          + (∑ j : Fin (sh axis), if (j : ℕ) < i + 1 then a axis j else 0)) / 2) _ (a axis i) (by rw [ofReal_sub]; exact hd)
        push_cast at this ⊢; exact this
      have hB : ∀ i : Fin (sh axis), ∃ v : ℂ, (frontB f (sCorrection epsEff omega) t (fun i => (a axis i : ℂ)) i).map ((b axis i : ℂ) * ·) = some v
          ∧ v.re = b axis i := by
        intro i
        simp only [frontB, pos_real] at hd ⊢
        have := hre ((∑ j : Fin (sh axis), if (j : ℕ) < t then a axis j else 0) - (∑ j : Fin (sh axis), if (j : ℕ) < i then a axis j else 0))
          _ (b axis i) (by rw [ofReal_sub]; exact hd)
        push_cast at this ⊢; exact this
      choose vA hA using hA
      choose vB hB using hB
      refine ⟨(fun i => if (i : ℕ) < t then vA i else a axis i, fun i => if (i : ℕ) < t then vB i else b axis i), ?_, ?_, ?_⟩
      · rw [stretch_front _ _ hp _ ht]
        congr 1
        refine Prod.ext (funext fun i => ?_) (funext fun i => ?_)
        · by_cases h : (i : ℕ) < t
          · simp only [if_pos h]; exact (hA i).1
          · simp only [if_neg h]
        · by_cases h : (i : ℕ) < t
          · simp only [if_pos h]; exact (hB i).1
          · simp only [if_neg h]
      · intro i
        by_cases h : (i : ℕ) < t
        · simp only [if_pos h]; exact ⟨(hA i).2, (hB i).2⟩
        · simp only [if_neg h, ofReal_re, and_self]
      · intro i h
        simp only [InLayer, if_pos hp] at h
        simp only [if_neg h, and_self]
    · have hd : pos (fun i => (a axis i : ℂ)) (sh axis) - pos (fun i => (a axis i : ℂ)) (sh axis - t) ≠ 0 :=
        posSum_pos (ha axis) (by omega) le_rfl
      have hA : ∀ i : Fin (sh axis), ∃ v : ℂ, (backA f (sCorrection epsEff omega) t (fun i => (a axis i : ℂ)) i).map ((a axis i : ℂ) * ·) = some v
          ∧ v.re = a axis i := by
        intro i
        simp only [backA, pos_real] at hd ⊢
        have := hre (((∑ j : Fin (sh axis), if (j : ℕ) < i then a axis j else 0)
          + (∑ j : Fin (sh axis), if (j : ℕ) < i + 1 then a axis j else 0)) / 2 - (∑ j : Fin (sh axis), if (j : ℕ) < sh axis - t then a axis j else 0))
          _ (a axis i) (by rw [ofReal_sub]; exact hd)
        push_cast at this ⊢; exact this
      have hB : ∀ i : Fin (sh axis), ∃ v : ℂ, (backB f (sCorrection epsEff omega) t (fun i => (a axis i : ℂ)) i).map ((b axis i : ℂ) * ·) = some v
          ∧ v.re = b axis i := by
        intro i
        simp only [backB, pos_real] at hd ⊢
        have := hre ((∑ j : Fin (sh axis), if (j : ℕ) < i then a axis j else 0) - (∑ j : Fin (sh axis), if (j : ℕ) < sh axis - t then a axis j else 0))
          _ (b axis i) (by rw [ofReal_sub]; exact hd)
        push_cast at this ⊢; exact this
      choose vA hA using hA
      choose vB hB using hB
      refine ⟨(fun i => if sh axis - t ≤ (i : ℕ) then vA i else a axis i, fun i => if sh axis - t ≤ (i : ℕ) then vB i else b axis i), ?_, ?_, ?_⟩
      · rw [stretch_back _ _ hp _ ht0.ne' ht]
        congr 1
        refine Prod.ext (funext fun i => ?_) (funext fun i => ?_)
        · by_cases h : sh axis - t ≤ (i : ℕ)
          · simp only [if_pos h]; exact (hA i).1
          · simp only [if_neg h]
        · by_cases h : sh axis - t ≤ (i : ℕ)
          · simp only [if_pos h]; exact (hB i).1
          · simp only [if_neg h]
      · intro i
        by_cases h : sh axis - t ≤ (i : ℕ)
        · simp only [if_pos h]; exact ⟨(hA i).2, (hB i).2⟩
        · simp only [if_neg h, ofReal_re, and_self]
      · intro i h
        simp only [InLayer, if_neg hp] at h
        simp only [if_neg h, and_self]
  obtain ⟨r, h1, h2, h3⟩ := key
  refine ⟨(Function.update (fun x i => (a x i : ℂ)) axis r.1, Function.update (fun x i => (b x i : ℂ)) axis r.2), ?_, ?_, ?_⟩
  · rw [h1]
    simp only [okGrid]
    congr 1
    refine Prod.ext (funext fun x => ?_) (funext fun x => ?_)
    · by_cases hx : x = axis
      · subst hx; simp
      · simp [hx]
    · by_cases hx : x = axis
      · subst hx; simp
      · simp [hx]
  · intro x i
    by_cases hx : x = axis
    · subst hx; simpa using h2 i
    · simp [hx]
  · intro x i h
    by_cases hx : x = axis
    · subst hx; simpa using h3 i (fun hh => h ⟨rfl, hh⟩)
    · simp [hx]

/-- C38: stretching the front and the back of one axis gives the same grid in either order, for layers that do not overlap
(any profiles, and also on grids that were already stretched along other axes). -/
theorem C38_commute (g0 g1 g2 : CGrid sh) (axis : Fin d) (omega : ℂ) (epsEff : ℝ) (p q : ℤ) (hp : 0 < p) (hq : q < 0)
    (tf tb : ℕ) (hover : tf + tb ≤ sh axis) (htb : 0 < tb) (s s' : Option (ℂ → ℂ))
    (h1 : stretchWithScpml g0 axis p omega epsEff tf s = okGrid g1) (h2 : stretchWithScpml g0 axis q omega epsEff tb s' = okGrid g2) :
    stretchWithScpml g1 axis q omega epsEff tb s' = stretchWithScpml g2 axis p omega epsEff tf s := by
  simp only [stretchWithScpml] at *
  generalize (s.getD (sFactorC (-16) 4)) = f at *
  generalize (s'.getD (sFactorC (-16) 4)) = f' at *
  have hq' : ¬ 0 < q := by omega
  rw [stretch_front _ _ hp _ (by omega)] at h1 ⊢
  rw [stretch_back _ _ hq' _ htb.ne' (by omega)] at h2 ⊢
  simp only [okGrid, Except.ok.injEq, Prod.mk.injEq] at h1 h2 ⊢
  obtain ⟨h1a, h1b⟩ := h1
  obtain ⟨h2a, h2b⟩ := h2
  have o1 : ∀ x, x ≠ axis → (g1.1 x = g0.1 x ∧ g1.2 x = g0.2 x) := by
    intro x hx
    have e1 := congrFun h1a x
    have e2 := congrFun h1b x
    rw [Function.update_of_ne hx] at e1 e2
    exact ⟨funext fun i => (Option.some.inj (congrFun e1 i)).symm, funext fun i => (Option.some.inj (congrFun e2 i)).symm⟩
  have o2 : ∀ x, x ≠ axis → (g2.1 x = g0.1 x ∧ g2.2 x = g0.2 x) := by
    intro x hx
    have e1 := congrFun h2a x
    have e2 := congrFun h2b x
    rw [Function.update_of_ne hx] at e1 e2
    exact ⟨funext fun i => (Option.some.inj (congrFun e1 i)).symm, funext fun i => (Option.some.inj (congrFun e2 i)).symm⟩
  have n1 : ∀ i : Fin (sh axis), (if (i : ℕ) < tf then (frontA f (sCorrection epsEff omega) tf (g0.1 axis) i).map (g0.1 axis i * ·) else some (g0.1 axis i)) = some (g1.1 axis i) := by
    intro i; have e := congrFun (congrFun h1a axis) i; rwa [Function.update_self] at e
  have n1b : ∀ i : Fin (sh axis), (if (i : ℕ) < tf then (frontB f (sCorrection epsEff omega) tf (g0.1 axis) i).map (g0.2 axis i * ·) else some (g0.2 axis i)) = some (g1.2 axis i) := by
    intro i; have e := congrFun (congrFun h1b axis) i; rwa [Function.update_self] at e
  have n2 : ∀ i : Fin (sh axis), (if sh axis - tb ≤ (i : ℕ) then (backA f' (sCorrection epsEff omega) tb (g0.1 axis) i).map (g0.1 axis i * ·) else some (g0.1 axis i)) = some (g2.1 axis i) := by
    intro i; have e := congrFun (congrFun h2a axis) i; rwa [Function.update_self] at e
  have n2b : ∀ i : Fin (sh axis), (if sh axis - tb ≤ (i : ℕ) then (backB f' (sCorrection epsEff omega) tb (g0.1 axis) i).map (g0.2 axis i * ·) else some (g0.2 axis i)) = some (g2.2 axis i) := by
    intro i; have e := congrFun (congrFun h2b axis) i; rwa [Function.update_self] at e
  have b1 : ∀ i : Fin (sh axis), sh axis - tb ≤ (i : ℕ) → g1.1 axis i = g0.1 axis i := by
    intro i hi; have e := n1 i; rw [if_neg (by omega)] at e; exact (Option.some.inj e).symm
  have b1b : ∀ i : Fin (sh axis), sh axis - tb ≤ (i : ℕ) → g1.2 axis i = g0.2 axis i := by
    intro i hi; have e := n1b i; rw [if_neg (by omega)] at e; exact (Option.some.inj e).symm
  have b2 : ∀ i : Fin (sh axis), (i : ℕ) < tf → g2.1 axis i = g0.1 axis i := by
    intro i hi; have e := n2 i; rw [if_neg (by omega)] at e; exact (Option.some.inj e).symm
  have b2b : ∀ i : Fin (sh axis), (i : ℕ) < tf → g2.2 axis i = g0.2 axis i := by
    intro i hi; have e := n2b i; rw [if_neg (by omega)] at e; exact (Option.some.inj e).symm
  constructor
  · funext x
    by_cases hx : x = axis
    · subst hx
      rw [Function.update_self, Function.update_self]
      funext i
      by_cases hb : sh x - tb ≤ (i : ℕ)
      · rw [if_pos hb, if_neg (by omega), (back_congr f' _ b1 i hb).1, b1 i hb]
        have e := n2 i; rwa [if_pos hb] at e
      · rw [if_neg hb]
        by_cases hf : (i : ℕ) < tf
        · rw [if_pos hf, (front_congr f _ b2 i hf).1, b2 i hf]
          have e := n1 i; rw [if_pos hf] at e; exact e.symm
        · rw [if_neg hf]
          have e1 := n1 i; rw [if_neg hf] at e1
          have e2 := n2 i; rw [if_neg hb] at e2
          rw [← e1, ← e2]
    · rw [Function.update_of_ne hx, Function.update_of_ne hx, (o1 x hx).1, (o2 x hx).1]
  · funext x
    by_cases hx : x = axis
    · subst hx
      rw [Function.update_self, Function.update_self]
      funext i
      by_cases hb : sh x - tb ≤ (i : ℕ)
      · rw [if_pos hb, if_neg (by omega), (back_congr f' _ b1 i hb).2, b1b i hb]
        have e := n2b i; rwa [if_pos hb] at e
      · rw [if_neg hb]
        by_cases hf : (i : ℕ) < tf
        · rw [if_pos hf, (front_congr f _ b2 i hf).2, b2b i hf]
          have e := n1b i; rw [if_pos hf] at e; exact e.symm
        · rw [if_neg hf]
          have e1 := n1b i; rw [if_neg hf] at e1
          have e2 := n2b i; rw [if_neg hb] at e2
          rw [← e1, ← e2]
    · rw [Function.update_of_ne hx, Function.update_of_ne hx, (o1 x hx).2, (o2 x hx).2]

/-- The hypotheses of `C38_commute` hold on a unit grid of 20 cells with two layers of 5 cells. -/
example : ∃ g1 g2 : CGrid (d := 3) (fun _ => 20),
    stretchWithScpml (fun _ _ => ((1 : ℝ) : ℂ), fun _ _ => ((1 : ℝ) : ℂ)) 1 1 1 1 5 none = okGrid g1 ∧
    stretchWithScpml (fun _ _ => ((1 : ℝ) : ℂ), fun _ _ => ((1 : ℝ) : ℂ)) 1 (-1) 1 1 5 none = okGrid g2 := by
  obtain ⟨g1, h1, -⟩ := C38_layer_only (sh := fun _ : Fin 3 => 20) (fun _ _ => 1) (fun _ _ => 1) (fun _ _ => one_pos) 1 1 1 1 (by simp) one_pos
    5 (by norm_num) (by norm_num) none (by simp)
  obtain ⟨g2, h2, -⟩ := C38_layer_only (sh := fun _ : Fin 3 => 20) (fun _ _ => 1) (fun _ _ => 1) (fun _ _ => one_pos) 1 (-1) 1 1 (by simp) one_pos
    5 (by norm_num) (by norm_num) none (by simp)
  exact ⟨g1, g2, h1, h2⟩

/-- C38: thickness 0 at the front leaves every grid unchanged. -/
theorem C38_zero_front_partial (g : CGrid sh) (axis : Fin d) (p : ℤ) (hp : 0 < p) (omega : ℂ) (epsEff : ℝ) (s : Option (ℂ → ℂ)) :
    stretchWithScpml g axis p omega epsEff 0 s = okGrid g := by
  simp only [stretchWithScpml, stretch_front _ _ hp _ (Nat.zero_le _), okGrid, Nat.not_lt_zero, if_false]
  congr 1
  exact Prod.ext (Function.update_eq_self _ _) (Function.update_eq_self _ _)

/-- C38 (disagreement): thickness 0 at the back does not leave the grid unchanged: every width along the axis becomes NaN. -/
theorem C38_zero_back_partial (g : CGrid sh) (axis : Fin d) (q : ℤ) (hq : q < 0) (omega : ℂ) (epsEff : ℝ) (s : Option (ℂ → ℂ)) :
    ∃ r, stretchWithScpml g axis q omega epsEff 0 s = .ok r ∧ ∀ i, r.1 axis i = none ∧ r.2 axis i = none := by
  simp only [stretchWithScpml]
  generalize (s.getD (sFactorC (-16) 4)) = f
  have hq' : ¬ 0 < q := by omega
  simp only [stretchAxis, Nat.not_lt_zero, if_false, gt_iff_lt, if_neg hq', if_true, tsub_zero, sub_self]
  refine ⟨_, rfl, fun i => ?_⟩
  simp [factor, divN]

/-! ### C68: `uniform_grid_scpml` against `stretch_with_scpml` on a unit grid -/

theorem pos_unit {n : ℕ} {i : ℕ} (h : i ≤ n) : pos (fun _ : Fin n => (1 : ℂ)) i = i := by
  simp only [pos, Finset.sum_boole]
  congr 1
  have : (Finset.univ.filter fun j : Fin n => (j : ℕ) < i) = Finset.univ.map (Fin.castLEEmb h) := by
    ext j
    simp only [Finset.mem_filter, Finset.mem_univ, true_and, Finset.mem_map]
    constructor
    · intro hj; exact ⟨⟨j, hj⟩, rfl⟩
    · rintro ⟨k, rfl⟩; exact k.2
  rw [this, Finset.card_map, Finset.card_univ, Fintype.card_fin]

/-- C68: what `stretch_with_scpml` does to a unit grid at the front, in terms of `uniform_grid_scpml`: the two lists have their half-cell
offsets exchanged, and the profile is additionally divided by the thickness. -/
theorem C68_relation_partial {n : ℕ} (p : ℤ) (hp : 0 < p) (corr : ℝ) (hc : corr ≠ 0) (t : ℕ) (ht : 0 < t) (hn : 2 * t ≤ n)
    (f : ℝ → ℝ) (fc : ℂ → ℂ) (hf : ∀ x : ℝ, fc x = f x) :
    ∃ g : (Fin n → ℂ) × (Fin n → ℂ),
      stretchAxis (fun _ : Fin n => (1 : ℂ)) (fun _ => 1) p corr t fc = .ok (fun i => some (g.1 i), fun i => some (g.2 i)) ∧
      ∀ i : Fin n, (i : ℕ) < t →
        g.1 i = (uniformAxis n t corr (fun x => f x / t)).2 i ∧ g.2 i = (uniformAxis n t corr (fun x => f x / t)).1 i := by
  have htn : t ≤ n := by omega
  have htc : ((t : ℕ) : ℂ) ≠ 0 := by exact_mod_cast ht.ne'
  have htr : (0 : ℝ) < ((t : ℕ) : ℝ) := by exact_mod_cast ht
  have hti : (t : ℤ) > 0 := by exact_mod_cast ht
  have hnr : 2 * ((t : ℕ) : ℝ) ≤ ((n : ℕ) : ℝ) := by exact_mod_cast hn
  have lo : ∀ u : ℝ, u ≤ (t : ℝ) → ll u n (t : ℤ) = ((t : ℝ) - u) / t := by
    intro u hu
    rw [ll, Int.cast_natCast, max_eq_left (by linarith), max_eq_right (by linarith), add_zero]
  have hd : pos (fun _ : Fin n => (1 : ℂ)) t - pos (fun _ : Fin n => (1 : ℂ)) 0 = (t : ℂ) := by
    rw [pos_unit htn, pos_unit (Nat.zero_le _)]; simp
  rw [stretch_front _ _ hp _ htn]
  refine ⟨(fun i => if (i : ℕ) < t then 1 + I * fc ((pos (fun _ : Fin n => (1 : ℂ)) t - (pos (fun _ : Fin n => (1 : ℂ)) i + pos (fun _ : Fin n => (1 : ℂ)) (i + 1)) / 2) / t) / t / corr else 1,
    fun i => if (i : ℕ) < t then 1 + I * fc ((pos (fun _ : Fin n => (1 : ℂ)) t - pos (fun _ : Fin n => (1 : ℂ)) i) / t) / t / corr else 1), ?_, ?_⟩
  · refine congrArg Except.ok (Prod.ext (funext fun i => ?_) (funext fun i => ?_))
    · by_cases h : (i : ℕ) < t
      · simp only [if_pos h, frontA, hd, factor_some htc hc, Option.map_some, one_mul]
      · simp only [if_neg h]
    · by_cases h : (i : ℕ) < t
      · simp only [if_pos h, frontB, hd, factor_some htc hc, Option.map_some, one_mul]
      · simp only [if_neg h]
  · intro i hi
    have hir : ((i : ℕ) : ℝ) + 1 ≤ (t : ℝ) := by exact_mod_cast hi
    simp only [uniformAxis, if_pos hti, if_pos hi]
    rw [pos_unit htn, pos_unit (i := i) (by omega), pos_unit (i := i + 1) (by omega), lo _ (by norm_num; linarith), lo _ (by linarith)]
    constructor
    · rw [show (((t : ℕ) : ℂ) - (((i : ℕ) : ℂ) + ((i + 1 : ℕ) : ℂ)) / 2) / (t : ℂ) = ((((t : ℝ) - ((i : ℕ) + 0.5)) / t : ℝ) : ℂ) by push_cast; ring, hf]
      push_cast; ring
    · rw [show (((t : ℕ) : ℂ) - ((i : ℕ) : ℂ)) / (t : ℂ) = ((((t : ℝ) - (i : ℕ)) / t : ℝ) : ℂ) by push_cast; ring, hf]
      push_cast; ring

/-- C68, the whole axis: stretching the front and then the back of a unit grid gives the two lists of `uniform_grid_scpml` exchanged, with the profile divided by the thickness, in every cell, for every profile that
vanishes at zero. -/
theorem C68_whole_partial {n : ℕ} (p q : ℤ) (hp : 0 < p) (hq : q < 0) (corr : ℝ) (hc : corr ≠ 0) (t : ℕ) (ht : 0 < t) (hn : 2 * t ≤ n) (f : ℝ → ℝ) (fc : ℂ → ℂ) (hf : ∀ x : ℝ, fc x = f x) (hf0 : f 0 = 0) :
    ∃ g : (Fin n → ℂ) × (Fin n → ℂ), stretchAxis (fun _ : Fin n => (1 : ℂ)) (fun _ => 1) p corr t fc = .ok (fun i => some (g.1 i), fun i => some (g.2 i)) ∧
      stretchAxis g.1 g.2 q corr t fc =
        .ok (fun i => some ((uniformAxis n t corr (fun x => f x / t)).2 i), fun i => some ((uniformAxis n t corr (fun x => f x / t)).1 i)) := by
  obtain ⟨g, h1, h2⟩ := C68_relation_partial p hp corr hc t ht hn f fc hf
  refine ⟨g, h1, ?_⟩
  have htn : t ≤ n := by omega
  have htc : ((t : ℕ) : ℂ) ≠ 0 := by exact_mod_cast ht.ne'
  have htr : (0 : ℝ) < ((t : ℕ) : ℝ) := by exact_mod_cast ht
  have hti : (t : ℤ) > 0 := by exact_mod_cast ht
  have hnr : 2 * ((t : ℕ) : ℝ) ≤ ((n : ℕ) : ℝ) := by exact_mod_cast hn
  have hi1 : ∀ i : Fin n, t ≤ (i : ℕ) → g.1 i = 1 ∧ g.2 i = 1 := by
    intro i hi
    rw [stretch_front _ _ hp _ htn] at h1
    have e := Except.ok.inj h1
    have e1 := congrFun (congrArg Prod.fst e) i
    have e2 := congrFun (congrArg Prod.snd e) i
    simp only [if_neg (not_lt.2 hi)] at e1 e2
    exact ⟨(Option.some.inj e1).symm, (Option.some.inj e2).symm⟩
  have hd : pos (fun _ : Fin n => (1 : ℂ)) n - pos (fun _ : Fin n => (1 : ℂ)) (n - t) = (t : ℂ) := by
    rw [pos_unit le_rfl, pos_unit (Nat.sub_le _ _), Nat.cast_sub htn]; ring
  have mid : ∀ u : ℝ, (t : ℝ) ≤ u → u ≤ n - t → ll u n (t : ℤ) = 0 := by
    intro u h1 h2
    rw [Int.cast_natCast]; exact ll_zero h1 h2
  have hi : ∀ u : ℝ, (n : ℝ) - t ≤ u → ll u n (t : ℤ) = (u - (n - t)) / t := by
    intro u hu
    rw [ll, Int.cast_natCast, max_eq_right (by linarith), max_eq_left (by linarith), zero_add]
  rw [stretch_back _ _ (by omega : ¬ 0 < q) _ ht.ne' htn]
  refine congrArg Except.ok (Prod.ext (funext fun i => ?_) (funext fun i => ?_))
  · by_cases hb : n - t ≤ (i : ℕ)
    · have hbc := back_congr fc corr (dx := g.1) (dx' := fun _ => (1 : ℂ)) (fun j hj => (hi1 j (by omega)).1) i hb
      have hir : (n : ℝ) - t ≤ (i : ℕ) := by rw [← Nat.cast_sub htn]; exact_mod_cast hb
      have hin := i.isLt
      simp only [if_pos hb]
      rw [hbc.1]
      simp only [backA, hd, factor_some htc hc, Option.map_some, (hi1 i (by omega)).1, uniformAxis, if_pos hti, one_mul]
      rw [pos_unit (i := i) (by omega), pos_unit (i := i + 1) (by omega), pos_unit (Nat.sub_le _ _), Nat.cast_sub htn, hi _ (by norm_num; linarith),
        show ((((i : ℕ) : ℂ) + ((i + 1 : ℕ) : ℂ)) / 2 - ((n : ℂ) - t)) / (t : ℂ) = ((((i : ℕ) + 0.5 - ((n : ℝ) - t)) / t : ℝ) : ℂ) by push_cast; ring, hf]
      congr 1; push_cast; ring
    · by_cases hfr : (i : ℕ) < t
      · simp only [if_neg hb, (h2 i hfr).1]
      · have h3 : (t : ℝ) ≤ (i : ℕ) := by exact_mod_cast not_lt.1 hfr
        have h4 : ((i : ℕ) : ℝ) + 1 ≤ n - t := by
          rw [← Nat.cast_sub htn]; exact_mod_cast (by omega : (i : ℕ) + 1 ≤ n - t)
        simp only [if_neg hb, (hi1 i (by omega)).1, uniformAxis, if_pos hti]
        rw [mid _ (by norm_num; try linarith) (by norm_num; linarith), hf0]
        simp
  · by_cases hb : n - t ≤ (i : ℕ)
    · have hbc := back_congr fc corr (dx := g.1) (dx' := fun _ => (1 : ℂ)) (fun j hj => (hi1 j (by omega)).1) i hb
      have hir : (n : ℝ) - t ≤ (i : ℕ) := by rw [← Nat.cast_sub htn]; exact_mod_cast hb
      have hin := i.isLt
      simp only [if_pos hb]
      rw [hbc.2]
      simp only [backB, hd, factor_some htc hc, Option.map_some, (hi1 i (by omega)).2, uniformAxis, if_pos hti, one_mul]
      rw [pos_unit (i := i) (by omega), pos_unit (Nat.sub_le _ _), Nat.cast_sub htn, hi _ hir,
        show (((i : ℕ) : ℂ) - ((n : ℂ) - t)) / (t : ℂ) = ((((i : ℕ) - ((n : ℝ) - t)) / t : ℝ) : ℂ) by push_cast; ring, hf]
      congr 1; push_cast; ring
    · by_cases hfr : (i : ℕ) < t
      · simp only [if_neg hb, (h2 i hfr).2]
      · have h3 : (t : ℝ) ≤ (i : ℕ) := by exact_mod_cast not_lt.1 hfr
        have h4 : ((i : ℕ) : ℝ) + 1 ≤ n - t := by
          rw [← Nat.cast_sub htn]; exact_mod_cast (by omega : (i : ℕ) + 1 ≤ n - t)
        simp only [if_neg hb, (hi1 i (by omega)).2, uniformAxis, if_pos hti]
        rw [mid _ h3 (by linarith), hf0]
        simp

/-- C38: a layer thicker than the grid raises IndexError, and nothing else raises. -/
theorem C38_raises {d : ℕ} {sh : Fin d → ℕ} (dxes : ((a : Fin d) → Fin (sh a) → ℂ) × ((a : Fin d) → Fin (sh a) → ℂ)) (axis : Fin d) (polarity : ℤ) (omega : ℂ) (epsEff : ℝ)
    (thickness : ℕ) (s : Option (ℂ → ℂ)) :
    (sh axis < thickness ↔ ∃ e, stretchWithScpml dxes axis polarity omega epsEff thickness s = .error e) := by
  unfold stretchWithScpml stretchAxis
  constructor
  · intro h
    simp only [if_pos h]
    exact ⟨_, rfl⟩
  · rintro ⟨e, he⟩
    by_contra hc
    simp only [if_neg hc] at he
    split_ifs at he

/-- C68 (disagreement): the two functions give different absorbers on the same unit grid with the same (default) parameters. -/
theorem C68_differ_partial :
    ∃ g : (Fin 10 → ℂ) × (Fin 10 → ℂ),
      stretchAxis (fun _ : Fin 10 => (1 : ℂ)) (fun _ => 1) 1 1 2 (sFactorC (-16) 4) = .ok (fun i => some (g.1 i), fun i => some (g.2 i)) ∧
      g.1 0 ≠ (uniformAxis 10 2 1 (sFactor (-16) 4)).1 0 ∧ g.2 0 ≠ (uniformAxis 10 2 1 (sFactor (-16) 4)).2 0 := by
  have hf : ∀ x : ℝ, sFactorC (-16) 4 x = ((fun x : ℝ => -40 * x ^ 4) x : ℝ) := by
    intro x
    have : ((x : ℂ) ^ ((4 : ℝ) : ℂ)) = ((x ^ 4 : ℝ) : ℂ) := by
      rw [show ((4 : ℝ) : ℂ) = ((4 : ℕ) : ℂ) by norm_num, cpow_natCast]; push_cast; rfl
    simp only [sFactorC, this]; push_cast; ring
  obtain ⟨g, h1, h2⟩ := C68_relation_partial (n := 10) 1 one_pos 1 one_ne_zero 2 (by norm_num) (by norm_num) (fun x => -40 * x ^ 4) _ hf
  have hr : ∀ x : ℝ, sFactor (-16) 4 x = -40 * x ^ 4 := by
    intro x
    simp only [sFactor]
    rw [show (4 : ℝ) = ((4 : ℕ) : ℝ) by norm_num, Real.rpow_natCast]; norm_num
  refine ⟨g, h1, ?_, ?_⟩
  · rw [(h2 0 (by norm_num)).1]
    intro h
    have := congrArg Complex.im h
    norm_num [uniformAxis, hr, ll] at this
  · rw [(h2 0 (by norm_num)).2]
    intro h
    have := congrArg Complex.im h
    norm_num [uniformAxis, hr, ll] at this

end Meanas.Props
