/-
C152 (SCPML layers return the designed amplitude up to second order in the cell width), part 1: waves through a graded layer on a staggered grid.
-/
import Verif.Props.ScpmlLossy
import Mathlib.Analysis.SpecialFunctions.Pow.Deriv
import Mathlib.Analysis.Calculus.MeanValue
import Mathlib.Analysis.SpecialFunctions.ExpDeriv

namespace Meanas.Props

open Matrix Complex Fdfd Spec Solvers Scpml ScpmlLossy

namespace ScpmlOpen

/-- Growth of a leapfrog recurrence with small coefficients and residuals. -/
theorem path_bound {n : ℕ} {A B E g r r' : ℕ → ℂ} {β : ℝ} (hβ : 0 ≤ β) (hA : ∀ j < n, ‖A j‖ ≤ β) (hB : ∀ j < n, ‖B j‖ ≤ β)
    (hE : ∀ j < n, E (j + 1) = E j - A j * g j + r j) (hg : ∀ j < n, g (j + 1) = g j - B j * E (j + 1) + r' j) :
    ∀ j ≤ n, ‖E j‖ + ‖g j‖ ≤ (1 + β) ^ (2 * j) * (‖E 0‖ + ‖g 0‖ + ∑ i ∈ Finset.range j, (‖r i‖ + ‖r' i‖)) := by
  intro j
  induction j with
  | zero => intro _; simp
  | succ j ih =>
    intro hj
    have ih := ih (by omega)
    have h1 : ‖E (j + 1)‖ ≤ ‖E j‖ + β * ‖g j‖ + ‖r j‖ := by
      rw [hE j (by omega)]
      refine (norm_add_le _ _).trans (add_le_add_left ((norm_sub_le _ _).trans (add_le_add_right ?_ _)) _)
      rw [norm_mul]; exact mul_le_mul_of_nonneg_right (hA j (by omega)) (norm_nonneg _)
    have h2 : ‖g (j + 1)‖ ≤ ‖g j‖ + β * ‖E (j + 1)‖ + ‖r' j‖ := by
      rw [hg j (by omega)]
      refine (norm_add_le _ _).trans (add_le_add_left ((norm_sub_le _ _).trans (add_le_add_right ?_ _)) _)
      rw [norm_mul]; exact mul_le_mul_of_nonneg_right (hB j (by omega)) (norm_nonneg _)
    have n1 := norm_nonneg (E j); have n2 := norm_nonneg (g j); have n3 := norm_nonneg (r j); have n4 := norm_nonneg (r' j)
    have h3 : ‖E (j + 1)‖ + ‖g (j + 1)‖ ≤ (1 + β) ^ 2 * (‖E j‖ + ‖g j‖ + (‖r j‖ + ‖r' j‖)) := by
      have : ‖E (j + 1)‖ + ‖g (j + 1)‖ ≤ (1 + β) * (‖E j‖ + β * ‖g j‖ + ‖r j‖) + ‖g j‖ + ‖r' j‖ := by nlinarith
      refine this.trans ?_
      have := mul_nonneg hβ n1; have := mul_nonneg hβ n2; have := mul_nonneg hβ n3; have := mul_nonneg hβ n4
      have := mul_nonneg (mul_nonneg hβ hβ) n1; have := mul_nonneg (mul_nonneg hβ hβ) n2
      have := mul_nonneg (mul_nonneg hβ hβ) n3; have := mul_nonneg (mul_nonneg hβ hβ) n4
      nlinarith
    refine h3.trans ?_
    rw [Finset.sum_range_succ, show 2 * (j + 1) = 2 + 2 * j by ring, pow_add, mul_assoc]
    refine mul_le_mul_of_nonneg_left ?_ (by positivity)
    have h1 : (1 : ℝ) ≤ (1 + β) ^ (2 * j) := one_le_pow₀ (by linarith)
    have h4 : ‖r j‖ + ‖r' j‖ ≤ (1 + β) ^ (2 * j) * (‖r j‖ + ‖r' j‖) := le_mul_of_one_le_left (by linarith) h1
    calc _ ≤ _ := add_le_add ih h4
      _ = _ := by ring

/-- A function with three derivatives on `[0, D]`, the second and third bounded. -/
structure Smooth (D M : ℝ) (φ φ1 φ2 φ3 : ℝ → ℂ) : Prop where
  d1 : ∀ y ∈ Set.Icc 0 D, HasDerivAt φ (φ1 y) y
  d2 : ∀ y ∈ Set.Icc 0 D, HasDerivAt φ1 (φ2 y) y
  d3 : ∀ y ∈ Set.Icc 0 D, HasDerivAt φ2 (φ3 y) y
  b2 : ∀ y ∈ Set.Icc 0 D, ‖φ2 y‖ ≤ M
  b3 : ∀ y ∈ Set.Icc 0 D, ‖φ3 y‖ ≤ M

theorem taylor1 {D M : ℝ} {φ φ1 φ2 : ℝ → ℂ} (d1 : ∀ y ∈ Set.Icc 0 D, HasDerivAt φ (φ1 y) y) (d2 : ∀ y ∈ Set.Icc 0 D, HasDerivAt φ1 (φ2 y) y)
    (b2 : ∀ y ∈ Set.Icc 0 D, ‖φ2 y‖ ≤ M) {x y : ℝ} (hx : x ∈ Set.Icc 0 D) (hy : y ∈ Set.Icc 0 D) :
    ‖φ y - φ x - (y - x) * φ1 x‖ ≤ M * (y - x) ^ 2 := by
  have hsub : Set.uIcc x y ⊆ Set.Icc 0 D := Set.uIcc_subset_Icc hx hy
  have hM : 0 ≤ M := (norm_nonneg _).trans (b2 x hx)
  have h1 : ∀ z ∈ Set.uIcc x y, ‖φ1 z - φ1 x‖ ≤ M * |y - x| := by
    intro z hz
    have := Convex.norm_image_sub_le_of_norm_hasDerivWithin_le (f := φ1) (f' := φ2) (s := Set.Icc 0 D) (x := x) (y := z) (C := M)
      (fun u hu => (d2 u hu).hasDerivWithinAt) b2 (convex_Icc 0 D) hx (hsub hz)
    refine this.trans (mul_le_mul_of_nonneg_left ?_ hM)
    rw [Real.norm_eq_abs]
    exact Set.abs_sub_left_of_mem_uIcc hz
  have h2 := Convex.norm_image_sub_le_of_norm_hasDerivWithin_le (f := fun z : ℝ => φ z - ((z - x : ℝ) : ℂ) * φ1 x) (f' := fun z => φ1 z - φ1 x) (s := Set.uIcc x y)
    (x := x) (y := y) (C := M * |y - x|) (fun u hu => ?_) h1 (convex_uIcc x y) Set.left_mem_uIcc Set.right_mem_uIcc
  · have e : (φ y - ((y - x : ℝ) : ℂ) * φ1 x) - (φ x - ((x - x : ℝ) : ℂ) * φ1 x) = φ y - φ x - (y - x) * φ1 x := by push_cast; ring
    rw [e, Real.norm_eq_abs, mul_assoc, abs_mul_abs_self] at h2
    rw [sq]; exact h2
  · have h3 : HasDerivAt (fun z : ℝ => ((z - x : ℝ) : ℂ) * φ1 x) (φ1 x) u := by
      have := ((hasDerivAt_id u).sub_const x).ofReal_comp.mul_const (φ1 x)
      simpa using this
    exact ((d1 u (hsub hu)).sub h3).hasDerivWithinAt

theorem midpoint {D M : ℝ} {φ φ1 φ2 φ3 : ℝ → ℂ} (S : Smooth D M φ φ1 φ2 φ3) {c h : ℝ} (h0 : 0 ≤ h) (hl : 0 ≤ c - h) (hr : c + h ≤ D) :
    ‖φ (c + h) - φ (c - h) - 2 * h * φ1 c‖ ≤ 2 * M * h ^ 3 := by
  have hc : c ∈ Set.Icc 0 D := ⟨by linarith, by linarith⟩
  have hM : 0 ≤ M := (norm_nonneg _).trans (S.b2 c hc)
  have hp : ∀ t ∈ Set.Icc 0 h, c + t ∈ Set.Icc 0 D := fun t ht => ⟨by linarith [ht.1], by linarith [ht.2]⟩
  have hm : ∀ t ∈ Set.Icc 0 h, c - t ∈ Set.Icc 0 D := fun t ht => ⟨by linarith [ht.2], by linarith [ht.1]⟩
  have h2 := Convex.norm_image_sub_le_of_norm_hasDerivWithin_le (f := fun t : ℝ => φ (c + t) - φ (c - t) - 2 * (t : ℂ) * φ1 c)
    (f' := fun t => φ1 (c + t) + φ1 (c - t) - 2 * φ1 c) (s := Set.Icc 0 h) (x := 0) (y := h) (C := 2 * M * h ^ 2) (fun t ht => ?_) (fun t ht => ?_)
    (convex_Icc 0 h) ⟨le_rfl, h0⟩ ⟨h0, le_rfl⟩
  · simp only [add_zero, sub_zero, ofReal_zero, mul_zero, zero_mul, sub_self, Real.norm_eq_abs, abs_of_nonneg h0] at h2
    exact h2.trans (le_of_eq (by ring))
  · refine HasDerivAt.hasDerivWithinAt ?_
    have a1 : HasDerivAt (fun t : ℝ => φ (c + t)) (φ1 (c + t)) t := by
      have := (S.d1 _ (hp t ht)).scomp t ((hasDerivAt_id t).const_add c)
      rw [one_smul] at this; exact this
    have a2 : HasDerivAt (fun t : ℝ => φ (c - t)) (-φ1 (c - t)) t := by
      have := (S.d1 _ (hm t ht)).scomp t ((hasDerivAt_id t).const_sub c)
      rw [neg_smul, one_smul] at this; exact this
    have a3 : HasDerivAt (fun t : ℝ => 2 * (t : ℂ) * φ1 c) (2 * φ1 c) t := by
      simpa using ((hasDerivAt_id t).ofReal_comp.const_mul 2).mul_const (φ1 c)
    exact ((a1.sub a2).sub a3).congr_deriv (by ring)
  · have b1 := taylor1 S.d2 S.d3 S.b3 hc (hp t ht)
    have b2 := taylor1 S.d2 S.d3 S.b3 hc (hm t ht)
    have e : φ1 (c + t) + φ1 (c - t) - 2 * φ1 c = (φ1 (c + t) - φ1 c - ((c + t : ℝ) - c) * φ2 c) + (φ1 (c - t) - φ1 c - ((c - t : ℝ) - c) * φ2 c) := by push_cast; ring
    rw [e]
    refine (norm_add_le _ _).trans ((add_le_add b1 b2).trans ?_)
    have : t ^ 2 ≤ h ^ 2 := pow_le_pow_left₀ ht.1 ht.2 2
    nlinarith

/-- Complex optical depth at depth `y` of a layer of thickness `D`: `i k y + ρ (y/D)^(m+1)`. -/
noncomputable def lam (k ρ D m y : ℝ) : ℂ := I * k * y + ((ρ * (y / D) ^ (m + 1) : ℝ) : ℂ)
noncomputable def lam1 (k ρ D m y : ℝ) : ℂ := I * k + ((ρ * ((m + 1) * (y / D) ^ m / D) : ℝ) : ℂ)
noncomputable def lam2 (ρ D m y : ℝ) : ℂ := ((ρ * ((m + 1) * (m * (y / D) ^ (m - 1) / D) / D) : ℝ) : ℂ)
noncomputable def lam3 (ρ D m y : ℝ) : ℂ := ((ρ * ((m + 1) * (m * ((m - 1) * (y / D) ^ (m - 2) / D) / D) / D) : ℝ) : ℂ)

theorem rp {D p : ℝ} (hp : 1 ≤ p) (y : ℝ) : HasDerivAt (fun y : ℝ => (y / D) ^ p) (p * (y / D) ^ (p - 1) / D) y := by
  have := ((hasDerivAt_id y).div_const D).rpow_const (p := p) (Or.inr hp)
  exact this.congr_deriv (by simp only [id]; ring)

theorem d_lam (k ρ D : ℝ) {m : ℝ} (hm : 2 ≤ m) (y : ℝ) : HasDerivAt (lam k ρ D m) (lam1 k ρ D m y) y := by
  have h1 : HasDerivAt (fun y : ℝ => I * k * (y : ℂ)) (I * k) y := by simpa using (hasDerivAt_id y).ofReal_comp.const_mul (I * k)
  have h2 := ((rp (D := D) (show 1 ≤ m + 1 by linarith) y).const_mul ρ).ofReal_comp
  refine (h1.add h2).congr_deriv ?_
  rw [lam1, add_sub_cancel_right]

theorem d_lam1 (k ρ D : ℝ) {m : ℝ} (hm : 2 ≤ m) (y : ℝ) : HasDerivAt (lam1 k ρ D m) (lam2 ρ D m y) y := by
  have h2 := (((((rp (D := D) (show 1 ≤ m by linarith) y).const_mul (m + 1)).div_const D).const_mul ρ).ofReal_comp).const_add (I * (k : ℂ))
  exact h2

theorem d_lam2 (ρ D : ℝ) {m : ℝ} (hm : 2 ≤ m) (y : ℝ) : HasDerivAt (lam2 ρ D m) (lam3 ρ D m y) y := by
  have h2 := (((((((rp (D := D) (show 1 ≤ m - 1 by linarith) y).const_mul m).div_const D).const_mul (m + 1)).div_const D).const_mul ρ).ofReal_comp)
  refine h2.congr_deriv ?_
  rw [lam3, show m - 1 - 1 = m - 2 by ring]

/-- The wave `exp(σ λ)` in the layer: `σ = -1` runs into the layer and is absorbed, `σ = +1` comes out of it. -/
noncomputable def wv (k ρ D m : ℝ) (σ : ℂ) (y : ℝ) : ℂ := Complex.exp (σ * lam k ρ D m y)
noncomputable def wv1 (k ρ D m : ℝ) (σ : ℂ) (y : ℝ) : ℂ := σ * lam1 k ρ D m y * wv k ρ D m σ y
noncomputable def wv2 (k ρ D m : ℝ) (σ : ℂ) (y : ℝ) : ℂ := (σ * lam2 ρ D m y + (σ * lam1 k ρ D m y) ^ 2) * wv k ρ D m σ y
noncomputable def wv3 (k ρ D m : ℝ) (σ : ℂ) (y : ℝ) : ℂ :=
  (σ * lam3 ρ D m y + 3 * (σ * lam1 k ρ D m y) * (σ * lam2 ρ D m y) + (σ * lam1 k ρ D m y) ^ 3) * wv k ρ D m σ y

theorem d_wv (k ρ D : ℝ) {m : ℝ} (hm : 2 ≤ m) (σ : ℂ) (y : ℝ) : HasDerivAt (wv k ρ D m σ) (wv1 k ρ D m σ y) y :=
  (((d_lam k ρ D hm y).const_mul σ).cexp).congr_deriv (by rw [wv1, wv]; ring)

theorem d_wv1 (k ρ D : ℝ) {m : ℝ} (hm : 2 ≤ m) (σ : ℂ) (y : ℝ) : HasDerivAt (wv1 k ρ D m σ) (wv2 k ρ D m σ y) y :=
  (((d_lam1 k ρ D hm y).const_mul σ).mul (d_wv k ρ D hm σ y)).congr_deriv (by rw [wv2, wv1]; ring)

theorem d_wv2 (k ρ D : ℝ) {m : ℝ} (hm : 2 ≤ m) (σ : ℂ) (y : ℝ) : HasDerivAt (wv2 k ρ D m σ) (wv3 k ρ D m σ y) y :=
  ((((d_lam2 ρ D hm y).const_mul σ).add (((d_lam1 k ρ D hm y).const_mul σ).pow 2)).mul (d_wv k ρ D hm σ y)).congr_deriv (by
    simp only [wv3, wv1, Pi.add_apply, Pi.pow_apply]; push_cast; ring)

/-- Bounds for the first three derivatives of the depth, for all `k ≤ k₀`, `ρ ≤ ρ₀`. -/
noncomputable def L1 (k₀ ρ₀ D m : ℝ) : ℝ := k₀ + ρ₀ * (m + 1) / D
noncomputable def L2 (ρ₀ D m : ℝ) : ℝ := ρ₀ * (m + 1) * m / D ^ 2
noncomputable def L3 (ρ₀ D m : ℝ) : ℝ := ρ₀ * (m + 1) * m * (m - 1) / D ^ 3
/-- Bound for the second and third derivative of the waves. -/
noncomputable def bnd (k₀ ρ₀ D m : ℝ) : ℝ := (L2 ρ₀ D m + L1 k₀ ρ₀ D m ^ 2 + (L3 ρ₀ D m + 3 * L1 k₀ ρ₀ D m * L2 ρ₀ D m + L1 k₀ ρ₀ D m ^ 3)) * Real.exp ρ₀

theorem lam_bounds {k ρ k₀ ρ₀ D m y : ℝ} (hk : 0 ≤ k) (hk0 : k ≤ k₀) (hρ : 0 ≤ ρ) (hρ0 : ρ ≤ ρ₀) (hD : 0 < D) (hm : 2 ≤ m) (hy : y ∈ Set.Icc 0 D) :
    ‖lam1 k ρ D m y‖ ≤ L1 k₀ ρ₀ D m ∧ ‖lam2 ρ D m y‖ ≤ L2 ρ₀ D m ∧ ‖lam3 ρ D m y‖ ≤ L3 ρ₀ D m := by
  have q0 : 0 ≤ y / D := div_nonneg hy.1 hD.le
  have q1 : y / D ≤ 1 := (div_le_one hD).2 hy.2
  have pw : ∀ p : ℝ, 0 ≤ p → 0 ≤ (y / D) ^ p ∧ (y / D) ^ p ≤ 1 := fun p hp => ⟨Real.rpow_nonneg q0 p, Real.rpow_le_one q0 q1 hp⟩
  have gen : ∀ A p : ℝ, 0 ≤ A → 0 ≤ p → ρ * (A * (y / D) ^ p) ≤ ρ₀ * A ∧ 0 ≤ ρ * (A * (y / D) ^ p) := fun A p hA hp =>
    ⟨mul_le_mul hρ0 (mul_le_of_le_one_right hA (pw p hp).2) (mul_nonneg hA (pw p hp).1) (hρ.trans hρ0), mul_nonneg hρ (mul_nonneg hA (pw p hp).1)⟩
  refine ⟨?_, ?_, ?_⟩
  · rw [lam1, L1]
    refine (norm_add_le _ _).trans (add_le_add ?_ ?_)
    · rw [norm_mul, norm_I, one_mul, norm_real, Real.norm_eq_abs, abs_of_nonneg hk]; exact hk0
    · have := gen ((m + 1) / D) m (by have : 0 < m + 1 := by linarith
                                      positivity) (by linarith)
      rw [norm_real, Real.norm_eq_abs, show ρ * ((m + 1) * (y / D) ^ m / D) = ρ * ((m + 1) / D * (y / D) ^ m) by ring, abs_of_nonneg this.2]
      exact this.1.trans (le_of_eq (by ring))
  · have h1 : 0 < m + 1 := by linarith
    have h2 : 0 < m := by linarith
    have := gen ((m + 1) * m / D ^ 2) (m - 1) (by positivity) (by linarith)
    rw [lam2, L2, norm_real, Real.norm_eq_abs, show ρ * ((m + 1) * (m * (y / D) ^ (m - 1) / D) / D) = ρ * ((m + 1) * m / D ^ 2 * (y / D) ^ (m - 1)) by ring, abs_of_nonneg this.2]
    exact this.1.trans (le_of_eq (by ring))
  · have h1 : 0 < m + 1 := by linarith
    have h2 : 0 < m := by linarith
    have h3 : 0 < m - 1 := by linarith
    have := gen ((m + 1) * m * (m - 1) / D ^ 3) (m - 2) (by positivity) (by linarith)
    rw [lam3, L3, norm_real, Real.norm_eq_abs, show ρ * ((m + 1) * (m * ((m - 1) * (y / D) ^ (m - 2) / D) / D) / D) = ρ * ((m + 1) * m * (m - 1) / D ^ 3 * (y / D) ^ (m - 2)) by ring,
      abs_of_nonneg this.2]
    exact this.1.trans (le_of_eq (by ring))

theorem norm_wv {k ρ ρ₀ D m y : ℝ} (hρ : 0 ≤ ρ) (hρ0 : ρ ≤ ρ₀) (hD : 0 < D) (hm : 2 ≤ m) (hy : y ∈ Set.Icc 0 D) {σ : ℂ} (hσ : σ = 1 ∨ σ = -1) : ‖wv k ρ D m σ y‖ ≤ Real.exp ρ₀ := by
  have q0 : 0 ≤ y / D := div_nonneg hy.1 hD.le
  have q1 : y / D ≤ 1 := (div_le_one hD).2 hy.2
  have p0 := Real.rpow_nonneg q0 (m + 1)
  have p1 := Real.rpow_le_one q0 q1 (show 0 ≤ m + 1 by linarith)
  have hl : (lam k ρ D m y).re = ρ * (y / D) ^ (m + 1) := by
    rw [lam, add_re, ofReal_re, mul_assoc, I_mul_re, ← ofReal_mul, ofReal_im, neg_zero, zero_add]
  have hb : ρ * (y / D) ^ (m + 1) ≤ ρ₀ := (mul_le_of_le_one_right hρ p1).trans hρ0
  have hb0 : 0 ≤ ρ * (y / D) ^ (m + 1) := mul_nonneg hρ p0
  rw [wv, Complex.norm_exp]
  refine Real.exp_le_exp.2 ?_
  rcases hσ with rfl | rfl
  · rw [one_mul, hl]; exact hb
  · rw [neg_one_mul, neg_re, hl]; linarith

theorem smooth_wv {k ρ k₀ ρ₀ D m : ℝ} (hk : 0 ≤ k) (hk0 : k ≤ k₀) (hρ : 0 ≤ ρ) (hρ0 : ρ ≤ ρ₀) (hD : 0 < D) (hm : 2 ≤ m) {σ : ℂ} (hσ : σ = 1 ∨ σ = -1) :
    Smooth D (bnd k₀ ρ₀ D m) (wv k ρ D m σ) (wv1 k ρ D m σ) (wv2 k ρ D m σ) (wv3 k ρ D m σ) := by
  have nσ : ‖σ‖ = 1 := by rcases hσ with rfl | rfl <;> simp
  have key : ∀ y ∈ Set.Icc 0 D, ‖wv2 k ρ D m σ y‖ ≤ (L2 ρ₀ D m + L1 k₀ ρ₀ D m ^ 2) * Real.exp ρ₀ ∧ 0 ≤ (L2 ρ₀ D m + L1 k₀ ρ₀ D m ^ 2) * Real.exp ρ₀ ∧
      ‖wv3 k ρ D m σ y‖ ≤ (L3 ρ₀ D m + 3 * L1 k₀ ρ₀ D m * L2 ρ₀ D m + L1 k₀ ρ₀ D m ^ 3) * Real.exp ρ₀ ∧
      0 ≤ (L3 ρ₀ D m + 3 * L1 k₀ ρ₀ D m * L2 ρ₀ D m + L1 k₀ ρ₀ D m ^ 3) * Real.exp ρ₀ := by
    intro y hy
    obtain ⟨b1, b2, b3⟩ := lam_bounds hk hk0 hρ hρ0 hD hm hy
    have bw := norm_wv (k := k) hρ hρ0 hD hm hy hσ
    have l1 := (norm_nonneg _).trans b1
    have l2 := (norm_nonneg _).trans b2
    have l3 := (norm_nonneg _).trans b3
    have c1 : ‖σ * lam1 k ρ D m y‖ ≤ L1 k₀ ρ₀ D m := by rw [norm_mul, nσ, one_mul]; exact b1
    have c2 : ‖σ * lam2 ρ D m y‖ ≤ L2 ρ₀ D m := by rw [norm_mul, nσ, one_mul]; exact b2
    have c3 : ‖σ * lam3 ρ D m y‖ ≤ L3 ρ₀ D m := by rw [norm_mul, nσ, one_mul]; exact b3
    refine ⟨?_, by positivity, ?_, by positivity⟩
    · rw [wv2, norm_mul]
      refine mul_le_mul ((norm_add_le _ _).trans (add_le_add c2 ?_)) bw (norm_nonneg _) (by positivity)
      rw [norm_pow]; exact pow_le_pow_left₀ (norm_nonneg _) c1 2
    · rw [wv3, norm_mul]
      refine mul_le_mul ((norm_add_le _ _).trans (add_le_add ((norm_add_le _ _).trans (add_le_add c3 ?_)) ?_)) bw (norm_nonneg _) (by positivity)
      · rw [norm_mul, norm_mul, Complex.norm_ofNat]
        exact mul_le_mul (mul_le_mul_of_nonneg_left c1 (by norm_num)) c2 (norm_nonneg _) (by positivity)
      · rw [norm_pow]; exact pow_le_pow_left₀ (norm_nonneg _) c1 3
  refine ⟨fun y _ => d_wv k ρ D hm σ y, fun y _ => d_wv1 k ρ D hm σ y, fun y _ => d_wv2 k ρ D hm σ y, fun y hy => ?_, fun y hy => ?_⟩
  · obtain ⟨h1, h2, h3, h4⟩ := key y hy
    rw [bnd, add_mul]; linarith
  · obtain ⟨h1, h2, h3, h4⟩ := key y hy
    rw [bnd, add_mul]; linarith


theorem lam_zero {k ρ D m : ℝ} (hm : 2 ≤ m) : lam k ρ D m 0 = 0 := by
  simp [lam, Real.zero_rpow (show m + 1 ≠ 0 by linarith)]

theorem wv_zero {k ρ D m : ℝ} (hm : 2 ≤ m) (σ : ℂ) : wv k ρ D m σ 0 = 1 := by rw [wv, lam_zero hm, mul_zero, Complex.exp_zero]

/-- Factor for crossing both layers. -/
noncomputable def cross (k ρ D m : ℝ) (σ : ℂ) : ℂ := Complex.exp (2 * (σ * lam k ρ D m D))

theorem cross_wv (k ρ D m : ℝ) (σ : ℂ) (y : ℝ) (hy : y = D) : cross k ρ D m σ * wv k ρ D m (-σ) y = wv k ρ D m σ y := by
  rw [cross, wv, wv, ← Complex.exp_add, hy]; congr 1; ring

/-- Depth in the layers of the nodes and of the half nodes along the path through both layers. -/
noncomputable def yE (t : ℕ) (w : ℝ) (j : ℕ) : ℝ := if j ≤ t then j * w else (2 * t - j) * w
noncomputable def yH (t : ℕ) (w : ℝ) (j : ℕ) : ℝ := if j < t then (j + 1 / 2) * w else (2 * t - j - 1 / 2) * w

/-- The wave on the path. -/
noncomputable def RE (k ρ D m : ℝ) (t : ℕ) (w : ℝ) (σ : ℂ) (j : ℕ) : ℂ :=
  if j ≤ t then wv k ρ D m σ (j * w) else cross k ρ D m σ * wv k ρ D m (-σ) ((2 * t - j) * w)
noncomputable def RG (k ρ D m : ℝ) (t : ℕ) (w : ℝ) (σ : ℂ) (j : ℕ) : ℂ :=
  -σ * (if j < t then wv k ρ D m σ ((j + 1 / 2) * w) else cross k ρ D m σ * wv k ρ D m (-σ) ((2 * t - j - 1 / 2) * w))

section residuals
variable {k ρ D m M w : ℝ} {t : ℕ} {σ : ℂ}

/-- Midpoint rule for the wave, centre `c`. -/
theorem mid_wv (S : Smooth D M (wv k ρ D m σ) (wv1 k ρ D m σ) (wv2 k ρ D m σ) (wv3 k ρ D m σ)) (hw : 0 < w) {c l r : ℝ} (hl : l = c - w / 2) (hr : r = c + w / 2)
    (h0 : 0 ≤ l) (hD : r ≤ D) : ‖wv k ρ D m σ r - wv k ρ D m σ l - w * (σ * lam1 k ρ D m c * wv k ρ D m σ c)‖ ≤ M * w ^ 3 := by
  have h := midpoint S (c := c) (h := w / 2) (by positivity) (by linarith) (by linarith)
  have hM : 0 ≤ M := (norm_nonneg _).trans (S.b2 c ⟨by linarith, by linarith⟩)
  have e : wv k ρ D m σ r - wv k ρ D m σ l - w * (σ * lam1 k ρ D m c * wv k ρ D m σ c)
      = wv k ρ D m σ (c + w / 2) - wv k ρ D m σ (c - w / 2) - 2 * ((w / 2 : ℝ) : ℂ) * wv1 k ρ D m σ c := by rw [hl, hr, wv1]; push_cast; ring
  rw [e]
  refine h.trans ?_
  have : 0 ≤ M * w ^ 3 := by positivity
  nlinarith

theorem resE (S : Smooth D M (wv k ρ D m σ) (wv1 k ρ D m σ) (wv2 k ρ D m σ) (wv3 k ρ D m σ))
    (S' : Smooth D M (wv k ρ D m (-σ)) (wv1 k ρ D m (-σ)) (wv2 k ρ D m (-σ)) (wv3 k ρ D m (-σ))) (hw : 0 < w) (ht : t * w = D) {Y : ℝ} (hY : 1 ≤ Y)
    (hX : ‖cross k ρ D m σ‖ ≤ Y) (j : ℕ) (hj : j < 2 * t) :
    ‖RE k ρ D m t w σ (j + 1) - RE k ρ D m t w σ j + w * lam1 k ρ D m (yH t w j) * RG k ρ D m t w σ j‖ ≤ Y * (M * w ^ 3) := by
  have hD : 0 < D := by rw [← ht]; exact mul_pos (by exact_mod_cast (by omega : 0 < t)) hw
  have hM : 0 ≤ M := (norm_nonneg _).trans (S.b2 0 ⟨le_rfl, hD.le⟩)
  have hMw : 0 ≤ M * w ^ 3 := by positivity
  by_cases h : j < t
  · have hc : ((j + 1 : ℕ) : ℝ) ≤ t := by exact_mod_cast h
    push_cast at hc
    have h1 := mid_wv S hw (c := (j + 1 / 2) * w) (l := j * w) (r := (j + 1) * w) (by ring) (by ring) (by positivity) (by rw [← ht]; exact mul_le_mul_of_nonneg_right hc hw.le)
    have e : RE k ρ D m t w σ (j + 1) - RE k ρ D m t w σ j + w * lam1 k ρ D m (yH t w j) * RG k ρ D m t w σ j
        = wv k ρ D m σ ((j + 1) * w) - wv k ρ D m σ (j * w) - w * (σ * lam1 k ρ D m ((j + 1 / 2) * w) * wv k ρ D m σ ((j + 1 / 2) * w)) := by
      rw [RE, RE, RG, yH, if_pos h, if_pos h, if_pos h.le, if_pos (show j + 1 ≤ t by omega)]; push_cast; ring
    rw [e]
    exact h1.trans (le_mul_of_one_le_left hMw hY)
  · have hc : ((j + 1 : ℕ) : ℝ) ≤ 2 * t := by exact_mod_cast (by omega : j + 1 ≤ 2 * t)
    have hc' : (t : ℝ) ≤ j := by exact_mod_cast (by omega : t ≤ j)
    push_cast at hc
    have h1 := mid_wv S' hw (c := (2 * t - j - 1 / 2) * w) (l := (2 * t - (j + 1)) * w) (r := (2 * t - j) * w) (by ring) (by ring) (mul_nonneg (by linarith) hw.le)
      (by rw [← ht]; exact mul_le_mul_of_nonneg_right (by linarith) hw.le)
    have e1 : RE k ρ D m t w σ j = cross k ρ D m σ * wv k ρ D m (-σ) ((2 * t - j) * w) := by
      rw [RE]
      by_cases hjt : j ≤ t
      · obtain rfl : j = t := by omega
        rw [if_pos hjt, show (2 * (j : ℝ) - j) * w = j * w by ring, cross_wv _ _ _ _ _ _ ht]
      · rw [if_neg hjt]
    have e : RE k ρ D m t w σ (j + 1) - RE k ρ D m t w σ j + w * lam1 k ρ D m (yH t w j) * RG k ρ D m t w σ j
        = -cross k ρ D m σ * (wv k ρ D m (-σ) ((2 * t - j) * w) - wv k ρ D m (-σ) ((2 * t - (j + 1)) * w)
          - w * (-σ * lam1 k ρ D m ((2 * t - j - 1 / 2) * w) * wv k ρ D m (-σ) ((2 * t - j - 1 / 2) * w))) := by
      rw [e1, RE, RG, yH, if_neg h, if_neg h, if_neg (show ¬ j + 1 ≤ t by omega)]; push_cast; ring
    rw [e, norm_mul, norm_neg]
    exact mul_le_mul hX h1 (norm_nonneg _) (by linarith)

theorem resG (hσ : σ * σ = 1) (S : Smooth D M (wv k ρ D m σ) (wv1 k ρ D m σ) (wv2 k ρ D m σ) (wv3 k ρ D m σ))
    (S' : Smooth D M (wv k ρ D m (-σ)) (wv1 k ρ D m (-σ)) (wv2 k ρ D m (-σ)) (wv3 k ρ D m (-σ))) (hw : 0 < w) (ht : t * w = D) {Y : ℝ} (hY : 1 ≤ Y)
    (hX : ‖cross k ρ D m σ‖ ≤ Y) (j : ℕ) (hj : j + 1 < 2 * t) :
    ‖RG k ρ D m t w σ (j + 1) - RG k ρ D m t w σ j + w * lam1 k ρ D m (yE t w (j + 1)) * RE k ρ D m t w σ (j + 1)‖
      ≤ Y * (M * w ^ 3) + if j + 1 = t then Y * (M * w ^ 2) else 0 := by
  have hD : 0 < D := by rw [← ht]; exact mul_pos (by exact_mod_cast (by omega : 0 < t)) hw
  have hM : 0 ≤ M := (norm_nonneg _).trans (S.b2 0 ⟨le_rfl, hD.le⟩)
  have hMw : 0 ≤ M * w ^ 3 := by positivity
  have hσn : ‖σ‖ = 1 := by
    have := congrArg norm hσ
    rw [norm_mul, norm_one] at this
    nlinarith [norm_nonneg σ]
  rcases lt_trichotomy (j + 1) t with h | h | h
  · rw [if_neg h.ne, add_zero]
    have hc : ((j + 2 : ℕ) : ℝ) ≤ t := by exact_mod_cast h
    push_cast at hc
    have h1 := mid_wv S hw (c := (j + 1) * w) (l := (j + 1 / 2) * w) (r := (j + 1 + 1 / 2) * w) (by ring) (by ring) (by positivity)
      (by rw [← ht]; exact mul_le_mul_of_nonneg_right (by linarith) hw.le)
    have e : RG k ρ D m t w σ (j + 1) - RG k ρ D m t w σ j + w * lam1 k ρ D m (yE t w (j + 1)) * RE k ρ D m t w σ (j + 1)
        = -σ * (wv k ρ D m σ ((j + 1 + 1 / 2) * w) - wv k ρ D m σ ((j + 1 / 2) * w) - w * (σ * lam1 k ρ D m ((j + 1) * w) * wv k ρ D m σ ((j + 1) * w))) := by
      rw [RE, RG, RG, yE, if_pos h, if_pos (show j < t by omega), if_pos h.le, if_pos h.le]; push_cast
      linear_combination (-(w * lam1 k ρ D m ((j + 1) * w) * wv k ρ D m σ ((j + 1) * w))) * hσ
    rw [e, norm_mul, norm_neg, hσn, one_mul]
    exact h1.trans (le_mul_of_one_le_left hMw hY)
  · rw [if_pos h]
    subst h
    have hD' : ((j : ℝ) + 1) * w = D := by rw [← ht]; push_cast; ring
    have hDm : D ∈ Set.Icc 0 D := ⟨hD.le, le_rfl⟩
    have hdm : D - w / 2 ∈ Set.Icc 0 D := by
      constructor
      · rw [← hD']; have : 0 ≤ (j : ℝ) * w := by positivity
        linarith
      · linarith
    have t1 := taylor1 S.d1 S.d2 S.b2 hDm hdm
    have t2 := taylor1 S'.d1 S'.d2 S'.b2 hDm hdm
    have hx := cross_wv k ρ D m σ D rfl
    have e : RG k ρ D m (j + 1) w σ (j + 1) - RG k ρ D m (j + 1) w σ j + w * lam1 k ρ D m (yE (j + 1) w (j + 1)) * RE k ρ D m (j + 1) w σ (j + 1)
        = -σ * (cross k ρ D m σ * (wv k ρ D m (-σ) (D - w / 2) - wv k ρ D m (-σ) D - ((D - w / 2 : ℝ) - D) * wv1 k ρ D m (-σ) D))
          + σ * (wv k ρ D m σ (D - w / 2) - wv k ρ D m σ D - ((D - w / 2 : ℝ) - D) * wv1 k ρ D m σ D) := by
      rw [RE, RG, RG, yE, if_pos le_rfl, if_pos le_rfl, if_neg (lt_irrefl _), if_pos (Nat.lt_succ_self j)]
      rw [show (2 * ((j + 1 : ℕ) : ℝ) - ((j + 1 : ℕ) : ℝ) - 1 / 2) * w = D - w / 2 by rw [← hD']; push_cast; ring,
        show ((j : ℝ) + 1 / 2) * w = D - w / 2 by rw [← hD']; ring, show ((j + 1 : ℕ) : ℝ) * w = D by rw [← hD']; push_cast; ring, wv1, wv1]
      push_cast
      linear_combination (-(w : ℂ) * lam1 k ρ D m D * wv k ρ D m σ D) * hσ + (-σ - σ * σ * w / 2 * lam1 k ρ D m D) * hx
    rw [e]
    refine (norm_add_le _ _).trans ?_
    rw [norm_mul, norm_neg, hσn, one_mul, norm_mul, norm_mul, hσn, one_mul]
    have b1 := mul_le_mul hX t2 (norm_nonneg _) (by linarith)
    have hq : (D - w / 2 - D) ^ 2 = w ^ 2 / 4 := by ring
    rw [hq] at b1 t1
    have p2 : 0 ≤ M * w ^ 2 := by positivity
    have p3 : M * w ^ 2 ≤ Y * (M * w ^ 2) := le_mul_of_one_le_left p2 hY
    have p4 : 0 ≤ Y * (M * w ^ 3) := by positivity
    have : Y * (M * (w ^ 2 / 4)) + M * (w ^ 2 / 4) ≤ Y * (M * w ^ 2) := by nlinarith
    linarith
  · rw [if_neg h.ne', add_zero]
    have hc : ((j + 2 : ℕ) : ℝ) ≤ 2 * t := by exact_mod_cast hj
    have hc' : (t : ℝ) ≤ j := by exact_mod_cast (by omega : t ≤ j)
    push_cast at hc
    have h1 := mid_wv S' hw (c := (2 * t - (j + 1)) * w) (l := (2 * t - (j + 1) - 1 / 2) * w) (r := (2 * t - j - 1 / 2) * w) (by ring) (by ring) (mul_nonneg (by linarith) hw.le)
      (by rw [← ht]; exact mul_le_mul_of_nonneg_right (by linarith) hw.le)
    have e : RG k ρ D m t w σ (j + 1) - RG k ρ D m t w σ j + w * lam1 k ρ D m (yE t w (j + 1)) * RE k ρ D m t w σ (j + 1)
        = σ * (cross k ρ D m σ * (wv k ρ D m (-σ) ((2 * t - j - 1 / 2) * w) - wv k ρ D m (-σ) ((2 * t - (j + 1) - 1 / 2) * w)
          - w * (-σ * lam1 k ρ D m ((2 * t - (j + 1)) * w) * wv k ρ D m (-σ) ((2 * t - (j + 1)) * w)))) := by
      rw [RE, RG, RG, yE, if_neg (by omega), if_neg (by omega), if_neg (by omega), if_neg (by omega)]; push_cast
      linear_combination (-(w * lam1 k ρ D m ((2 * t - (j + 1)) * w) * cross k ρ D m σ * wv k ρ D m (-σ) ((2 * t - (j + 1)) * w))) * hσ
    rw [e, norm_mul, hσn, one_mul, norm_mul]
    exact mul_le_mul hX h1 (norm_nonneg _) (by linarith)

end residuals


/-- Half a cell of the wave of the lattice: `exp(-i κ w / 2)` with `sin(κ w / 2) = k w / 2 = θ`. -/
noncomputable def hop (θ : ℝ) : ℂ := (Real.sqrt (1 - θ ^ 2) : ℝ) - I * θ

theorem hop_conj (θ : ℝ) : (starRingEnd ℂ) (hop θ) = (Real.sqrt (1 - θ ^ 2) : ℝ) + I * θ := by
  simp [hop, conj_ofReal]

theorem hop_mul_conj {θ : ℝ} (h : θ ^ 2 ≤ 1) : hop θ * (starRingEnd ℂ) (hop θ) = 1 := by
  rw [hop_conj, hop]
  have h1 : ((Real.sqrt (1 - θ ^ 2) : ℝ) : ℂ) * ((Real.sqrt (1 - θ ^ 2) : ℝ) : ℂ) = 1 - θ ^ 2 := by
    rw [← ofReal_mul, Real.mul_self_sqrt (by linarith)]; push_cast; ring
  linear_combination h1 - (θ : ℂ) ^ 2 * I_sq

theorem norm_hop {θ : ℝ} (h : θ ^ 2 ≤ 1) : ‖hop θ‖ = 1 := by
  have := congrArg norm (hop_mul_conj h)
  rw [norm_mul, RCLike.norm_conj, norm_one] at this
  nlinarith [norm_nonneg (hop θ)]

theorem sqrt_near {θ : ℝ} (h : θ ^ 2 ≤ 1) : |Real.sqrt (1 - θ ^ 2) - 1| ≤ θ ^ 2 := by
  have h1 : Real.sqrt (1 - θ ^ 2) ≤ 1 := Real.sqrt_le_one.2 (by nlinarith [sq_nonneg θ])
  have h2 : 1 - θ ^ 2 ≤ Real.sqrt (1 - θ ^ 2) := by
    have h0 := Real.sqrt_nonneg (1 - θ ^ 2)
    have hs := Real.mul_self_sqrt (show 0 ≤ 1 - θ ^ 2 by linarith)
    nlinarith
  rw [abs_le]; constructor <;> linarith

theorem norm_cross {k ρ D m : ℝ} (hD : 0 < D) : ‖cross k ρ D m (-1)‖ = Real.exp (-(2 * ρ)) ∧ ‖cross k ρ D m 1‖ = Real.exp (2 * ρ) := by
  have h : (lam k ρ D m D).re = ρ := by
    simp [lam, div_self hD.ne']
  constructor
  · rw [cross, Complex.norm_exp]; congr 1
    have : (2 * (-1 * lam k ρ D m D) : ℂ) = ((-2 : ℝ) : ℂ) * lam k ρ D m D := by push_cast; ring
    rw [this, re_ofReal_mul, h]; ring
  · rw [cross, Complex.norm_exp]; congr 1
    have : (2 * (1 * lam k ρ D m D) : ℂ) = ((2 : ℝ) : ℂ) * lam k ρ D m D := by push_cast; ring
    rw [this, re_ofReal_mul, h]

theorem cross_inv (k ρ D m : ℝ) : cross k ρ D m 1 = (cross k ρ D m (-1))⁻¹ := by
  rw [cross, cross, ← Complex.exp_neg]; congr 1; ring

theorem yE_mem {t : ℕ} {w D : ℝ} (hw : 0 < w) (ht : t * w = D) {j : ℕ} (hj : j ≤ 2 * t) : yE t w j ∈ Set.Icc 0 D := by
  have hc : (j : ℝ) ≤ 2 * t := by exact_mod_cast hj
  rw [yE, ← ht]
  split_ifs with h
  · exact ⟨by positivity, mul_le_mul_of_nonneg_right (by exact_mod_cast h) hw.le⟩
  · have : (t : ℝ) ≤ j := by exact_mod_cast (by omega : t ≤ j)
    exact ⟨mul_nonneg (by linarith) hw.le, mul_le_mul_of_nonneg_right (by linarith) hw.le⟩

theorem yH_mem {t : ℕ} {w D : ℝ} (hw : 0 < w) (ht : t * w = D) {j : ℕ} (hj : j < 2 * t) : yH t w j ∈ Set.Icc 0 D := by
  have hc : ((j + 1 : ℕ) : ℝ) ≤ 2 * t := by exact_mod_cast hj
  push_cast at hc
  rw [yH, ← ht]
  split_ifs with h
  · have h' : ((j + 1 : ℕ) : ℝ) ≤ t := by exact_mod_cast h
    push_cast at h'
    exact ⟨by positivity, mul_le_mul_of_nonneg_right (by linarith) hw.le⟩
  · have : (t : ℝ) ≤ j := by exact_mod_cast (by omega : t ≤ j)
    exact ⟨mul_nonneg (by linarith) hw.le, mul_le_mul_of_nonneg_right (by linarith) hw.le⟩

theorem far_end {θ : ℝ} (hθ1 : θ ^ 2 ≤ 1 / 4) {X1 X2 a δ : ℂ} (h1 : X1 + X2 = a) (h2 : X1 * (starRingEnd ℂ) (hop θ) - X2 * hop θ = δ) :
    ‖X1‖ ≤ ‖a‖ + ‖δ‖ ∧ ‖X2‖ ≤ ‖a‖ + ‖δ‖ := by
  have nu := norm_hop (show θ ^ 2 ≤ 1 by linarith)
  have hsq : 1 ≤ 2 * Real.sqrt (1 - θ ^ 2) := by
    have : (1 / 2 : ℝ) ≤ Real.sqrt (1 - θ ^ 2) := Real.le_sqrt_of_sq_le (by nlinarith)
    linarith
  have hcs : hop θ + (starRingEnd ℂ) (hop θ) = ((2 * Real.sqrt (1 - θ ^ 2) : ℝ) : ℂ) := by rw [hop_conj, hop]; push_cast; ring
  have fin : ∀ X : ℂ, ‖X * ((2 * Real.sqrt (1 - θ ^ 2) : ℝ) : ℂ)‖ ≤ ‖a‖ + ‖δ‖ → ‖X‖ ≤ ‖a‖ + ‖δ‖ := by
    intro X hX
    rw [norm_mul, norm_real, Real.norm_eq_abs, abs_of_nonneg (by linarith)] at hX
    exact (le_mul_of_one_le_right (norm_nonneg _) hsq).trans hX
  constructor
  · refine fin X1 ?_
    have e : X1 * ((2 * Real.sqrt (1 - θ ^ 2) : ℝ) : ℂ) = a * hop θ + δ := by
      rw [← hcs, ← h1, ← h2]; ring
    rw [e]
    refine (norm_add_le _ _).trans (add_le_add_left ?_ _)
    rw [norm_mul, nu, mul_one]
  · refine fin X2 ?_
    have e : X2 * ((2 * Real.sqrt (1 - θ ^ 2) : ℝ) : ℂ) = a * (starRingEnd ℂ) (hop θ) - δ := by
      rw [← hcs, ← h1, ← h2]; ring
    rw [e]
    refine (norm_sub_le _ _).trans (add_le_add_left ?_ _)
    rw [norm_mul, RCLike.norm_conj, nu, mul_one]

set_option maxHeartbeats 400000 in
/-- The two layers in a row: a wave that enters is attenuated by `cross`, and what is returned is of second order in the cell width. -/
theorem layer_path {k₀ ρ₀ D m : ℝ} (hk₀ : 0 ≤ k₀) (hρ₀ : 0 ≤ ρ₀) (hD : 0 < D) (hm : 2 ≤ m) : ∃ C : ℝ, 0 ≤ C ∧
    ∀ (k ρ : ℝ), 0 < k → k ≤ k₀ → 0 ≤ ρ → ρ ≤ ρ₀ → ∀ (t : ℕ) (w : ℝ), 0 < w → t * w = D → k * w ≤ 1 →
    ∀ (E g : ℕ → ℂ) (pR qR pL qL : ℂ), (∀ j < 2 * t, E (j + 1) = E j - w * lam1 k ρ D m (yH t w j) * g j) →
      (∀ j, j + 1 < 2 * t → g (j + 1) = g j - w * lam1 k ρ D m (yE t w (j + 1)) * E (j + 1)) →
      E 0 = pR + qR → g 0 = pR * hop (k * w / 2) - qR * (starRingEnd ℂ) (hop (k * w / 2)) →
      E (2 * t) = pL + qL → g (2 * t - 1) = pL * (starRingEnd ℂ) (hop (k * w / 2)) - qL * hop (k * w / 2) →
      ‖pL - cross k ρ D m (-1) * pR‖ ≤ C * w ^ 2 * (‖pR‖ + ‖qR‖) ∧ ‖qL - cross k ρ D m 1 * qR‖ ≤ C * w ^ 2 * (‖pR‖ + ‖qR‖) := by
  set M := bnd k₀ ρ₀ D m with hMdef
  have hM : 0 ≤ M := (norm_nonneg _).trans ((smooth_wv hk₀ le_rfl hρ₀ le_rfl hD hm (Or.inl rfl)).b2 0 ⟨le_rfl, hD.le⟩)
  set B := L1 k₀ ρ₀ D m with hBdef
  have hB0 : 0 ≤ B := (norm_nonneg _).trans (lam_bounds hk₀ le_rfl hρ₀ le_rfl hD hm (y := 0) ⟨le_rfl, hD.le⟩).1
  set Y := Real.exp (2 * ρ₀) with hYdef
  have hY : 1 ≤ Y := Real.one_le_exp (by linarith)
  set K := k₀ ^ 2 / 4 + M / 4 with hKdef
  have hK : 0 ≤ K := by positivity
  set G := Real.exp (4 * (D * B)) with hGdef
  have hG : 1 ≤ G := Real.one_le_exp (by positivity)
  refine ⟨G * (K + Y * M * (4 * D + 1)) + Y * M * D + Y * K, by positivity, ?_⟩
  intro k ρ hk hk0 hρ hρ0
  have Sm := smooth_wv (σ := -1) hk.le hk0 hρ hρ0 hD hm (Or.inr rfl)
  have Sp := smooth_wv (σ := 1) hk.le hk0 hρ hρ0 hD hm (Or.inl rfl)
  rw [← hMdef] at Sm Sp
  have hB : ∀ y ∈ Set.Icc 0 D, ‖lam1 k ρ D m y‖ ≤ B := fun y hy => (lam_bounds hk.le hk0 hρ hρ0 hD hm hy).1
  obtain ⟨nX1, nX2⟩ := norm_cross (k := k) (ρ := ρ) (m := m) hD
  have hX1 : ‖cross k ρ D m (-1)‖ ≤ Y := by rw [nX1]; exact Real.exp_le_exp.2 (by linarith)
  have hX2 : ‖cross k ρ D m 1‖ ≤ Y := by rw [nX2]; exact Real.exp_le_exp.2 (by linarith)
  intro t w hw ht hkw E g pR qR pL qL hE hg hE0 hg0 hEn hgn
  set P := ‖pR‖ + ‖qR‖ with hP
  have hP0 : 0 ≤ P := by positivity
  have ht0 : 0 < t := by
    rcases Nat.eq_zero_or_pos t with rfl | h
    · simp at ht; linarith
    · exact h
  have hwD : w ≤ D := by
    rw [← ht]; exact le_mul_of_one_le_left hw.le (by exact_mod_cast ht0)
  set θ := k * w / 2 with hθ
  have hθ0 : 0 < θ := by positivity
  have hθ1 : θ ^ 2 ≤ 1 / 4 := by nlinarith
  have nu := norm_hop (show θ ^ 2 ≤ 1 by linarith)
  -- half cell waves
  have half : ∀ σ : ℂ, Smooth D M (wv k ρ D m σ) (wv1 k ρ D m σ) (wv2 k ρ D m σ) (wv3 k ρ D m σ) →
      ‖((Real.sqrt (1 - θ ^ 2) : ℝ) : ℂ) + σ * (I * θ) - wv k ρ D m σ (w / 2)‖ ≤ K * w ^ 2 := by
    intro σ S
    have h1 := taylor1 S.d1 S.d2 S.b2 (x := 0) (y := w / 2) ⟨le_rfl, hD.le⟩ ⟨by positivity, by linarith⟩
    have hl : lam1 k ρ D m 0 = I * k := by
      simp [lam1, Real.zero_rpow (show m ≠ 0 by linarith)]
    rw [wv1, wv_zero hm, hl] at h1
    have e : ((Real.sqrt (1 - θ ^ 2) : ℝ) : ℂ) + σ * (I * θ) - wv k ρ D m σ (w / 2)
        = ((Real.sqrt (1 - θ ^ 2) - 1 : ℝ) : ℂ) - (wv k ρ D m σ (w / 2) - 1 - ((w / 2 : ℝ) - (0 : ℝ)) * (σ * (I * k) * 1)) := by
      rw [hθ]; push_cast; ring
    rw [e]
    refine (norm_sub_le _ _).trans ?_
    have h2 := sqrt_near (show θ ^ 2 ≤ 1 by linarith)
    rw [norm_real, Real.norm_eq_abs]
    have : θ ^ 2 ≤ k₀ ^ 2 / 4 * w ^ 2 := by
      have := mul_le_mul_of_nonneg_right (pow_le_pow_left₀ hk.le hk0 2) (show 0 ≤ w ^ 2 / 4 by positivity)
      rw [hθ]; linarith
    calc _ ≤ θ ^ 2 + M * (w / 2 - 0) ^ 2 := add_le_add h2 h1
      _ ≤ k₀ ^ 2 / 4 * w ^ 2 + M * (w / 2 - 0) ^ 2 := add_le_add_left this _
      _ = K * w ^ 2 := by rw [hKdef]; ring
  have hm1 : ‖hop θ - wv k ρ D m (-1) (w / 2)‖ ≤ K * w ^ 2 := by
    have := half (-1) Sm
    rwa [show ((Real.sqrt (1 - θ ^ 2) : ℝ) : ℂ) + -1 * (I * θ) = hop θ by rw [hop]; ring] at this
  have hp1 : ‖(starRingEnd ℂ) (hop θ) - wv k ρ D m 1 (w / 2)‖ ≤ K * w ^ 2 := by
    have := half 1 Sp
    rwa [one_mul, ← hop_conj] at this
  -- differences
  let dE : ℕ → ℂ := fun j => E j - (pR * RE k ρ D m t w (-1) j + qR * RE k ρ D m t w 1 j)
  let dg : ℕ → ℂ := fun j => g j - (pR * RG k ρ D m t w (-1) j + qR * RG k ρ D m t w 1 j)
  let A : ℕ → ℂ := fun j => w * lam1 k ρ D m (yH t w j)
  let A' : ℕ → ℂ := fun j => w * lam1 k ρ D m (yE t w (j + 1))
  let rE : ℂ → ℕ → ℂ := fun σ j => RE k ρ D m t w σ (j + 1) - RE k ρ D m t w σ j + w * lam1 k ρ D m (yH t w j) * RG k ρ D m t w σ j
  let rG : ℂ → ℕ → ℂ := fun σ j => RG k ρ D m t w σ (j + 1) - RG k ρ D m t w σ j + w * lam1 k ρ D m (yE t w (j + 1)) * RE k ρ D m t w σ (j + 1)
  have Sm' : Smooth D M (wv k ρ D m (- -1)) (wv1 k ρ D m (- -1)) (wv2 k ρ D m (- -1)) (wv3 k ρ D m (- -1)) := by rw [neg_neg]; exact Sp
  have bE : ∀ j < 2 * t, ‖-(pR * rE (-1) j + qR * rE 1 j)‖ ≤ P * (Y * (M * w ^ 3)) := by
    intro j hj
    rw [norm_neg]
    refine (norm_add_le _ _).trans ?_
    rw [norm_mul, norm_mul, hP, add_mul]
    exact add_le_add (mul_le_mul_of_nonneg_left (resE Sm Sm' hw ht hY hX1 j hj) (norm_nonneg _)) (mul_le_mul_of_nonneg_left (resE Sp Sm hw ht hY hX2 j hj) (norm_nonneg _))
  have bG : ∀ j, j + 1 < 2 * t → ‖-(pR * rG (-1) j + qR * rG 1 j)‖ ≤ P * (Y * (M * w ^ 3) + if j + 1 = t then Y * (M * w ^ 2) else 0) := by
    intro j hj
    rw [norm_neg]
    refine (norm_add_le _ _).trans ?_
    rw [norm_mul, norm_mul, hP, add_mul]
    exact add_le_add (mul_le_mul_of_nonneg_left (resG (by norm_num) Sm Sm' hw ht hY hX1 j hj) (norm_nonneg _))
      (mul_le_mul_of_nonneg_left (resG (by norm_num) Sp Sm hw ht hY hX2 j hj) (norm_nonneg _))
  have sE : ∀ j < 2 * t, dE (j + 1) = dE j - A j * dg j + -(pR * rE (-1) j + qR * rE 1 j) := by
    intro j hj
    simp only [dE, dg, A, rE]; rw [hE j hj]; ring
  have sG : ∀ j, j + 1 < 2 * t → dg (j + 1) = dg j - A' j * dE (j + 1) + -(pR * rG (-1) j + qR * rG 1 j) := by
    intro j hj
    simp only [dE, dg, A', rG]; rw [hg j hj]; ring
  have nA : ∀ j < 2 * t, ‖A j‖ ≤ w * B := by
    intro j hj
    simp only [A]; rw [norm_mul, norm_real, Real.norm_eq_abs, abs_of_pos hw]
    exact mul_le_mul_of_nonneg_left (hB _ (yH_mem hw ht hj)) hw.le
  have nA' : ∀ j, j < 2 * t → ‖A' j‖ ≤ w * B := by
    intro j hj
    simp only [A']; rw [norm_mul, norm_real, Real.norm_eq_abs, abs_of_pos hw]
    exact mul_le_mul_of_nonneg_left (hB _ (yE_mem hw ht (by omega))) hw.le
  have hβ : 0 ≤ w * B := by positivity
  have hpath := path_bound (n := 2 * t - 1) hβ (fun j hj => nA j (by omega)) (fun j hj => nA' j (by omega)) (fun j hj => sE j (by omega))
    (fun j hj => sG j (by omega)) (2 * t - 1) le_rfl
  -- initial values
  have i0 : dE 0 = 0 := by
    simp only [dE, RE, Nat.zero_le, if_true, Nat.cast_zero, zero_mul, wv_zero hm, hE0]; ring
  have i1 : ‖dg 0‖ ≤ P * (K * w ^ 2) := by
    have e : dg 0 = pR * (hop θ - wv k ρ D m (-1) (w / 2)) - qR * ((starRingEnd ℂ) (hop θ) - wv k ρ D m 1 (w / 2)) := by
      simp only [dg, RG, if_pos ht0, hg0]
      rw [show (((0 : ℕ) : ℝ) + 1 / 2) * w = w / 2 by push_cast; ring]; ring
    rw [e]
    refine (norm_sub_le _ _).trans ?_
    rw [norm_mul, norm_mul, hP, add_mul]
    exact add_le_add (mul_le_mul_of_nonneg_left hm1 (norm_nonneg _)) (mul_le_mul_of_nonneg_left hp1 (norm_nonneg _))
  have hsum : ∑ i ∈ Finset.range (2 * t - 1), (‖-(pR * rE (-1) i + qR * rE 1 i)‖ + ‖-(pR * rG (-1) i + qR * rG 1 i)‖) ≤ P * (Y * M * (4 * D + 1) * w ^ 2) := by
    calc _ ≤ ∑ i ∈ Finset.range (2 * t - 1), (2 * (P * (Y * (M * w ^ 3))) + if i + 1 = t then P * (Y * (M * w ^ 2)) else 0) := by
          refine Finset.sum_le_sum fun i hi => ?_
          rw [Finset.mem_range] at hi
          have h1 := bE i (by omega); have h2 := bG i (by omega)
          have h3 : P * (Y * (M * w ^ 3) + if i + 1 = t then Y * (M * w ^ 2) else 0) = P * (Y * (M * w ^ 3)) + if i + 1 = t then P * (Y * (M * w ^ 2)) else 0 := by
            split_ifs <;> ring
          rw [h3] at h2
          linarith
      _ = ((2 * t - 1 : ℕ) : ℝ) * (2 * (P * (Y * (M * w ^ 3)))) + P * (Y * (M * w ^ 2)) := by
          rw [Finset.sum_add_distrib, Finset.sum_const, Finset.card_range, nsmul_eq_mul]
          congr 1
          rw [Finset.sum_eq_single (t - 1)]
          · rw [if_pos (by omega)]
          · intro b _ hb; rw [if_neg (by omega)]
          · intro h; exact absurd (Finset.mem_range.2 (by omega)) h
      _ ≤ _ := by
          have h1 : ((2 * t - 1 : ℕ) : ℝ) ≤ 2 * t := by exact_mod_cast (by omega : 2 * t - 1 ≤ 2 * t)
          have h2 : 0 ≤ 2 * (P * (Y * (M * w ^ 3))) := by positivity
          calc _ ≤ 2 * (t : ℝ) * (2 * (P * (Y * (M * w ^ 3)))) + P * (Y * (M * w ^ 2)) := add_le_add_left (mul_le_mul_of_nonneg_right h1 h2) _
            _ = _ := by rw [← ht]; ring
  -- growth
  have hgrow : (1 + w * B) ^ (2 * (2 * t - 1)) * (1 + w * B) ≤ G := by
    rw [← pow_succ]
    have h1 : 1 + w * B ≤ Real.exp (w * B) := by linarith [Real.add_one_le_exp (w * B)]
    calc (1 + w * B) ^ (2 * (2 * t - 1) + 1) ≤ (1 + w * B) ^ (4 * t) := pow_le_pow_right₀ (by linarith) (by omega)
      _ ≤ Real.exp (w * B) ^ (4 * t) := pow_le_pow_left₀ (by linarith) h1 _
      _ = G := by rw [← Real.exp_nat_mul, hGdef, ← ht]; congr 1; push_cast; ring
  have hlast : ‖dE (2 * t)‖ + ‖dg (2 * t - 1)‖ ≤ P * ((G * (K + Y * M * (4 * D + 1)) + Y * M * D) * w ^ 2) := by
    have h0 : 2 * t - 1 + 1 = 2 * t := by omega
    have h1 := sE (2 * t - 1) (by omega)
    rw [h0] at h1
    have h2 := bE (2 * t - 1) (by omega)
    have h3 : ‖dE (2 * t)‖ ≤ ‖dE (2 * t - 1)‖ + w * B * ‖dg (2 * t - 1)‖ + P * (Y * (M * w ^ 3)) := by
      rw [h1]
      refine (norm_add_le _ _).trans (add_le_add ((norm_sub_le _ _).trans (add_le_add_right ?_ _)) h2)
      rw [norm_mul]; exact mul_le_mul_of_nonneg_right (nA _ (by omega)) (norm_nonneg _)
    have h4 : ‖dE (2 * t)‖ + ‖dg (2 * t - 1)‖ ≤ (1 + w * B) * (‖dE (2 * t - 1)‖ + ‖dg (2 * t - 1)‖) + P * (Y * (M * w ^ 3)) := by
      have := mul_nonneg hβ (norm_nonneg (dE (2 * t - 1)))
      nlinarith
    have h5 : ‖dE 0‖ + ‖dg 0‖ + ∑ i ∈ Finset.range (2 * t - 1), (‖-(pR * rE (-1) i + qR * rE 1 i)‖ + ‖-(pR * rG (-1) i + qR * rG 1 i)‖)
        ≤ P * ((K + Y * M * (4 * D + 1)) * w ^ 2) := by
      rw [i0, norm_zero]; nlinarith
    have h6 : 0 ≤ P * ((K + Y * M * (4 * D + 1)) * w ^ 2) := by positivity
    have h7 : (1 + w * B) * (‖dE (2 * t - 1)‖ + ‖dg (2 * t - 1)‖) ≤ G * (P * ((K + Y * M * (4 * D + 1)) * w ^ 2)) := by
      calc _ ≤ (1 + w * B) * ((1 + w * B) ^ (2 * (2 * t - 1)) * (P * ((K + Y * M * (4 * D + 1)) * w ^ 2))) :=
            mul_le_mul_of_nonneg_left (hpath.trans (mul_le_mul_of_nonneg_left h5 (by positivity))) (by positivity)
        _ = (1 + w * B) ^ (2 * (2 * t - 1)) * (1 + w * B) * (P * ((K + Y * M * (4 * D + 1)) * w ^ 2)) := by ring
        _ ≤ _ := mul_le_mul_of_nonneg_right hgrow h6
    have h8 : P * (Y * (M * w ^ 3)) ≤ P * (Y * M * D * w ^ 2) := by
      refine mul_le_mul_of_nonneg_left ?_ hP0
      have : 0 ≤ Y * M * w ^ 2 := by positivity
      calc Y * (M * w ^ 3) = Y * M * w ^ 2 * w := by ring
        _ ≤ Y * M * w ^ 2 * D := mul_le_mul_of_nonneg_left hwD this
        _ = _ := by ring
    calc _ ≤ _ := h4
      _ ≤ G * (P * ((K + Y * M * (4 * D + 1)) * w ^ 2)) + P * (Y * M * D * w ^ 2) := add_le_add h7 h8
      _ = _ := by ring
  -- amplitudes at the far end
  have fE : (pL - cross k ρ D m (-1) * pR) + (qL - cross k ρ D m 1 * qR) = dE (2 * t) := by
    simp only [dE, RE]
    rw [if_neg (by omega), if_neg (by omega), show (2 * (t : ℝ) - ((2 * t : ℕ) : ℝ)) * w = 0 by push_cast; ring, wv_zero hm, wv_zero hm, hEn]; ring
  have fG : (pL - cross k ρ D m (-1) * pR) * (starRingEnd ℂ) (hop θ) - (qL - cross k ρ D m 1 * qR) * hop θ
      = dg (2 * t - 1) + (-(cross k ρ D m (-1) * pR * ((starRingEnd ℂ) (hop θ) - wv k ρ D m 1 (w / 2))) + cross k ρ D m 1 * qR * (hop θ - wv k ρ D m (-1) (w / 2))) := by
    simp only [dg, RG]
    have hc : ((2 * t - 1 : ℕ) : ℝ) = 2 * t - 1 := by rw [Nat.cast_sub (by omega)]; push_cast; ring
    rw [if_neg (by omega), if_neg (by omega), hc, show (2 * (t : ℝ) - (2 * t - 1) - 1 / 2) * w = w / 2 by ring, hgn, neg_neg]; ring
  set X1 := pL - cross k ρ D m (-1) * pR
  set X2 := qL - cross k ρ D m 1 * qR
  have nδ : ‖dg (2 * t - 1) + (-(cross k ρ D m (-1) * pR * ((starRingEnd ℂ) (hop θ) - wv k ρ D m 1 (w / 2))) + cross k ρ D m 1 * qR * (hop θ - wv k ρ D m (-1) (w / 2)))‖
      ≤ ‖dg (2 * t - 1)‖ + P * (Y * K * w ^ 2) := by
    refine (norm_add_le _ _).trans (add_le_add_right ((norm_add_le _ _).trans ?_) _)
    rw [norm_neg, norm_mul, norm_mul, norm_mul, norm_mul, hP, add_mul]
    refine add_le_add ?_ ?_
    · calc _ ≤ Y * ‖pR‖ * (K * w ^ 2) := mul_le_mul (mul_le_mul_of_nonneg_right hX1 (norm_nonneg _)) hp1 (norm_nonneg _) (by positivity)
        _ = _ := by ring
    · calc _ ≤ Y * ‖qR‖ * (K * w ^ 2) := mul_le_mul (mul_le_mul_of_nonneg_right hX2 (norm_nonneg _)) hm1 (norm_nonneg _) (by positivity)
        _ = _ := by ring
  have hfin : ‖dE (2 * t)‖ + (‖dg (2 * t - 1)‖ + P * (Y * K * w ^ 2)) ≤ (G * (K + Y * M * (4 * D + 1)) + Y * M * D + Y * K) * w ^ 2 * P := by
    calc _ = (‖dE (2 * t)‖ + ‖dg (2 * t - 1)‖) + P * (Y * K * w ^ 2) := by ring
      _ ≤ P * ((G * (K + Y * M * (4 * D + 1)) + Y * M * D) * w ^ 2) + P * (Y * K * w ^ 2) := add_le_add_left hlast _
      _ = _ := by ring
  obtain ⟨f1, f2⟩ := far_end hθ1 fE fG
  exact ⟨f1.trans ((add_le_add_right nδ _).trans hfin), f2.trans ((add_le_add_right nδ _).trans hfin)⟩

end ScpmlOpen
end Meanas.Props
