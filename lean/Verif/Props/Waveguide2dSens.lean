/-
C45: `sensitivity` of meanas/fdfd/waveguide_2d.py against the derivative of the wavenumber.
-/
import Verif.Props.Waveguide2dModes
import Mathlib.Analysis.Calculus.Deriv.Mul
import Mathlib.Analysis.Calculus.Deriv.Inv
import Mathlib.Analysis.Calculus.Deriv.Slope
import Mathlib.Analysis.Calculus.Deriv.Add
import Mathlib.Analysis.Calculus.Deriv.Pow
import Mathlib.Analysis.Complex.RealDeriv
import Mathlib.Analysis.SpecialFunctions.Sqrt
import Mathlib.Algebra.BigOperators.Field

namespace Meanas.Props

open Matrix Complex OperatorsS Spec Wg2

variable {sh : Fin 2 → ℕ}

/-- A grid with the same width everywhere along each axis. -/
def UniformGrid (d : Fin 2 → ℂ) (dxes : Dx2 sh) : Prop := (∀ a, d a ≠ 0) ∧ (∀ a i, dxes.1 a i = d a) ∧ ∀ a i, dxes.2 a i = d a

theorem parts_uniform {d : Fin 2 → ℂ} {dxes : Dx2 sh} (hd : UniformGrid d dxes) (a : Fin 2) (f g : Idx sh → ℂ) :
    ∑ x, f x * bw dxes a g x = -∑ x, fw dxes a f x * g x := by
  have := sum_by_parts a (fun _ => 1) g f (fun _ => rfl)
  simp only [one_mul] at this
  have e1 : ∀ x, f x * bw dxes a g x = (f x * (g x - g (shiftIdx a (-1) x))) / d a := fun x => by
    rw [bw, derivBack_eq, wOf_some, hd.2.2]; ring
  have e2 : ∀ x, fw dxes a f x * g x = (g x * (f (shiftIdx a 1 x) - f x)) / d a := fun x => by
    rw [fw, derivForward_eq, wOf_some, hd.2.1]; ring
  simp only [e1, e2, div_eq_mul_inv, ← Finset.sum_mul]
  rw [this]; ring

/-- On a uniform grid the rotated transverse H of a mode is a left eigenvector of `operator_e`. -/
theorem left_eigenvector {d : Fin 2 → ℂ} {dxes : Dx2 sh} (hd : UniformGrid d dxes) {β ω : ℂ} (hω : ω ≠ 0) {eps : V 3 sh} {mu : Option (V 3 sh)}
    (heps : ∀ p, eps p ≠ 0) (hmu : ∀ p, mu.getD 1 p ≠ 0) {E H : Fin 3 → Arr sh ℂ}
    (m : IsMode β ω dxes.1 dxes.2 (fld eps) (fld (mu.getD 1)) E H) (u : V 2 sh) :
    ∑ x, (H 1 x * (operatorE ω dxes eps mu *ᵥ u) (0, x) - H 0 x * (operatorE ω dxes eps mu *ᵥ u) (1, x))
      = β ^ 2 * ∑ x, (H 1 x * u (0, x) - H 0 x * u (1, x)) := by
  have fX := m.faradayX; have fY := m.faradayY; have fZ := m.faradayZ
  have aX := m.ampereX; have aY := m.ampereY; have aZ := m.ampereZ
  simp only [gradForward_fw, gradBack_bw] at fX fY fZ aX aY aZ
  generalize hmm : mu.getD 1 = mm at *
  obtain ⟨d2, -, -⟩ := eig_of_mode (bwL dxes) (fwL dxes) (fwL_comm dxes) (β := β) (neg_ne_zero.2 hω) (fld mm) (fld eps) H E
    (fun x => by rw [bwL_apply, aX]; ring) (fun x => by rw [bwL_apply, aY]; ring)
    (fun x => by rw [fwL_apply, fX]; ring) (fun x => by rw [fwL_apply, fY]; ring) (fun x => by rw [fwL_apply, fwL_apply, fZ]; ring)
  simp only [fwL_apply] at d2
  set Z : Idx sh → ℂ := fun y => (fw dxes 0 (part u 1) y - fw dxes 1 (part u 0) y) / mm (2, y) with hZ
  set D : Idx sh → ℂ := fun y => (bw dxes 0 (fun z => eps (0, z) * u (0, z)) y + bw dxes 1 (fun z => eps (1, z) * u (1, z)) y) / eps (2, y) with hD
  have b1 := parts_uniform hd 1 (fld mm 1 * H 1) Z
  have b2 := parts_uniform hd 0 (fld mm 0 * H 0) Z
  have b3 := parts_uniform hd 0 D (H 1)
  have b4 := parts_uniform hd 1 D (H 0)
  have c1 := parts_uniform hd 0 (part u 1) (H 2)
  have c2 := parts_uniform hd 1 (part u 0) (H 2)
  have c3 := parts_uniform hd 0 (E 2) (fun z => eps (0, z) * u (0, z))
  have c4 := parts_uniform hd 1 (E 2) (fun z => eps (1, z) * u (1, z))
  have hL : ∑ x, (H 1 x * (operatorE ω dxes eps mu *ᵥ u) (0, x) - H 0 x * (operatorE ω dxes eps mu *ᵥ u) (1, x))
      = ω ^ 2 * ∑ x, (mm (1, x) * eps (0, x) * u (0, x) * H 1 x - mm (0, x) * eps (1, x) * u (1, x) * H 0 x)
        - ∑ x, (fld mm 1 * H 1) x * bw dxes 1 Z x - ∑ x, (fld mm 0 * H 0) x * bw dxes 0 Z x
        + ∑ x, fw dxes 0 D x * H 1 x - ∑ x, fw dxes 1 D x * H 0 x := by
    rw [Finset.mul_sum, ← Finset.sum_sub_distrib, ← Finset.sum_sub_distrib, ← Finset.sum_add_distrib, ← Finset.sum_sub_distrib]
    refine Finset.sum_congr rfl fun x _ => ?_
    rw [operatorE_0, operatorE_1, hmm]
    simp only [Pi.mul_apply, fld]
    ring
  have hM : -∑ x, (fld mm 1 * H 1) x * bw dxes 1 Z x - ∑ x, (fld mm 0 * H 0) x * bw dxes 0 Z x
      = I * β * (∑ x, fw dxes 0 (part u 1) x * H 2 x - ∑ x, fw dxes 1 (part u 0) x * H 2 x) := by
    rw [b1, b2, ← Finset.sum_sub_distrib, Finset.mul_sum, neg_neg, sub_neg_eq_add, ← Finset.sum_add_distrib]
    refine Finset.sum_congr rfl fun x _ => ?_
    have h1 : (fw dxes 0 (part u 1) x - fw dxes 1 (part u 0) x) = mm (2, x) * Z x := by
      rw [hZ]; field_simp [hmu (2, x)]
    have h2 := d2 x
    simp only [fld] at h2 ⊢
    linear_combination Z x * h2 - I * β * H 2 x * h1
  have hN : ∑ x, fw dxes 0 D x * H 1 x - ∑ x, fw dxes 1 D x * H 0 x
      = -(I * ω * (∑ x, E 2 x * bw dxes 0 (fun z => eps (0, z) * u (0, z)) x + ∑ x, E 2 x * bw dxes 1 (fun z => eps (1, z) * u (1, z)) x)) := by
    rw [← neg_eq_iff_eq_neg.2 b3, ← neg_eq_iff_eq_neg.2 b4, ← Finset.sum_add_distrib, Finset.mul_sum, ← Finset.sum_neg_distrib, ← Finset.sum_neg_distrib,
      ← Finset.sum_neg_distrib, ← Finset.sum_sub_distrib]
    refine Finset.sum_congr rfl fun x _ => ?_
    have h1 : (bw dxes 0 (fun z => eps (0, z) * u (0, z)) x + bw dxes 1 (fun z => eps (1, z) * u (1, z)) x) = eps (2, x) * D x := by
      rw [hD]; field_simp [heps (2, x)]
    have h2 := aZ x
    simp only [fld] at h2
    linear_combination -D x * h2 + I * ω * E 2 x * h1
  have hfin : ω ^ 2 * ∑ x, (mm (1, x) * eps (0, x) * u (0, x) * H 1 x - mm (0, x) * eps (1, x) * u (1, x) * H 0 x)
      - I * β * (∑ x, part u 1 x * bw dxes 0 (H 2) x - ∑ x, part u 0 x * bw dxes 1 (H 2) x)
      + I * ω * (∑ x, fw dxes 0 (E 2) x * (eps (0, x) * u (0, x)) + ∑ x, fw dxes 1 (E 2) x * (eps (1, x) * u (1, x)))
      = β ^ 2 * ∑ x, (H 1 x * u (0, x) - H 0 x * u (1, x)) := by
    simp only [← Finset.sum_sub_distrib, ← Finset.sum_add_distrib, Finset.mul_sum]
    refine Finset.sum_congr rfl fun x _ => ?_
    have g1 := fX x; have g2 := fY x; have g3 := aX x; have g4 := aY x
    simp only [fld, part] at g1 g2 g3 g4 ⊢
    linear_combination (I * β * u (0, x)) * g3 - (I * ω * eps (0, x) * u (0, x)) * g2 + (I * β * u (1, x)) * g4 + (I * ω * eps (1, x) * u (1, x)) * g1
      + (β ^ 2 * (H 0 x * u (1, x) - H 1 x * u (0, x)) + ω ^ 2 * (mm (1, x) * eps (0, x) * u (0, x) * H 1 x - mm (0, x) * eps (1, x) * u (1, x) * H 0 x)) * I_sq
  rw [hL]
  rw [c1, c2, c3, c4] at *
  linear_combination hM + hN + hfin

/-! ### Differentiation along curves of modes -/

theorem hasDerivAt_mul_of_zero {a b : ℝ → ℂ} {a' : ℂ} (ha : HasDerivAt a a' 0) (h0 : a 0 = 0) (hb : ContinuousAt b 0) :
    HasDerivAt (fun t => a t * b t) (a' * b 0) 0 := by
  rw [hasDerivAt_iff_tendsto_slope] at ha ⊢
  have e : slope (fun t => a t * b t) 0 = fun t => slope a 0 t * b t := by
    funext t
    simp only [slope_def_module, h0, zero_mul, sub_zero, smul_mul_assoc]
  rw [e]
  exact ha.mul (hb.tendsto.mono_left nhdsWithin_le_nhds)

/-- `epsilon` of the transverse components. -/
def exy (eps : V 3 sh) : V 2 sh := fun p => eps (p.1.castSucc, p.2)
/-- `mu_y, mu_x`. -/
def myx (mu : V 3 sh) : V 2 sh := fun p => if p.1 = 0 then mu (1, p.2) else mu (0, p.2)

theorem diag2_exy (eps : V 3 sh) (v : V 2 sh) : diag2 (part eps 0) (part eps 1) *ᵥ v = exy eps * v := by
  funext p
  obtain ⟨c, x⟩ := p
  fin_cases c
  · exact diag2_mulVec_0 _ _ v x
  · exact diag2_mulVec_1 _ _ v x
theorem diag2_myx (mu : V 3 sh) (v : V 2 sh) : diag2 (part mu 1) (part mu 0) *ᵥ v = myx mu * v := by
  funext p
  obtain ⟨c, x⟩ := p
  fin_cases c
  · exact diag2_mulVec_0 _ _ v x
  · exact diag2_mulVec_1 _ _ v x
theorem diag2_myx_vec (mu : V 3 sh) (v : V 2 sh) : v ᵥ* diag2 (part mu 1) (part mu 0) = v * myx mu := by
  funext p
  rw [diag2, vecMul_diagonal]; rfl

/-- `h_v @ vstack(Dfx, Dfy)`. -/
noncomputable def wR (dxes : Dx2 sh) (w : V 2 sh) : Idx sh → ℂ := w ᵥ* vstack (derivForward dxes.1 0) (derivForward dxes.1 1)
/-- `hstack(Dbx, Dby) @ f`. -/
noncomputable def dv (dxes : Dx2 sh) (f : V 2 sh) : Idx sh → ℂ := hstack (derivBack dxes.2 0) (derivBack dxes.2 1) *ᵥ f

/-- Quadratic form of `operator_e`, split into the parts that depend on epsilon. -/
theorem operatorE_form (ω : ℂ) (dxes : Dx2 sh) (mu : Option (V 3 sh)) (w : V 2 sh) :
    ∃ K : M 2 2 sh, ∀ eps : V 3 sh, ∀ v : V 2 sh, w ⬝ᵥ (operatorE ω dxes eps mu *ᵥ v) = ω ^ 2 * ∑ p, w p * myx (mu.getD 1) p * exy eps p * v p + w ⬝ᵥ (K *ᵥ v)
      + ∑ x, wR dxes w x * (1 / eps (2, x)) * dv dxes (exy eps * v) x := by
  refine ⟨diag2 (part (mu.getD 1) 1) (part (mu.getD 1) 0) * vstack (-derivBack dxes.2 1) (derivBack dxes.2 0)
    * (diagonal fun x => 1 / part (mu.getD 1) 2 x) * hstack (-derivForward dxes.1 1) (derivForward dxes.1 0), fun eps v => ?_⟩
  simp only [operatorE, add_mulVec, dotProduct_add, smul_mulVec, ← mulVec_mulVec, diag2_exy, diag2_myx]
  congr 1
  · congr 1
    simp only [dotProduct, Pi.smul_apply, Pi.mul_apply, smul_eq_mul, Finset.mul_sum]
    exact Finset.sum_congr rfl fun p _ => by ring
  · rw [dotProduct_mulVec]
    simp only [dotProduct, mulVec_diagonal, wR, dv, part]
    exact Finset.sum_congr rfl fun x _ => by ring

/-- Derivative of the form in the direction `δ` of epsilon. -/
noncomputable def dForm (ω : ℂ) (dxes : Dx2 sh) (eps mu : V 3 sh) (w v : V 2 sh) (δ : V 3 sh) : ℂ :=
  ω ^ 2 * ∑ p, w p * myx mu p * exy δ p * v p
    + ∑ x, wR dxes w x * (-(δ (2, x)) / eps (2, x) ^ 2 * dv dxes (exy eps * v) x + 1 / eps (2, x) * dv dxes (exy δ * v) x)

theorem dv_apply (dxes : Dx2 sh) (f : V 2 sh) (x : Idx sh) :
    dv dxes f x = ∑ p, hstack (derivBack dxes.2 0) (derivBack dxes.2 1) x p * f p := rfl

/-- The derivative of `β²`, and of `β`, along any continuous curve of modes through a mode with left eigenvector `w`. -/
theorem deriv_of_left (ω : ℂ) (dxes : Dx2 sh) (mu : Option (V 3 sh)) (w : V 2 sh) (ε : ℝ → V 3 sh) (δ : V 3 sh) (β : ℝ → ℂ) (v : ℝ → V 2 sh)
    (hε : ∀ p, HasDerivAt (fun t => ε t p) (δ p) 0) (heps : ∀ p, ε 0 p ≠ 0) (hv : ContinuousAt v 0) (hβc : ContinuousAt β 0) (hβ : β 0 ≠ 0)
    (hmode : ∀ᶠ t in nhds 0, operatorE ω dxes (ε t) mu *ᵥ v t = β t ^ 2 • v t)
    (hleft : ∀ u, w ⬝ᵥ (operatorE ω dxes (ε 0) mu *ᵥ u) = β 0 ^ 2 * (w ⬝ᵥ u)) (hn : w ⬝ᵥ v 0 ≠ 0) :
    HasDerivAt β (dForm ω dxes (ε 0) (mu.getD 1) w (v 0) δ / (2 * β 0 * (w ⬝ᵥ v 0))) 0 := by
  have hvp : ∀ p, ContinuousAt (fun t => v t p) 0 := fun p => (continuous_apply p).continuousAt.comp hv
  have hεc : ∀ p, ContinuousAt (fun t => ε t p) 0 := fun p => (hε p).continuousAt
  obtain ⟨K, hK⟩ := operatorE_form ω dxes mu w
  have hd0 : ∀ p, HasDerivAt (fun t => ε t p - ε 0 p) (δ p) 0 := fun p => (hε p).sub_const _
  -- the form difference
  set G : ℝ → ℂ := fun t => ω ^ 2 * ∑ p, w p * myx (mu.getD 1) p * ((exy (ε t) p - exy (ε 0) p) * v t p)
    + ∑ x, wR dxes w x * ((1 / ε t (2, x) - 1 / ε 0 (2, x)) * dv dxes (exy (ε t) * v t) x
      + 1 / ε 0 (2, x) * ∑ p, hstack (derivBack dxes.2 0) (derivBack dxes.2 1) x p * ((exy (ε t) p - exy (ε 0) p) * v t p)) with hG
  have hGeq : ∀ᶠ t in nhds 0, G t = (β t ^ 2 - β 0 ^ 2) * (w ⬝ᵥ v t) := by
    filter_upwards [hmode] with t hmode
    have h1 := hK (ε t) (v t)
    have h2 := hK (ε 0) (v t)
    rw [hmode, dotProduct_smul, smul_eq_mul] at h1
    rw [hleft] at h2
    rw [sub_mul, h1, h2, hG]
    have e1 : ∀ x, ∑ p, hstack (derivBack dxes.2 0) (derivBack dxes.2 1) x p * ((exy (ε t) p - exy (ε 0) p) * v t p)
        = dv dxes (exy (ε t) * v t) x - dv dxes (exy (ε 0) * v t) x := by
      intro x
      rw [dv_apply, dv_apply, ← Finset.sum_sub_distrib]
      exact Finset.sum_congr rfl fun p _ => by simp only [Pi.mul_apply]; ring
    simp only [e1]
    have e2 : ∑ p, w p * myx (mu.getD 1) p * ((exy (ε t) p - exy (ε 0) p) * v t p)
        = ∑ p, w p * myx (mu.getD 1) p * exy (ε t) p * v t p - ∑ p, w p * myx (mu.getD 1) p * exy (ε 0) p * v t p := by
      rw [← Finset.sum_sub_distrib]
      exact Finset.sum_congr rfl fun p _ => by ring
    have e3 : ∑ x, wR dxes w x * ((1 / ε t (2, x) - 1 / ε 0 (2, x)) * dv dxes (exy (ε t) * v t) x
          + 1 / ε 0 (2, x) * (dv dxes (exy (ε t) * v t) x - dv dxes (exy (ε 0) * v t) x))
        = ∑ x, wR dxes w x * (1 / ε t (2, x)) * dv dxes (exy (ε t) * v t) x - ∑ x, wR dxes w x * (1 / ε 0 (2, x)) * dv dxes (exy (ε 0) * v t) x := by
      rw [← Finset.sum_sub_distrib]
      exact Finset.sum_congr rfl fun p _ => by ring
    rw [e2, e3]; ring
  have hdG : HasDerivAt G (dForm ω dxes (ε 0) (mu.getD 1) w (v 0) δ) 0 := by
    have a1 : HasDerivAt (fun t => ω ^ 2 * ∑ p, w p * myx (mu.getD 1) p * ((exy (ε t) p - exy (ε 0) p) * v t p))
        (ω ^ 2 * ∑ p, w p * myx (mu.getD 1) p * (exy δ p * v 0 p)) 0 := by
      refine HasDerivAt.const_mul _ (HasDerivAt.fun_sum fun p _ => HasDerivAt.const_mul _ ?_)
      exact hasDerivAt_mul_of_zero (hd0 _) (sub_self _) (hvp p)
    have a2 : ∀ x, HasDerivAt (fun t => (1 / ε t (2, x) - 1 / ε 0 (2, x)) * dv dxes (exy (ε t) * v t) x)
        (-(δ (2, x)) / ε 0 (2, x) ^ 2 * dv dxes (exy (ε 0) * v 0) x) 0 := by
      intro x
      refine hasDerivAt_mul_of_zero (b := fun t => dv dxes (exy (ε t) * v t) x) ?_ (sub_self _) ?_
      · have := ((hε (2, x)).fun_inv (heps (2, x))).sub_const (1 / ε 0 (2, x))
        simpa only [one_div] using this
      · simp only [dv_apply, Pi.mul_apply]
        exact tendsto_finsetSum _ fun p _ => (continuousAt_const.mul ((hεc _).mul (hvp p))).tendsto
    have a3 : ∀ x, HasDerivAt (fun t => 1 / ε 0 (2, x) * ∑ p, hstack (derivBack dxes.2 0) (derivBack dxes.2 1) x p * ((exy (ε t) p - exy (ε 0) p) * v t p))
        (1 / ε 0 (2, x) * ∑ p, hstack (derivBack dxes.2 0) (derivBack dxes.2 1) x p * (exy δ p * v 0 p)) 0 := by
      intro x
      refine HasDerivAt.const_mul _ (HasDerivAt.fun_sum fun p _ => HasDerivAt.const_mul _ ?_)
      exact hasDerivAt_mul_of_zero (hd0 _) (sub_self _) (hvp p)
    have := a1.fun_add (HasDerivAt.fun_sum (u := Finset.univ) fun x _ => HasDerivAt.const_mul (wR dxes w x) ((a2 x).fun_add (a3 x)))
    refine this.congr_deriv ?_
    rw [dForm]
    congr 1
    congr 1
    exact Finset.sum_congr rfl fun p _ => by ring
  have hwv : ContinuousAt (fun t => w ⬝ᵥ v t) 0 := by
    simp only [dotProduct]
    exact tendsto_finsetSum _ fun p _ => (continuousAt_const.mul (hvp p)).tendsto
  have hG0 : G 0 = 0 := by rw [hGeq.self_of_nhds, sub_self, zero_mul]
  have s1 : HasDerivAt (fun t => G t * (w ⬝ᵥ v t)⁻¹) (dForm ω dxes (ε 0) (mu.getD 1) w (v 0) δ * (w ⬝ᵥ v 0)⁻¹) 0 :=
    hasDerivAt_mul_of_zero (b := fun t => (w ⬝ᵥ v t)⁻¹) hdG hG0 (hwv.inv₀ hn)
  have hsum : ContinuousAt (fun t => β t + β 0) 0 := hβc.add continuousAt_const
  have hsum0 : β 0 + β 0 ≠ 0 := by rw [← two_mul]; exact mul_ne_zero two_ne_zero hβ
  have s2 := hasDerivAt_mul_of_zero (b := fun t => (β t + β 0)⁻¹) s1 (by rw [hG0, zero_mul]) (hsum.inv₀ hsum0)
  have hev : (fun t => G t * (w ⬝ᵥ v t)⁻¹ * (β t + β 0)⁻¹) =ᶠ[nhds 0] fun t => β t - β 0 := by
    filter_upwards [hGeq, hwv.eventually_ne hn, hsum.eventually_ne hsum0] with t hGeq h1 h2
    rw [hGeq]
    field_simp
    ring
  have s3 := (s2.congr_of_eventuallyEq hev.symm).add_const (β 0)
  simp only [sub_add_cancel] at s3
  refine s3.congr_deriv ?_
  field_simp
  ring

/-- `conj(h)_y, -conj(h)_x`, the left vector that `sensitivity` uses. -/
noncomputable def hvOf (h : V 3 sh) : V 2 sh := fun p => if p.1 = 0 then (starRingEnd ℂ) (h (1, p.2)) else (starRingEnd ℂ) (-h (0, p.2))

/-- What `sensitivity` computes, when every area weight is the same: the directional derivatives of the form. -/
theorem sensitivity_sum {D : ℂ} (hD : D ≠ 0) {dxes : Dx2 sh} (hda : ∀ x : Idx sh, dxes.2 0 (x 0) * dxes.1 1 (x 1) = D ∧ dxes.2 1 (x 1) * dxes.1 0 (x 0) = D)
    (e h : V 3 sh) (β ω : ℂ) (eps : V 3 sh) (mu : Option (V 3 sh)) (δ : V 3 sh) :
    ∑ p, sensitivity e h β ω dxes eps mu p * δ p = dForm ω dxes eps (mu.getD 1) (hvOf h) (xy e) δ / (2 * β * (hvOf h ⬝ᵥ xy e)) := by
  have hev : (fun p : Fin 2 × Idx sh => if p.1 = 0 then e (0, p.2) * (dxes.2 0 (p.2 0) * dxes.1 1 (p.2 1)) else e (1, p.2) * (dxes.2 1 (p.2 1) * dxes.1 0 (p.2 0))) = D • xy e := by
    funext p
    obtain ⟨c, x⟩ := p
    simp only [(hda x).1, (hda x).2, Pi.smul_apply, smul_eq_mul]
    fin_cases c
    · exact mul_comm _ _
    · exact mul_comm _ _
  have hS : ∀ x, dv dxes (D • (exy δ * xy e)) x = D * dv dxes (exy δ * xy e) x := fun x => by
    rw [dv, mulVec_smul]; rfl
  have hS2 : ∀ x, dv dxes (exy eps * (D • xy e)) x = D * dv dxes (exy eps * xy e) x := fun x => by
    rw [mul_smul_comm, dv, mulVec_smul]; rfl
  have hsplit : ∀ f : Fin 3 × Idx sh → ℂ, ∑ p, f p = ∑ p : Fin 2 × Idx sh, f (p.1.castSucc, p.2) + ∑ x, f (2, x) := by
    intro f
    simp only [Fintype.sum_prod_type, Fin.sum_univ_three, Fin.sum_univ_two]; rfl
  have hval : ∀ p, sensitivity e h β ω dxes eps mu p
      = (if p.1 = 0 then ((hvOf h ᵥ* ((ω * ω) • diag2 (part (mu.getD 1) 1) (part (mu.getD 1) 0))) * (D • xy e)) (0, p.2)
            + ((wR dxes (hvOf h) ᵥ* (diagonal fun x => 1 / part eps 2 x) ᵥ* hstack (derivBack dxes.2 0) (derivBack dxes.2 1)) * (D • xy e)) (0, p.2)
        else if p.1 = 1 then ((hvOf h ᵥ* ((ω * ω) • diag2 (part (mu.getD 1) 1) (part (mu.getD 1) 0))) * (D • xy e)) (1, p.2)
            + ((wR dxes (hvOf h) ᵥ* (diagonal fun x => 1 / part eps 2 x) ᵥ* hstack (derivBack dxes.2 0) (derivBack dxes.2 1)) * (D • xy e)) (1, p.2)
        else ((wR dxes (hvOf h) ᵥ* (diagonal fun x => -(1 / part eps 2 x) * (1 / part eps 2 x))) * dv dxes (exy eps * (D • xy e))) p.2)
        / (2 * β * (hvOf h ⬝ᵥ (D • xy e))) := by
    intro p
    rw [← diag2_exy, ← hev]; rfl
  rw [hsplit]
  have r1 : ∀ p : Fin 2 × Idx sh, sensitivity e h β ω dxes eps mu (p.1.castSucc, p.2) * δ (p.1.castSucc, p.2)
      = (ω ^ 2 * (hvOf h p * myx (mu.getD 1) p * exy δ p * xy e p)
        + ∑ x, wR dxes (hvOf h) x * (1 / eps (2, x)) * (hstack (derivBack dxes.2 0) (derivBack dxes.2 1) x p * (exy δ p * xy e p))) / (2 * β * (hvOf h ⬝ᵥ xy e)) := by
    rintro ⟨c, x⟩
    have e1 : ∀ q : Fin 2 × Idx sh, ((hvOf h ᵥ* ((ω * ω) • diag2 (part (mu.getD 1) 1) (part (mu.getD 1) 0))) * (D • xy e)) q
        = D * (ω ^ 2 * (hvOf h q * myx (mu.getD 1) q * xy e q)) := by
      intro q
      rw [vecMul_smul, diag2_myx_vec]
      simp only [Pi.mul_apply, Pi.smul_apply, smul_eq_mul]; ring
    have e2 : ∀ q : Fin 2 × Idx sh, ((wR dxes (hvOf h) ᵥ* (diagonal fun x => 1 / part eps 2 x) ᵥ* hstack (derivBack dxes.2 0) (derivBack dxes.2 1)) * (D • xy e)) q
        = D * ((∑ x, wR dxes (hvOf h) x * (1 / eps (2, x)) * hstack (derivBack dxes.2 0) (derivBack dxes.2 1) x q) * xy e q) := by
      intro q
      rw [show (wR dxes (hvOf h) ᵥ* diagonal fun x => 1 / part eps 2 x) = fun x => wR dxes (hvOf h) x * (1 / eps (2, x)) from
        funext fun i => vecMul_diagonal _ _ i]
      simp only [Pi.mul_apply, Pi.smul_apply, smul_eq_mul, vecMul, dotProduct]
      ring
    have e3 : ∀ q : Fin 2 × Idx sh, ∑ x, wR dxes (hvOf h) x * (1 / eps (2, x)) * (hstack (derivBack dxes.2 0) (derivBack dxes.2 1) x q * (exy δ q * xy e q))
        = (∑ x, wR dxes (hvOf h) x * (1 / eps (2, x)) * hstack (derivBack dxes.2 0) (derivBack dxes.2 1) x q) * xy e q * exy δ q := by
      intro q
      rw [Finset.sum_mul, Finset.sum_mul]
      exact Finset.sum_congr rfl fun y _ => by ring
    rw [hval]
    simp only [e1, e2, dotProduct_smul, smul_eq_mul]
    rw [e3]
    by_cases h0 : hvOf h ⬝ᵥ xy e = 0
    · simp [h0]
    by_cases hb : β = 0
    · simp [hb]
    fin_cases c
    · simp only [Fin.zero_eta, Fin.castSucc_zero, if_true, exy]
      field_simp
    · simp only [Fin.mk_one, exy, show (Fin.castSucc (1 : Fin 2) : Fin 3) = 1 from rfl, show ¬ ((1 : Fin 3) = 0) by decide, if_false, if_true]
      field_simp
  have r2 : ∀ x, sensitivity e h β ω dxes eps mu (2, x) * δ (2, x)
      = (wR dxes (hvOf h) x * (-(δ (2, x)) / eps (2, x) ^ 2 * dv dxes (exy eps * xy e) x)) / (2 * β * (hvOf h ⬝ᵥ xy e)) := by
    intro x
    rw [hval]
    simp only [show ¬ ((2 : Fin 3) = 0) by decide, show ¬ ((2 : Fin 3) = 1) by decide, if_false, Pi.mul_apply, vecMul_diagonal, hS2, dotProduct_smul, smul_eq_mul, part]
    by_cases h0 : hvOf h ⬝ᵥ xy e = 0
    · simp [h0]
    by_cases hb : β = 0
    · simp [hb]
    by_cases he : eps (2, x) = 0
    · simp [he]
    field_simp
  simp only [r1, r2]
  rw [← Finset.sum_div, ← Finset.sum_div, ← add_div, Finset.sum_add_distrib, dForm, Finset.sum_comm, ← Finset.mul_sum]
  congr 1
  rw [add_assoc, ← Finset.sum_add_distrib]
  congr 1
  refine Finset.sum_congr rfl fun x _ => ?_
  rw [dv_apply dxes (exy δ * xy e), ← Finset.mul_sum]
  simp only [Pi.mul_apply]
  ring

theorem conj_fw {dxes : Dx2 sh} (hre : ∀ a i, (starRingEnd ℂ) (dxes.1 a i) = dxes.1 a i) (a : Fin 2) (f : Idx sh → ℂ) (x : Idx sh) :
    (starRingEnd ℂ) (fw dxes a f x) = fw dxes a (fun y => (starRingEnd ℂ) (f y)) x := by
  simp only [derivForward_eq, map_div₀, map_sub, wOf_some, hre]
theorem conj_bw {dxes : Dx2 sh} (hre : ∀ a i, (starRingEnd ℂ) (dxes.2 a i) = dxes.2 a i) (a : Fin 2) (f : Idx sh → ℂ) (x : Idx sh) :
    (starRingEnd ℂ) (bw dxes a f x) = bw dxes a (fun y => (starRingEnd ℂ) (f y)) x := by
  simp only [derivBack_eq, map_div₀, map_sub, wOf_some, hre]

/-- In a lossless waveguide the conjugate fields are the backward mode. -/
theorem conj_mode {β ω : ℂ} {dxes : Dx2 sh} {eps mu E H : Fin 3 → Arr sh ℂ} (hβ : (starRingEnd ℂ) β = β) (hω : (starRingEnd ℂ) ω = ω)
    (h1 : ∀ a i, (starRingEnd ℂ) (dxes.1 a i) = dxes.1 a i) (h2 : ∀ a i, (starRingEnd ℂ) (dxes.2 a i) = dxes.2 a i)
    (heps : ∀ c x, (starRingEnd ℂ) (eps c x) = eps c x) (hmu : ∀ c x, (starRingEnd ℂ) (mu c x) = mu c x)
    (m : IsMode β ω dxes.1 dxes.2 eps mu E H) :
    IsMode (-β) ω dxes.1 dxes.2 eps mu (fun c x => (starRingEnd ℂ) (E c x)) (fun c x => -(starRingEnd ℂ) (H c x)) := by
  refine ⟨fun x => ?_, fun x => ?_, fun x => ?_, fun x => ?_, fun x => ?_, fun x => ?_⟩
  · have := congrArg (starRingEnd ℂ) (m.faradayX x)
    simp only [gradForward_fw, map_sub, map_mul, map_neg, conj_I, conj_fw h1, hβ, hω, hmu] at this ⊢
    linear_combination this
  · have := congrArg (starRingEnd ℂ) (m.faradayY x)
    simp only [gradForward_fw, map_sub, map_mul, map_neg, conj_I, conj_fw h1, hβ, hω, hmu] at this ⊢
    linear_combination this
  · have := congrArg (starRingEnd ℂ) (m.faradayZ x)
    simp only [gradForward_fw, map_sub, map_mul, map_neg, conj_I, conj_fw h1, hω, hmu] at this ⊢
    linear_combination this
  · have := congrArg (starRingEnd ℂ) (m.ampereX x)
    simp only [gradBack_bw, map_sub, map_mul, map_neg, conj_I, conj_bw h2, hβ, hω, heps] at this ⊢
    rw [bw_neg]
    linear_combination -this
  · have := congrArg (starRingEnd ℂ) (m.ampereY x)
    simp only [gradBack_bw, map_sub, map_mul, map_neg, conj_I, conj_bw h2, hβ, hω, heps] at this ⊢
    rw [bw_neg]
    linear_combination -this
  · have := congrArg (starRingEnd ℂ) (m.ampereZ x)
    simp only [gradBack_bw, map_sub, map_mul, conj_I, conj_bw h2, hω, heps] at this ⊢
    rw [bw_neg, bw_neg]
    linear_combination -this

/-- C45 for lossless waveguides on uniform grids: along every curve of media (differentiable at 0) and modes (continuous at 0) through a mode
that carries power, the wavenumber has the derivative given by `sensitivity`. -/
theorem C45_sensitivity_uniform {d : Fin 2 → ℂ} {dxes : Dx2 sh} (hd : UniformGrid d dxes) (hdr : ∀ a, (starRingEnd ℂ) (d a) = d a)
    {ω : ℂ} (hω : ω ≠ 0) (hωr : (starRingEnd ℂ) ω = ω) (mu : Option (V 3 sh)) (hmu : ∀ p, mu.getD 1 p ≠ 0)
    (hmur : ∀ p, (starRingEnd ℂ) (mu.getD 1 p) = mu.getD 1 p) (ε : ℝ → V 3 sh) (δ : V 3 sh) (β : ℝ → ℂ) (v : ℝ → V 2 sh)
    (hε : ∀ p, HasDerivAt (fun t => ε t p) (δ p) 0) (heps : ∀ p, ε 0 p ≠ 0) (hepsr : ∀ p, (starRingEnd ℂ) (ε 0 p) = ε 0 p)
    (hv : ContinuousAt v 0) (hβc : ContinuousAt β 0) (hβ : β 0 ≠ 0) (hβr : (starRingEnd ℂ) (β 0) = β 0)
    (hmode : ∀ᶠ t in nhds 0, operatorE ω dxes (ε t) mu *ᵥ v t = β t ^ 2 • v t)
    (hpow : let e := exy2e (β 0) dxes (ε 0) *ᵥ v 0
      let h := exy2h (β 0) ω dxes (ε 0) mu *ᵥ v 0
      ∑ x, (e (0, x) * (starRingEnd ℂ) (h (1, x)) - e (1, x) * (starRingEnd ℂ) (h (0, x))) ≠ 0) :
    HasDerivAt β (∑ p, sensitivity (exy2e (β 0) dxes (ε 0) *ᵥ v 0) (exy2h (β 0) ω dxes (ε 0) mu *ᵥ v 0) (β 0) ω dxes (ε 0) mu p * δ p) 0 := by
  set e := exy2e (β 0) dxes (ε 0) *ᵥ v 0 with he
  set h := exy2h (β 0) ω dxes (ε 0) mu *ᵥ v 0 with hh
  have m : IsMode (β 0) ω dxes.1 dxes.2 (fld (ε 0)) (fld (mu.getD 1)) (fld e) (fld h) :=
    C39_is_mode (β 0) ω hβ hω dxes (ε 0) mu heps hmu (v 0) hmode.self_of_nhds
  have mc := conj_mode hβr hωr (fun a i => by rw [hd.2.1, hdr]) (fun a i => by rw [hd.2.2, hdr]) (fun c x => hepsr (c, x)) (fun c x => hmur (c, x)) m
  have hxy : xy e = v 0 := by
    funext p
    obtain ⟨c, x⟩ := p
    fin_cases c
    · exact exy2e_0 (β 0) dxes (ε 0) (v 0) x
    · exact exy2e_1 (β 0) dxes (ε 0) (v 0) x
  have hdot : ∀ u : V 2 sh, hvOf h ⬝ᵥ u = -∑ x, (-(starRingEnd ℂ) (fld h 1 x) * u (0, x) - -(starRingEnd ℂ) (fld h 0 x) * u (1, x)) := by
    intro u
    rw [dotProduct, Fintype.sum_prod_type, Fin.sum_univ_two, ← Finset.sum_add_distrib, ← Finset.sum_neg_distrib]
    refine Finset.sum_congr rfl fun x _ => ?_
    simp only [hvOf, fld, if_true, show ¬ ((1 : Fin 2) = 0) by decide, if_false, map_neg]
    ring
  have hleft : ∀ u, hvOf h ⬝ᵥ (operatorE ω dxes (ε 0) mu *ᵥ u) = β 0 ^ 2 * (hvOf h ⬝ᵥ u) := by
    intro u
    have := left_eigenvector hd hω heps hmu mc u
    rw [hdot, hdot, this]; ring
  have hn : hvOf h ⬝ᵥ v 0 ≠ 0 := by
    rw [← hxy, hdot]
    intro h0
    apply hpow
    rw [← h0, ← Finset.sum_neg_distrib]
    refine Finset.sum_congr rfl fun x _ => ?_
    simp only [fld, xy, Fin.castSucc_zero, show (Fin.castSucc (1 : Fin 2) : Fin 3) = 1 from rfl]
    ring
  have key := deriv_of_left ω dxes mu (hvOf h) ε δ β v hε heps hv hβc hβ hmode hleft hn
  rw [sensitivity_sum (D := d 0 * d 1) (mul_ne_zero (hd.1 0) (hd.1 1)) (fun x => ⟨by rw [hd.2.1, hd.2.2], by rw [hd.2.1, hd.2.2, mul_comm]⟩), hxy]
  exact key

/-- The hypotheses of `C45_sensitivity_uniform` are met: a plane wave in a medium `ε = 1 + t`. -/
example : ∃ (dxes : Dx2 (fun _ => 2)) (ε : ℝ → V 3 (fun _ => 2)) (δ : V 3 (fun _ => 2)) (β : ℝ → ℂ) (v : ℝ → V 2 (fun _ => 2)),
    UniformGrid 1 dxes ∧ (∀ p, HasDerivAt (fun t => ε t p) (δ p) 0) ∧ δ ≠ 0 ∧ (∀ p, ε 0 p ≠ 0) ∧ (∀ p, (starRingEnd ℂ) (ε 0 p) = ε 0 p) ∧
    ContinuousAt v 0 ∧ ContinuousAt β 0 ∧ β 0 ≠ 0 ∧ (starRingEnd ℂ) (β 0) = β 0 ∧
    (∀ᶠ t in nhds 0, operatorE 1 dxes (ε t) none *ᵥ v t = β t ^ 2 • v t) ∧
    ∑ x, ((exy2e (β 0) dxes (ε 0) *ᵥ v 0) (0, x) * (starRingEnd ℂ) ((exy2h (β 0) 1 dxes (ε 0) none *ᵥ v 0) (1, x))
      - (exy2e (β 0) dxes (ε 0) *ᵥ v 0) (1, x) * (starRingEnd ℂ) ((exy2h (β 0) 1 dxes (ε 0) none *ᵥ v 0) (0, x))) ≠ 0 := by
  have hz : ∀ (a : Fin 2) (c : ℂ) (x : Idx (fun _ : Fin 2 => 2)), fw (fun _ _ => 1, fun _ _ => 1) a (fun _ => c) x = 0 ∧ bw (fun _ _ => 1, fun _ _ => 1) a (fun _ => c) x = 0 := by
    intro a c x
    constructor
    · rw [fw, derivForward_eq]; simp
    · rw [bw, derivBack_eq]; simp
  refine ⟨(fun _ _ => 1, fun _ _ => 1), fun t _ => ((1 + t : ℝ) : ℂ), 1, fun t => ((√(1 + t) : ℝ) : ℂ), fun _ p => if p.1 = 0 then 1 else 0,
    ⟨fun _ => one_ne_zero, fun _ _ => rfl, fun _ _ => rfl⟩, fun p => ?_, ?_, fun p => by simp, fun p => by simp, continuousAt_const, ?_, by simp, by simp, ?_, ?_⟩
  · exact (((hasDerivAt_id' (0 : ℝ)).const_add 1).ofReal_comp).congr_deriv (by simp)
  · intro h; exact one_ne_zero (congrFun h (0, fun _ => 0))
  · exact (continuous_ofReal.comp (Real.continuous_sqrt.comp (continuous_const.add continuous_id))).continuousAt
  · filter_upwards [eventually_gt_nhds (show (-1 : ℝ) < 0 by norm_num)] with t ht
    have hs : ((√(1 + t) : ℝ) : ℂ) ^ 2 = ((1 + t : ℝ) : ℂ) := by rw [← ofReal_pow, Real.sq_sqrt (by linarith)]
    funext p
    obtain ⟨c, x⟩ := p
    rw [hs]
    have h0 : part (fun p : Fin 2 × Idx (fun _ : Fin 2 => 2) => if p.1 = 0 then (1 : ℂ) else 0) 0 = fun _ => 1 := by funext y; simp [part]
    have h1 : part (fun p : Fin 2 × Idx (fun _ : Fin 2 => 2) => if p.1 = 0 then (1 : ℂ) else 0) 1 = fun _ => 0 := by funext y; simp [part]
    fin_cases c
    · refine (operatorE_0 _ _ _ _ _ x).trans ?_
      simp [h0, h1, hz]
    · refine (operatorE_1 _ _ _ _ _ x).trans ?_
      simp [h0, h1, hz]
  · have h2 : ∀ y : Idx (fun _ : Fin 2 => 2), part ((exy2e 1 (fun _ _ => 1, fun _ _ => 1) fun _ => 1) *ᵥ fun p : Fin 2 × Idx (fun _ : Fin 2 => 2) => if p.1 = 0 then (1 : ℂ) else 0) 2 = fun _ => 0 := by
      intro y; funext z; rw [part, exy2e_2]; simp [hz]
    simp [exy2h, ← mulVec_mulVec, e2h_mulVec, exy2e_0, exy2e_1, curlE_1, h2 (fun _ => 0), hz, Idx]

/-- The curve of modes on the non-uniform grid `exDx` used below: `ω = 1`, `E_y = (1, 1 + t)`. -/
noncomputable def curveB2 (t : ℝ) : ℝ := 1 - t / (2 * (1 + t))

theorem curveB2_deriv : HasDerivAt curveB2 (-1 / 2) 0 := by
  have h1 : HasDerivAt (fun t : ℝ => 2 * (1 + t)) (2 * 1) 0 := ((hasDerivAt_id' (0 : ℝ)).const_add 1).const_mul 2
  have h2 := ((hasDerivAt_id' (0 : ℝ)).fun_div h1 (by norm_num)).const_sub 1
  refine h2.congr_deriv ?_
  norm_num

theorem ex_wR_zero (w : V 2 (fun _ => 2)) (h0 : ∀ x, w (0, x) = 0) (h1 : ∀ x, w (1, x) = 1) : wR exDx w = 0 := by
  funext y
  have : wR exDx w y = w ⬝ᵥ (vstack (derivForward exDx.1 0) (derivForward exDx.1 1) *ᵥ Pi.single y 1) := by
    rw [dotProduct_mulVec, dotProduct_single, mul_one]; rfl
  rw [this, dotProduct, Fintype.sum_prod_type, Fin.sum_univ_two]
  simp only [h0, h1, zero_mul, one_mul, Finset.sum_const_zero, zero_add, vstack_mulVec_1, derivForward_mulVec]
  generalize (Pi.single y (1 : ℂ) : Idx (fun _ : Fin 2 => 2) → ℂ) = f
  have e : ∀ x, Functional.derivForward (some exDx.1) 1 f x = f (shiftIdx 1 1 x) - f x := by
    intro x; rw [derivForward_eq]; simp [exDx]
  simp only [e, Finset.sum_sub_distrib]
  rw [sum_shiftIdx 1 1 f, sub_self]; rfl

theorem ex_sens (x : Idx (fun _ : Fin 2 => 2)) (hx : x 0 = 0) :
    sensitivity (exy2e 1 exDx (exEps 1) *ᵥ exV 0) (exy2h 1 1 exDx (exEps 1) none *ᵥ exV 0) 1 1 exDx (exEps 1) none (1, x) = 1 / 20 := by
  set e := exy2e 1 exDx (exEps 1) *ᵥ exV 0 with he
  set h := exy2h 1 1 exDx (exEps 1) none *ᵥ exV 0 with hh
  have e0 : ∀ y, e (0, y) = 0 := fun y => by rw [he, exy2e_0]; simp [exV]
  have e1 : ∀ y, e (1, y) = 1 := fun y => by rw [he, exy2e_1]; simp [exV]
  have h0 : ∀ y, h (0, y) = -1 := fun y => by
    rw [hh, exHx]
    have := I_ne_zero
    simp [exV]
  have h1 : ∀ y, h (1, y) = 0 := fun y => by
    rw [hh, exy2h, ← mulVec_mulVec, e2h_mulVec, curlE_1, fw, derivForward_eq]
    have hz : ∀ y, part (exy2e 1 exDx (exEps 1) *ᵥ exV 0) 2 y = 0 := fun y => exEz 1 0 1 y
    rw [hz, hz, exy2e_0]
    simp [exV]
  have w0 : ∀ y, hvOf h (0, y) = 0 := fun y => by simp [hvOf, h1]
  have w1 : ∀ y, hvOf h (1, y) = 1 := fun y => by simp [hvOf, h0]
  have hR := ex_wR_zero (hvOf h) w0 w1
  set ev : V 2 (fun _ => 2) := fun p => if p.1 = 0 then e (0, p.2) * (exDx.2 0 (p.2 0) * exDx.1 1 (p.2 1)) else e (1, p.2) * (exDx.2 1 (p.2 1) * exDx.1 0 (p.2 0)) with hev
  have hval : sensitivity e h 1 1 exDx (exEps 1) none (1, x)
      = (((hvOf h ᵥ* (((1 : ℂ) * 1) • diag2 (part (1 : V 3 (fun _ => 2)) 1) (part (1 : V 3 (fun _ => 2)) 0))) * ev) (1, x)
        + ((wR exDx (hvOf h) ᵥ* (diagonal fun x => 1 / part (exEps 1) 2 x) ᵥ* hstack (derivBack exDx.2 0) (derivBack exDx.2 1)) * ev) (1, x))
        / (2 * 1 * (hvOf h ⬝ᵥ ev)) := rfl
  have hn : hvOf h ⬝ᵥ ev = 10 := by
    rw [dotProduct, Fintype.sum_prod_type, Fin.sum_univ_two]
    simp only [w0, w1, zero_mul, one_mul, Finset.sum_const_zero, zero_add]
    rw [← (Equiv.sum_comp (finTwoArrowEquiv (Fin 2)).symm)]
    simp [Fintype.sum_prod_type, hev, e1, exDx]
    norm_num
  rw [hval, hR, zero_vecMul, zero_vecMul, hn, vecMul_smul, diag2_myx_vec]
  simp only [Pi.mul_apply, Pi.smul_apply, w1, hev, e1]
  simp [myx, exDx, hx]
  norm_num

/-- C45 is false on non-uniform grids: the area weights are applied to the right vector before the difference operators and with E and H
widths exchanged. On the two-column grid the true derivative along the curve is -1/4, `sensitivity` gives -1/10. -/
theorem C45_sensitivity_fails_nonuniform_partial :
    ¬ ∀ (dxes : Dx2 (fun _ => 2)) (ω : ℂ) (ε : ℝ → V 3 (fun _ => 2)) (δ : V 3 (fun _ => 2)) (β : ℝ → ℂ) (v : ℝ → V 2 (fun _ => 2)),
      (∀ a i, 0 < (dxes.1 a i).re ∧ (dxes.1 a i).im = 0 ∧ 0 < (dxes.2 a i).re ∧ (dxes.2 a i).im = 0) → ω ≠ 0 → (starRingEnd ℂ) ω = ω →
      (∀ p, HasDerivAt (fun t => ε t p) (δ p) 0) → (∀ p, ε 0 p ≠ 0) → (∀ p, (starRingEnd ℂ) (ε 0 p) = ε 0 p) →
      ContinuousAt v 0 → ContinuousAt β 0 → β 0 ≠ 0 → (starRingEnd ℂ) (β 0) = β 0 →
      (∀ᶠ t in nhds 0, operatorE ω dxes (ε t) none *ᵥ v t = β t ^ 2 • v t) →
      HasDerivAt β (∑ p, sensitivity (exy2e (β 0) dxes (ε 0) *ᵥ v 0) (exy2h (β 0) ω dxes (ε 0) none *ᵥ v 0) (β 0) ω dxes (ε 0) none p * δ p) 0 := by
  intro hall
  set β : ℝ → ℂ := fun t => ((√(curveB2 t) : ℝ) : ℂ) with hβ
  set ε : ℝ → V 3 (fun _ => 2) := fun t => exEps ((curveB2 t - t / 2 : ℝ) : ℂ) with hε
  set δ : V 3 (fun _ => 2) := fun p => if p.1 = 1 ∧ p.2 0 = 0 then -1 else 0 with hδ
  have hc0 : curveB2 0 = 1 := by norm_num [curveB2]
  have hβ0 : β 0 = 1 := by simp [hβ, hc0]
  have hε0 : ε 0 = exEps 1 := by simp [hε, hc0]
  have hdβ : HasDerivAt β ((-1 / 4 : ℝ) : ℂ) 0 := by
    have := (curveB2_deriv.sqrt (by rw [hc0]; norm_num)).ofReal_comp
    refine this.congr_deriv ?_
    rw [hc0, Real.sqrt_one]; norm_num
  have hdε : ∀ p, HasDerivAt (fun t => ε t p) (δ p) 0 := by
    intro p
    by_cases hp : p.1 = 1 ∧ p.2 0 = 0
    · have := (curveB2_deriv.sub ((hasDerivAt_id' (0 : ℝ)).div_const 2)).ofReal_comp
      simp only [hε, hδ, exEps, if_pos hp]
      refine this.congr_deriv ?_
      norm_num
    · simp only [hε, hδ, exEps, if_neg hp]
      exact hasDerivAt_const _ _
  have hvc : ContinuousAt (fun t : ℝ => exV (t : ℂ)) 0 := by
    refine continuousAt_pi.2 fun p => ?_
    simp only [exV]
    split_ifs
    · exact continuousAt_const
    · exact continuousAt_const
    · exact continuousAt_const.add continuous_ofReal.continuousAt
  have hmode : ∀ᶠ t in nhds (0 : ℝ), operatorE 1 exDx (ε t) none *ᵥ exV (t : ℂ) = β t ^ 2 • exV (t : ℂ) := by
    have h1 : ∀ᶠ t in nhds (0 : ℝ), 0 < curveB2 t := curveB2_deriv.continuousAt.eventually_const_lt (by rw [hc0]; norm_num)
    have h2 : ∀ᶠ t in nhds (0 : ℝ), -1 < t := eventually_gt_nhds (by norm_num)
    filter_upwards [h1, h2] with t h1 h2
    have hb : β t ^ 2 = ((curveB2 t : ℝ) : ℂ) := by
      rw [hβ]; simp only; rw [← ofReal_pow, Real.sq_sqrt h1.le]
    rw [hb]
    have ht : (1 + t) ≠ 0 := by linarith
    refine exMode _ _ _ _ ?_ ?_
    · push_cast; ring
    · have : 1 ^ 2 * (1 + t) - t / 2 = curveB2 t * (1 + t) := by
        rw [curveB2]; field_simp
      exact_mod_cast congrArg (fun r : ℝ => (r : ℂ)) this
  have := hall exDx 1 ε δ β (fun t => exV (t : ℂ)) (by intro a i; simp only [exDx]; split_ifs <;> norm_num) one_ne_zero (map_one _) hdε
    (by rw [hε0]; exact exEps_ne one_ne_zero) (by intro p; rw [hε0]; simp only [exEps]; split_ifs <;> simp) hvc hdβ.continuousAt
    (by rw [hβ0]; exact one_ne_zero) (by rw [hβ0]; simp) hmode
  have hu := hdβ.unique this
  rw [hβ0, hε0, ofReal_zero] at hu
  have hs : ∀ p : Fin 3 × Idx (fun _ : Fin 2 => 2), sensitivity (exy2e 1 exDx (exEps 1) *ᵥ exV 0) (exy2h 1 1 exDx (exEps 1) none *ᵥ exV 0) 1 1 exDx (exEps 1) none p * δ p
      = if p.1 = 1 ∧ p.2 0 = 0 then -1 / 20 else 0 := by
    rintro ⟨c, x⟩
    by_cases hp : c = 1 ∧ x 0 = 0
    · obtain ⟨rfl, hx⟩ := hp
      rw [ex_sens x hx]; simp [hδ, hx]; norm_num
    · simp only [hδ, hp, if_false, mul_zero]
  rw [Finset.sum_congr rfl fun p _ => hs p, Fintype.sum_prod_type, Fin.sum_univ_three] at hu
  rw [show (∑ x : Idx (fun _ : Fin 2 => 2), if ((1 : Fin 3), x).1 = 1 ∧ ((1 : Fin 3), x).2 0 = 0 then (-1 / 20 : ℂ) else 0) = -1 / 10 by
    rw [← (Equiv.sum_comp (finTwoArrowEquiv (Fin 2)).symm)]
    simp [Fintype.sum_prod_type]; norm_num] at hu
  simp at hu
  norm_num at hu

end Meanas.Props
