/-
Action of the waveguide_cyl operators on fields.
-/
import Verif.Model.WaveguideCyl
import Verif.Lemmas.Waveguide2d

namespace Meanas.WgCyl

open Matrix Complex OperatorsS Spec Wg2

variable {sh : Fin 2 → ℕ}

theorem diag_mulVec (t f : Idx sh → ℂ) : (diagonal t : B sh) *ᵥ f = t * f := by funext x; rw [mulVec_diagonal]; rfl

/-- Derivatives along y do not see factors that depend on x only. -/
theorem fw_one_mul (dxes : Dx2 sh) (t : Fin (sh 0) → ℂ) (f : Idx sh → ℂ) (x : Idx sh) :
    fw dxes 1 (fun y => t (y 0) * f y) x = t (x 0) * fw dxes 1 f x := by
  rw [fw, fw, derivForward_eq, derivForward_eq, shiftIdx_of_ne (show (0 : Fin 2) ≠ 1 by decide)]; ring
theorem bw_one_mul (dxes : Dx2 sh) (t : Fin (sh 0) → ℂ) (f : Idx sh → ℂ) (x : Idx sh) :
    bw dxes 1 (fun y => t (y 0) * f y) x = t (x 0) * bw dxes 1 f x := by
  rw [bw, bw, derivBack_eq, derivBack_eq, shiftIdx_of_ne (show (0 : Fin 2) ≠ 1 by decide)]; ring

theorem cylOpT_0 (ω : ℂ) (dxes : Dx2 sh) (eps : V 3 sh) (ta tb : Idx sh → ℂ) (v : V 2 sh) (x : Idx sh) :
    (cylOpT ω dxes eps ta tb *ᵥ v) (0, x) = ω ^ 2 * (tb x * tb x * eps (0, x) * v (0, x))
      - tb x * bw dxes 1 (fun y => tb y * (fw dxes 0 (part v 1) y - fw dxes 1 (part v 0) y)) x
      + fw dxes 0 (fun y => ta y * ((bw dxes 0 (fun z => tb z * (eps (0, z) * v (0, z))) y + bw dxes 1 (fun z => ta z * (eps (1, z) * v (1, z))) y) / eps (2, y))) x := by
  have h2 : (diagonal tb : B sh) *ᵥ (hstack (-derivForward dxes.1 1) (derivForward dxes.1 0) *ᵥ v)
      = fun y => tb y * (fw dxes 0 (part v 1) y - fw dxes 1 (part v 0) y) := by
    funext y
    rw [mulVec_diagonal, hstack_mulVec, neg_mulVec, derivForward_mulVec, derivForward_mulVec, Pi.neg_apply, neg_add_eq_sub]
  have h3 : (diagonal ta : B sh) *ᵥ ((diagonal fun x => 1 / part eps 2 x) *ᵥ
        (hstack (derivBack dxes.2 0 * diagonal tb * diagonal (part eps 0)) (derivBack dxes.2 1 * diagonal ta * diagonal (part eps 1)) *ᵥ v))
      = fun y => ta y * ((bw dxes 0 (fun z => tb z * (eps (0, z) * v (0, z))) y + bw dxes 1 (fun z => ta z * (eps (1, z) * v (1, z))) y) / eps (2, y)) := by
    funext y
    rw [mulVec_diagonal, mulVec_diagonal, hstack_mulVec]
    simp only [← mulVec_mulVec, diag_mulVec, derivBack_mulVec]
    rw [one_div, inv_mul_eq_div]; rfl
  simp only [cylOpT, add_mulVec, smul_mulVec, ← mulVec_mulVec, Pi.add_apply, Pi.smul_apply, smul_eq_mul]
  rw [h2, h3]
  simp only [diag2_mulVec_0, vstack_mulVec_0, ← mulVec_mulVec, neg_mulVec, derivBack_mulVec, derivForward_mulVec, neg_mul, Pi.neg_apply, mulVec_diagonal, part]
  ring

theorem cylOpT_1 (ω : ℂ) (dxes : Dx2 sh) (eps : V 3 sh) (ta tb : Idx sh → ℂ) (v : V 2 sh) (x : Idx sh) :
    (cylOpT ω dxes eps ta tb *ᵥ v) (1, x) = ω ^ 2 * (ta x * ta x * eps (1, x) * v (1, x))
      + ta x * bw dxes 0 (fun y => tb y * (fw dxes 0 (part v 1) y - fw dxes 1 (part v 0) y)) x
      + fw dxes 1 (fun y => ta y * ((bw dxes 0 (fun z => tb z * (eps (0, z) * v (0, z))) y + bw dxes 1 (fun z => ta z * (eps (1, z) * v (1, z))) y) / eps (2, y))) x := by
  have h2 : (diagonal tb : B sh) *ᵥ (hstack (-derivForward dxes.1 1) (derivForward dxes.1 0) *ᵥ v)
      = fun y => tb y * (fw dxes 0 (part v 1) y - fw dxes 1 (part v 0) y) := by
    funext y
    rw [mulVec_diagonal, hstack_mulVec, neg_mulVec, derivForward_mulVec, derivForward_mulVec, Pi.neg_apply, neg_add_eq_sub]
  have h3 : (diagonal ta : B sh) *ᵥ ((diagonal fun x => 1 / part eps 2 x) *ᵥ
        (hstack (derivBack dxes.2 0 * diagonal tb * diagonal (part eps 0)) (derivBack dxes.2 1 * diagonal ta * diagonal (part eps 1)) *ᵥ v))
      = fun y => ta y * ((bw dxes 0 (fun z => tb z * (eps (0, z) * v (0, z))) y + bw dxes 1 (fun z => ta z * (eps (1, z) * v (1, z))) y) / eps (2, y)) := by
    funext y
    rw [mulVec_diagonal, mulVec_diagonal, hstack_mulVec]
    simp only [← mulVec_mulVec, diag_mulVec, derivBack_mulVec]
    rw [one_div, inv_mul_eq_div]; rfl
  simp only [cylOpT, add_mulVec, smul_mulVec, ← mulVec_mulVec, Pi.add_apply, Pi.smul_apply, smul_eq_mul]
  rw [h2, h3]
  simp only [diag2_mulVec_1, vstack_mulVec_1, ← mulVec_mulVec, derivBack_mulVec, derivForward_mulVec, mulVec_diagonal, part]
  ring

theorem exy2eT_0 (β ω : ℂ) (dxes : Dx2 sh) (eps : V 3 sh) (tb tai : Idx sh → ℂ) (v : V 2 sh) (x : Idx sh) :
    (exy2eT β ω dxes eps tb tai *ᵥ v) (0, x) = v (0, x) := eyeOver_mulVec_0 _ _ _
theorem exy2eT_1 (β ω : ℂ) (dxes : Dx2 sh) (eps : V 3 sh) (tb tai : Idx sh → ℂ) (v : V 2 sh) (x : Idx sh) :
    (exy2eT β ω dxes eps tb tai *ᵥ v) (1, x) = v (1, x) := eyeOver_mulVec_1 _ _ _

theorem stack_mulVec (P Q : Matrix (Idx sh) (Fin 2 × Idx sh) ℂ) (v : V 2 sh) (c : Fin 2) :
    part ((Matrix.of fun r c => if r.1 = 0 then P r.2 c else Q r.2 c : M 2 2 sh) *ᵥ v) c = if c = 0 then P *ᵥ v else Q *ᵥ v := by
  funext x
  fin_cases c
  · simp [part, mulVec, dotProduct]
  · simp [part, mulVec, dotProduct]

theorem exy2eT_2 (β ω : ℂ) (dxes : Dx2 sh) (eps : V 3 sh) (tb tai : Idx sh → ℂ) (v : V 2 sh) (hz : Idx sh → ℂ)
    (hhz : ∀ y, hz y = (fw dxes 0 (part v 1) y - fw dxes 1 (part v 0) y) / (I * ω)) (x : Idx sh) :
    (exy2eT β ω dxes eps tb tai *ᵥ v) (2, x) =
      (bw dxes 1 (fun y => tb y * (I * ω * (eps (1, y) * v (1, y)) - tai y * bw dxes 0 (fun z => tb z * hz z) y) / (I * β)) x
        - bw dxes 0 (fun y => tb y * (-I * ω * (eps (0, y) * v (0, y)) - bw dxes 1 hz y) / (I * β)) x) / (I * ω * eps (2, x)) := by
  have h1 : ((1 / (-I * ω)) • hstack (derivForward dxes.1 1) (-derivForward dxes.1 0)) *ᵥ v = hz := by
    funext y
    rw [smul_mulVec, Pi.smul_apply, hstack_mulVec, neg_mulVec, derivForward_mulVec, derivForward_mulVec, Pi.neg_apply, hhz, smul_eq_mul,
      one_div, neg_mul, inv_neg]
    rw [div_eq_inv_mul]; ring
  rw [exy2eT, eyeOver_mulVec_2]
  generalize (1 / (-I * ω)) • hstack (derivForward dxes.1 1) (-derivForward dxes.1 0) = Z at h1 ⊢
  simp only [← mulVec_mulVec, smul_mulVec, sub_mulVec, Pi.smul_apply, hstack_mulVec, mulVec_diagonal, stack_mulVec, neg_mulVec, derivBack_mulVec, Pi.neg_apply,
    one_ne_zero, if_true, if_false, h1]
  have h2 : (diagonal tb : B sh) *ᵥ ((I * ω) • (hstack 0 (diagonal (part eps 1)) *ᵥ v) - (diagonal tai : B sh) *ᵥ bw dxes 0 ((diagonal tb : B sh) *ᵥ hz))
      = fun y => tb y * (I * ω * (eps (1, y) * v (1, y)) - tai y * bw dxes 0 (fun z => tb z * hz z) y) := by
    funext y
    simp only [mulVec_diagonal, Pi.sub_apply, Pi.smul_apply, hstack_mulVec, zero_mulVec, Pi.zero_apply, zero_add, smul_eq_mul, diag_mulVec]
    rfl
  have h3 : (diagonal tb : B sh) *ᵥ ((-I * ω) • (hstack (diagonal (part eps 0)) 0 *ᵥ v) - bw dxes 1 hz)
      = fun y => tb y * (-I * ω * (eps (0, y) * v (0, y)) - bw dxes 1 hz y) := by
    funext y
    simp only [mulVec_diagonal, Pi.sub_apply, Pi.smul_apply, hstack_mulVec, zero_mulVec, Pi.zero_apply, add_zero, smul_eq_mul]
    rfl
  rw [h2, h3]
  have e1 : ∀ f : Idx sh → ℂ, (1 / (I * β)) • f = fun y => f y / (I * β) := by
    intro f; funext y; rw [Pi.smul_apply, smul_eq_mul, one_div, inv_mul_eq_div]
  rw [e1, e1, smul_eq_mul, ← sub_eq_add_neg, one_div, one_div, inv_mul_eq_div, inv_mul_eq_div, div_div, mul_comm (part eps 2 x)]
  rfl

theorem e2hT_eq (β ω : ℂ) (dxes : Dx2 sh) (mu : Option (V 3 sh)) (ta tai tbi : Idx sh → ℂ) (v : V 3 sh) (p : Fin 3 × Idx sh) :
    (e2hT β ω dxes mu ta tai tbi *ᵥ v) p = ((blockArray
    ![![0, (-(I * β)) • diagonal tai, -derivForward dxes.1 1],
      ![(I * β) • diagonal tbi, 0, diagonal tbi * derivForward dxes.1 0 * diagonal ta],
      ![derivForward dxes.1 1, -derivForward dxes.1 0, 0]] : M 3 3 sh) *ᵥ v) p / (-I * ω * mu.getD 1 p) := by
  cases mu with
  | none => simp only [e2hT, smul_mulVec, Pi.smul_apply, smul_eq_mul, Option.getD_none, Pi.one_apply, mul_one]; rw [one_div, inv_mul_eq_div]
  | some m =>
    simp only [e2hT, ← mulVec_mulVec, mulVec_diagonal, smul_mulVec, Pi.smul_apply, smul_eq_mul, Option.getD_some]
    rw [one_div, one_div, inv_mul_eq_div, inv_mul_eq_div, div_div]

theorem e2hT_0 (β ω : ℂ) (dxes : Dx2 sh) (mu : Option (V 3 sh)) (ta tai tbi : Idx sh → ℂ) (v : V 3 sh) (x : Idx sh) :
    (e2hT β ω dxes mu ta tai tbi *ᵥ v) (0, x) = -(fw dxes 1 (part v 2) x + I * β * tai x * v (1, x)) / (-I * ω * mu.getD 1 (0, x)) := by
  rw [e2hT_eq, blockArray_mulVec]
  congr 1
  simp only [Fin.sum_univ_three, cons_val_zero, cons_val_one, cons_val, zero_mulVec, Pi.zero_apply, neg_mulVec, Pi.neg_apply, smul_mulVec, Pi.smul_apply,
    smul_eq_mul, mulVec_diagonal, derivForward_mulVec]
  simp only [show ∀ c, (fun y => v (c, y)) = part v c from fun _ => rfl]
  ring
theorem e2hT_1 (β ω : ℂ) (dxes : Dx2 sh) (mu : Option (V 3 sh)) (ta tai tbi : Idx sh → ℂ) (v : V 3 sh) (x : Idx sh) :
    (e2hT β ω dxes mu ta tai tbi *ᵥ v) (1, x)
      = (I * β * tbi x * v (0, x) + tbi x * fw dxes 0 (fun y => ta y * v (2, y)) x) / (-I * ω * mu.getD 1 (1, x)) := by
  rw [e2hT_eq, blockArray_mulVec]
  congr 1
  simp only [Fin.sum_univ_three, cons_val_zero, cons_val_one, cons_val, zero_mulVec, Pi.zero_apply, smul_mulVec, Pi.smul_apply,
    smul_eq_mul, derivForward_mulVec, ← mulVec_mulVec, diag_mulVec, Pi.mul_apply]
  rw [show (ta * fun y => v (2, y)) = fun y => ta y * v (2, y) from rfl]
  ring
theorem e2hT_2 (β ω : ℂ) (dxes : Dx2 sh) (mu : Option (V 3 sh)) (ta tai tbi : Idx sh → ℂ) (v : V 3 sh) (x : Idx sh) :
    (e2hT β ω dxes mu ta tai tbi *ᵥ v) (2, x) = -(fw dxes 0 (part v 1) x - fw dxes 1 (part v 0) x) / (-I * ω * mu.getD 1 (2, x)) := by
  rw [e2hT_eq, blockArray_mulVec]
  congr 1
  simp only [Fin.sum_univ_three, cons_val_zero, cons_val_one, cons_val, zero_mulVec, Pi.zero_apply, neg_mulVec, Pi.neg_apply, derivForward_mulVec]
  simp only [show ∀ c, (fun y => v (c, y)) = part v c from fun _ => rfl]
  ring

end Meanas.WgCyl
