/-
Action of the waveguide_2d operators on fields.
-/
import Verif.Model.Waveguide2d
import Verif.Spec.Waveguide
import Verif.Lemmas.Operators
import Verif.Lemmas.Functional
import Mathlib.Tactic.LinearCombination
import Mathlib.Tactic.FieldSimp

namespace Meanas.Wg2

open Matrix Complex OperatorsS Spec

variable {sh : Fin 2 → ℕ}

/-- Forward derivative along `a`. -/
noncomputable abbrev fw (dxes : Dx2 sh) (a : Fin 2) (f : Idx sh → ℂ) : Idx sh → ℂ := Functional.derivForward (some dxes.1) a f
/-- Backward derivative along `a`. -/
noncomputable abbrev bw (dxes : Dx2 sh) (a : Fin 2) (f : Idx sh → ℂ) : Idx sh → ℂ := Functional.derivBack (some dxes.2) a f

theorem gradForward_fw (dxes : Dx2 sh) (a : Fin 2) (f : Arr sh ℂ) (x : Idx sh) : gradForward (some dxes.1) f a x = fw dxes a f x := by
  rw [fw, derivForward_eq]; rfl
theorem gradBack_bw (dxes : Dx2 sh) (a : Fin 2) (f : Arr sh ℂ) (x : Idx sh) : gradBack (some dxes.2) f a x = bw dxes a f x := by
  rw [bw, derivBack_eq]; rfl

theorem vstack_mulVec_0 (P Q : B sh) (f : Idx sh → ℂ) (x : Idx sh) : (vstack P Q *ᵥ f) (0, x) = (P *ᵥ f) x := by
  simp [vstack, mulVec, dotProduct]
theorem vstack_mulVec_1 (P Q : B sh) (f : Idx sh → ℂ) (x : Idx sh) : (vstack P Q *ᵥ f) (1, x) = (Q *ᵥ f) x := by
  simp [vstack, mulVec, dotProduct]
theorem hstack_mulVec (P Q : B sh) (v : V 2 sh) (x : Idx sh) : (hstack P Q *ᵥ v) x = (P *ᵥ part v 0) x + (Q *ᵥ part v 1) x := by
  simp [hstack, mulVec, dotProduct, Fintype.sum_prod_type, part]
theorem diag2_mulVec_0 (p q : Idx sh → ℂ) (v : V 2 sh) (x : Idx sh) : (diag2 p q *ᵥ v) (0, x) = p x * v (0, x) := by
  simp [diag2, mulVec_diagonal]
theorem diag2_mulVec_1 (p q : Idx sh → ℂ) (v : V 2 sh) (x : Idx sh) : (diag2 p q *ᵥ v) (1, x) = q x * v (1, x) := by
  simp [diag2, mulVec_diagonal]
theorem eyeOver_mulVec_0 (Z : Matrix (Idx sh) (Fin 2 × Idx sh) ℂ) (v : V 2 sh) (x : Idx sh) : (eyeOver Z *ᵥ v) (0, x) = v (0, x) := by
  simp [eyeOver, mulVec, dotProduct]
theorem eyeOver_mulVec_1 (Z : Matrix (Idx sh) (Fin 2 × Idx sh) ℂ) (v : V 2 sh) (x : Idx sh) : (eyeOver Z *ᵥ v) (1, x) = v (1, x) := by
  simp [eyeOver, mulVec, dotProduct]
theorem eyeOver_mulVec_2 (Z : Matrix (Idx sh) (Fin 2 × Idx sh) ℂ) (v : V 2 sh) (x : Idx sh) : (eyeOver Z *ᵥ v) (2, x) = (Z *ᵥ v) x := by
  simp [eyeOver, mulVec, dotProduct]

theorem cross_mulVec_0 (P Q R : B sh) (v : V 3 sh) (x : Idx sh) :
    (cross ![P, Q, R] *ᵥ v) (0, x) = (Q *ᵥ part v 2) x - (R *ᵥ part v 1) x := by
  rw [cross, blockArray_mulVec]; simp [Fin.sum_univ_three, neg_mulVec]; simp only [show ∀ c, (fun y => v (c, y)) = part v c from fun _ => rfl]; try ring
theorem cross_mulVec_1 (P Q R : B sh) (v : V 3 sh) (x : Idx sh) :
    (cross ![P, Q, R] *ᵥ v) (1, x) = (R *ᵥ part v 0) x - (P *ᵥ part v 2) x := by
  rw [cross, blockArray_mulVec]; simp [Fin.sum_univ_three, neg_mulVec]; simp only [show ∀ c, (fun y => v (c, y)) = part v c from fun _ => rfl]; try ring
theorem cross_mulVec_2 (P Q R : B sh) (v : V 3 sh) (x : Idx sh) :
    (cross ![P, Q, R] *ᵥ v) (2, x) = (P *ᵥ part v 1) x - (Q *ᵥ part v 0) x := by
  rw [cross, blockArray_mulVec]; simp [Fin.sum_univ_three, neg_mulVec]; simp only [show ∀ c, (fun y => v (c, y)) = part v c from fun _ => rfl]; try ring

theorem curlE_0 (β : ℂ) (dxes : Dx2 sh) (v : V 3 sh) (x : Idx sh) :
    (curlE β dxes *ᵥ v) (0, x) = fw dxes 1 (part v 2) x - (-I * β) * v (1, x) := by
  rw [curlE, cross_mulVec_0, derivForward_mulVec, smul_mulVec, one_mulVec]; rfl
theorem curlE_1 (β : ℂ) (dxes : Dx2 sh) (v : V 3 sh) (x : Idx sh) :
    (curlE β dxes *ᵥ v) (1, x) = (-I * β) * v (0, x) - fw dxes 0 (part v 2) x := by
  rw [curlE, cross_mulVec_1, derivForward_mulVec, smul_mulVec, one_mulVec]; rfl
theorem curlE_2 (β : ℂ) (dxes : Dx2 sh) (v : V 3 sh) (x : Idx sh) :
    (curlE β dxes *ᵥ v) (2, x) = fw dxes 0 (part v 1) x - fw dxes 1 (part v 0) x := by
  rw [curlE, cross_mulVec_2, derivForward_mulVec, derivForward_mulVec]
theorem curlH_0 (β : ℂ) (dxes : Dx2 sh) (v : V 3 sh) (x : Idx sh) :
    (curlH β dxes *ᵥ v) (0, x) = bw dxes 1 (part v 2) x - (-I * β) * v (1, x) := by
  rw [curlH, cross_mulVec_0, derivBack_mulVec, smul_mulVec, one_mulVec]; rfl
theorem curlH_1 (β : ℂ) (dxes : Dx2 sh) (v : V 3 sh) (x : Idx sh) :
    (curlH β dxes *ᵥ v) (1, x) = (-I * β) * v (0, x) - bw dxes 0 (part v 2) x := by
  rw [curlH, cross_mulVec_1, derivBack_mulVec, smul_mulVec, one_mulVec]; rfl
theorem curlH_2 (β : ℂ) (dxes : Dx2 sh) (v : V 3 sh) (x : Idx sh) :
    (curlH β dxes *ᵥ v) (2, x) = bw dxes 0 (part v 1) x - bw dxes 1 (part v 0) x := by
  rw [curlH, cross_mulVec_2, derivBack_mulVec, derivBack_mulVec]

theorem e2h_mulVec (β ω : ℂ) (dxes : Dx2 sh) (mu : Option (V 3 sh)) (v : V 3 sh) (p : Fin 3 × Idx sh) :
    (e2h β ω dxes mu *ᵥ v) p = (curlE β dxes *ᵥ v) p / (-I * ω * mu.getD 1 p) := by
  cases mu with
  | none => simp only [e2h, smul_mulVec, Pi.smul_apply, smul_eq_mul, Option.getD_none, Pi.one_apply, mul_one]; rw [one_div, inv_mul_eq_div]
  | some m =>
    simp only [e2h, ← mulVec_mulVec, mulVec_diagonal, smul_mulVec, Pi.smul_apply, smul_eq_mul, Option.getD_some]
    rw [one_div, one_div, inv_mul_eq_div, inv_mul_eq_div, div_div]

theorem h2e_mulVec (β ω : ℂ) (dxes : Dx2 sh) (eps : V 3 sh) (v : V 3 sh) (p : Fin 3 × Idx sh) :
    (h2e β ω dxes eps *ᵥ v) p = (curlH β dxes *ᵥ v) p / (I * ω * eps p) := by
  simp only [h2e, ← mulVec_mulVec, mulVec_diagonal]
  rw [one_div, inv_mul_eq_div]

/-- Transverse divergence of the (weighted) transverse field. -/
theorem exy2e_2 (β : ℂ) (dxes : Dx2 sh) (eps : V 3 sh) (v : V 2 sh) (x : Idx sh) :
    (exy2e β dxes eps *ᵥ v) (2, x)
      = (bw dxes 0 (fun y => eps (0, y) * v (0, y)) x + bw dxes 1 (fun y => eps (1, y) * v (1, y)) x) / (I * β * eps (2, x)) := by
  simp only [exy2e, eyeOver_mulVec_2, ← mulVec_mulVec, mulVec_diagonal, smul_mulVec, Pi.smul_apply, smul_eq_mul, hstack_mulVec,
    derivBack_mulVec]
  have h0 : part (diag2 (part eps 0) (part eps 1) *ᵥ v) 0 = fun y => eps (0, y) * v (0, y) := by
    funext y; exact diag2_mulVec_0 _ _ _ _
  have h1 : part (diag2 (part eps 0) (part eps 1) *ᵥ v) 1 = fun y => eps (1, y) * v (1, y) := by
    funext y; exact diag2_mulVec_1 _ _ _ _
  rw [h0, h1]
  simp only [part, one_div]
  rw [inv_mul_eq_div, inv_mul_eq_div, div_div]
theorem exy2e_0 (β : ℂ) (dxes : Dx2 sh) (eps : V 3 sh) (v : V 2 sh) (x : Idx sh) : (exy2e β dxes eps *ᵥ v) (0, x) = v (0, x) := by
  simp only [exy2e, eyeOver_mulVec_0]
theorem exy2e_1 (β : ℂ) (dxes : Dx2 sh) (eps : V 3 sh) (v : V 2 sh) (x : Idx sh) : (exy2e β dxes eps *ᵥ v) (1, x) = v (1, x) := by
  simp only [exy2e, eyeOver_mulVec_1]

theorem hxy2h_2 (β : ℂ) (dxes : Dx2 sh) (mu : Option (V 3 sh)) (v : V 2 sh) (x : Idx sh) :
    (hxy2h β dxes mu *ᵥ v) (2, x)
      = (fw dxes 0 (fun y => mu.getD 1 (0, y) * v (0, y)) x + fw dxes 1 (fun y => mu.getD 1 (1, y) * v (1, y)) x)
        / (I * β * mu.getD 1 (2, x)) := by
  cases mu with
  | none =>
    simp only [hxy2h, eyeOver_mulVec_2, smul_mulVec, Pi.smul_apply, smul_eq_mul, hstack_mulVec, derivForward_mulVec, Option.getD_none,
      Pi.one_apply, one_mul, mul_one]
    rw [one_div, inv_mul_eq_div]; rfl
  | some m =>
    simp only [hxy2h, eyeOver_mulVec_2, ← mulVec_mulVec, mulVec_diagonal, smul_mulVec, Pi.smul_apply, smul_eq_mul, hstack_mulVec,
      derivForward_mulVec, Option.getD_some]
    have h0 : part (diag2 (part m 0) (part m 1) *ᵥ v) 0 = fun y => m (0, y) * v (0, y) := by
      funext y; exact diag2_mulVec_0 _ _ _ _
    have h1 : part (diag2 (part m 0) (part m 1) *ᵥ v) 1 = fun y => m (1, y) * v (1, y) := by
      funext y; exact diag2_mulVec_1 _ _ _ _
    rw [h0, h1]
    simp only [part, one_div]
    rw [inv_mul_eq_div, inv_mul_eq_div, div_div]
theorem hxy2h_0 (β : ℂ) (dxes : Dx2 sh) (mu : Option (V 3 sh)) (v : V 2 sh) (x : Idx sh) : (hxy2h β dxes mu *ᵥ v) (0, x) = v (0, x) := by
  cases mu <;> simp only [hxy2h, eyeOver_mulVec_0]
theorem hxy2h_1 (β : ℂ) (dxes : Dx2 sh) (mu : Option (V 3 sh)) (v : V 2 sh) (x : Idx sh) : (hxy2h β dxes mu *ᵥ v) (1, x) = v (1, x) := by
  cases mu <;> simp only [hxy2h, eyeOver_mulVec_1]

theorem bw_neg (dxes : Dx2 sh) (a : Fin 2) (f : Idx sh → ℂ) (x : Idx sh) : bw dxes a (fun y => -f y) x = -bw dxes a f x := by
  simp only [derivBack_eq]; ring
theorem fw_neg (dxes : Dx2 sh) (a : Fin 2) (f : Idx sh → ℂ) (x : Idx sh) : fw dxes a (fun y => -f y) x = -fw dxes a f x := by
  simp only [derivForward_eq]; ring

theorem operatorE_0 (ω : ℂ) (dxes : Dx2 sh) (eps : V 3 sh) (mu : Option (V 3 sh)) (v : V 2 sh) (x : Idx sh) :
    (operatorE ω dxes eps mu *ᵥ v) (0, x) = ω ^ 2 * (mu.getD 1 (1, x) * (eps (0, x) * v (0, x)))
      - mu.getD 1 (1, x) * bw dxes 1 (fun y => (fw dxes 0 (part v 1) y - fw dxes 1 (part v 0) y) / mu.getD 1 (2, y)) x
      + fw dxes 0 (fun y => (bw dxes 0 (fun z => eps (0, z) * v (0, z)) y + bw dxes 1 (fun z => eps (1, z) * v (1, z)) y) / eps (2, y)) x := by
  have h0 : part (diag2 (part eps 0) (part eps 1) *ᵥ v) 0 = fun y => eps (0, y) * v (0, y) := by
    funext y; exact diag2_mulVec_0 _ _ _ _
  have h1 : part (diag2 (part eps 0) (part eps 1) *ᵥ v) 1 = fun y => eps (1, y) * v (1, y) := by
    funext y; exact diag2_mulVec_1 _ _ _ _
  have h2 : (diagonal fun x => 1 / part (mu.getD 1) 2 x) *ᵥ (hstack (-derivForward dxes.1 1) (derivForward dxes.1 0) *ᵥ v)
      = fun y => (fw dxes 0 (part v 1) y - fw dxes 1 (part v 0) y) / mu.getD 1 (2, y) := by
    funext y
    rw [mulVec_diagonal, hstack_mulVec, neg_mulVec, derivForward_mulVec, derivForward_mulVec, one_div, inv_mul_eq_div, Pi.neg_apply]
    show (-fw dxes 1 _ y + fw dxes 0 _ y) / _ = _
    rw [neg_add_eq_sub]; rfl
  have h3 : (diagonal fun x => 1 / part eps 2 x) *ᵥ (hstack (derivBack dxes.2 0) (derivBack dxes.2 1) *ᵥ (diag2 (part eps 0) (part eps 1) *ᵥ v))
      = fun y => (bw dxes 0 (fun z => eps (0, z) * v (0, z)) y + bw dxes 1 (fun z => eps (1, z) * v (1, z)) y) / eps (2, y) := by
    funext y
    rw [mulVec_diagonal, hstack_mulVec, derivBack_mulVec, derivBack_mulVec, one_div, inv_mul_eq_div, h0, h1]; rfl
  simp only [operatorE, add_mulVec, smul_mulVec, ← mulVec_mulVec, Pi.add_apply, Pi.smul_apply, smul_eq_mul]
  rw [h2, h3]
  simp only [diag2_mulVec_0, vstack_mulVec_0, neg_mulVec, derivBack_mulVec, derivForward_mulVec, Pi.neg_apply, part]
  ring

theorem operatorE_1 (ω : ℂ) (dxes : Dx2 sh) (eps : V 3 sh) (mu : Option (V 3 sh)) (v : V 2 sh) (x : Idx sh) :
    (operatorE ω dxes eps mu *ᵥ v) (1, x) = ω ^ 2 * (mu.getD 1 (0, x) * (eps (1, x) * v (1, x)))
      + mu.getD 1 (0, x) * bw dxes 0 (fun y => (fw dxes 0 (part v 1) y - fw dxes 1 (part v 0) y) / mu.getD 1 (2, y)) x
      + fw dxes 1 (fun y => (bw dxes 0 (fun z => eps (0, z) * v (0, z)) y + bw dxes 1 (fun z => eps (1, z) * v (1, z)) y) / eps (2, y)) x := by
  have h0 : part (diag2 (part eps 0) (part eps 1) *ᵥ v) 0 = fun y => eps (0, y) * v (0, y) := by
    funext y; exact diag2_mulVec_0 _ _ _ _
  have h1 : part (diag2 (part eps 0) (part eps 1) *ᵥ v) 1 = fun y => eps (1, y) * v (1, y) := by
    funext y; exact diag2_mulVec_1 _ _ _ _
  have h2 : (diagonal fun x => 1 / part (mu.getD 1) 2 x) *ᵥ (hstack (-derivForward dxes.1 1) (derivForward dxes.1 0) *ᵥ v)
      = fun y => (fw dxes 0 (part v 1) y - fw dxes 1 (part v 0) y) / mu.getD 1 (2, y) := by
    funext y
    rw [mulVec_diagonal, hstack_mulVec, neg_mulVec, derivForward_mulVec, derivForward_mulVec, one_div, inv_mul_eq_div, Pi.neg_apply]
    show (-fw dxes 1 _ y + fw dxes 0 _ y) / _ = _
    rw [neg_add_eq_sub]; rfl
  have h3 : (diagonal fun x => 1 / part eps 2 x) *ᵥ (hstack (derivBack dxes.2 0) (derivBack dxes.2 1) *ᵥ (diag2 (part eps 0) (part eps 1) *ᵥ v))
      = fun y => (bw dxes 0 (fun z => eps (0, z) * v (0, z)) y + bw dxes 1 (fun z => eps (1, z) * v (1, z)) y) / eps (2, y) := by
    funext y
    rw [mulVec_diagonal, hstack_mulVec, derivBack_mulVec, derivBack_mulVec, one_div, inv_mul_eq_div, h0, h1]; rfl
  simp only [operatorE, add_mulVec, smul_mulVec, ← mulVec_mulVec, Pi.add_apply, Pi.smul_apply, smul_eq_mul]
  rw [h2, h3]
  simp only [diag2_mulVec_1, vstack_mulVec_1, derivBack_mulVec, derivForward_mulVec, part]
  ring

theorem operatorH_0 (ω : ℂ) (dxes : Dx2 sh) (eps : V 3 sh) (mu : Option (V 3 sh)) (v : V 2 sh) (x : Idx sh) :
    (operatorH ω dxes eps mu *ᵥ v) (0, x) = ω ^ 2 * (eps (1, x) * (mu.getD 1 (0, x) * v (0, x)))
      - eps (1, x) * fw dxes 1 (fun y => (bw dxes 0 (part v 1) y - bw dxes 1 (part v 0) y) / eps (2, y)) x
      + bw dxes 0 (fun y => (fw dxes 0 (fun z => mu.getD 1 (0, z) * v (0, z)) y + fw dxes 1 (fun z => mu.getD 1 (1, z) * v (1, z)) y) / mu.getD 1 (2, y)) x := by
  have h0 : part (diag2 (part (mu.getD 1) 0) (part (mu.getD 1) 1) *ᵥ v) 0 = fun y => mu.getD 1 (0, y) * v (0, y) := by
    funext y; exact diag2_mulVec_0 _ _ _ _
  have h1 : part (diag2 (part (mu.getD 1) 0) (part (mu.getD 1) 1) *ᵥ v) 1 = fun y => mu.getD 1 (1, y) * v (1, y) := by
    funext y; exact diag2_mulVec_1 _ _ _ _
  have h2 : (diagonal fun x => 1 / part eps 2 x) *ᵥ (hstack (-derivBack dxes.2 1) (derivBack dxes.2 0) *ᵥ v)
      = fun y => (bw dxes 0 (part v 1) y - bw dxes 1 (part v 0) y) / eps (2, y) := by
    funext y
    rw [mulVec_diagonal, hstack_mulVec, neg_mulVec, derivBack_mulVec, derivBack_mulVec, one_div, inv_mul_eq_div, Pi.neg_apply]
    show (-bw dxes 1 _ y + bw dxes 0 _ y) / _ = _
    rw [neg_add_eq_sub]; rfl
  have h3 : (diagonal fun x => 1 / part (mu.getD 1) 2 x) *ᵥ (hstack (derivForward dxes.1 0) (derivForward dxes.1 1) *ᵥ (diag2 (part (mu.getD 1) 0) (part (mu.getD 1) 1) *ᵥ v))
      = fun y => (fw dxes 0 (fun z => mu.getD 1 (0, z) * v (0, z)) y + fw dxes 1 (fun z => mu.getD 1 (1, z) * v (1, z)) y) / mu.getD 1 (2, y) := by
    funext y
    rw [mulVec_diagonal, hstack_mulVec, derivForward_mulVec, derivForward_mulVec, one_div, inv_mul_eq_div, h0, h1]; rfl
  simp only [operatorH, add_mulVec, smul_mulVec, ← mulVec_mulVec, Pi.add_apply, Pi.smul_apply, smul_eq_mul]
  rw [h2, h3]
  simp only [diag2_mulVec_0, vstack_mulVec_0, neg_mulVec, derivBack_mulVec, derivForward_mulVec, Pi.neg_apply, part]
  ring

theorem operatorH_1 (ω : ℂ) (dxes : Dx2 sh) (eps : V 3 sh) (mu : Option (V 3 sh)) (v : V 2 sh) (x : Idx sh) :
    (operatorH ω dxes eps mu *ᵥ v) (1, x) = ω ^ 2 * (eps (0, x) * (mu.getD 1 (1, x) * v (1, x)))
      + eps (0, x) * fw dxes 0 (fun y => (bw dxes 0 (part v 1) y - bw dxes 1 (part v 0) y) / eps (2, y)) x
      + bw dxes 1 (fun y => (fw dxes 0 (fun z => mu.getD 1 (0, z) * v (0, z)) y + fw dxes 1 (fun z => mu.getD 1 (1, z) * v (1, z)) y) / mu.getD 1 (2, y)) x := by
  have h0 : part (diag2 (part (mu.getD 1) 0) (part (mu.getD 1) 1) *ᵥ v) 0 = fun y => mu.getD 1 (0, y) * v (0, y) := by
    funext y; exact diag2_mulVec_0 _ _ _ _
  have h1 : part (diag2 (part (mu.getD 1) 0) (part (mu.getD 1) 1) *ᵥ v) 1 = fun y => mu.getD 1 (1, y) * v (1, y) := by
    funext y; exact diag2_mulVec_1 _ _ _ _
  have h2 : (diagonal fun x => 1 / part eps 2 x) *ᵥ (hstack (-derivBack dxes.2 1) (derivBack dxes.2 0) *ᵥ v)
      = fun y => (bw dxes 0 (part v 1) y - bw dxes 1 (part v 0) y) / eps (2, y) := by
    funext y
    rw [mulVec_diagonal, hstack_mulVec, neg_mulVec, derivBack_mulVec, derivBack_mulVec, one_div, inv_mul_eq_div, Pi.neg_apply]
    show (-bw dxes 1 _ y + bw dxes 0 _ y) / _ = _
    rw [neg_add_eq_sub]; rfl
  have h3 : (diagonal fun x => 1 / part (mu.getD 1) 2 x) *ᵥ (hstack (derivForward dxes.1 0) (derivForward dxes.1 1) *ᵥ (diag2 (part (mu.getD 1) 0) (part (mu.getD 1) 1) *ᵥ v))
      = fun y => (fw dxes 0 (fun z => mu.getD 1 (0, z) * v (0, z)) y + fw dxes 1 (fun z => mu.getD 1 (1, z) * v (1, z)) y) / mu.getD 1 (2, y) := by
    funext y
    rw [mulVec_diagonal, hstack_mulVec, derivForward_mulVec, derivForward_mulVec, one_div, inv_mul_eq_div, h0, h1]; rfl
  simp only [operatorH, add_mulVec, smul_mulVec, ← mulVec_mulVec, Pi.add_apply, Pi.smul_apply, smul_eq_mul]
  rw [h2, h3]
  simp only [diag2_mulVec_1, vstack_mulVec_1, derivBack_mulVec, derivForward_mulVec, part]
  ring

end Meanas.Wg2
