/-
Helper lemmas about the finite-difference operators of `Verif/Model/Functional.lean`.
-/
import Verif.Model.Functional
import Verif.Lemmas.NdArray
import Verif.Spec.Grid
import Mathlib.Tactic.FieldSimp
import Mathlib.Tactic.LinearCombination
import Mathlib.Tactic.FinCases

namespace Meanas

open Functional Spec

variable {d : ℕ} {sh : Fin d → ℕ} {K : Type*} [Field K]

theorem derivForward_eq (dx : Option (DxList sh K)) (a : Fin d) (f : Arr sh K) (x : Idx sh) :
    derivForward dx a f x = (f (shiftIdx a 1 x) - f x) / wOf dx a (x a) := by
  cases dx <;> simp [derivForward, roll_apply, wOf]

theorem derivBack_eq (dx : Option (DxList sh K)) (a : Fin d) (f : Arr sh K) (x : Idx sh) :
    derivBack dx a f x = (f x - f (shiftIdx a (-1) x)) / wOf dx a (x a) := by
  cases dx <;> simp [derivBack, roll_apply, wOf]

theorem divBack_eq (dx : Option (DxList sh K)) (F : Fin d → Arr sh K) (x : Idx sh) :
    divBack dx F x = ∑ a, derivBack dx a (F a) x := by simp only [divBack, derivBack_eq]

theorem divForward_eq (dx : Option (DxList sh K)) (F : Fin d → Arr sh K) (x : Idx sh) :
    divForward dx F x = ∑ a, derivForward dx a (F a) x := by simp only [divForward, derivForward_eq]

theorem derivBack_comm (dx dx' : Option (DxList sh K)) {a b : Fin d} (h : a ≠ b) (f : Arr sh K) (x : Idx sh) :
    derivBack dx a (derivBack dx' b f) x = derivBack dx' b (derivBack dx a f) x := by
  simp only [derivBack_eq, shiftIdx_of_ne h, shiftIdx_of_ne h.symm, shiftIdx_comm a b]
  ring

theorem derivForward_comm (dx dx' : Option (DxList sh K)) {a b : Fin d} (h : a ≠ b) (f : Arr sh K) (x : Idx sh) :
    derivForward dx a (derivForward dx' b f) x = derivForward dx' b (derivForward dx a f) x := by
  simp only [derivForward_eq, shiftIdx_of_ne h, shiftIdx_of_ne h.symm, shiftIdx_comm a b]
  ring

theorem derivForward_derivBack_comm (dx dx' : Option (DxList sh K)) {a b : Fin d} (h : a ≠ b) (f : Arr sh K)
    (x : Idx sh) : derivForward dx a (derivBack dx' b f) x = derivBack dx' b (derivForward dx a f) x := by
  simp only [derivForward_eq, derivBack_eq, shiftIdx_of_ne h, shiftIdx_of_ne h.symm, shiftIdx_comm a b]
  ring

theorem derivBack_sub (dx : Option (DxList sh K)) (a : Fin d) (f g : Arr sh K) (x : Idx sh) :
    derivBack dx a (fun y => f y - g y) x = derivBack dx a f x - derivBack dx a g x := by
  simp only [derivBack_eq]; ring

theorem derivForward_sub (dx : Option (DxList sh K)) (a : Fin d) (f g : Arr sh K) (x : Idx sh) :
    derivForward dx a (fun y => f y - g y) x = derivForward dx a f x - derivForward dx a g x := by
  simp only [derivForward_eq]; ring

theorem derivBack_add (dx : Option (DxList sh K)) (a : Fin d) (f g : Arr sh K) (x : Idx sh) :
    derivBack dx a (fun y => f y + g y) x = derivBack dx a f x + derivBack dx a g x := by
  simp only [derivBack_eq]; ring

theorem derivForward_add (dx : Option (DxList sh K)) (a : Fin d) (f g : Arr sh K) (x : Idx sh) :
    derivForward dx a (fun y => f y + g y) x = derivForward dx a f x + derivForward dx a g x := by
  simp only [derivForward_eq]; ring

theorem derivBack_smul (dx : Option (DxList sh K)) (a : Fin d) (c : K) (f : Arr sh K) (x : Idx sh) :
    derivBack dx a (fun y => c * f y) x = c * derivBack dx a f x := by
  simp only [derivBack_eq]; ring

theorem derivForward_smul (dx : Option (DxList sh K)) (a : Fin d) (c : K) (f : Arr sh K) (x : Idx sh) :
    derivForward dx a (fun y => c * f y) x = c * derivForward dx a f x := by
  simp only [derivForward_eq]; ring

/-- Summation by parts for unscaled differences with a weight that does not vary along the axis. -/
theorem sum_by_parts (a : Fin d) (u f g : Arr sh K) (hu : ∀ x, u (shiftIdx a 1 x) = u x) :
    ∑ x, u x * g x * (f x - f (shiftIdx a (-1) x)) = -∑ x, u x * f x * (g (shiftIdx a 1 x) - g x) := by
  have h1 : ∑ x, u x * g x * f (shiftIdx a (-1) x) = ∑ x, u x * f x * g (shiftIdx a 1 x) := by
    rw [← sum_shiftIdx a 1]
    refine Finset.sum_congr rfl fun x _ => ?_
    simp only [shiftIdx_shiftIdx, add_neg_cancel, shiftIdx_zero, hu]
    ring
  have h2 : ∑ x, u x * g x * (f x - f (shiftIdx a (-1) x))
      = ∑ x, u x * g x * f x - ∑ x, u x * g x * f (shiftIdx a (-1) x) := by
    rw [← Finset.sum_sub_distrib]; exact Finset.sum_congr rfl fun x _ => by ring
  have h3 : ∑ x, u x * f x * (g (shiftIdx a 1 x) - g x)
      = ∑ x, u x * f x * g (shiftIdx a 1 x) - ∑ x, u x * g x * f x := by
    rw [← Finset.sum_sub_distrib]; exact Finset.sum_congr rfl fun x _ => by ring
  rw [h2, h3, h1]; ring

section Three
variable {sh : Fin 3 → ℕ}

@[simp] theorem curlForward_0 (dx : Option (DxList sh K)) (e : VField sh K) (x : Idx sh) :
    curlForward dx e 0 x = derivForward dx 1 (e 2) x - derivForward dx 2 (e 1) x := rfl
@[simp] theorem curlForward_1 (dx : Option (DxList sh K)) (e : VField sh K) (x : Idx sh) :
    curlForward dx e 1 x = derivForward dx 2 (e 0) x - derivForward dx 0 (e 2) x := rfl
@[simp] theorem curlForward_2 (dx : Option (DxList sh K)) (e : VField sh K) (x : Idx sh) :
    curlForward dx e 2 x = derivForward dx 0 (e 1) x - derivForward dx 1 (e 0) x := rfl
@[simp] theorem curlBack_0 (dx : Option (DxList sh K)) (e : VField sh K) (x : Idx sh) :
    curlBack dx e 0 x = derivBack dx 1 (e 2) x - derivBack dx 2 (e 1) x := rfl
@[simp] theorem curlBack_1 (dx : Option (DxList sh K)) (e : VField sh K) (x : Idx sh) :
    curlBack dx e 1 x = derivBack dx 2 (e 0) x - derivBack dx 0 (e 2) x := rfl
@[simp] theorem curlBack_2 (dx : Option (DxList sh K)) (e : VField sh K) (x : Idx sh) :
    curlBack dx e 2 x = derivBack dx 0 (e 1) x - derivBack dx 1 (e 0) x := rfl

/-- Proof by cases on a component index 0, 1, 2. -/
theorem forall_fin3 {P : Fin 3 → Prop} (h0 : P 0) (h1 : P 1) (h2 : P 2) : ∀ c, P c := by
  intro c; match c with
  | 0 => exact h0
  | 1 => exact h1
  | 2 => exact h2

theorem divBack_curlBack (dx : Option (DxList sh K)) (F : VField sh K) (x : Idx sh) :
    divBack dx (curlBack dx F) x = 0 := by
  have h01 := derivBack_comm dx dx (show (0 : Fin 3) ≠ 1 by decide) (F 2) x
  have h02 := derivBack_comm dx dx (show (0 : Fin 3) ≠ 2 by decide) (F 1) x
  have h12 := derivBack_comm dx dx (show (1 : Fin 3) ≠ 2 by decide) (F 0) x
  simp only [divBack_eq, Fin.sum_univ_three]
  have e0 : curlBack dx F 0 = fun y => derivBack dx 1 (F 2) y - derivBack dx 2 (F 1) y := rfl
  have e1 : curlBack dx F 1 = fun y => derivBack dx 2 (F 0) y - derivBack dx 0 (F 2) y := rfl
  have e2 : curlBack dx F 2 = fun y => derivBack dx 0 (F 1) y - derivBack dx 1 (F 0) y := rfl
  rw [e0, e1, e2, derivBack_sub, derivBack_sub, derivBack_sub]
  linear_combination h01 - h02 + h12

theorem divForward_curlForward (dx : Option (DxList sh K)) (F : VField sh K) (x : Idx sh) :
    divForward dx (curlForward dx F) x = 0 := by
  have h01 := derivForward_comm dx dx (show (0 : Fin 3) ≠ 1 by decide) (F 2) x
  have h02 := derivForward_comm dx dx (show (0 : Fin 3) ≠ 2 by decide) (F 1) x
  have h12 := derivForward_comm dx dx (show (1 : Fin 3) ≠ 2 by decide) (F 0) x
  simp only [divForward_eq, Fin.sum_univ_three]
  have e0 : curlForward dx F 0 = fun y => derivForward dx 1 (F 2) y - derivForward dx 2 (F 1) y := rfl
  have e1 : curlForward dx F 1 = fun y => derivForward dx 2 (F 0) y - derivForward dx 0 (F 2) y := rfl
  have e2 : curlForward dx F 2 = fun y => derivForward dx 0 (F 1) y - derivForward dx 1 (F 0) y := rfl
  rw [e0, e1, e2, derivForward_sub, derivForward_sub, derivForward_sub]
  linear_combination h01 - h02 + h12

theorem curlForward_add (dx : Option (DxList sh K)) (F G : VField sh K) (c : Fin 3) (x : Idx sh) :
    curlForward dx (fun c y => F c y + G c y) c x = curlForward dx F c x + curlForward dx G c x := by
  revert c; apply forall_fin3 <;> simp [derivForward_add] <;> ring

theorem curlBack_add (dx : Option (DxList sh K)) (F G : VField sh K) (c : Fin 3) (x : Idx sh) :
    curlBack dx (fun c y => F c y + G c y) c x = curlBack dx F c x + curlBack dx G c x := by
  revert c; apply forall_fin3 <;> simp [derivBack_add] <;> ring

theorem curlForward_smul (dx : Option (DxList sh K)) (k : K) (F : VField sh K) (c : Fin 3) (x : Idx sh) :
    curlForward dx (fun c y => k * F c y) c x = k * curlForward dx F c x := by
  revert c; apply forall_fin3 <;> simp [derivForward_smul] <;> ring

theorem curlBack_smul (dx : Option (DxList sh K)) (k : K) (F : VField sh K) (c : Fin 3) (x : Idx sh) :
    curlBack dx (fun c y => k * F c y) c x = k * curlBack dx F c x := by
  revert c; apply forall_fin3 <;> simp [derivBack_smul] <;> ring

theorem volE_0 (dxE dxH : DxList sh K) (x : Idx sh) :
    volE dxE dxH 0 x = dxE 0 (x 0) * dxH 1 (x 1) * dxH 2 (x 2) := by simp [volE, Fin.prod_univ_three]
theorem volE_1 (dxE dxH : DxList sh K) (x : Idx sh) :
    volE dxE dxH 1 x = dxH 0 (x 0) * dxE 1 (x 1) * dxH 2 (x 2) := by simp [volE, Fin.prod_univ_three]
theorem volE_2 (dxE dxH : DxList sh K) (x : Idx sh) :
    volE dxE dxH 2 x = dxH 0 (x 0) * dxH 1 (x 1) * dxE 2 (x 2) := by simp [volE, Fin.prod_univ_three]
theorem volH_0 (dxE dxH : DxList sh K) (x : Idx sh) :
    volH dxE dxH 0 x = dxH 0 (x 0) * dxE 1 (x 1) * dxE 2 (x 2) := by simp [volH, Fin.prod_univ_three]
theorem volH_1 (dxE dxH : DxList sh K) (x : Idx sh) :
    volH dxE dxH 1 x = dxE 0 (x 0) * dxH 1 (x 1) * dxE 2 (x 2) := by simp [volH, Fin.prod_univ_three]
theorem volH_2 (dxE dxH : DxList sh K) (x : Idx sh) :
    volH dxE dxH 2 x = dxE 0 (x 0) * dxE 1 (x 1) * dxH 2 (x 2) := by simp [volH, Fin.prod_univ_three]

end Three

/-- Weighted summation by parts along one axis: the derivative's own width cancels against the weight. -/
theorem sum_by_parts_weighted (a : Fin d) (dxE dxH : DxList sh K) (hE : Nonzero dxE) (hH : Nonzero dxH)
    (u f g : Arr sh K) (hu : ∀ x, u (shiftIdx a 1 x) = u x) :
    ∑ x, (dxH a (x a) * u x) * (g x * derivBack (some dxH) a f x)
      = -∑ x, (dxE a (x a) * u x) * (f x * derivForward (some dxE) a g x) := by
  have := sum_by_parts a u f g hu
  have l : ∀ x, (dxH a (x a) * u x) * (g x * derivBack (some dxH) a f x)
      = u x * g x * (f x - f (shiftIdx a (-1) x)) := by
    intro x; rw [derivBack_eq]; have := hH a (x a); simp only [wOf_some]; field_simp
  have r : ∀ x, (dxE a (x a) * u x) * (f x * derivForward (some dxE) a g x)
      = u x * f x * (g (shiftIdx a 1 x) - g x) := by
    intro x; rw [derivForward_eq]; have := hE a (x a); simp only [wOf_some]; field_simp
  simp only [l, r]
  exact this

end Meanas
