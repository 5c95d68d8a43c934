/-
Specification vocabulary for the Yee grid, independent of the model's step functions.
-/
import Verif.Model.NdArray
import Mathlib.Algebra.Field.Defs

namespace Meanas.Spec

variable {d : ℕ} {sh : Fin d → ℕ} {K : Type*} [Field K]

/-- All cell widths are nonzero (numpy's division and the field's division agree). -/
def Nonzero (dx : DxList sh K) : Prop := ∀ a i, dx a i ≠ 0

/-- The width a difference is divided by: the listed width, or 1 if no widths are given. -/
def wOf (dx : Option (DxList sh K)) (a : Fin d) (i : Fin (sh a)) : K :=
  match dx with
  | some dx => dx a i
  | none => 1

@[simp] theorem wOf_some (dx : DxList sh K) (a : Fin d) (i : Fin (sh a)) : wOf (some dx) a i = dx a i := rfl
@[simp] theorem wOf_none (a : Fin d) (i : Fin (sh a)) : wOf (none : Option (DxList sh K)) a i = 1 := rfl

/-- Backward divergence of a `d`-component field: `∑_a (F_a[x] - F_a[x - 1_a]) / dx_a`. -/
def divBack (dx : Option (DxList sh K)) (F : Fin d → Arr sh K) : Arr sh K :=
  fun x => ∑ a, (F a x - F a (shiftIdx a (-1) x)) / wOf dx a (x a)

/-- Forward divergence: `∑_a (F_a[x + 1_a] - F_a[x]) / dx_a`. -/
def divForward (dx : Option (DxList sh K)) (F : Fin d → Arr sh K) : Arr sh K :=
  fun x => ∑ a, (F a (shiftIdx a 1 x) - F a x) / wOf dx a (x a)

/-- Forward gradient. -/
def gradForward (dx : Option (DxList sh K)) (φ : Arr sh K) : Fin d → Arr sh K :=
  fun a x => (φ (shiftIdx a 1 x) - φ x) / wOf dx a (x a)

/-- Backward gradient. -/
def gradBack (dx : Option (DxList sh K)) (φ : Arr sh K) : Fin d → Arr sh K :=
  fun a x => (φ x - φ (shiftIdx a (-1) x)) / wOf dx a (x a)

/-- Volume of the Yee cell around an E component: the component's own axis uses the E widths,
the transverse axes use the H widths. -/
def volE (dxE dxH : DxList sh K) (c : Fin d) (x : Idx sh) : K :=
  ∏ a, if a = c then dxE a (x a) else dxH a (x a)

/-- Volume of the Yee cell around an H component. -/
def volH (dxE dxH : DxList sh K) (c : Fin d) (x : Idx sh) : K :=
  ∏ a, if a = c then dxH a (x a) else dxE a (x a)

end Meanas.Spec
