/-
`slices` of meanas/fdfd/waveguide_3d.py as Python slice objects, whose bounds may be `None`, negative or out of range.

Only step 1. `Verif/Model/Waveguide3d.lean` describes a slice by the window of indices that it selects. `solve_mode` and `expand_e` use their slices for
indexing only (lines 65, 71-73, 100, 238, 245-251), so for them the window is all there is; `compute_source` and `compute_overlap_e` also read the bounds
themselves (lines 147-149, 191).
-/
import Verif.Model.Waveguide3d

namespace Meanas.Wg3

open Complex Matrix Fdfd

variable {sh : Fin 3 → ℕ}

/-- A Python `slice(start, stop)`. -/
structure PySlice where
  start : Option ℤ
  stop : Option ℤ

/-- Python's reading of one bound on an axis of length `n`: `None` is `d`, negative numbers count from the end, everything is cut to `0..n`. -/
def pyBound (n d : ℕ) : Option ℤ → ℕ
  | none => d
  | some b => if b < 0 then (b + n).toNat else min b.toNat n

/-- First selected index. -/
def PySlice.lo (s : PySlice) (n : ℕ) : ℕ := pyBound n 0 s.start
/-- One past the last selected index. -/
def PySlice.hi (s : PySlice) (n : ℕ) : ℕ := pyBound n n s.stop
/-- Is index `i` of an axis of length `n` selected? -/
def PySlice.Sel (s : PySlice) (n i : ℕ) : Prop := s.lo n ≤ i ∧ i < s.hi n

instance (s : PySlice) (n i : ℕ) : Decidable (s.Sel n i) := by unfold PySlice.Sel; infer_instance

theorem pyBound_le {n d : ℕ} (hd : d ≤ n) (b : Option ℤ) : pyBound n d b ≤ n := by
  rcases b with _ | b
  · exact hd
  · simp only [pyBound]; split_ifs <;> omega

/-- The `slices` argument: no axis is left without a selected item, and one item is selected along the propagation axis. -/
structure PySlices (sh : Fin 3 → ℕ) (axis : Fin 3) where
  /-- `slices[a]` -/
  sl : Fin 3 → PySlice
  /-- not empty -/
  lt : ∀ a, (sl a).lo (sh a) < (sl a).hi (sh a)
  /-- one item along the axis -/
  one : (sl axis).hi (sh axis) = (sl axis).lo (sh axis) + 1

/-- The window of selected items. -/
def PySlices.window {axis : Fin 3} (R : PySlices sh axis) : Slices sh axis where
  start a := (R.sl a).lo (sh a)
  stop a := (R.sl a).hi (sh a)
  lt := R.lt
  le a := pyBound_le (le_refl _) _
  one := R.one

/-- meanas/fdfd/waveguide_3d.py:145-152 `mask`: `slice(slices[axis].start, None)` or `slice(None, slices[axis].stop)`. -/
noncomputable def sourceMaskPy {axis : Fin 3} (pol : ℤ) (R : PySlices sh axis) : VField sh ℂ := fun _ x =>
  let s : PySlice := if 0 < pol then ⟨(R.sl axis).start, none⟩ else ⟨none, (R.sl axis).stop⟩
  if s.Sel (sh axis) (x axis) then 1 else 0

/-- meanas/fdfd/waveguide_3d.py:113-156 `compute_source`. -/
noncomputable def computeSourcePy (E : VField sh ℂ) (k ω : ℂ) (dxes : Dx sh) {axis : Fin 3} (pol : ℤ) (R : PySlices sh axis) (eps : VField sh ℂ)
    (mu : Option (VField sh ℂ)) : VField sh ℂ :=
  let Ee := expandE E k dxes pol R.window
  fun c x => (eBoundarySource (vecS (sourceMaskPy pol R)) ω dxes (vecS eps) (mu.map vecS) false *ᵥ vecS Ee) (c, x)

open Classical in
/-- meanas/fdfd/waveguide_3d.py:159-203 `compute_overlap_e`. `.ok none`: NaN. -/
noncomputable def computeOverlapEPy (E : VField sh ℂ) (k : ℂ) (dxes : Dx sh) {axis : Fin 3} (pol : ℤ) (R : PySlices sh axis) :
    Except String (Option (VField sh ℂ)) :=
  match (R.sl axis).start with
  | none => .error "TypeError: unsupported operand type(s) for -: 'NoneType' and 'int'"
  | some s =>
    let Ee := expandE E k dxes pol R.window
    let sl : PySlice := ⟨some (min s (s - 2 * pol)), some (max s (s - 2 * pol))⟩
    let Et : VField sh ℂ := fun c x => if (∀ b, b ≠ axis → (R.sl b).Sel (sh b) (x b)) ∧ sl.Sel (sh axis) (x axis) then Ee c x else 0
    let nrm : ℂ := ∑ c, ∑ x, (starRingEnd ℂ) (Et c x) * Et c x
    .ok (if nrm = 0 then none else some fun c x => Et c x / nrm)

end Meanas.Wg3
