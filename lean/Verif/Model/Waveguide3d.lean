/-
Model of meanas/fdfd/waveguide_3d.py.

`slices` are slice objects with explicit in-range `start` and `stop`; `slices[axis]` selects one item, as the documentation demands.
Fields are complex arrays. The 2D eigenproblem solved at line 75 is a parameter of `solveMode` (its result `(e_xy, wavenumber_2d)`), see
`Verif/Model/WgModes.lean` for that solver.
-/
import Verif.Model.Fdfd
import Verif.Model.Waveguide2d
import Mathlib.Analysis.SpecialFunctions.Complex.Log
import Mathlib.Analysis.SpecialFunctions.Pow.Complex
import Mathlib.Data.Fin.Tuple.Basic

namespace Meanas.Wg3

open Complex Matrix Fdfd

variable {sh : Fin 3 → ℕ}

/-- `numpy.roll(range(3), k)`. -/
def rollRange (k : ℤ) (i : Fin 3) : Fin 3 := wrap i (-k)

/-- meanas/fdfd/waveguide_3d.py:61 `order`. -/
def order (axis : Fin 3) (i : Fin 3) : Fin 3 := rollRange (2 - (axis : ℕ)) i
/-- meanas/fdfd/waveguide_3d.py:62 `reverse_order`. -/
def reverseOrder (axis : Fin 3) (i : Fin 3) : Fin 3 := rollRange ((axis : ℕ) - 2) i

/-- The `slices` argument: in-range windows, one item along the propagation axis. -/
structure Slices (sh : Fin 3 → ℕ) (axis : Fin 3) where
  /-- `slices[a].start` -/
  start : Fin 3 → ℕ
  /-- `slices[a].stop` -/
  stop : Fin 3 → ℕ
  /-- not empty -/
  lt : ∀ a, start a < stop a
  /-- in range -/
  le : ∀ a, stop a ≤ sh a
  /-- one item along the axis -/
  one : stop axis = start axis + 1

namespace Slices

variable {axis : Fin 3} (S : Slices sh axis)

/-- Number of selected items. -/
def len (a : Fin 3) : ℕ := S.stop a - S.start a

theorem len_lt {a : Fin 3} (i : Fin (S.len a)) : S.start a + i < sh a := by
  have := S.le a; have := i.2; unfold len at this; omega

/-- Index of the `i`th selected item. -/
def at' (a : Fin 3) (i : Fin (S.len a)) : Fin (sh a) := ⟨S.start a + i, S.len_lt i⟩

/-- The plane selected along the propagation axis. -/
def plane : Fin (sh axis) := ⟨S.start axis, lt_of_lt_of_le (S.lt axis) (S.le axis)⟩

/-- Position inside the window, as in `A[slices]`. -/
def Mem (a : Fin 3) (i : Fin (sh a)) : Prop := S.start a ≤ i ∧ (i : ℕ) < S.stop a

instance (a : Fin 3) (i : Fin (sh a)) : Decidable (S.Mem a i) := by unfold Mem; infer_instance

end Slices

/-- `A[slices]`. -/
def sliceArr {axis : Fin 3} (S : Slices sh axis) (f : Arr sh ℂ) : Arr S.len ℂ := fun y => f fun a => S.at' a (y a)

/-- `A.transpose(p)`: `out[y] = A[x]` with `x[p[j]] = y[j]`; `q` is the inverse of `p`. -/
def transpose {n : Fin 3 → ℕ} (p q : Fin 3 → Fin 3) (hpq : ∀ a, p (q a) = a) (f : Arr n ℂ) : Arr (fun j => n (p j)) ℂ :=
  fun y => f fun a => Fin.cast (congrArg n (hpq a)) (y (q a))

theorem order_reverse (axis : Fin 3) (a : Fin 3) : order axis (reverseOrder axis a) = a := by
  revert axis a; decide
theorem reverse_order (axis : Fin 3) (a : Fin 3) : reverseOrder axis (order axis a) = a := by
  revert axis a; decide
theorem order_two (axis : Fin 3) : order axis 2 = axis := by
  revert axis; decide

/-- Shape of the 2D problem, meanas/fdfd/waveguide_3d.py:84. -/
def sh2 {axis : Fin 3} (S : Slices sh axis) (j : Fin 2) : ℕ := S.len (order axis j.castSucc)

/-- A `(n0, n1, 1)` array read as a 2D one (`vec` flattens it to the same vector). -/
def squeeze {axis : Fin 3} (S : Slices sh axis) (f : Arr (fun j => S.len (order axis j)) ℂ) : Arr (sh2 S) ℂ := fun y =>
  f (Fin.lastCases (motive := fun j => Fin (S.len (order axis j)))
    ⟨0, by
      have := S.lt (order axis (Fin.last 2)); unfold Slices.len; omega⟩ y)

/-- meanas/fdfd/waveguide_3d.py:72-73 `vec([A[i][slices].transpose(order) for i in order])`. -/
def reduce2d {axis : Fin 3} (S : Slices sh axis) (f : VField sh ℂ) : Wg2.V 3 (sh2 S) := fun p =>
  squeeze S (transpose (order axis) (reverseOrder axis) (order_reverse axis) (sliceArr S (f (order axis p.1)))) p.2

/-- meanas/fdfd/waveguide_3d.py:71 `[dx[i][slices[i]] for i in order[:2]]`. -/
def dx2d {axis : Fin 3} (S : Slices sh axis) (dx : DxList sh ℂ) : DxList (sh2 S) ℂ := fun j i =>
  dx (order axis j.castSucc) (S.at' _ i)

/-- meanas/fdfd/waveguide_3d.py:65-66 `dx_prop`. -/
noncomputable def dxProp {axis : Fin 3} (S : Slices sh axis) (dxes : Dx sh) : ℂ := 0.5 * (dxes.1 axis S.plane + dxes.2 axis S.plane)

/-- `numpy.arcsin` (principal branch). -/
noncomputable def arcsin (z : ℂ) : ℂ := -I * log (I * z + (1 - z ^ 2) ^ (1 / 2 : ℂ))

/-- `A[slices] = G` on a zero array, `G` of the window's shape. -/
noncomputable def scatter {axis : Fin 3} (S : Slices sh axis) {n : Fin 3 → ℕ} (hn : ∀ a, n a = S.len a) (G : Arr n ℂ) : Arr sh ℂ := fun x =>
  if h : ∀ a, S.Mem a (x a) then G fun a => ⟨(x a : ℕ) - S.start a, by have := h a; rw [hn, Slices.len]; unfold Slices.Mem at this; omega⟩
  else 0

/-- meanas/fdfd/waveguide_3d.py:97-102: components of the slice back onto the 3D grid. -/
noncomputable def expand3 {axis : Fin 3} (S : Slices sh axis) (e : Wg2.V 3 (sh2 S)) : VField sh ℂ := fun aa =>
  let g : Arr (fun j => S.len (order axis j)) ℂ := fun y => e (reverseOrder axis aa, fun j => y j.castSucc)
  scatter S (fun a => congrArg S.len (order_reverse axis a)) (transpose (reverseOrder axis) (order axis) (reverse_order axis) g)

/-- Result of `solve_mode`. -/
structure Mode (sh : Fin 3 → ℕ) where
  /-- `'E'` -/
  E : VField sh ℂ
  /-- `'H'` -/
  H : VField sh ℂ
  /-- `'wavenumber'` -/
  k : ℂ
  /-- `'wavenumber_2d'` -/
  k2d : ℂ

/-- meanas/fdfd/waveguide_3d.py:82 -/
noncomputable def correct (k2d dxp : ℂ) : ℂ := 2 / dxp * arcsin (k2d * dxp / 2)

/-- meanas/fdfd/waveguide_3d.py:89-94: polarity and half-cell phases. -/
noncomputable def adjust {s : Fin 2 → ℕ} (ve vh : Wg2.V 3 s) (pol : ℤ) (k dxp : ℂ) : Wg2.V 3 s × Wg2.V 3 s :=
  let ph := exp (-I * pol * 0.5 * k * dxp)
  (fun p => if p.1 = 2 then ve p * ph else ve p, fun p => if p.1 = 2 then vh p * pol else vh p * pol * ph)

/-- meanas/fdfd/waveguide_3d.py:17-110 `solve_mode`, given the pair `(e_xy, wavenumber_2d)` found at line 75. -/
noncomputable def solveMode {axis : Fin 3} (S : Slices sh axis) (ω : ℂ) (dxes : Dx sh) (pol : ℤ) (eps : VField sh ℂ) (mu : Option (VField sh ℂ))
    (exy : Wg2.V 2 (sh2 S)) (k2d : ℂ) : Except String (Mode sh) :=
  let mu := mu.getD fun _ _ => 1
  let dxp := dxProp S dxes
  let k := correct k2d dxp
  match Wg2.normalizedFieldsE exy k2d ω (dx2d S dxes.1, dx2d S dxes.2) (reduce2d S eps) (some (reduce2d S mu)) (dxp * k) with
  | .error m => .error m
  | .ok (ve, vh) =>
    let eh := adjust ve vh pol k dxp
    .ok ⟨expand3 S eh.1, expand3 S eh.2, k, k2d⟩

/-- meanas/fdfd/waveguide_3d.py:206-252 `expand_e`. -/
noncomputable def expandE (E : VField sh ℂ) (k : ℂ) (dxes : Dx sh) {axis : Fin 3} (pol : ℤ) (S : Slices sh axis) : VField sh ℂ :=
  let aE (i : Fin (sh axis)) : ℝ := Wg2.cumsum (fun j => (dxes.1 axis j).re) i
  let rE (i : Fin (sh axis)) : ℝ := aE i - aE S.plane
  let phase (i : Fin (sh axis)) : ℂ := exp (pol * -I * k * rE i)
  fun c x => if ∀ b, b ≠ axis → S.Mem b (x b) then phase (x axis) * E c (Function.update x axis S.plane) else 0

/-- meanas/fdfd/waveguide_3d.py:145-152 `mask`. -/
noncomputable def sourceMask {axis : Fin 3} (pol : ℤ) (S : Slices sh axis) : VField sh ℂ := fun _ x =>
  if 0 < pol then (if S.start axis ≤ (x axis : ℕ) then 1 else 0) else (if (x axis : ℕ) < S.stop axis then 1 else 0)

/-- meanas/fdfd/waveguide_3d.py:113-156 `compute_source` (`vec(None)` is `None`, `periodic_mask_edges` keeps its default). -/
noncomputable def computeSource (E : VField sh ℂ) (k ω : ℂ) (dxes : Dx sh) {axis : Fin 3} (pol : ℤ) (S : Slices sh axis) (eps : VField sh ℂ)
    (mu : Option (VField sh ℂ)) : VField sh ℂ :=
  let Ee := expandE E k dxes pol S
  fun c x => (eBoundarySource (vecS (sourceMask pol S)) ω dxes (vecS eps) (mu.map vecS) false *ᵥ vecS Ee) (c, x)

/-- Is index `i` of an axis of length `n` selected by `slice(s, t)`? Negative bounds count from the end. -/
def inPySlice (n : ℕ) (s t : ℤ) (i : ℕ) : Prop :=
  let norm (b : ℤ) : ℤ := if b < 0 then max (b + n) 0 else min b n
  norm s ≤ i ∧ (i : ℤ) < norm t

instance (n : ℕ) (s t : ℤ) (i : ℕ) : Decidable (inPySlice n s t i) := by unfold inPySlice; infer_instance

/-- meanas/fdfd/waveguide_3d.py:191-198 `Etgt` before normalisation. -/
noncomputable def overlapTarget (Ee : VField sh ℂ) {axis : Fin 3} (pol : ℤ) (S : Slices sh axis) : VField sh ℂ :=
  let s0 : ℤ := S.start axis
  let s1 : ℤ := S.start axis - 2 * pol
  fun c x => if (∀ b, b ≠ axis → S.Mem b (x b)) ∧ inPySlice (sh axis) (min s0 s1) (max s0 s1) (x axis) then Ee c x else 0

open Classical in
/-- meanas/fdfd/waveguide_3d.py:159-203 `compute_overlap_e`. `none`: the normalisation is 0/0 and the whole array is NaN. -/
noncomputable def computeOverlapE (E : VField sh ℂ) (k : ℂ) (dxes : Dx sh) {axis : Fin 3} (pol : ℤ) (S : Slices sh axis) : Option (VField sh ℂ) :=
  let Et := overlapTarget (expandE E k dxes pol S) pol S
  let nrm : ℂ := ∑ c, ∑ x, (starRingEnd ℂ) (Et c x) * Et c x
  if nrm = 0 then none else some fun c x => Et c x / nrm

end Meanas.Wg3
