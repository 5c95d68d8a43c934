/-
Model of the `mu` branches of meanas/fdfd/bloch.py. `maxwell_operator`: array shapes only, since numpy decides from the shapes whether it raises.
`inverse_maxwell_operator_approx`: the values on cubic grids, where broadcasting succeeds.
-/
import Verif.Model.Bloch
import Mathlib.Data.List.Basic
import Mathlib.Algebra.BigOperators.Group.List.Basic

namespace Meanas.Bloch

/-- numpy broadcasting of two shapes given in reversed order. -/
def bcastRev : List ℕ → List ℕ → Option (List ℕ)
  | [], ys => some ys
  | x :: xs, [] => some (x :: xs)
  | x :: xs, y :: ys =>
    match bcastRev xs ys with
    | none => none
    | some r => if x = y then some (x :: r) else if x = 1 then some (y :: r) else if y = 1 then some (x :: r) else none

/-- Shape of `a * b`, `a + b` for arrays of the given shapes; a ValueError if they cannot be broadcast. -/
def bcast (a b : List ℕ) : Except String (List ℕ) :=
  match bcastRev a.reverse b.reverse with
  | some r => .ok r.reverse
  | none => .error "ValueError: operands could not be broadcast together"

/-- Shape of `a` after `a /= b`: the result must have the shape of `a`. -/
def bcastInPlace (a b : List ℕ) : Except String (List ℕ) :=
  match bcast a b with
  | .ok r => if r = a then .ok a else .error "ValueError: non-broadcastable output operand"
  | .error e => .error e

/-- `numpy.concatenate((a.ravel(), b.ravel()), axis=None, out=h)` for a flat `h` of `n` elements. -/
def concatInto (n : ℕ) (a b : List ℕ) : Except String (List ℕ) :=
  if a.prod + b.prod = n then .ok [n] else .error "ValueError: Output array is the wrong shape"

/-- meanas/fdfd/bloch.py:252-272, the part of `maxwell_operator` that runs if `mu is not None`: `b_m`, `b_n` have shape
`(nx, ny, nz, 1)` (`keepdims=True` in lines 249-250), `m`, `n` have shape `(nx, ny, nz, 3)`, and `mu` is given as a field of shape
`mushape`, whose first axis is moved to the end (lines 217-218). The FFTs keep shapes. Result: the shape of the returned array. -/
def maxwellOperatorMu (nx ny nz : ℕ) (mushape : List ℕ) : Except String (List ℕ) := do
  let mn := [nx, ny, nz, 3]
  let b := [nx, ny, nz] ++ [1] ++ [1]            -- b_m[:, :, :, None]
  let p ← bcast mn b                            -- m * b_m[:, :, :, None]
  let q ← bcast mn b                            -- n * b_n[:, :, :, None]
  let bxyz ← bcast p q
  let temp ← bcastInPlace bxyz (mushape.drop 1 ++ mushape.take 1)
  let hm ← bcast temp mn                        -- h_xyz * m
  let hn ← bcast temp mn                        -- h_xyz * n
  let flat ← concatInto (2 * (nx * ny * nz)) (hm.eraseIdx 3) (hn.eraseIdx 3)
  return flat ++ [1]

section
open Complex Matrix

/-- On a cubic grid, the cell of `m`, `n` and `mu` (shape `(n, n, n, 3)`) that numpy aligns with the entry `[x0, x1, x2, l, c]` of an array with five axes. -/
def shifted {n : ℕ} (x : Idx fun _ : Fin 3 => n) (l : Fin n) : Idx fun _ : Fin 3 => n := fun a => match a with
  | 0 => x 1
  | 1 => x 2
  | 2 => l

open Classical in
/-- meanas/fdfd/bloch.py:377-434, `inverse_maxwell_operator_approx` with `mu` on a grid of `n × n × n` cells: `hin_m[:, :, :, None]` has shape
`(n, n, n, 1, 1)` (`hin_m` already has a fourth axis), so that `h_xyz` and `b_xyz` have five axes (lines 406-412), and the sums of lines 415-416 run over the
fourth of them, a grid axis, and leave the components. Every shape fits. -/
noncomputable def inverseMaxwellOperatorApproxMu {n : ℕ} (k0 : Fin 3 → ℝ) (G : Matrix (Fin 3) (Fin 3) ℝ) (eps mu : VField (fun _ : Fin 3 => n) ℂ)
    (h : Hmn fun _ : Fin 3 => n) : Option (Hmn fun _ : Fin 3 => n) :=
  if ∃ x : Idx (fun _ : Fin 3 => n), kMag k0 G x = 0 then none
  else (nAll k0 G fun _ => n).map fun nv =>
    let hxyz (l : Fin n) (c : Fin 3) : Arr (fun _ : Fin 3 => n) ℂ := fun x => mVec k0 G (shifted x l) c * h 0 x + nv (shifted x l) c * h 1 x
    let bxyz (l : Fin n) (c : Fin 3) : Arr (fun _ : Fin 3 => n) ℂ := fftn fun x => ifftn (hxyz l c) x * mu c (shifted x l)
    let bm : VField (fun _ : Fin 3 => n) ℂ := fun c x => ∑ l, bxyz l c x * mVec k0 G (shifted x l) c
    let bn : VField (fun _ : Fin 3 => n) ℂ := fun c x => ∑ l, bxyz l c x * nv (shifted x l) c
    let e : VField (fun _ : Fin 3 => n) ℂ := fun c x => (nv x c * bm c x - mVec k0 G x c * bn c x) / kMag k0 G x
    let d : VField (fun _ : Fin 3 => n) ℂ := fun c => fftn fun y => ifftn (e c) y * eps c y
    fun i x =>
      if i = 0 then (∑ c, d c x * nv x c) / (kMag k0 G x : ℂ)
      else (∑ c, d c x * mVec k0 G x c) / -(kMag k0 G x : ℂ)
end

end Meanas.Bloch
