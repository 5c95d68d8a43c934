/-
Model of meanas/fdmath/operators.py and meanas/fdmath/vectorization.py on flattened (C order) indices.
-/
import Verif.Model.NdArray
import Mathlib.Data.Matrix.Basic
import Mathlib.Data.Matrix.Mul
import Mathlib.LinearAlgebra.Matrix.Notation

namespace Meanas

open Matrix

variable {d : ℕ} {K : Type*} [Field K]

/-- meanas/fdmath/vectorization.py:51-68 `vec` of a field with `nv` components: `numpy.ravel(f, order='C')` of an
array of shape `(nv, *sh)`; position `r` holds component `r / N`, cell `r % N` with `N = prod(sh)`.
(`vec_position` proves that this is the C-order position of the stacked array.) -/
def vecField {sh : Fin d → ℕ} {nv : ℕ} {K : Type*} (F : Fin nv → Arr sh K) : Fin (nv * size sh) → K :=
  fun r => F (finProdFinEquiv.symm r).1 (unravelIdx sh (finProdFinEquiv.symm r).2)

/-- meanas/fdmath/vectorization.py:51-68 `vec` including the `None` branch (66-67). -/
def vec {sh : Fin d → ℕ} {nv : ℕ} {K : Type*} : Option (Fin nv → Arr sh K) → Option (Fin (nv * size sh) → K)
  | none => none
  | some F => some (vecField F)

/-- `v.reshape((nv, *shape), order='C')` for a vector of the right length. -/
def unvecField {sh : Fin d → ℕ} {nv : ℕ} {K : Type*} (v : Fin (nv * size sh) → K) : Fin nv → Arr sh K :=
  fun c x => v (finProdFinEquiv (c, ravelIdx sh x))

/-- meanas/fdmath/vectorization.py:103-125 `unvec`: `None` passes through (123-124), `reshape` of a vector whose
length is not `nv * prod(shape)` raises `ValueError` (125). -/
def unvec (sh : Fin d → ℕ) (nv : ℕ) {K : Type*} {n : ℕ} : Option (Fin n → K) → Except String (Option (Fin nv → Arr sh K))
  | none => .ok none
  | some v =>
      if h : n = nv * size sh then .ok (some (unvecField (fun r => v (Fin.cast h.symm r))))
      else .error "cannot reshape array"

namespace Operators

/-- The `csr_array((ones(n), (arange(n), j_ind)), shape=(n, n))` built in operators.py:41-47 and 89-95, where
`j` is the C-order position of the shifted multi-index of each row. -/
def rowPick {n : ℕ} (j : Fin n → ℕ) : Matrix (Fin n) (Fin n) K :=
  Matrix.of fun r c => if (c : ℕ) = j r then 1 else 0

/-- meanas/fdmath/operators.py:15-52 `shift_circ(axis, shape, shift_distance)`, including both error branches (32-35)
and the transposition for negative distances (49-50). -/
def shiftCirc (sh : Fin d → ℕ) (axis : ℤ) (s : ℤ) : Except String (Matrix (Fin (size sh)) (Fin (size sh)) K) :=
  if ¬ (d = 2 ∨ d = 3) then .error "Invalid shape"
  else if ¬ (0 ≤ axis ∧ axis < d) then .error "Invalid direction"
  else
    let shifts : Fin d → ℕ := fun a => if (a : ℤ) = axis then s.natAbs else 0
    let shifted : (a : Fin d) → Fin (sh a) → ℕ := fun a i => ((i : ℕ) + shifts a) % sh a
    let jInd : Fin (size sh) → ℕ := fun r => ravelNat sh (fun a => shifted a (unravelIdx sh r a))
    let m : Matrix (Fin (size sh)) (Fin (size sh)) K := rowPick jInd
    if s < 0 then .ok mᵀ else .ok m

/-- meanas/fdmath/operators.py:79-83 `mirrored_range(n, s)[i]`. -/
def mirroredRange (n : ℕ) (s : ℤ) (i : ℕ) : ℤ :=
  let v : ℤ := (i : ℤ) + s
  let v := if v ≥ n then 2 * n - v - 1 else v
  if v < 0 then -1 - v else v

/-- meanas/fdmath/operators.py:55-96 `shift_with_mirror`, including its three checks (72-77) and the
`ValueError` of `ravel_multi_index` (91) when some mirrored coordinate is outside the array. -/
def shiftWithMirror (sh : Fin d → ℕ) (axis : ℤ) (s : ℤ) : Except String (Matrix (Fin (size sh)) (Fin (size sh)) K) :=
  if ¬ (d = 2 ∨ d = 3) then .error "Invalid shape"
  else if h : 0 ≤ axis ∧ axis < d then
    if s ≥ sh ⟨axis.toNat, by omega⟩ then .error "Shift is too large"
    else
      let shifts : Fin d → ℤ := fun a => if (a : ℤ) = axis then s else 0
      let shifted : (a : Fin d) → Fin (sh a) → ℤ := fun a i => mirroredRange (sh a) (shifts a) i
      if ∃ r : Fin (size sh), ∃ a : Fin d,
          shifted a (unravelIdx sh r a) < 0 ∨ (sh a : ℤ) ≤ shifted a (unravelIdx sh r a)
      then .error "invalid entry in coordinates array"
      else .ok (rowPick fun r => ravelNat sh (fun a => (shifted a (unravelIdx sh r a)).toNat))
  else .error "Invalid direction"

/-- meanas/fdmath/operators.py:99-123 `deriv_forward(dx_e)[a]`: `diags(+1 / dx.ravel()) @ (shift_circ(a, shape, 1) - eye)`.
`dx.ravel()[r]` of the meshgrid-expanded widths is the width at row `r`'s coordinate along `a`. -/
def derivForward {sh : Fin d → ℕ} (dxE : DxList sh K) (a : Fin d) :
    Except String (Matrix (Fin (size sh)) (Fin (size sh)) K) := do
  let s ← shiftCirc sh (a : ℤ) 1
  return Matrix.diagonal (fun r => 1 / dxE a (unravelIdx sh r a)) * (s - 1)

/-- meanas/fdmath/operators.py:126-150 `deriv_back(dx_h)[a]`: `diags(-1 / dx.ravel()) @ (shift_circ(a, shape, -1) - eye)`. -/
def derivBack {sh : Fin d → ℕ} (dxH : DxList sh K) (a : Fin d) :
    Except String (Matrix (Fin (size sh)) (Fin (size sh)) K) := do
  let s ← shiftCirc sh (a : ℤ) (-1)
  return Matrix.diagonal (fun r => (-1) / dxH a (unravelIdx sh r a)) * (s - 1)

/-- `sparse.block_array` of a 3×3 table of n×n blocks: row `c*n + r`, column `c'*n + r'`. -/
def blockArray3 {n : ℕ} (B : Fin 3 → Fin 3 → Matrix (Fin n) (Fin n) K) : Matrix (Fin (3 * n)) (Fin (3 * n)) K :=
  Matrix.of fun r c =>
    B (finProdFinEquiv.symm r).1 (finProdFinEquiv.symm c).1 (finProdFinEquiv.symm r).2 (finProdFinEquiv.symm c).2

/-- meanas/fdmath/operators.py:153-171 `cross`. -/
def cross {n : ℕ} (B : Fin 3 → Matrix (Fin n) (Fin n) K) : Matrix (Fin (3 * n)) (Fin (3 * n)) K :=
  blockArray3 ![![0, -B 2, B 1],
                ![B 2, 0, -B 0],
                ![-B 1, B 0, 0]]

/-- meanas/fdmath/operators.py:174-187 `vec_cross`; `numpy.split(b, 3)[c]` is the `c`-th third of `b`. -/
def vecCross {n : ℕ} (b : Fin (3 * n) → K) : Matrix (Fin (3 * n)) (Fin (3 * n)) K :=
  cross fun c => Matrix.diagonal fun r => b (finProdFinEquiv (c, r))

/-- meanas/fdmath/operators.py:190-205 `avg_forward`. -/
def avgForward (sh : Fin d → ℕ) (axis : ℤ) : Except String (Matrix (Fin (size sh)) (Fin (size sh)) K) :=
  if ¬ (d = 2 ∨ d = 3) then .error "Invalid shape"
  else do
    let s ← shiftCirc sh axis 1
    return (1 / 2 : K) • (1 + s)

/-- meanas/fdmath/operators.py:208-219 `avg_back`. -/
def avgBack (sh : Fin d → ℕ) (axis : ℤ) : Except String (Matrix (Fin (size sh)) (Fin (size sh)) K) := do
  let m ← avgForward sh axis
  return mᵀ

/-- meanas/fdmath/operators.py:222-235 `curl_forward`. The list comprehension of `deriv_forward` is evaluated in order. -/
def curlForward {sh : Fin 3 → ℕ} (dxE : DxList sh K) :
    Except String (Matrix (Fin (3 * size sh)) (Fin (3 * size sh)) K) := do
  let D0 ← derivForward dxE 0
  let D1 ← derivForward dxE 1
  let D2 ← derivForward dxE 2
  return cross ![D0, D1, D2]

/-- meanas/fdmath/operators.py:238-251 `curl_back`. -/
def curlBack {sh : Fin 3 → ℕ} (dxH : DxList sh K) :
    Except String (Matrix (Fin (3 * size sh)) (Fin (3 * size sh)) K) := do
  let D0 ← derivBack dxH 0
  let D1 ← derivBack dxH 1
  let D2 ← derivBack dxH 2
  return cross ![D0, D1, D2]

end Operators
end Meanas
