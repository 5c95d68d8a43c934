/-
Structured version of meanas/fdmath/operators.py: matrices indexed by cells (`Idx sh`) and by
`(component, cell)` instead of flattened positions. `Verif/Lemmas/Operators.lean` proves that they are the flat
operators of `Verif/Model/Operators.lean` transported along the C-order bijection, and that the flat constructors
do not raise for 2D/3D shapes. The FDFD modules build on these.
-/
import Verif.Model.NdArray
import Mathlib.Data.Matrix.Basic
import Mathlib.Data.Matrix.Mul
import Mathlib.LinearAlgebra.Matrix.Notation

namespace Meanas.OperatorsS

open Matrix

variable {d : ℕ} {sh : Fin d → ℕ} {K : Type*} [Field K]

/-- meanas/fdmath/operators.py:15-52 `shift_circ`: row `x` has a single 1 in column `x + s` (periodic). -/
def shiftCirc (a : Fin d) (s : ℤ) : Matrix (Idx sh) (Idx sh) K :=
  Matrix.of fun x y => if y = shiftIdx a s x then 1 else 0

/-- meanas/fdmath/operators.py:99-123 `deriv_forward(dx_e)[a]`. -/
def derivForward (dxE : DxList sh K) (a : Fin d) : Matrix (Idx sh) (Idx sh) K :=
  Matrix.diagonal (fun x => 1 / dxE a (x a)) * (shiftCirc a 1 - 1)

/-- meanas/fdmath/operators.py:126-150 `deriv_back(dx_h)[a]`. -/
def derivBack (dxH : DxList sh K) (a : Fin d) : Matrix (Idx sh) (Idx sh) K :=
  Matrix.diagonal (fun x => (-1) / dxH a (x a)) * (shiftCirc a (-1) - 1)

/-- `sparse.block_array` of an `m×m` table of blocks. -/
def blockArray {m : ℕ} {ι : Type*} (B : Fin m → Fin m → Matrix ι ι K) : Matrix (Fin m × ι) (Fin m × ι) K :=
  Matrix.of fun r c => B r.1 c.1 r.2 c.2

/-- meanas/fdmath/operators.py:153-171 `cross`. -/
def cross {ι : Type*} (B : Fin 3 → Matrix ι ι K) : Matrix (Fin 3 × ι) (Fin 3 × ι) K :=
  blockArray ![![0, -B 2, B 1],
               ![B 2, 0, -B 0],
               ![-B 1, B 0, 0]]

/-- meanas/fdmath/operators.py:222-235 `curl_forward`. -/
def curlForward {sh : Fin 3 → ℕ} (dxE : DxList sh K) : Matrix (Fin 3 × Idx sh) (Fin 3 × Idx sh) K :=
  cross (derivForward dxE)

/-- meanas/fdmath/operators.py:238-251 `curl_back`. -/
def curlBack {sh : Fin 3 → ℕ} (dxH : DxList sh K) : Matrix (Fin 3 × Idx sh) (Fin 3 × Idx sh) K :=
  cross (derivBack dxH)

end Meanas.OperatorsS
