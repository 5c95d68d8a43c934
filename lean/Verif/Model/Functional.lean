/-
Model of meanas/fdmath/functional.py.
-/
import Verif.Model.NdArray
import Mathlib.Algebra.Field.Defs

namespace Meanas.Functional

variable {d : ℕ} {sh : Fin d → ℕ} {K : Type*} [Field K]

/-- meanas/fdmath/functional.py:16-37 `deriv_forward`. The tuple of three lambdas (one per axis, identical up to
the axis number) is one function of the axis `a`; `dx_e = None` is `none`. The broadcast
`dx_e[a][..., :, ...]` is the width at the index's coordinate along `a`. -/
def derivForward (dxE : Option (DxList sh K)) (a : Fin d) (f : Arr sh K) : Arr sh K :=
  match dxE with
  | some dx => fun x => (roll f (-1) a x - f x) / dx a (x a)
  | none => fun x => roll f (-1) a x - f x

/-- meanas/fdmath/functional.py:40-61 `deriv_back`. -/
def derivBack (dxH : Option (DxList sh K)) (a : Fin d) (f : Arr sh K) : Arr sh K :=
  match dxH with
  | some dx => fun x => (f x - roll f 1 a x) / dx a (x a)
  | none => fun x => f x - roll f 1 a x

variable {sh : Fin 3 → ℕ}

/-- meanas/fdmath/functional.py:67-93 `curl_forward`: the six assignments `output[i] = …`, `output[i] -= …`. -/
def curlForward (dxE : Option (DxList sh K)) (e : VField sh K) : VField sh K :=
  let D := derivForward dxE
  ![fun x => D 1 (e 2) x - D 2 (e 1) x,
    fun x => D 2 (e 0) x - D 0 (e 2) x,
    fun x => D 0 (e 1) x - D 1 (e 0) x]

/-- meanas/fdmath/functional.py:96-122 `curl_back`. -/
def curlBack (dxH : Option (DxList sh K)) (h : VField sh K) : VField sh K :=
  let D := derivBack dxH
  ![fun x => D 1 (h 2) x - D 2 (h 1) x,
    fun x => D 2 (h 0) x - D 0 (h 2) x,
    fun x => D 0 (h 1) x - D 1 (h 0) x]

/-- meanas/fdmath/functional.py:125-135 `curl_forward_parts`. -/
def curlForwardParts (dxE : Option (DxList sh K)) (e : VField sh K) : Fin 3 → Arr sh K × Arr sh K :=
  let D := derivForward dxE
  ![(fun x => -D 2 (e 1) x, fun x => D 1 (e 2) x),
    (fun x => D 2 (e 0) x, fun x => -D 0 (e 2) x),
    (fun x => -D 1 (e 0) x, fun x => D 0 (e 1) x)]

/-- meanas/fdmath/functional.py:138-148 `curl_back_parts`. -/
def curlBackParts (dxH : Option (DxList sh K)) (h : VField sh K) : Fin 3 → Arr sh K × Arr sh K :=
  let D := derivBack dxH
  ![(fun x => -D 2 (h 1) x, fun x => D 1 (h 2) x),
    (fun x => D 2 (h 0) x, fun x => -D 0 (h 2) x),
    (fun x => -D 1 (h 0) x, fun x => D 0 (h 1) x)]

end Meanas.Functional
