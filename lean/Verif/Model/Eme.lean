/-
Model of meanas/fdfd/eme.py.

The dense linear algebra routines of numpy are the fields of `Lib`; what they promise is the separate predicate `Props.LibOk`. Arithmetic is
exact (`rcond=None` only drops singular values below rounding).
-/
import Mathlib.Data.Matrix.Block
import Mathlib.LinearAlgebra.Matrix.ConjTranspose
import Verif.Model.Waveguide2d

namespace Meanas.Eme

open Matrix Complex Wg2

variable {sh : Fin 2 → ℕ}

/-- `numpy.linalg.svd(A)` with full matrices: `U`, the singular values, and the third factor (which multiplies from the right as is). -/
structure Svd (r c : ℕ) where
  U : Matrix (Fin r) (Fin r) ℂ
  s : Fin (min r c) → ℝ
  V : Matrix (Fin c) (Fin c) ℂ

/-- numpy.linalg routines used by eme.py. -/
structure Lib where
  /-- `numpy.linalg.lstsq(A, B)[0]` -/
  lstsq : ∀ {m n k : ℕ}, Matrix (Fin m) (Fin n) ℂ → Matrix (Fin m) (Fin k) ℂ → Matrix (Fin n) (Fin k) ℂ
  /-- `numpy.linalg.svd(A)` -/
  svd : ∀ {r c : ℕ}, Matrix (Fin r) (Fin c) ℂ → Svd r c
  /-- `numpy.linalg.pinv(A)` -/
  pinv : ∀ {r c : ℕ}, Matrix (Fin r) (Fin c) ℂ → Matrix (Fin c) (Fin r) ℂ

/-- `A @ B`, with numpy's check of the inner dimensions. -/
noncomputable def matmul {a b c d : ℕ} (A : Matrix (Fin a) (Fin b) ℂ) (B : Matrix (Fin c) (Fin d) ℂ) : Except String (Matrix (Fin a) (Fin d) ℂ) :=
  if h : b = c then .ok (A * B.submatrix (Fin.cast h) id) else .error "ValueError: matmul: Input operand 1 has a mismatch in its core dimension 0"

/-- `inner_product(e, h, dxes=dxes, conj_h=False)`; this branch of `inner_product` never raises. -/
noncomputable def ip (dxes : Dx2 sh) (e h : V 3 sh) : ℂ :=
  match innerProduct e h dxes 0 false false with
  | .ok z => z
  | .error _ => 0

/-- A list of `n` modes `(e, h)`. -/
abbrev Modes (n : ℕ) (sh : Fin 2 → ℕ) := Fin n → V 3 sh × V 3 sh

section
variable {nL nR : ℕ} (ehL : Modes nL sh) (ehR : Modes nR sh) (dxes : Dx2 sh)

/-- meanas/fdfd/eme.py:27 -/
noncomputable def A12 : Matrix (Fin nL) (Fin nR) ℂ := fun l r => ip dxes (ehL l).1 (ehR r).2
/-- meanas/fdfd/eme.py:28 -/
noncomputable def A21 : Matrix (Fin nL) (Fin nR) ℂ := fun l r => ip dxes (ehR r).1 (ehL l).2
/-- meanas/fdfd/eme.py:24 -/
noncomputable def B11 : Fin nL → ℂ := fun l => ip dxes (ehL l).1 (ehL l).2

open Classical in
/-- meanas/fdfd/eme.py:10-41 `get_tr`; the wavenumbers only enter through their number. A mode with `B11 = 0` makes numpy divide by zero at
line 39 (inf/NaN entries), reported here as an error. -/
noncomputable def getTr (L : Lib) : Except String (Matrix (Fin nR) (Fin nL) ℂ × Matrix (Fin nL) (Fin nL) ℂ) :=
  let tt0 : Matrix (Fin nR) (Fin nL) ℂ := L.lstsq (A21 ehL ehR dxes + A12 ehL ehR dxes) (diagonal fun l => 2 * B11 ehL dxes l)
  let sv := L.svd tt0
  let st (k : Fin (min nR nL)) : ℝ := if 1 < sv.s k then 1 / sv.s k else sv.s k
  match matmul sv.U (diagonal fun k => (st k : ℂ)) with
  | .error e => .error e
  | .ok us =>
    match matmul us sv.V with
    | .error e => .error e
    | .ok tt =>
      if ∃ l, B11 ehL dxes l = 0 then .error "RuntimeWarning: divide by zero"
      else .ok (tt, (diagonal fun l => 0.5 / B11 ehL dxes l) * (A21 ehL ehR dxes - A12 ehL ehR dxes) * tt)

/-- meanas/fdfd/eme.py:44-58 `get_abcd`, with `block_array` taken at its meaning for sparse blocks (see `getAbcdCall`). `get_tr` has already checked `nL = nR`, so the products have matching shapes. -/
noncomputable def getAbcd (L : Lib) : Except String (Matrix (Fin nR ⊕ Fin nL) (Fin nL ⊕ Fin nL) ℂ) :=
  match getTr ehL ehR dxes L with
  | .error e => .error e
  | .ok (t12, r12) =>
    match getTr ehR ehL dxes L with
    | .error e => .error e
    | .ok (t21, r21) =>
      let t21i : Matrix (Fin nR) (Fin nL) ℂ := L.pinv t21
      match matmul t21i r12 with
      | .error e => .error e
      | .ok t21ir12 =>
        let A := t12 - r21 * t21ir12
        let B := r21 * t21i
        let C := -t21ir12
        let D := t21i
        if h : nR = nL then .ok (fromBlocks A B (C.submatrix (Fin.cast h.symm) id) (D.submatrix (Fin.cast h.symm) id))
        else .error "ValueError: incompatible row dimensions"

/-- meanas/fdfd/eme.py:61-84 `get_s`. -/
noncomputable def getS (L : Lib) (forceNogain forceReciprocal : Bool) : Except String (Matrix (Fin (nL + nL)) (Fin (nL + nL)) ℂ) :=
  match getTr ehL ehR dxes L with
  | .error e => .error e
  | .ok (t12, r12) =>
    match getTr ehR ehL dxes L with
    | .error e => .error e
    | .ok (t21, r21) =>
      -- `numpy.block` needs equal heights in the first row and equal widths overall
      if h : nR = nL then
        let f : Fin nL → Fin nR := Fin.cast h.symm
        let ss : Matrix (Fin (nL + nL)) (Fin (nL + nL)) ℂ :=
          (fromBlocks r12 (t12.submatrix f id) (t21.submatrix id f) (r21.submatrix f f)).submatrix finSumFinEquiv.symm finSumFinEquiv.symm
        let ss :=
          if forceNogain then
            let sv := L.svd ss
            (diagonal fun k => (sv.s (Fin.cast (min_self _).symm k) : ℂ)) * sv.U * sv.V
          else ss
        .ok (if forceReciprocal then (0.5 : ℂ) • (ss + ssᵀ) else ss)
      else .error "ValueError: mismatched array shapes"

end

end Meanas.Eme
