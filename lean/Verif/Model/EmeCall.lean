/-
Model of the call of `scipy.sparse.block_array` at the end of meanas/fdfd/eme.py `get_abcd` (lines 53-58).

scipy is not part of the repository. What is used of it (scipy 1.14 and later, `scipy/sparse/_construct.py`): `block_array(blocks)` starts with
`blocks = numpy.asarray(blocks, dtype='object')` and raises `ValueError: blocks must be 2-D` unless the result has two axes.
-/
import Verif.Model.Eme

namespace Meanas.Eme

open Matrix Complex Wg2

variable {sh : Fin 2 → ℕ}

/-- An entry of the table given to `block_array`: something numpy does not look into (a sparse array, `None`), or a dense array of a given shape. -/
inductive Entry where
  | opaque
  | dense (shape : List ℕ)

/-- The axes numpy finds in an entry. -/
def Entry.shape : Entry → List ℕ
  | .opaque => []
  | .dense s => s

/-- Longest common start of two shapes. -/
def commonPrefix : List ℕ → List ℕ → List ℕ
  | a :: as, b :: bs => if a = b then a :: commonPrefix as bs else []
  | _, _ => []

/-- The axes of `numpy.asarray(seq, dtype='object')` for a sequence whose items have the given axes: its length, then what the items have in common. -/
def seqShape : List (List ℕ) → List ℕ
  | [] => [0]
  | s :: ss => (ss.length + 1) :: ss.foldl commonPrefix s

/-- The shape of `numpy.asarray(blocks, dtype='object')` for a sequence of rows. -/
def tableShape (blocks : List (List Entry)) : List ℕ := seqShape (blocks.map fun row => seqShape (row.map Entry.shape))

/-- The first check of `scipy.sparse.block_array`. -/
def blockArrayCheck (blocks : List (List Entry)) : Except String Unit :=
  if (tableShape blocks).length ≠ 2 then .error "ValueError: blocks must be 2-D" else .ok ()

/-- meanas/fdfd/eme.py:44-58 `get_abcd` with the check of `block_array` at line 58. `pass r c` is the form in which a matrix with `r` rows and `c` columns is
handed over: `.dense [r, c]` in the code, where `A`, `B`, `C`, `D` are numpy arrays. -/
noncomputable def getAbcdPass {nL nR : ℕ} (pass : ℕ → ℕ → Entry) (ehL : Modes nL sh) (ehR : Modes nR sh) (dxes : Dx2 sh) (L : Lib) :
    Except String (Matrix (Fin nR ⊕ Fin nL) (Fin nL ⊕ Fin nL) ℂ) :=
  match getTr ehL ehR dxes L with
  | .error e => .error e
  | .ok (_, r12) =>
    match getTr ehR ehL dxes L with
    | .error e => .error e
    | .ok (t21, _) =>
      match matmul (L.pinv t21) r12 with
      | .error e => .error e
      | .ok _ =>
        match blockArrayCheck [[pass nR nL, pass nR nL], [pass nR nL, pass nR nL]] with
        | .error e => .error e
        | .ok _ => getAbcd ehL ehR dxes L

/-- meanas/fdfd/eme.py:44-58 `get_abcd` as written. -/
noncomputable def getAbcdCall {nL nR : ℕ} (ehL : Modes nL sh) (ehR : Modes nR sh) (dxes : Dx2 sh) (L : Lib) :
    Except String (Matrix (Fin nR ⊕ Fin nL) (Fin nL ⊕ Fin nL) ℂ) :=
  getAbcdPass (fun r c => .dense [r, c]) ehL ehR dxes L

end Meanas.Eme
