/-
Model of meanas/fdtd/boundaries.py.
-/
import Verif.Model.NdArray
import Mathlib.Algebra.Field.Defs

namespace Meanas.Fdtd

variable {sh : Fin 3 → ℕ} {K : Type} [Field K]

/-- Python integer indexing into an axis of length `n`: `-n ≤ i < n`, negative counted from the end. -/
def pyIndex (n : ℕ) (i : ℤ) : Except String (Fin n) :=
  if h : 0 ≤ i ∧ i < n then .ok ⟨i.toNat, by omega⟩
  else if h : -(n : ℤ) ≤ i ∧ i < 0 then .ok ⟨(i + n).toNat, by omega⟩
  else .error "IndexError: index out of bounds"

/-- How `arr[[slice(None), i, slice(None)]]` selects a layer if the list is read as a tuple (numpy < 1.23). -/
def layerTuple (n : ℕ) (i : ℤ) : Except String (Fin n) := pyIndex n i

/-- What the installed requirement (numpy >= 2.0) does with a *list* containing slices: it is not read as a tuple but
converted to an index array, which raises. -/
def layerList (n : ℕ) (_i : ℤ) : Except String (Fin n) := .error "IndexError: only integers, slices, … are valid indices"

/-- `F[c][… i …] = val` along axis `a`. -/
def setLayer (F : VField sh K) (c a : Fin 3) (i : Fin (sh a)) (val : Arr sh K) : VField sh K :=
  fun c' x => if c' = c ∧ x a = i then val x else F c' x

/-- `F[c][… j …]` along axis `a`, read at the position of `x` in the other axes. -/
def getLayer (F : VField sh K) (c a : Fin 3) (j : Fin (sh a)) : Arr sh K :=
  fun x => F c (Function.update x a j)

/-- `dirs.remove(direction); u, v = dirs` (boundaries.py:16-20). -/
def otherDirs (a : Fin 3) : Fin 3 × Fin 3 :=
  match a with
  | 0 => (1, 2)
  | 1 => (0, 2)
  | 2 => (0, 1)

/-- meanas/fdtd/boundaries.py:32-36 `en`. `L` is the meaning of the layer index. -/
def condEn (L : (n : ℕ) → ℤ → Except String (Fin n)) (a : Fin 3) (e : VField sh K) : Except String (VField sh K) := do
  let (u, v) := otherDirs a
  let b ← L (sh a) 0
  let e := setLayer e a a b (fun _ => 0)
  let s1 ← L (sh a) 1
  let e := setLayer e u a b (getLayer e u a s1)
  let e := setLayer e v a b (getLayer e v a s1)
  pure e

/-- meanas/fdtd/boundaries.py:38-42 `hn`. -/
def condHn (L : (n : ℕ) → ℤ → Except String (Fin n)) (a : Fin 3) (h : VField sh K) : Except String (VField sh K) := do
  let (u, v) := otherDirs a
  let s1 ← L (sh a) 1
  let b ← L (sh a) 0
  let h := setLayer h a a b (getLayer h a a s1)
  let h := setLayer h u a b (fun _ => 0)
  let h := setLayer h v a b (fun _ => 0)
  pure h

/-- meanas/fdtd/boundaries.py:54-59 `ep`. -/
def condEp (L : (n : ℕ) → ℤ → Except String (Fin n)) (a : Fin 3) (e : VField sh K) : Except String (VField sh K) := do
  let (u, v) := otherDirs a
  let s2 ← L (sh a) (-3)
  let b ← L (sh a) (-1)
  let e := setLayer e a a b (fun x => -getLayer e a a s2 x)
  let s1 ← L (sh a) (-2)
  let e := setLayer e a a s1 (fun _ => 0)
  let e := setLayer e u a b (getLayer e u a s1)
  let e := setLayer e v a b (getLayer e v a s1)
  pure e

/-- meanas/fdtd/boundaries.py:61-67 `hp`. -/
def condHp (L : (n : ℕ) → ℤ → Except String (Fin n)) (a : Fin 3) (h : VField sh K) : Except String (VField sh K) := do
  let (u, v) := otherDirs a
  let s1 ← L (sh a) (-2)
  let b ← L (sh a) (-1)
  let h := setLayer h a a b (getLayer h a a s1)
  let s2 ← L (sh a) (-3)
  let h := setLayer h u a b (fun x => -getLayer h u a s2 x)
  let h := setLayer h u a s1 (fun _ => 0)
  let h := setLayer h v a b (fun x => -getLayer h v a s2 x)
  let h := setLayer h v a s1 (fun _ => 0)
  pure h

/-- An updater: takes a field, returns the updated field or raises. -/
abbrev Updater (sh : Fin 3 → ℕ) (K : Type) := VField sh K → Except String (VField sh K)

/-- meanas/fdtd/boundaries.py:12-71 `conducting_boundary(direction, polarity)`. -/
def conductingBoundary (L : (n : ℕ) → ℤ → Except String (Fin n)) (direction polarity : ℤ) :
    Except String (Updater sh K × Updater sh K) :=
  if h : direction = 0 ∨ direction = 1 ∨ direction = 2 then
    let a : Fin 3 := ⟨direction.toNat, by omega⟩
    if polarity < 0 then .ok (condEn L a, condHn L a)
    else if polarity > 0 then .ok (condEp L a, condHp L a)
    else .error "Bad polarity"
  else .error "Invalid direction"

end Meanas.Fdtd
