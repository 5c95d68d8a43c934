/-
Model of the numpy array layer that meanas is written against: indices, `roll`, C-order flattening.

No meanas code is modelled in this file; the numpy facts encoded here are part of the trusted reading
(documented behaviour of `numpy.roll`, `numpy.ravel(order='C')`, `numpy.ravel_multi_index(order='C')`).
-/
import Mathlib.Algebra.BigOperators.Fin
import Mathlib.Algebra.Order.BigOperators.Ring.Finset
import Mathlib.Logic.Equiv.Fin.Basic
import Mathlib.Tactic.Ring
import Mathlib.Tactic.Linarith

namespace Meanas

variable {d : ℕ}

/-- An index into an array of shape `sh` (one bounded index per axis). -/
abbrev Idx (sh : Fin d → ℕ) : Type := (a : Fin d) → Fin (sh a)

/-- A numpy array of shape `sh` with entries in `K`. -/
abbrev Arr (sh : Fin d → ℕ) (K : Type*) : Type _ := Idx sh → K

/-- A vector field: `fdfield_t`, an array of shape `(3, *sh)` (meanas/fdmath/types.py). -/
abbrev VField (sh : Fin d → ℕ) (K : Type*) : Type _ := Fin 3 → Arr sh K

/-- One half of a `dx_lists_t`: a list of cell widths for every axis (meanas/fdmath/types.py). -/
abbrev DxList (sh : Fin d → ℕ) (K : Type*) : Type _ := (a : Fin d) → Fin (sh a) → K

/-- `(i + s) mod n` for an index `i` of an axis of length `n` and any integer `s` (Python's `%`). -/
def wrap {n : ℕ} (i : Fin n) (s : ℤ) : Fin n :=
  ⟨(((i : ℤ) + s) % (n : ℤ)).toNat, by
    have hn : (0 : ℤ) < (n : ℤ) := by exact_mod_cast i.pos
    have h1 := Int.emod_nonneg ((i : ℤ) + s) hn.ne'
    have h2 := Int.emod_lt_of_pos ((i : ℤ) + s) hn
    omega⟩

/-- Move an array index by `s` cells along axis `a`, periodically. -/
def shiftIdx {sh : Fin d → ℕ} (a : Fin d) (s : ℤ) (x : Idx sh) : Idx sh :=
  Function.update x a (wrap (x a) s)

/-- `numpy.roll(f, s, axis=a)`: the element at index `i` moves to index `i + s` (mod n), i.e.
`out[i] = f[(i - s) mod n]`. -/
def roll {sh : Fin d → ℕ} {K : Type*} (f : Arr sh K) (s : ℤ) (a : Fin d) : Arr sh K :=
  fun x => f (shiftIdx a (-s) x)

/-- Number of elements, `numpy.prod(shape)`. -/
def size (sh : Fin d → ℕ) : ℕ := ∏ a, sh a

/-- C-order (row major) position of a multi-index, `numpy.ravel_multi_index(·, shape, order='C')`:
the last axis varies fastest. Arguments are natural numbers, so that the out-of-range check of
`ravel_multi_index` can be expressed separately. -/
def ravelNat : {d : ℕ} → (sh : Fin d → ℕ) → (Fin d → ℕ) → ℕ
  | 0, _, _ => 0
  | d + 1, sh, x =>
      ravelNat (fun a : Fin d => sh a.castSucc) (fun a => x a.castSucc) * sh (Fin.last d) + x (Fin.last d)

theorem ravelNat_lt : {d : ℕ} → (sh : Fin d → ℕ) → (x : Idx sh) →
    ravelNat sh (fun a => (x a : ℕ)) < size sh
  | 0, sh, x => by simp [ravelNat, size]
  | d + 1, sh, x => by
      have ih := ravelNat_lt (fun a : Fin d => sh a.castSucc) (fun a => x a.castSucc)
      have hl := (x (Fin.last d)).isLt
      unfold size at ih ⊢
      rw [Fin.prod_univ_castSucc]
      unfold ravelNat
      calc _ < ravelNat (fun a : Fin d => sh a.castSucc) (fun a => ((x a.castSucc : Fin _) : ℕ)) * sh (Fin.last d)
              + sh (Fin.last d) := Nat.add_lt_add_left hl _
        _ = (ravelNat (fun a : Fin d => sh a.castSucc) (fun a => ((x a.castSucc : Fin _) : ℕ)) + 1)
              * sh (Fin.last d) := by ring
        _ ≤ _ := Nat.mul_le_mul_right _ ih

/-- Position of a multi-index in the flattened (C order) array. -/
def ravelIdx (sh : Fin d → ℕ) (x : Idx sh) : Fin (size sh) := ⟨ravelNat sh (fun a => (x a : ℕ)), ravelNat_lt sh x⟩

/-- Multi-index at a flattened C-order position (`numpy.unravel_index`). -/
def unravelIdx : {d : ℕ} → (sh : Fin d → ℕ) → Fin (size sh) → Idx sh
  | 0, _, _ => fun a => a.elim0
  | d + 1, sh, r =>
      have hs : size sh = size (fun a : Fin d => sh a.castSucc) * sh (Fin.last d) := Fin.prod_univ_castSucc sh
      have hpos : 0 < sh (Fin.last d) := by
        have := r.pos
        rw [hs] at this
        exact Nat.pos_of_ne_zero (fun h => by simp [h] at this)
      Fin.lastCases (motive := fun a => Fin (sh a))
        ⟨(r : ℕ) % sh (Fin.last d), Nat.mod_lt _ hpos⟩
        (fun a => unravelIdx (fun a : Fin d => sh a.castSucc)
          ⟨(r : ℕ) / sh (Fin.last d), by
            rw [Nat.div_lt_iff_lt_mul hpos, ← hs]; exact r.isLt⟩ a)

end Meanas
