/-
Which objects of the caller a call modifies: `stretch_with_scpml`, `power_iteration`, `rayleigh_quotient_iteration`.
The caller's objects are the values of a heap indexed by references; a call returns the new heap and the reference of its result.
-/
import Verif.Model.Scpml
import Verif.Model.Eigensolvers

namespace Meanas.InPlace

open Scpml Eig Wg2

/-- A pair of lists of cell widths. -/
abbrev Grid {d : ℕ} (sh : Fin d → ℕ) := ((a : Fin d) → Fin (sh a) → ℂ) × ((a : Fin d) → Fin (sh a) → ℂ)

/-- meanas/fdfd/scpml.py:125-169 `stretch_with_scpml` on the object `r`: `.astype(complex)` copies the two arrays (125-126), the copies are
stretched and stored into the caller's lists (166-167), and the caller's object itself is returned (169). A grid with NaN or infinite widths is
`.error "nan"`. -/
noncomputable def stretchCall {d : ℕ} {sh : Fin d → ℕ} (heap : ℕ → Grid sh) (r : ℕ) (axis : Fin d) (polarity : ℤ) (omega : ℂ) (epsEff : ℝ)
    (thickness : ℕ) (s : Option (ℂ → ℂ)) : Except String ((ℕ → Grid sh) × ℕ) :=
  match stretchWithScpml (heap r) axis polarity omega epsEff thickness s with
  | .error e => .error e
  | .ok g =>
    open Classical in
    if (∀ a i, (g.1 a i).isSome) ∧ ∀ a i, (g.2 a i).isSome then
      .ok (Function.update heap r (fun a i => (g.1 a i).getD 0, fun a i => (g.2 a i).getD 0), r)
    else .error "nan"

variable {ι : Type} [Fintype ι] [DecidableEq ι]

/-- meanas/eigensolvers.py:30-40 `power_iteration` on the guess `r`; `none` is NaN. Line 32 binds `v` to the caller's array, line 35 rebinds it to a
new array in every iteration, and line 37 divides in place: the caller's array only if there was no iteration. -/
noncomputable def powerCall (heap : ℕ → Option (ι → ℂ)) (r : ℕ) (A : Matrix ι ι ℂ) (iterations : ℕ) : (ℕ → Option (ι → ℂ)) × Option (ℂ × (ι → ℂ)) :=
  match heap r with
  | none => (heap, none)
  | some g =>
    let res := powerIteration A g iterations
    if iterations = 0 then (Function.update heap r (divBy g (norm2 g)), res) else (heap, res)

/-- meanas/eigensolvers.py:86-96 `rayleigh_quotient_iteration` on the guess `r`: `numpy.squeeze` returns a view (86), which is normalised in place (87);
later iterates are new arrays (94). -/
noncomputable def rqiCall (heap : ℕ → Option (ι → ℂ)) (r : ℕ) (A : Matrix ι ι ℂ) (iterations : ℕ) (tol : ℝ)
    (solver : Matrix ι ι ℂ → (ι → ℂ) → Option (ι → ℂ)) : (ℕ → Option (ι → ℂ)) × Except String (Option (ℂ × (ι → ℂ))) :=
  match heap r with
  | none => (heap, if iterations = 0 then .error "UnboundLocalError: eigval" else .ok none)
  | some g => (Function.update heap r (divBy g (norm2 g)), rayleighQuotientIteration A g iterations tol solver)

end Meanas.InPlace
