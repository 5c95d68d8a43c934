/-
Model of meanas/fdfd/solvers.py.

The matrix solver is a function parameter, called with the matrix, the right-hand side and the options. The options
dictionary is a record with the entry that `generic` itself writes (`x0`) and an opaque rest; the state of the caller's
dictionary after the call is part of the result.
-/
import Verif.Model.Fdfd

namespace Meanas.Solvers

open Matrix Complex Fdfd

variable {sh : Fin 3 → ℕ}

/-- `matrix_solver_opts`: the `x0` entry and everything else. -/
structure Opts (sh : Fin 3 → ℕ) (R : Type) where
  /-- `matrix_solver_opts['x0']` -/
  x0 : Option (Vec sh)
  /-- other entries -/
  rest : R

/-- Arguments of one call of `generic` apart from the solver and its options. -/
structure Problem (sh : Fin 3 → ℕ) where
  /-- `omega` -/
  ω : ℂ
  /-- `dxes` -/
  dxes : Dx sh
  /-- `J` -/
  J : Vec sh
  /-- `epsilon` -/
  eps : Vec sh
  /-- `mu` -/
  mu : Option (Vec sh)
  /-- `pec` -/
  pec : Option (Pos sh → Bool)
  /-- `pmc` -/
  pmc : Option (Pos sh → Bool)
  /-- `adjoint` -/
  adjoint : Bool
  /-- `E_guess` -/
  guess : Option (Vec sh)

/-- meanas/fdfd/solvers.py:66-141 `generic`, with the caller's options dictionary `opts` (an empty one if `None`, lines 109-110). The
second component is the dictionary after the call. `hasH` tells whether scipy's sparse arrays have the attribute `.H` that lines
118-119 use; they do not in scipy ≥ 1.14, which the package requires. -/
noncomputable def generic {R : Type} (hasH : Bool) (solve : Mat sh → Vec sh → Opts sh R → Vec sh) (opts : Opts sh R) (P : Problem sh) :
    Except String (Vec sh) × Opts sh R :=
  let b0 : Vec sh := (-I * P.ω) • P.J
  let A0 := eFull P.ω P.dxes P.eps P.mu P.pec P.pmc
  let Pl := (preconditioners P.dxes).1
  let Pr := (preconditioners P.dxes).2
  if P.adjoint && !hasH then
    (.error "AttributeError: 'csr_array' object has no attribute 'H'", opts)
  else
    let A := if P.adjoint then (Pl * A0 * Pr)ᴴ else Pl * A0 * Pr
    let b := if P.adjoint then Prᴴ *ᵥ b0 else Pl *ᵥ b0
    let opts := match P.guess with
      | some g => { opts with x0 := some (if P.adjoint then Prᴴ *ᵥ g else Pl *ᵥ g) }
      | none => opts
    let x := solve A b opts
    (.ok (if P.adjoint then Plᴴ *ᵥ x else Pr *ᵥ x), opts)

/-! ### `_scipy_qmr` callbacks -/

/-- The function objects that can be stored under `kwargs['callback']` in `_scipy_qmr`. -/
inductive Callback where
  /-- the user's callback -/
  | user
  /-- `log_residual` -/
  | log
  /-- `augmented_callback` -/
  | augmented
  deriving DecidableEq

/-- `kwargs['callback']` after lines 50-57, given whether the caller passed one. -/
def kwargsCallback (userGiven : Bool) : Callback := if userGiven then .augmented else .log

/-- Calling a callback (meanas/fdfd/solvers.py:43-57) with at most `limit` nested Python calls. `augmented_callback` looks up
`kwargs['callback']` when it is called, i.e. after line 55 has replaced it. The result lists the calls of the user's function. -/
def callCallback (userGiven : Bool) : (limit : ℕ) → Callback → Except String (List Unit)
  | 0, _ => .error "RecursionError: maximum recursion depth exceeded"
  | _ + 1, .user => .ok [()]
  | _ + 1, .log => .ok []
  | n + 1, .augmented => do
    let _ ← callCallback userGiven n .log
    callCallback userGiven n (kwargsCallback userGiven)

/-- The callback invocations made by `scipy.sparse.linalg.qmr` over `iters` iterations (one per iteration). -/
def qmrCallbacks (userGiven : Bool) (limit iters : ℕ) : Except String (List Unit) :=
  (List.range iters).foldlM (fun acc _ => do
    let r ← callCallback userGiven limit (kwargsCallback userGiven)
    pure (acc ++ r)) []

end Meanas.Solvers
