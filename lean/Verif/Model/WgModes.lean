/-
Model of `solve_modes` and `solve_mode` (meanas/fdfd/waveguide_2d.py:846-922).
-/
import Verif.Model.Eigensolvers
import Mathlib.Analysis.RCLike.Sqrt

namespace Meanas.Wg2

open Matrix Complex Eig

variable {sh : Fin 2 → ℕ}

/-- `numpy.real` of a list of widths. -/
def reDx (dx : DxList sh ℂ) : DxList sh ℂ := fun a i => ((dx a i).re : ℂ)
/-- `numpy.real` of a vectorised slice. -/
def reV {m : ℕ} (v : V m sh) : V m sh := fun i => ((v i).re : ℂ)

/-- The forced-positive square root of meanas/fdfd/waveguide_2d.py:892-893: `numpy.sqrt` (principal branch) times the sign of its real part. -/
noncomputable def posSqrt (z : ℂ) : ℂ := z.sqrt * (Real.sign z.sqrt.re : ℝ)

/-- Collect the results of the refinement loop (meanas/fdfd/waveguide_2d.py:888-889), stopping at the first exception; `none` once an entry is NaN. -/
noncomputable def refineAll {ι : Type} [Fintype ι] [DecidableEq ι] (A : Matrix ι ι ℂ) (solver : Matrix ι ι ℂ → (ι → ℂ) → Option (ι → ℂ)) :
    List (ι → ℂ) → Except String (Option (List (ℂ × (ι → ℂ))))
  | [] => .ok (some [])
  | v :: vs =>
    match rayleighQuotientIteration A v 40 (1 / 10 ^ 13) solver with
    | .error e => .error e
    | .ok r =>
      match refineAll A solver vs with
      | .error e => .error e
      | .ok rs => .ok (r.bind fun p => rs.map fun ps => p :: ps)

/-- The body of `solve_modes` for given real and complex operators (meanas/fdfd/waveguide_2d.py:877-900). Mode numbers are natural numbers.
Result: list of (field, wavenumber). `none` when a NaN appears. `post` is applied to the wavenumbers before sorting (identity here; `waveguide_cyl` multiplies by
`rmin`, meanas/fdfd/waveguide_cyl.py:188-200). -/
noncomputable def solveModesOp {ι : Type} [Fintype ι] [DecidableEq ι] (eigs : Matrix ι ι ℂ → ℕ → List (ℂ × (ι → ℂ))) (guess : ι → ℂ)
    (solver : Matrix ι ι ℂ → (ι → ℂ) → Option (ι → ℂ)) (modeNumbers : List ℕ) (Ar A : Matrix ι ι ℂ) (margin : ℕ) (post : ℂ → ℂ) :
    Except String (Option (List ((ι → ℂ) × ℂ))) :=
  match modeNumbers.max? with
  | none => .error "ValueError: max() arg is an empty sequence"
  | some mx =>
    match signedEigensolve eigs guess Ar (mx + margin) false with
    | .error e => .error e
    | .ok pairs =>
      if modeNumbers.any fun m => pairs.length < m + 1 then .error "IndexError: index is out of bounds"
      else
        match refineAll A solver (modeNumbers.map fun m => (pairs.getD (pairs.length - (m + 1)) (0, 0)).2) with
        | .error e => .error e
        | .ok none => .ok none
        | .ok (some ps) =>
          .ok (some (((ps.map fun p => (p.2, post (posSqrt p.1))).mergeSort fun p q => leC p.2 q.2).reverse))

/-- meanas/fdfd/waveguide_2d.py:846-900 `solve_modes`. -/
noncomputable def solveModes (eigs : M 2 2 sh → ℕ → List (ℂ × V 2 sh)) (guess : V 2 sh) (solver : M 2 2 sh → V 2 sh → Option (V 2 sh))
    (modeNumbers : List ℕ) (ω : ℂ) (dxes : Dx2 sh) (eps : V 3 sh) (mu : Option (V 3 sh)) (margin : ℕ) :
    Except String (Option (List (V 2 sh × ℂ))) :=
  solveModesOp eigs guess solver modeNumbers (operatorE (ω.re : ℂ) (reDx dxes.1, reDx dxes.2) (reV eps) (mu.map reV)) (operatorE ω dxes eps mu) margin id

/-! ### `solve_mode` as a Python call -/

/-- The argument values that `solve_mode` can pass on. -/
inductive Arg (sh : Fin 2 → ℕ) where
  | modes (ms : List ℕ)
  | omega (ω : ℂ)
  | dxes (d : Dx2 sh)
  | field (v : V 3 sh)
  | none
  | margin (n : ℕ)

/-- Parameter names of `solve_modes` (meanas/fdfd/waveguide_2d.py:846-853). -/
def solveModesParams : List String := ["mode_numbers", "omega", "dxes", "epsilon", "mu", "mode_margin"]

/-- Python's binding of positional and keyword arguments to parameter names (all positional-or-keyword). -/
def bindArgs {α : Type} (params : List String) (pos : List α) (kw : List (String × α)) : Except String (List (String × α)) :=
  if params.length < pos.length then .error "TypeError: too many positional arguments"
  else
    let bound := params.zip pos
    if kw.any fun k => bound.any fun b => b.1 == k.1 then .error "TypeError: got multiple values for argument"
    else if kw.any fun k => !(params.contains k.1) then .error "TypeError: got an unexpected keyword argument"
    else .ok (bound ++ kw)

/-- `solve_modes(**bound)`: defaults `mu=None`, `mode_margin=2`; missing or ill-typed required arguments raise. -/
noncomputable def callSolveModes (eigs : M 2 2 sh → ℕ → List (ℂ × V 2 sh)) (guess : V 2 sh) (solver : M 2 2 sh → V 2 sh → Option (V 2 sh))
    (bound : List (String × Arg sh)) : Except String (Option (List (V 2 sh × ℂ))) :=
  match bound.lookup "mode_numbers", bound.lookup "omega", bound.lookup "dxes", bound.lookup "epsilon",
      (bound.lookup "mu").getD .none, (bound.lookup "mode_margin").getD (.margin 2) with
  | some (.modes ms), some (.omega ω), some (.dxes d), some (.field eps), .field mu, .margin n => solveModes eigs guess solver ms ω d eps (some mu) n
  | some (.modes ms), some (.omega ω), some (.dxes d), some (.field eps), .none, .margin n => solveModes eigs guess solver ms ω d eps none n
  | _, _, _, _, _, _ => .error "TypeError"

/-- meanas/fdfd/waveguide_2d.py:903-922 `solve_mode(mode_number, *args, **kwargs)`. A `mode_numbers` entry of `kwargs` is overwritten. -/
noncomputable def solveMode (eigs : M 2 2 sh → ℕ → List (ℂ × V 2 sh)) (guess : V 2 sh) (solver : M 2 2 sh → V 2 sh → Option (V 2 sh))
    (modeNumber : ℕ) (args : List (Arg sh)) (kwargs : List (String × Arg sh)) : Except String (Option (V 2 sh × ℂ)) :=
  match bindArgs solveModesParams args (("mode_numbers", .modes [modeNumber]) :: kwargs.filter fun k => k.1 != "mode_numbers") with
  | .error e => .error e
  | .ok bound =>
    match callSolveModes eigs guess solver bound with
    | .error e => .error e
    | .ok none => .ok none
    | .ok (some []) => .error "IndexError"
    | .ok (some (p :: _)) => .ok (some p)

end Meanas.Wg2
