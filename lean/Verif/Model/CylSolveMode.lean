/-
Model of `solve_mode` of meanas/fdfd/waveguide_cyl.py:203-221 as a Python call.
-/
import Verif.Model.WaveguideCyl
import Verif.Model.WgModes

namespace Meanas.WgCyl

open Matrix Complex Wg2

variable {sh : Fin 2 → ℕ}

/-- The argument values that `waveguide_cyl.solve_mode` can pass on. -/
inductive Arg (sh : Fin 2 → ℕ) where
  | modes (ms : List ℕ)
  | omega (ω : ℂ)
  | dxes (d : Dx2 sh)
  | field (v : V 3 sh)
  | radius (r : ℝ)
  | margin (n : ℕ)

/-- Parameter names of `solve_modes` (meanas/fdfd/waveguide_cyl.py:143-150). -/
def solveModesParams : List String := ["mode_numbers", "omega", "dxes", "epsilon", "rmin", "mode_margin"]

/-- `solve_modes(**bound)`: default `mode_margin=2`; missing or ill-typed required arguments raise. -/
noncomputable def callSolveModes (eigs : M 2 2 sh → ℕ → List (ℂ × V 2 sh)) (guess : V 2 sh) (solver : M 2 2 sh → V 2 sh → Option (V 2 sh))
    (bound : List (String × Arg sh)) : Except String (Option (List (V 2 sh × ℂ))) :=
  match bound.lookup "mode_numbers", bound.lookup "omega", bound.lookup "dxes", bound.lookup "epsilon", bound.lookup "rmin",
      (bound.lookup "mode_margin").getD (.margin 2) with
  | some (.modes ms), some (.omega ω), some (.dxes d), some (.field eps), some (.radius r), .margin n => solveModes eigs guess solver ms ω d eps r n
  | _, _, _, _, _, _ => .error "TypeError"

/-- meanas/fdfd/waveguide_cyl.py:203-221 `solve_mode(mode_number, *args, **kwargs)`. A `mode_numbers` entry of `kwargs` is overwritten. -/
noncomputable def solveMode (eigs : M 2 2 sh → ℕ → List (ℂ × V 2 sh)) (guess : V 2 sh) (solver : M 2 2 sh → V 2 sh → Option (V 2 sh))
    (modeNumber : ℕ) (args : List (Arg sh)) (kwargs : List (String × Arg sh)) : Except String (Option (V 2 sh × ℂ)) :=
  match bindArgs solveModesParams args (("mode_numbers", .modes [modeNumber]) :: kwargs.filter fun k => k.1 != "mode_numbers") with
  | .error e => .error e
  | .ok bound =>
    match callSolveModes eigs guess solver bound with
    | .error e => .error e
    | .ok none => .ok none
    | .ok (some []) => .error "IndexError"
    | .ok (some (p :: _)) => .ok (some p)

end Meanas.WgCyl
