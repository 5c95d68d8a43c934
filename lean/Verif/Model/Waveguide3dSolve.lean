/-
`waveguide_3d.solve_mode` from the call of the 2D solver to its result (meanas/fdfd/waveguide_3d.py:17-110).
-/
import Verif.Model.Waveguide3d
import Verif.Model.WgModes

namespace Meanas.Wg3

open Fdfd

variable {sh : Fin 3 → ℕ}

/-- meanas/fdfd/waveguide_3d.py:69-74 `args_2d`, the keyword arguments of the 2D call. -/
noncomputable def args2d {axis : Fin 3} (S : Slices sh axis) (ω : ℂ) (dxes : Dx sh) (eps mu : VField sh ℂ) : List (String × Wg2.Arg (sh2 S)) :=
  [("omega", .omega ω), ("dxes", .dxes (dx2d S dxes.1, dx2d S dxes.2)), ("epsilon", .field (reduce2d S eps)), ("mu", .field (reduce2d S mu))]

open Classical in
/-- meanas/fdfd/waveguide_3d.py:17-110 `solve_mode`. `eigs`, `guess` and `solver` are the SciPy eigensolver, the random start vector and the linear
solver used inside `waveguide_2d.solve_modes`. `.ok none`: NaN fields, from the 2D solver or from the divisions by a zero `wavenumber_2d`. -/
noncomputable def solveModeFull (eigs : ∀ s2 : Fin 2 → ℕ, Wg2.M 2 2 s2 → ℕ → List (ℂ × Wg2.V 2 s2)) (guess : ∀ s2 : Fin 2 → ℕ, Wg2.V 2 s2)
    (solver : ∀ s2 : Fin 2 → ℕ, Wg2.M 2 2 s2 → Wg2.V 2 s2 → Option (Wg2.V 2 s2)) (modeNumber : ℕ) {axis : Fin 3} (S : Slices sh axis) (ω : ℂ)
    (dxes : Dx sh) (pol : ℤ) (eps : VField sh ℂ) (mu : Option (VField sh ℂ)) : Except String (Option (Mode sh)) :=
  match Wg2.solveMode (eigs (sh2 S)) (guess (sh2 S)) (solver (sh2 S)) modeNumber [] (args2d S ω dxes eps (mu.getD fun _ _ => 1)) with
  | .error e => .error e
  | .ok none => .ok none
  | .ok (some (exy, k2d)) => if k2d = 0 then .ok none else (solveMode S ω dxes pol eps mu exy k2d).map some

end Meanas.Wg3
