/-
Model of meanas/fdfd/waveguide_cyl.py.
-/
import Verif.Model.WgModes

namespace Meanas.WgCyl

open Matrix Complex OperatorsS Wg2

variable {sh : Fin 2 → ℕ}

/-- `numpy.cumsum`. -/
def cumsumC {n : ℕ} (w : Fin n → ℂ) (i : Fin n) : ℂ := ∑ j : Fin n, if (j : ℕ) ≤ i then w j else 0

/-- Radius at the Ey points: `rmin + numpy.cumsum(dxes[0][0])` (meanas/fdfd/waveguide_cyl.py:410). -/
def ra (dxes : Dx2 sh) (rmin : ℂ) (i : Fin (sh 0)) : ℂ := rmin + cumsumC (dxes.1 0) i
/-- Radius at the Ex points: `rmin + dxes[0][0] / 2 + numpy.cumsum(dxes[1][0])` (meanas/fdfd/waveguide_cyl.py:411). -/
noncomputable def rb (dxes : Dx2 sh) (rmin : ℂ) (i : Fin (sh 0)) : ℂ := rmin + dxes.1 0 i / 2 + cumsumC (dxes.2 0) i

/-- meanas/fdfd/waveguide_cyl.py:395-417 `dxes2T`: the diagonals of Ta and Tb. -/
noncomputable def dxes2T (dxes : Dx2 sh) (rmin : ℂ) : (Idx sh → ℂ) × (Idx sh → ℂ) :=
  (fun x => ra dxes rmin (x 0) / rmin, fun x => rb dxes rmin (x 0) / rmin)

/-- meanas/fdfd/waveguide_cyl.py:121-140: `cylindrical_operator` once Ta and Tb are known. -/
noncomputable def cylOpT (ω : ℂ) (dxes : Dx2 sh) (eps : V 3 sh) (ta tb : Idx sh → ℂ) : M 2 2 sh :=
  let Df := derivForward dxes.1
  let Db := derivBack dxes.2
  let Ta : B sh := diagonal ta
  let Tb : B sh := diagonal tb
  let epsX : B sh := diagonal (part eps 0)
  let epsY : B sh := diagonal (part eps 1)
  let epsZInv : B sh := diagonal fun x => 1 / part eps 2 x
  (ω * ω) • diag2 (fun x => tb x * tb x * part eps 0 x) (fun x => ta x * ta x * part eps 1 x)
    + vstack (-Tb * Db 1) (Ta * Db 0) * Tb * hstack (-Df 1) (Df 0)
    + vstack (Df 0) (Df 1) * Ta * epsZInv * hstack (Db 0 * Tb * epsX) (Db 1 * Ta * epsY)

/-- meanas/fdfd/waveguide_cyl.py:79-140 `cylindrical_operator`. -/
noncomputable def cylindricalOperator (ω : ℂ) (dxes : Dx2 sh) (eps : V 3 sh) (rmin : ℂ) : M 2 2 sh :=
  cylOpT ω dxes eps (dxes2T dxes rmin).1 (dxes2T dxes rmin).2

/-- meanas/fdfd/waveguide_cyl.py:319-346: `exy2e` for given Ta, Tb, Tai and `wavenumber = angular_wavenumber / rmin`. -/
noncomputable def exy2eT (β ω : ℂ) (dxes : Dx2 sh) (eps : V 3 sh) (tb tai : Idx sh → ℂ) : M 3 2 sh :=
  let Df := derivForward dxes.1
  let Db := derivBack dxes.2
  let Tb : B sh := diagonal tb
  let Tai : B sh := diagonal tai
  let epsX : B sh := diagonal (part eps 0)
  let epsY : B sh := diagonal (part eps 1)
  let epsZInv : B sh := diagonal fun x => 1 / part eps 2 x
  let exy2hz := (1 / (-I * ω)) • hstack (Df 1) (-Df 0)
  let hxy2ez := (1 / (I * ω)) • (epsZInv * hstack (Db 1) (-Db 0))
  let exy2hy := (1 / (I * β)) • (Tb * ((-I * ω) • hstack epsX 0 - Db 1 * exy2hz))
  let exy2hx := (1 / (I * β)) • (Tb * ((I * ω) • hstack 0 epsY - Tai * Db 0 * Tb * exy2hz))
  eyeOver (hxy2ez * (Matrix.of fun r c => if r.1 = 0 then exy2hx r.2 c else exy2hy r.2 c : M 2 2 sh))

/-- meanas/fdfd/waveguide_cyl.py:293-346 `exy2e`. -/
noncomputable def exy2e (m ω : ℂ) (dxes : Dx2 sh) (rmin : ℂ) (eps : V 3 sh) : M 3 2 sh :=
  exy2eT (m / rmin) ω dxes eps (dxes2T dxes rmin).2 fun x => 1 / (dxes2T dxes rmin).1 x

/-- meanas/fdfd/waveguide_cyl.py:381-392: `e2h` for given Ta, Tai, Tbi and `jB = 1j * β`. -/
noncomputable def e2hT (β ω : ℂ) (dxes : Dx2 sh) (mu : Option (V 3 sh)) (ta tai tbi : Idx sh → ℂ) : M 3 3 sh :=
  let Df := derivForward dxes.1
  let Ta : B sh := diagonal ta
  let Tai : B sh := diagonal tai
  let Tbi : B sh := diagonal tbi
  let op : M 3 3 sh := (1 / (-I * ω)) • blockArray
    ![![0, (-(I * β)) • Tai, -Df 1],
      ![(I * β) • Tbi, 0, Tbi * Df 0 * Ta],
      ![Df 1, -Df 0, 0]]
  match mu with
  | none => op
  | some mu => diagonal (fun p => 1 / mu p) * op

/-- meanas/fdfd/waveguide_cyl.py:349-392 `e2h`. -/
noncomputable def e2h (m ω : ℂ) (dxes : Dx2 sh) (rmin : ℂ) (mu : Option (V 3 sh)) : M 3 3 sh :=
  e2hT (m / rmin) ω dxes mu (dxes2T dxes rmin).1 (fun x => 1 / (dxes2T dxes rmin).1 x) fun x => 1 / (dxes2T dxes rmin).2 x

/-- meanas/fdfd/waveguide_cyl.py:264-290 `exy2h`. -/
noncomputable def exy2h (m ω : ℂ) (dxes : Dx2 sh) (rmin : ℂ) (eps : V 3 sh) (mu : Option (V 3 sh)) : M 3 2 sh :=
  e2h m ω dxes rmin mu * exy2e m ω dxes rmin eps

/-- meanas/fdfd/waveguide_cyl.py:420-493 `normalized_fields_e` / `_normalized_fields`: the body after `h *= -1` is that of
`waveguide_2d._normalized_fields`. -/
noncomputable def normalizedFieldsE (exy : V 2 sh) (m ω : ℂ) (dxes : Dx2 sh) (rmin : ℂ) (eps : V 3 sh) (mu : Option (V 3 sh)) (propPhase : ℂ) :
    Except String (V 3 sh × V 3 sh) :=
  normalizedFields (exy2e m ω dxes rmin eps *ᵥ exy) (-(exy2h m ω dxes rmin eps mu *ᵥ exy)) dxes eps propPhase

/-- meanas/fdfd/waveguide_cyl.py:143-200 `solve_modes`. -/
noncomputable def solveModes (eigs : M 2 2 sh → ℕ → List (ℂ × V 2 sh)) (guess : V 2 sh) (solver : M 2 2 sh → V 2 sh → Option (V 2 sh))
    (modeNumbers : List ℕ) (ω : ℂ) (dxes : Dx2 sh) (eps : V 3 sh) (rmin : ℝ) (margin : ℕ) : Except String (Option (List (V 2 sh × ℂ))) :=
  solveModesOp eigs guess solver modeNumbers (cylindricalOperator (ω.re : ℂ) (reDx dxes.1, reDx dxes.2) (reV eps) rmin)
    (cylindricalOperator ω dxes eps rmin) margin (· * (rmin : ℂ))

/-- meanas/fdfd/waveguide_cyl.py:252, 255-257: the energy along r and the mode radius; `none` (NaN) when the energy vanishes. -/
noncomputable def modeRadius (exy : V 2 sh) (eps : V 3 sh) (dxE : (a : Fin 2) → Fin (sh a) → ℝ) (rmin : ℝ) : Option ℝ :=
  let energy (c : Fin 2) (x : Idx sh) : ℝ := (exy (c, x) * (starRingEnd ℂ) (exy (c, x)) * eps (c.castSucc, x)).re
  let energyVsX (i : Fin (sh 0)) : ℝ := ∑ c, ∑ x : Idx sh, if x 0 = i then energy c x else 0
  let radii (i : Fin (sh 0)) : ℝ := rmin + cumsum (dxE 0) i
  open Classical in
  if (∑ i, energyVsX i) = 0 then none else some ((∑ i, radii i * energyVsX i) / ∑ i, energyVsX i)

/-- meanas/fdfd/waveguide_cyl.py:224-261 `linear_wavenumbers` for one mode. -/
noncomputable def linearWavenumber (exy : V 2 sh) (m : ℂ) (eps : V 3 sh) (dxE : (a : Fin 2) → Fin (sh a) → ℝ) (rmin : ℝ) : Option ℂ :=
  (modeRadius exy eps dxE rmin).map fun r : ℝ => m / (r : ℂ)

end Meanas.WgCyl
