/-
Model of meanas/fdtd/misc.py. Logging is not modelled; floats are exact reals. A floating-point NaN is `none`.
-/
import Mathlib.Analysis.SpecialFunctions.Pow.Real
import Mathlib.Analysis.SpecialFunctions.Trigonometric.Arctan
import Mathlib.Analysis.Complex.Exponential
import Mathlib.Analysis.Real.Sqrt

namespace Meanas.Misc

open Real

/-- Arguments of `gaussian_packet` (misc.py:15-21). -/
structure PacketArgs where
  /-- wavelength -/
  wl : ℝ
  /-- FWHM in wavelength -/
  dwl : ℝ
  /-- time step -/
  dt : ℝ
  /-- maximal amplitude at `t = 0` -/
  turnOn : ℝ
  /-- keep the amplitude after the maximum? -/
  oneSided : Bool

/-- misc.py:44 (and 95). -/
noncomputable def omega (wl : ℝ) : ℝ := 2 * π / wl

/-- misc.py:46-47 `alpha`. -/
noncomputable def packetAlpha (A : PacketArgs) : ℝ :=
  let fwhmOmega := A.dwl * omega A.wl * omega A.wl / (2 * π)
  (fwhmOmega * fwhmOmega) * Real.log 2 / 8

/-- misc.py:48-49 `delay`. -/
noncomputable def packetDelay (A : PacketArgs) : ℝ :=
  let freq := 1 / A.wl
  let delay := Real.sqrt (-Real.log A.turnOn / packetAlpha A)
  (⌈delay * freq⌉ : ℝ) / freq

/-- misc.py:52-62 `source_phasor(ii)` for a scalar `ii`: `(envelope, cos, sin)`. (For an array `ii` with `one_sided` the
`and` raises; not modelled.) -/
noncomputable def packetPhasor (A : PacketArgs) (ii : ℝ) : ℝ × ℝ × ℝ :=
  let t0 := ii * A.dt - packetDelay A
  let envelope := Real.sqrt (Real.sqrt (2 * packetAlpha A / π)) * Real.exp (-packetAlpha A * t0 * t0)
  let envelope := if A.oneSided = true ∧ t0 > 0 then 1 else envelope
  (envelope, Real.cos (omega A.wl * t0), Real.sin (omega A.wl * t0))

/-- misc.py:100: the function whose root is sought. -/
noncomputable def rickerObjective (wl turnOn tt : ℝ) : ℝ :=
  (1 - omega wl * omega wl * tt * tt / 2) * Real.exp (-omega wl * omega wl / 4 * tt * tt) - turnOn

/-- misc.py:101-102 `delay`; `root` is whatever `scipy.optimize.root_scalar` returned (scipy is not modelled). -/
noncomputable def rickerDelay (wl root : ℝ) : ℝ :=
  let freq := 1 / wl
  (⌈root * freq⌉ : ℝ) / freq

/-- misc.py:104-112 `source_phasor(ii)`. -/
noncomputable def rickerPhasor (wl dt root ii : ℝ) : ℝ × ℝ × ℝ :=
  let t0 := ii * dt - rickerDelay wl root
  let rr := omega wl * t0 / 2
  ((1 - 2 * rr * rr) * Real.exp (-rr * rr), Real.cos (omega wl * t0), Real.sin (omega wl * t0))

/-- Arguments of `gaussian_beam` (misc.py:117-123); `xyz` are the three coordinate lists. -/
structure BeamArgs (nx ny nz : ℕ) where
  /-- x positions -/
  xs : Fin nx → ℝ
  /-- y positions -/
  ys : Fin ny → ℝ
  /-- z positions -/
  zs : Fin nz → ℝ
  /-- centre -/
  center : Fin 3 → ℝ
  /-- waist radius -/
  w0 : ℝ
  /-- wavelength -/
  wl : ℝ
  /-- rotation about y -/
  tilt : ℝ

variable {nx ny nz : ℕ}

/-- misc.py:143-149: rotated coordinates `(xx, yy, zz)` of a grid location. -/
noncomputable def beamCoords (A : BeamArgs nx ny nz) (i : Fin nx) (j : Fin ny) (k : Fin nz) : ℝ × ℝ × ℝ :=
  let x := A.xs i - A.center 0
  let y := A.ys j - A.center 1
  let z := A.zs k - A.center 2
  (Real.cos A.tilt * x + 0 * y + Real.sin A.tilt * z,
   0 * x + 1 * y + 0 * z,
   -Real.sin A.tilt * x + 0 * y + Real.cos A.tilt * z)

/-- misc.py:150-162: the unnormalised field at one location. `zr2 / z2` is `inf` for `z2 = 0` (`zr2 > 0`), and
`0 * (1 + inf)` is NaN: `none`. (For `zr2 = 0`, i.e. `w0 = 0`, the expression is NaN as well, from `z2 / zr2`
and `w0 / wz`; the theorems assume `w0 > 0`.) -/
noncomputable def beamRaw (A : BeamArgs nx ny nz) (i : Fin nx) (j : Fin ny) (k : Fin nz) : Option ℂ :=
  let xx := (beamCoords A i j k).1
  let yy := (beamCoords A i j k).2.1
  let zz := (beamCoords A i j k).2.2
  let r2 := xx * xx + yy * yy
  let z2 := zz * zz
  let zr := π * A.w0 * A.w0 / A.wl
  let zr2 := zr * zr
  let wz2 := A.w0 * A.w0 * (1 + z2 / zr2)
  let wz := Real.sqrt wz2
  let kk := 2 * π / A.wl
  let Rz : Option ℝ := if z2 = 0 then none else some (zz * (1 + zr2 / z2))
  let gouy := Real.arctan (zz / zr)
  Rz.map fun Rz => (A.w0 / wz * Real.exp (-r2 / wz2) : ℝ) * Complex.exp (Complex.I * (kk * zz + kk * r2 / 2 / Rz - gouy : ℝ))

/-- misc.py:164-165 `norm`: `none` (NaN) as soon as one summand is NaN. `row * row.conj()` is `|row|²`. -/
noncomputable def beamNorm (A : BeamArgs nx ny nz) : Option ℝ :=
  if h : nz / 2 < nz then
    if (∀ i j, (beamRaw A i j ⟨nz / 2, h⟩).isSome = true) then
      some (Real.sqrt (∑ i, ∑ j, Complex.normSq ((beamRaw A i j ⟨nz / 2, h⟩).getD 0)))
    else none
  else none

/-- misc.py:166: the returned array. (A zero norm would give inf/NaN; it cannot occur for a non-empty grid and
`w0 ≠ 0`.) -/
noncomputable def gaussianBeam (A : BeamArgs nx ny nz) (i : Fin nx) (j : Fin ny) (k : Fin nz) : Option ℂ :=
  match beamRaw A i j k, beamNorm A with
  | some g, some n => if n = 0 then none else some (g / n)
  | _, _ => none

end Meanas.Misc
