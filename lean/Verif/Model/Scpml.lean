/-
Model of meanas/fdfd/scpml.py. Lists of widths along one axis are functions on `Fin n`. Exact reals.
-/
import Mathlib.Analysis.SpecialFunctions.Pow.Complex
import Mathlib.Analysis.SpecialFunctions.Pow.Real
import Mathlib.Analysis.Real.Sqrt

namespace Meanas.Scpml

open Complex

/-- meanas/fdfd/scpml.py:18-38 `prepare_s_function(ln_R, m)` on real distances. -/
noncomputable def sFactor (lnR m : ℝ) (distance : ℝ) : ℝ :=
  let sMax := (m + 1) * lnR / 2
  sMax * distance ^ m

/-- The same function on complex arrays (`stretch_with_scpml` passes complex distances). -/
noncomputable def sFactorC (lnR m : ℝ) (distance : ℂ) : ℂ :=
  let sMax : ℂ := (m + 1) * lnR / 2
  sMax * distance ^ (m : ℂ)

/-- meanas/fdfd/scpml.py:78, 132 `s_correction`. -/
noncomputable def sCorrection (epsEff : ℝ) (omega : ℂ) : ℝ := Real.sqrt epsEff * omega.re

/-- meanas/fdfd/scpml.py:71-72 `ll`. -/
noncomputable def ll (u : ℝ) (n t : ℝ) : ℝ := (max (t - u) 0 + max (u - (n - t)) 0) / t

/-- meanas/fdfd/scpml.py:41-95 `uniform_grid_scpml`, one axis with `n` cells and thickness `th`: the lists `(dx_a, dx_b)`. -/
noncomputable def uniformAxis (n : ℕ) (th : ℤ) (corr : ℝ) (s : ℝ → ℝ) : (Fin n → ℂ) × (Fin n → ℂ) :=
  if th > 0 then
    (fun i => 1 + I * (s (ll (i : ℕ) n th) : ℂ) / corr, fun i => 1 + I * (s (ll ((i : ℕ) + 0.5) n th) : ℂ) / corr)
  else
    (fun _ => 1, fun _ => 1)

/-- meanas/fdfd/scpml.py:41-95 `uniform_grid_scpml`: default profile if `s_function is None`. -/
noncomputable def uniformGridScpml {d : ℕ} (shape : Fin d → ℕ) (thicknesses : Fin d → ℤ) (omega : ℂ) (epsEff : ℝ)
    (s : Option (ℝ → ℝ)) : (a : Fin d) → (Fin (shape a) → ℂ) × (Fin (shape a) → ℂ) :=
  let s := s.getD (sFactor (-16) 4)
  fun a => uniformAxis (shape a) (thicknesses a) (sCorrection epsEff omega) s

/-- `pos[i]` of meanas/fdfd/scpml.py:127: sum of the first `i` widths. -/
noncomputable def pos {n : ℕ} (dx : Fin n → ℂ) (i : ℕ) : ℂ := ∑ j : Fin n, if (j : ℕ) < i then dx j else 0

/-- Complex division of numpy: not finite if the divisor is zero (`none`). -/
noncomputable def divN (a b : ℂ) : Option ℂ := open Classical in if b = 0 then none else some (a / b)

/-- The factor of lines 163-164 for the position `x`: `1 + 1j * s_function(l_d(x)) / d / s_correction`. -/
noncomputable def factor (s : ℂ → ℂ) (num d : ℂ) (corr : ℝ) : Option ℂ := do
  let l ← divN num d
  let v ← divN (I * s l) d
  let v ← divN v corr
  pure (1 + v)

/-- meanas/fdfd/scpml.py:98-169 `stretch_with_scpml`, one axis: new `(dx_a, dx_b)`. `none` entries are NaN/inf. A thickness larger
than the number of cells raises IndexError at line 136 or 146. -/
noncomputable def stretchAxis {n : ℕ} (dxA dxB : Fin n → ℂ) (polarity : ℤ) (corr : ℝ) (thickness : ℕ) (s : ℂ → ℂ) :
    Except String ((Fin n → Option ℂ) × (Fin n → Option ℂ)) :=
  let posA (i : Fin n) : ℂ := (pos dxA i + pos dxA (i + 1)) / 2
  let posB (i : Fin n) : ℂ := pos dxA i
  if n < thickness then .error "IndexError: index out of bounds"
  else if polarity > 0 then
    let bound := pos dxA thickness
    let d := bound - pos dxA 0
    -- slc = slice(thickness)
    .ok (fun i => if (i : ℕ) < thickness then (factor s (bound - posA i) d corr).map (dxA i * ·) else some (dxA i),
         fun i => if (i : ℕ) < thickness then (factor s (bound - posB i) d corr).map (dxB i * ·) else some (dxB i))
  else
    let bound := pos dxA (n - thickness)
    let d := pos dxA n - bound
    -- slc = slice(None) if thickness == 0 else slice(-thickness, None)
    let slc (i : Fin n) : Prop := if thickness = 0 then True else n - thickness ≤ (i : ℕ)
    open Classical in
    .ok (fun i => if slc i then (factor s (posA i - bound) d corr).map (dxA i * ·) else some (dxA i),
         fun i => if slc i then (factor s (posB i - bound) d corr).map (dxB i * ·) else some (dxB i))

/-- meanas/fdfd/scpml.py:98-169 `stretch_with_scpml` on a whole grid: only the lists of `axis` are replaced (lines 166-167). The default
profile is used if `s_function is None`. The code also updates the caller's `dxes` in place. -/
noncomputable def stretchWithScpml {d : ℕ} {sh : Fin d → ℕ} (dxes : ((a : Fin d) → Fin (sh a) → ℂ) × ((a : Fin d) → Fin (sh a) → ℂ))
    (axis : Fin d) (polarity : ℤ) (omega : ℂ) (epsEff : ℝ) (thickness : ℕ) (s : Option (ℂ → ℂ)) :
    Except String (((a : Fin d) → Fin (sh a) → Option ℂ) × ((a : Fin d) → Fin (sh a) → Option ℂ)) :=
  let s := s.getD (sFactorC (-16) 4)
  match stretchAxis (dxes.1 axis) (dxes.2 axis) polarity (sCorrection epsEff omega) thickness s with
  | .error e => .error e
  | .ok r => .ok (Function.update (fun a i => some (dxes.1 a i)) axis r.1, Function.update (fun a i => some (dxes.2 a i)) axis r.2)

end Meanas.Scpml
