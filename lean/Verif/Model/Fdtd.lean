/-
Model of meanas/fdtd/base.py and meanas/fdtd/energy.py.

In-place updates (`e += …; return e`) are functions returning the new array. `epsilon`/`mu` given as a float are the
constant fields. `numpy.ones(1)` widths (used when `dxes is None`) broadcast to all-ones widths.
-/
import Verif.Model.Functional

namespace Meanas.Fdtd

open Functional

variable {sh : Fin 3 → ℕ} {K : Type*} [Field K]

/-- A `dx_lists_t`: `(dx_e, dx_h)`. -/
abbrev Dxes (sh : Fin 3 → ℕ) (K : Type*) := DxList sh K × DxList sh K

/-- meanas/fdtd/base.py:13-65 `maxwell_e(dt, dxes)(e, h, epsilon)`. -/
def maxwellE (dt : K) (dxes : Option (Dxes sh K)) (e h epsilon : VField sh K) : VField sh K :=
  let curlH := match dxes with
    | some d => curlBack (some d.2)
    | none => curlBack none
  fun c x => e c x + dt * curlH h c x / epsilon c x

/-- meanas/fdtd/base.py:68-125 `maxwell_h(dt, dxes)(e, h, mu)`. -/
def maxwellH (dt : K) (dxes : Option (Dxes sh K)) (e h : VField sh K) (mu : Option (VField sh K)) : VField sh K :=
  let curlE := match dxes with
    | some d => curlForward (some d.1)
    | none => curlForward none
  match mu with
  | some mu => fun c x => h c x - dt * curlE e c x / mu c x
  | none => fun c x => h c x - dt * curlE e c x

/-- `dxes` with the default of meanas/fdtd/energy.py:73-74, 263-264, 284-285. -/
def dxesOrOnes (dxes : Option (Dxes sh K)) : Dxes sh K :=
  match dxes with
  | some d => d
  | none => (fun _ _ => 1, fun _ _ => 1)

/-- meanas/fdtd/energy.py:10-87 `poynting`. -/
def poynting (e h : VField sh K) (dxes : Option (Dxes sh K)) : VField sh K :=
  let d := dxesOrOnes dxes
  let ex : Arr sh K := fun x => e 0 x * d.1 0 (x 0)
  let ey : Arr sh K := fun x => e 1 x * d.1 1 (x 1)
  let ez : Arr sh K := fun x => e 2 x * d.1 2 (x 2)
  let hx : Arr sh K := fun x => h 0 x * d.2 0 (x 0)
  let hy : Arr sh K := fun x => h 1 x * d.2 1 (x 1)
  let hz : Arr sh K := fun x => h 2 x * d.2 2 (x 2)
  ![fun x => roll ey (-1) 0 x * hz x - roll ez (-1) 0 x * hy x,
    fun x => roll ez (-1) 1 x * hx x - roll ex (-1) 1 x * hz x,
    fun x => roll ex (-1) 2 x * hy x - roll ey (-1) 2 x * hx x]

/-- meanas/fdtd/energy.py:90-125 `poynting_divergence(s, e=, h=, dxes=)`; the three `assert`s are error values. -/
def poyntingDivergence (s : Option (VField sh K)) (e h : Option (VField sh K)) (dxes : Option (Dxes sh K)) :
    Except String (Arr sh K) := do
  let s ← match s with
    | some s => pure s
    | none =>
      match e with
      | none => throw "AssertionError"
      | some e =>
        match h with
        | none => throw "AssertionError"
        | some h =>
          match dxes with
          | none => throw "AssertionError"
          | some d => pure (poynting e h (some d))
  pure fun x => derivBack none 0 (s 0) x + derivBack none 1 (s 1) x + derivBack none 2 (s 2) x

/-- meanas/fdtd/energy.py:273-295 `dxmul`. -/
def dxmul (ee hh : VField sh K) (epsilon mu : Option (VField sh K)) (dxes : Option (Dxes sh K)) : Arr sh K :=
  let eps := match epsilon with
    | some v => v
    | none => fun _ _ => 1
  let mu := match mu with
    | some v => v
    | none => fun _ _ => 1
  let d := dxesOrOnes dxes
  fun x => (∑ c, ee c x * eps c x) * d.1 0 (x 0) * d.1 1 (x 1) * d.1 2 (x 2)
    + (∑ c, hh c x * mu c x) * d.2 0 (x 0) * d.2 1 (x 1) * d.2 2 (x 2)

/-- meanas/fdtd/energy.py:128-153 `energy_hstep`. -/
def energyHstep (e0 h1 e2 : VField sh K) (epsilon mu : Option (VField sh K)) (dxes : Option (Dxes sh K)) : Arr sh K :=
  dxmul (fun c x => e0 c x * e2 c x) (fun c x => h1 c x * h1 c x) epsilon mu dxes

/-- meanas/fdtd/energy.py:156-181 `energy_estep`. -/
def energyEstep (h0 e1 h2 : VField sh K) (epsilon mu : Option (VField sh K)) (dxes : Option (Dxes sh K)) : Arr sh K :=
  dxmul (fun c x => e1 c x * e1 c x) (fun c x => h0 c x * h2 c x) epsilon mu dxes

/-- meanas/fdtd/energy.py:184-214 `delta_energy_h2e`. -/
def deltaEnergyH2e (dt : K) (e0 h1 e2 h3 : VField sh K) (epsilon mu : Option (VField sh K))
    (dxes : Option (Dxes sh K)) : Arr sh K :=
  dxmul (fun c x => e2 c x * (e2 c x - e0 c x) / dt) (fun c x => h1 c x * (h3 c x - h1 c x) / dt) epsilon mu dxes

/-- meanas/fdtd/energy.py:217-247 `delta_energy_e2h`. -/
def deltaEnergyE2h (dt : K) (h0 e1 h2 e3 : VField sh K) (epsilon mu : Option (VField sh K))
    (dxes : Option (Dxes sh K)) : Arr sh K :=
  dxmul (fun c x => e1 c x * (e3 c x - e1 c x) / dt) (fun c x => h2 c x * (h2 c x - h0 c x) / dt) epsilon mu dxes

/-- meanas/fdtd/energy.py:250-270 `delta_energy_j`. -/
def deltaEnergyJ (j0 e1 : VField sh K) (dxes : Option (Dxes sh K)) : Arr sh K :=
  let d := dxesOrOnes dxes
  fun x => (∑ c, j0 c x * e1 c x) * d.1 0 (x 0) * d.1 1 (x 1) * d.1 2 (x 2)

/-! ### Runs of update calls

A user's FDTD script is a sequence of calls of the two updaters interleaved with current injections
`e += j / epsilon` (base.py:24-27) and `h -= m / mu` (base.py:79-83). -/

/-- Everything that stays fixed during a run. -/
structure Sys (sh : Fin 3 → ℕ) (K : Type*) where
  /-- time step -/
  dt : K
  /-- grid -/
  dxes : Option (Dxes sh K)
  /-- permittivity -/
  eps : VField sh K
  /-- permeability -/
  mu : Option (VField sh K)

/-- The two fields. -/
structure State (sh : Fin 3 → ℕ) (K : Type*) where
  /-- E field -/
  e : VField sh K
  /-- H field -/
  h : VField sh K

/-- One call made by the script. -/
inductive Op (sh : Fin 3 → ℕ) (K : Type*) where
  /-- `maxwell_e(dt, dxes)(e, h, epsilon)` -/
  | stepE
  /-- `maxwell_h(dt, dxes)(e, h, mu)` -/
  | stepH
  /-- `e += j / epsilon` -/
  | injJ (j : VField sh K)
  /-- `h -= m / mu` -/
  | injM (m : VField sh K)

/-- Effect of one call. -/
def step (S : Sys sh K) (s : State sh K) : Op sh K → State sh K
  | .stepE => { s with e := maxwellE S.dt S.dxes s.e s.h S.eps }
  | .stepH => { s with h := maxwellH S.dt S.dxes s.e s.h S.mu }
  | .injJ j => { s with e := fun c x => s.e c x + j c x / S.eps c x }
  | .injM m =>
    match S.mu with
    | some mu => { s with h := fun c x => s.h c x - m c x / mu c x }
    | none => { s with h := fun c x => s.h c x - m c x }

/-- Effect of a sequence of calls. -/
def run (S : Sys sh K) (s : State sh K) (ops : List (Op sh K)) : State sh K := ops.foldl (step S) s

end Meanas.Fdtd
