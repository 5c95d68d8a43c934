/-
Model of meanas/fdtd/pml.py.
-/
import Verif.Model.Functional
import Verif.Model.Fdtd
import Mathlib.Analysis.SpecialFunctions.Pow.Real
import Mathlib.Analysis.Real.Sqrt

namespace Meanas.Fdtd

/-! ### `cpml_params` -/

/-- Keyword arguments of `cpml_params` (pml.py:23-34). -/
structure CpmlArgs where
  /-- axis -/
  axis : ℤ
  /-- polarity -/
  polarity : ℤ
  /-- time step -/
  dt : ℝ
  /-- number of layers -/
  thickness : ℤ := 8
  /-- `ln_R_per_layer` -/
  lnR : ℝ := -1.6
  /-- `epsilon_eff` -/
  epsEff : ℝ := 1
  /-- `mu_eff` -/
  muEff : ℝ := 1
  /-- `m` -/
  m : ℝ := 3.5
  /-- `ma` -/
  ma : ℝ := 1
  /-- `cfs_alpha` -/
  cfsAlpha : ℝ := 0

/-- `(p0, p1, p2)` at one cell of the layer. -/
structure P3 where
  /-- decay -/
  p0 : ℝ
  /-- gain -/
  p1 : ℝ
  /-- 1/kappa -/
  p2 : ℝ

/-- The returned dictionary: parameters per position in the layer, and the region (`true`: `slice(None, t)`,
`false`: `slice(-t, None)`, along `axis`). -/
structure CpmlDict where
  /-- axis -/
  axis : Fin 3
  /-- number of layers -/
  t : ℕ
  /-- `param_e` -/
  paramE : Fin t → P3
  /-- `param_h` -/
  paramH : Fin t → P3
  /-- region at the start of the axis? -/
  low : Bool

/-- pml.py:67-75 `par(x)` at one position. `**` on the positive base is `Real.rpow`; division as in the field (the
theorems carry the conditions under which no division by zero happens). -/
noncomputable def cpmlPar (A : CpmlArgs) (x : ℝ) : P3 :=
  let sigmaMax := -A.lnR / 2 * (A.m + 1)
  let kappaMax := Real.sqrt (A.epsEff * A.muEff)
  let scaling := (x / A.thickness) ^ A.m
  let sigma := scaling * sigmaMax
  let kappa := 1 + scaling * (kappaMax - 1)
  let alpha := ((1 - x / A.thickness) ^ A.ma) * A.cfsAlpha
  let p0 := Real.exp (-(sigma / kappa + alpha) * A.dt)
  { p0 := p0
    p1 := sigma / (sigma + kappa * alpha) * (p0 - 1)
    p2 := 1 / kappa }

/-- pml.py:52-59 `xe` at layer position `i` of `t`. -/
noncomputable def cpmlXe (polarity : ℤ) (t : ℕ) (i : Fin t) : ℝ :=
  if polarity > 0 then ((i : ℕ) : ℝ) + 1 - 0.5 else (t : ℝ) - (i : ℕ)

/-- pml.py:52-59 `xh` at layer position `i` of `t`. -/
noncomputable def cpmlXh (polarity : ℤ) (t : ℕ) (i : Fin t) : ℝ :=
  if polarity > 0 then ((i : ℕ) : ℝ) + 1 else (t : ℝ) - (i : ℕ) - 0.5

/-- pml.py:23-93 `cpml_params`. -/
noncomputable def cpmlParams (A : CpmlArgs) : Except String CpmlDict :=
  if h : 0 ≤ A.axis ∧ A.axis < 3 then
    if A.polarity = -1 ∨ A.polarity = 1 then
      if A.thickness ≤ 2 then .error "It would be wise to have a pml with 4+ cells of thickness"
      else if A.epsEff ≤ 0 then .error "epsilon_eff must be positive"
      else .ok
        { axis := ⟨A.axis.toNat, by omega⟩
          t := A.thickness.toNat
          paramE := fun i => cpmlPar A (cpmlXe A.polarity A.thickness.toNat i)
          paramH := fun i => cpmlPar A (cpmlXh A.polarity A.thickness.toNat i)
          low := A.polarity < 0 }
    else .error "Invalid polarity"
  else .error "Invalid axis"

/-! ### `updates_with_cpml` -/

variable {sh : Fin 3 → ℕ} {K : Type*} [Field K]

/-- One absorbing layer on an axis of length `n`, as used by the updates: which indices lie in `region`, and the
(broadcast) parameters at these indices. `p?e` are `param_e`, `p?h` are `param_h`. -/
structure Layer (n : ℕ) (K : Type*) where
  /-- index in region? -/
  reg : Fin n → Bool
  /-- `(p0, p1, p2)` of `param_e` at an index of the region -/
  pe : Fin n → K × K × K
  /-- `(p0, p1, p2)` of `param_h` at an index of the region -/
  ph : Fin n → K × K × K

/-- The layer described by a `cpml_params` dictionary on an axis of length `n ≥ t` (for `n < t` the numpy
broadcast in the update fails). `slice(None, t)`: indices `< t`, position `i`; `slice(-t, None)`: indices
`≥ n - t`, position `i - (n - t)`. -/
noncomputable def layerOf (D : CpmlDict) (n : ℕ) : Layer n ℝ :=
  let pos : Fin n → ℕ := fun i => if D.low then i else (i : ℕ) - (n - D.t)
  let get : (Fin D.t → P3) → Fin n → ℝ × ℝ × ℝ := fun p i =>
    if h : pos i < D.t then ((p ⟨pos i, h⟩).p0, (p ⟨pos i, h⟩).p1, (p ⟨pos i, h⟩).p2) else (0, 0, 0)
  { reg := fun i => if D.low then decide ((i : ℕ) < D.t) else decide (n - D.t ≤ (i : ℕ))
    pe := get D.paramE
    ph := get D.paramH }

/-- `cpml_params[axis][pp]`, `pp = 0` low side, `pp = 1` high side; `None` is `none`. -/
abbrev Layers (sh : Fin 3 → ℕ) (K : Type*) := (a : Fin 3) → Fin 2 → Option (Layer (sh a) K)

/-- `psi[axis][pp] = (psi_u, psi_v)`: region-shaped arrays, represented on the whole grid (only the values inside the region
are read or written). -/
abbrev Psi (sh : Fin 3 → ℕ) (K : Type*) := Fin 3 → Fin 2 → Arr sh K × Arr sh K

/-- Loop state of pml.py:155-179 / 201-225: derivative arrays `d[axis][component]`, auxiliary fields, and `pE`/`pH`. -/
structure LoopState (sh : Fin 3 → ℕ) (K : Type*) where
  /-- derivative arrays -/
  D : Fin 3 → Fin 3 → Arr sh K
  /-- auxiliary fields -/
  psi : Psi sh K
  /-- `pE` / `pH` -/
  p : VField sh K

/-- `transverse = numpy.delete(range(3), axis)` (pml.py:159-160). -/
def transverse (a : Fin 3) : Fin 3 × Fin 3 :=
  match a with
  | 0 => (1, 2)
  | 1 => (0, 2)
  | 2 => (0, 1)

/-- `se = (-1, 1, -1)[axis]` (pml.py:158). -/
def seSign (a : Fin 3) : K :=
  match a with
  | 0 => -1
  | 1 => 1
  | 2 => -1

/-- `arr[region] = …` for a layer on axis `a`. -/
def onRegion {a : Fin 3} (L : Layer (sh a) K) (new old : Arr sh K) : Arr sh K :=
  fun x => if L.reg (x a) then new x else old x

/-- Body of the inner loop, pml.py:163-179 (and 209-225). `par` selects `param_e` or `param_h`. -/
def layerStep (layers : Layers sh K) (par : {n : ℕ} → Layer n K → Fin n → K × K × K) (a : Fin 3) (pp : Fin 2)
    (s : LoopState sh K) : LoopState sh K :=
  match layers a pp with
  | none => s
  | some L =>
    let u := (transverse a).1
    let v := (transverse a).2
    let p0 : Arr sh K := fun x => (par L (x a)).1
    let p1 : Arr sh K := fun x => (par L (x a)).2.1
    let p2 : Arr sh K := fun x => (par L (x a)).2.2
    let dU := onRegion L (fun x => s.D a u x * p2 x) (s.D a u)
    let dV := onRegion L (fun x => s.D a v x * p2 x) (s.D a v)
    let psiU := fun x => (s.psi a pp).1 x * p0 x + p1 x * dV x
    let psiV := fun x => (s.psi a pp).2 x * p0 x + p1 x * dU x
    { D := Function.update s.D a (Function.update (Function.update (s.D a) u dU) v dV)
      psi := Function.update s.psi a (Function.update (s.psi a) pp
        (onRegion L psiU (s.psi a pp).1, onRegion L psiV (s.psi a pp).2))
      p := fun c => if c = u then onRegion L (fun x => s.p u x + seSign a * psiU x) (s.p u)
        else if c = v then onRegion L (fun x => s.p v x + -seSign a * psiV x) (s.p v)
        else s.p c }

/-- The double loop over axes and polarities. -/
def cpmlLoop (layers : Layers sh K) (par : {n : ℕ} → Layer n K → Fin n → K × K × K) (s : LoopState sh K) :
    LoopState sh K :=
  [(0, 0), (0, 1), (1, 0), (1, 1), (2, 0), (2, 1)].foldl (fun s (q : Fin 3 × Fin 2) => layerStep layers par q.1 q.2 s) s

/-- pml.py:139-183 `update_E(e, h, epsilon)`: returns the new `e` and the new `psi_E`. (`numpy.empty_like` + `fill(0)`:
`pE` starts at 0.) -/
def cpmlUpdateE (layers : Layers sh K) (dt : K) (dxes : Dxes sh K) (psi : Psi sh K) (e h epsilon : VField sh K) :
    VField sh K × Psi sh K :=
  let s := cpmlLoop layers (fun L => L.pe)
    { D := fun a c => Functional.derivBack (some dxes.2) a (h c), psi := psi, p := fun _ _ => 0 }
  (![fun x => e 0 x + dt / epsilon 0 x * (s.D 1 2 x - s.D 2 1 x + s.p 0 x),
     fun x => e 1 x + dt / epsilon 1 x * (s.D 2 0 x - s.D 0 2 x + s.p 1 x),
     fun x => e 2 x + dt / epsilon 2 x * (s.D 0 1 x - s.D 1 0 x + s.p 2 x)], s.psi)

/-- pml.py:185-229 `update_H(e, h, mu)`; note that the forward derivatives are built from `dxes[1]` (pml.py:106).
`mu = (1, 1, 1)` is the constant field. -/
def cpmlUpdateH (layers : Layers sh K) (dt : K) (dxes : Dxes sh K) (psi : Psi sh K) (e h mu : VField sh K) :
    VField sh K × Psi sh K :=
  let s := cpmlLoop layers (fun L => L.ph)
    { D := fun a c => Functional.derivForward (some dxes.2) a (e c), psi := psi, p := fun _ _ => 0 }
  (![fun x => h 0 x - dt / mu 0 x * (s.D 1 2 x - s.D 2 1 x + s.p 0 x),
     fun x => h 1 x - dt / mu 1 x * (s.D 2 0 x - s.D 0 2 x + s.p 1 x),
     fun x => h 2 x - dt / mu 2 x * (s.D 0 1 x - s.D 1 0 x + s.p 2 x)], s.psi)

/-- Initial auxiliary fields (pml.py:125-132): zeros. -/
def psiZero : Psi sh K := fun _ _ => (fun _ => 0, fun _ => 0)

end Meanas.Fdtd
