/-
Smooth fields in space and time, Maxwell's equations for them, and their samples on a uniform Yee grid. Independent of the model.
-/
import Verif.Model.NdArray
import Mathlib.Analysis.Calculus.IteratedDeriv.Defs
import Mathlib.Analysis.Calculus.ContDiff.Basic
import Mathlib.Analysis.Complex.Basic

namespace Meanas.Spec

variable {F : Type*} [NormedAddCommGroup F] [NormedSpace ℝ F]

/-- A function of one variable with three continuous derivatives, the third bounded by `M`. -/
def Smooth3 (M : ℝ) (f : ℝ → F) : Prop := ContDiff ℝ 3 f ∧ ∀ s, ‖iteratedDeriv 3 f s‖ ≤ M

/-- Points of space. -/
abbrev Pt := Fin 3 → ℝ

/-- The function along the line through `r` in direction `a`. -/
def line {V : Type*} (f : Pt → V) (a : Fin 3) (r : Pt) : ℝ → V := fun s => f (Function.update r a s)

/-- Partial derivative. -/
noncomputable def pd (f : Pt → F) (a : Fin 3) (r : Pt) : F := deriv (line f a r) (r a)

/-- Curl of a vector field. -/
noncomputable def curl (f : Fin 3 → Pt → F) (c : Fin 3) (r : Pt) : F :=
  pd (f (c + 2)) (c + 1) r - pd (f (c + 1)) (c + 2) r

/-- Periodic with period `L a` along every axis `a`. -/
def Periodic {V : Type*} (L : Pt) (f : Pt → V) : Prop := ∀ a r, f (Function.update r a (r a + L a)) = f r

/-- Point of a lattice with spacing `h` and offset `o` (in cells). -/
def latticePt {sh : Fin 3 → ℕ} (h o : Pt) (x : Idx sh) : Pt := fun a => h a * ((x a : ℕ) + o a)

/-- Offsets of the E components on the Yee grid: half a cell along the component's own axis. -/
noncomputable def offE (c : Fin 3) : Pt := fun a => if a = c then 1 / 2 else 0

/-- Offsets of the H components: half a cell along the other two axes. -/
noncomputable def offH (c : Fin 3) : Pt := fun a => if a = c then 0 else 1 / 2

/-- Samples of a vector field at the positions of the E components. -/
noncomputable def sampleE {sh : Fin 3 → ℕ} {V : Type*} (h : Pt) (f : Fin 3 → Pt → V) : Fin 3 → Idx sh → V :=
  fun c x => f c (latticePt h (offE c) x)

/-- Samples of a vector field at the positions of the H components. -/
noncomputable def sampleH {sh : Fin 3 → ℕ} {V : Type*} (h : Pt) (f : Fin 3 → Pt → V) : Fin 3 → Idx sh → V :=
  fun c x => f c (latticePt h (offH c) x)

/-- `E`, `H` solve Maxwell's equations with the media `ε`, `μ` and the currents `J`, `Mc`:
`ε ∂E/∂t = curl H - J`, `μ ∂H/∂t = -curl E - Mc`; both are periodic, and their third derivatives in time and along the axes are bounded by
`Mt` and `Mx`. -/
structure MaxwellSolution (L : Pt) (ε μ : Fin 3 → Pt → ℝ) (J Mc E H : ℝ → Fin 3 → Pt → ℝ) (Mt Mx : ℝ) : Prop where
  ampere : ∀ t c r, ε c r * deriv (fun s => E s c r) t = curl (H t) c r - J t c r
  faraday : ∀ t c r, μ c r * deriv (fun s => H s c r) t = -curl (E t) c r - Mc t c r
  periodicE : ∀ t c, Periodic L (E t c)
  periodicH : ∀ t c, Periodic L (H t c)
  timeE : ∀ c r, Smooth3 Mt fun t => E t c r
  timeH : ∀ c r, Smooth3 Mt fun t => H t c r
  spaceE : ∀ t c a r, Smooth3 Mx (line (E t c) a r)
  spaceH : ∀ t c a r, Smooth3 Mx (line (H t c) a r)

/-- `E`, `H` solve the time-harmonic equations (`e^{+iωt}`) `curl E = -iωμH`, `curl H = iωεE + J`; both are periodic, their third derivatives
along the axes bounded by `M`. -/
structure HarmonicSolution (L : Pt) (ω : ℝ) (ε : Fin 3 → Pt → ℂ) (μ : Fin 3 → Pt → ℝ) (J E H : Fin 3 → Pt → ℂ) (M : ℝ) : Prop where
  faraday : ∀ c r, curl E c r = -Complex.I * ω * (μ c r * H c r)
  ampere : ∀ c r, curl H c r = Complex.I * ω * (ε c r * E c r) + J c r
  periodicE : ∀ c, Periodic L (E c)
  periodicH : ∀ c, Periodic L (H c)
  spaceE : ∀ c a r, Smooth3 M (line (E c) a r)
  spaceH : ∀ c a r, Smooth3 M (line (H c) a r)

end Meanas.Spec
