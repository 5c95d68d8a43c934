/-
Guided waves of Maxwell's equations in a waveguide along z, and their samples on a uniform Yee cross-section. Independent of the model.
-/
import Verif.Spec.Smooth
import Mathlib.Analysis.SpecialFunctions.Exp

namespace Meanas.Spec

/-- The point of the plane `z = 0` with the transverse coordinates `r`. -/
def slice (r : Fin 2 → ℝ) : Pt := ![r 0, r 1, 0]

/-- Position of a cell of a cross-section with spacing `h` and offset `o` (in cells). -/
def crossPt {sh : Fin 2 → ℕ} (h o : Fin 2 → ℝ) (x : Idx sh) : Fin 2 → ℝ := fun a => h a * ((x a : ℕ) + o a)

/-- Transverse offsets of the E components on the Yee grid. -/
noncomputable def crossE (c : Fin 3) : Fin 2 → ℝ := fun a => offE c a.castSucc
/-- Transverse offsets of the H components. -/
noncomputable def crossH (c : Fin 3) : Fin 2 → ℝ := fun a => offH c a.castSucc

/-- Position of an E component of a cell. -/
noncomputable def posE {sh : Fin 2 → ℕ} (h : Fin 2 → ℝ) (c : Fin 3) (x : Idx sh) : Pt := slice (crossPt h (crossE c) x)
/-- Position of an H component of a cell. -/
noncomputable def posH {sh : Fin 2 → ℕ} (h : Fin 2 → ℝ) (c : Fin 3) (x : Idx sh) : Pt := slice (crossPt h (crossH c) x)

/-- `E`, `H` solve the source-free time-harmonic Maxwell equations `curl E = -iωμH`, `curl H = iωεE` and travel along z with the wavenumber `β`
(`exp(-iβz)`). They are periodic across the cross-section with periods `L`, their third derivatives in x and y bounded by `M`. -/
structure GuidedWave (L : Fin 2 → ℝ) (β ω : ℝ) (ε μ : Fin 3 → Pt → ℝ) (E H : Fin 3 → Pt → ℂ) (M : ℝ) : Prop where
  faraday : ∀ c r, curl E c r = -Complex.I * ω * (μ c r * H c r)
  ampere : ∀ c r, curl H c r = Complex.I * ω * (ε c r * E c r)
  travelE : ∀ c r z, E c (Function.update r 2 z) = Complex.exp (-Complex.I * β * z) * E c (Function.update r 2 0)
  travelH : ∀ c r z, H c (Function.update r 2 z) = Complex.exp (-Complex.I * β * z) * H c (Function.update r 2 0)
  periodicE : ∀ c (a : Fin 2) r, E c (Function.update r a.castSucc (r a.castSucc + L a)) = E c r
  periodicH : ∀ c (a : Fin 2) r, H c (Function.update r a.castSucc (r a.castSucc + L a)) = H c r
  spaceE : ∀ c (a : Fin 2) r, Smooth3 M (line (E c) a.castSucc r)
  spaceH : ∀ c (a : Fin 2) r, Smooth3 M (line (H c) a.castSucc r)

end Meanas.Spec
