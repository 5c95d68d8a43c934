/-
Specification of waveguide modes on the Yee grid, independent of the waveguide operators.
-/
import Verif.Spec.Grid
import Mathlib.Analysis.Complex.Basic

namespace Meanas.Spec

open Complex

variable {sh : Fin 2 → ℕ}

/-- Fields with `exp(-iβz)` dependence satisfying the two discrete curl equations `∇×E = -iωμH`, `∇×H = iωεE` on a 2D
cross-section (`∂z = -iβ`). -/
structure IsMode (β ω : ℂ) (dxE dxH : DxList sh ℂ) (eps mu E H : Fin 3 → Arr sh ℂ) : Prop where
  faradayX : ∀ x, gradForward (some dxE) (E 2) 1 x - (-I * β) * E 1 x = -I * ω * mu 0 x * H 0 x
  faradayY : ∀ x, (-I * β) * E 0 x - gradForward (some dxE) (E 2) 0 x = -I * ω * mu 1 x * H 1 x
  faradayZ : ∀ x, gradForward (some dxE) (E 1) 0 x - gradForward (some dxE) (E 0) 1 x = -I * ω * mu 2 x * H 2 x
  ampereX : ∀ x, gradBack (some dxH) (H 2) 1 x - (-I * β) * H 1 x = I * ω * eps 0 x * E 0 x
  ampereY : ∀ x, (-I * β) * H 0 x - gradBack (some dxH) (H 2) 0 x = I * ω * eps 1 x * E 1 x
  ampereZ : ∀ x, gradBack (some dxH) (H 1) 0 x - gradBack (some dxH) (H 0) 1 x = I * ω * eps 2 x * E 2 x

/-- Fields with `exp(-imθ)` dependence satisfying the discrete curl equations in the cylindrical coordinates (r, y, θ): `ra` and `rb` are the radii
at the E_y / E_θ and at the E_r points (`(1/r) ∂θ = -im/r`, `(1/r) ∂r (r ·)` in the y components). -/
structure IsBentMode (m ω : ℂ) (dxE dxH : DxList sh ℂ) (ra rb : Fin (sh 0) → ℂ) (eps mu E H : Fin 3 → Arr sh ℂ) : Prop where
  faradayX : ∀ x, gradForward (some dxE) (E 2) 1 x - (-I * m / ra (x 0)) * E 1 x = -I * ω * mu 0 x * H 0 x
  faradayY : ∀ x, (-I * m / rb (x 0)) * E 0 x - gradForward (some dxE) (fun y => ra (y 0) * E 2 y) 0 x / rb (x 0) = -I * ω * mu 1 x * H 1 x
  faradayZ : ∀ x, gradForward (some dxE) (E 1) 0 x - gradForward (some dxE) (E 0) 1 x = -I * ω * mu 2 x * H 2 x
  ampereX : ∀ x, gradBack (some dxH) (H 2) 1 x - (-I * m / rb (x 0)) * H 1 x = I * ω * eps 0 x * E 0 x
  ampereY : ∀ x, (-I * m / ra (x 0)) * H 0 x - gradBack (some dxH) (fun y => rb (y 0) * H 2 y) 0 x / ra (x 0) = I * ω * eps 1 x * E 1 x
  ampereZ : ∀ x, gradBack (some dxH) (H 1) 0 x - gradBack (some dxH) (H 0) 1 x = I * ω * eps 2 x * E 2 x

end Meanas.Spec
