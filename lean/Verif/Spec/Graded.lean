/-
Non-uniform grids: positions of the samples, the widths that are distances between them, and smooth fields with bounded second derivatives. Independent
of the model.
-/
import Verif.Spec.Smooth

namespace Meanas.Spec

section axis
variable {d : ℕ} {sh : Fin d → ℕ}

/-- Length of the box along an axis. -/
noncomputable def boxLen (w : DxList sh ℝ) (a : Fin d) : ℝ := ∑ i, w a i

/-- Left end of cell `i`, the cells laid side by side from `0`. -/
noncomputable def node (w : DxList sh ℝ) (a : Fin d) (i : Fin (sh a)) : ℝ := ∑ j : Fin (sh a), if (j : ℕ) < i then w a j else 0

/-- Distance from the middle of the previous cell to the middle of cell `i` (periodic). -/
noncomputable def midWidth (w : DxList sh ℝ) : DxList sh ℝ := fun a i => (w a (wrap i (-1)) + w a i) / 2

/-- The documented positions and widths (meanas/fdmath/__init__.py:42-108, 505-700): centre and right end of cell `i`, and the derived width
`dx'[i] = (dx[i] + dx[i+1]) / 2`. -/
noncomputable def cellCentre (w : DxList sh ℝ) (a : Fin d) (i : Fin (sh a)) : ℝ := node w a i + w a i / 2
noncomputable def cellVertex (w : DxList sh ℝ) (a : Fin d) (i : Fin (sh a)) : ℝ := node w a i + w a i
noncomputable def derivedWidth (w : DxList sh ℝ) : DxList sh ℝ := fun a i => (w a i + w a (wrap i 1)) / 2

end axis

section points
variable {sh : Fin 3 → ℕ}

/-- The point of cell `x` that lies in the middle of the cell along the axes in `o` and at its left end along the others. -/
noncomputable def gradedPt (w : DxList sh ℝ) (o : Fin 3 → Bool) (x : Idx sh) : Pt :=
  fun a => node w a (x a) + if o a then w a (x a) / 2 else 0

/-- Samples at the positions of the E components: in the middle of the cell along the component's own axis. -/
noncomputable def gradedE {V : Type*} (w : DxList sh ℝ) (f : Fin 3 → Pt → V) : Fin 3 → Idx sh → V :=
  fun c x => f c (gradedPt w (fun a => decide (a = c)) x)

/-- Samples at the positions of the H components: in the middle of the cell along the two other axes. -/
noncomputable def gradedH {V : Type*} (w : DxList sh ℝ) (f : Fin 3 → Pt → V) : Fin 3 → Idx sh → V :=
  fun c x => f c (gradedPt w (fun a => decide (a ≠ c)) x)

end points

variable {F : Type*} [NormedAddCommGroup F] [NormedSpace ℝ F]

/-- Second partial derivative. -/
noncomputable def pd2 (f : Pt → F) (a : Fin 3) (r : Pt) : F := iteratedDeriv 2 (line f a r) (r a)

/-- Second derivatives along the axes bounded by `M` and changing at most by `M` per length in every direction. -/
structure Second (M : ℝ) (f : Pt → F) : Prop where
  bound : ∀ a r, ‖pd2 f a r‖ ≤ M
  lip : ∀ a b r s, ‖pd2 f a (Function.update r b s) - pd2 f a r‖ ≤ M * |s - r b|

end Meanas.Spec
