/-
C132: the documented positions and cell widths of non-uniform grids.
-/
import Verif.Props.GradedConvergence
import Mathlib.Analysis.Calculus.Deriv.Slope

namespace Meanas.Props

open Functional Spec Filter Topology

section documented
variable {d : ℕ} {sh : Fin d → ℕ} (w : DxList sh ℝ) (a : Fin d)

theorem wrap_next {n : ℕ} (i : Fin n) (hi : (i : ℕ) + 1 < n) : ((wrap i 1 : Fin n) : ℕ) = (i : ℕ) + 1 := by
  simp only [wrap]
  have := Int.emod_eq_of_lt (a := ((i : ℕ) : ℤ) + 1) (b := (n : ℤ)) (by omega) (by omega)
  omega

theorem wrap_prev {n : ℕ} (i : Fin n) (hi : 0 < (i : ℕ)) : ((wrap i (-1) : Fin n) : ℕ) + 1 = (i : ℕ) := by
  have hn := i.2
  simp only [wrap]
  have := Int.emod_eq_of_lt (a := ((i : ℕ) : ℤ) + -1) (b := (n : ℤ)) (by omega) (by omega)
  omega

theorem node_succ (i : Fin (sh a)) (hi : (i : ℕ) + 1 < sh a) : node w a (wrap i 1) = node w a i + w a i := by
  rw [node_add, node, wrap_next i hi]

theorem node_pred (i : Fin (sh a)) (hi : 0 < (i : ℕ)) : node w a (wrap i (-1)) + w a (wrap i (-1)) = node w a i := by
  rw [node_add, node, wrap_prev i hi]

/-- The forward difference of samples `f` at the centres of the cells, and the backward difference of samples at the vertices, both at the vertex and
centre they belong to. -/
theorem documented_values (f : ℝ → ℝ) (dx : DxList sh ℝ) (x : Idx sh) :
    ((x a : ℕ) + 1 < sh a → derivForward (some dx) a (fun y => f (cellCentre w a (y a))) x
      = (f (cellVertex w a (x a) + w a (wrap (x a) 1) / 2) - f (cellVertex w a (x a) - w a (x a) / 2)) / dx a (x a)) ∧
    (0 < (x a : ℕ) → derivBack (some dx) a (fun y => f (cellVertex w a (y a))) x
      = (f (cellCentre w a (x a) + w a (x a) / 2) - f (cellCentre w a (x a) - w a (x a) / 2)) / dx a (x a)) := by
  constructor
  · intro hi
    rw [derivForward_eq, wOf_some]
    simp only [shiftIdx, Function.update_self, cellCentre, cellVertex]
    rw [node_succ w a _ hi, show node w a (x a) + w a (x a) - w a (x a) / 2 = node w a (x a) + w a (x a) / 2 by ring]
  · intro hi
    rw [derivBack_eq, wOf_some]
    simp only [shiftIdx, Function.update_self, cellCentre, cellVertex]
    rw [node_pred w a _ hi, show node w a (x a) + w a (x a) / 2 + w a (x a) / 2 = node w a (x a) + w a (x a) by ring,
      show node w a (x a) + w a (x a) / 2 - w a (x a) / 2 = node w a (x a) by ring]

/-- C132 (partial: the property fails on every grid with unequal neighbours). With the documented widths (base widths for E, derived widths for H) and
positions (E at the cell centres, H at the vertices), the discrete derivative of the coordinate itself, which is 1, comes out as `dx'/dx` from
`deriv_forward` and as `dx/dx'` from `deriv_back`: right exactly where a cell and the next one are equal. -/
theorem C132_documented_widths_partial (hw : ∀ i, 0 < w a i) (x : Idx sh) :
    ((x a : ℕ) + 1 < sh a → derivForward (some w) a (fun y => cellCentre w a (y a)) x = derivedWidth w a (x a) / w a (x a) ∧
      (derivForward (some w) a (fun y => cellCentre w a (y a)) x = 1 ↔ w a (x a) = w a (wrap (x a) 1))) ∧
    (0 < (x a : ℕ) → derivBack (some (derivedWidth w)) a (fun y => cellVertex w a (y a)) x = w a (x a) / derivedWidth w a (x a) ∧
      (derivBack (some (derivedWidth w)) a (fun y => cellVertex w a (y a)) x = 1 ↔ w a (x a) = w a (wrap (x a) 1))) := by
  have h0 := hw (x a)
  have h1 := hw (wrap (x a) 1)
  have hd : 0 < derivedWidth w a (x a) := by rw [derivedWidth]; positivity
  constructor
  · intro hi
    have e := (documented_values w a id w x).1 hi
    simp only [id] at e
    have e' : derivForward (some w) a (fun y => cellCentre w a (y a)) x = derivedWidth w a (x a) / w a (x a) := by
      rw [e, derivedWidth]; congr 1; ring
    refine ⟨e', ?_⟩
    rw [e', div_eq_one_iff_eq h0.ne', derivedWidth]
    constructor <;> intro h <;> linarith
  · intro hi
    have e := (documented_values w a id (derivedWidth w) x).2 hi
    simp only [id] at e
    have e' : derivBack (some (derivedWidth w)) a (fun y => cellVertex w a (y a)) x = w a (x a) / derivedWidth w a (x a) := by
      rw [e]; congr 1; ring
    refine ⟨e', ?_⟩
    rw [e', div_eq_one_iff_eq hd.ne', derivedWidth]
    constructor <;> intro h <;> linarith

/-- C132 (partial): refinement does not help. Grids of the same shape shrunk by `η → 0` around a point `X` of a differentiable field: at that point the
documented difference tends to the derivative times `dx'/dx`. -/
theorem C132_refinement_partial (hw : ∀ i, 0 < w a i) (x : Idx sh) (hi : (x a : ℕ) + 1 < sh a) (f : ℝ → ℝ) (f' X : ℝ) (hf : HasDerivAt f f' X) :
    Tendsto (fun η : ℝ => derivForward (some fun b i => η * w b i) a
        (fun y => f (X + (cellCentre (fun b i => η * w b i) a (y a) - cellVertex (fun b i => η * w b i) a (x a)))) x)
      (𝓝[>] 0) (𝓝 (derivedWidth w a (x a) / w a (x a) * f')) := by
  have h0 := hw (x a)
  have h1 := hw (wrap (x a) 1)
  set u := w a (x a)
  set v := w a (wrap (x a) 1)
  have e : ∀ η, derivForward (some fun b i => η * w b i) a
      (fun y => f (X + (cellCentre (fun b i => η * w b i) a (y a) - cellVertex (fun b i => η * w b i) a (x a)))) x
      = (f (X + η * v / 2) - f (X - η * u / 2)) / (η * u) := by
    intro η
    have := (documented_values (fun b i => η * w b i) a
      (fun s => f (X + (s - cellVertex (fun b i => η * w b i) a (x a)))) (fun b i => η * w b i) x).1 hi
    rw [this]
    congr 3 <;> ring
  simp only [e]
  have g1 : HasDerivAt (fun η : ℝ => f (X + η * v / 2)) (f' * (v / 2)) 0 := by
    have hl : HasDerivAt (fun η : ℝ => X + η * v / 2) (v / 2) 0 := by
      simpa [mul_div_assoc] using ((hasDerivAt_id (0 : ℝ)).mul_const (v / 2)).const_add X
    exact HasDerivAt.comp (0 : ℝ) (by simpa using hf) hl
  have g2 : HasDerivAt (fun η : ℝ => f (X - η * u / 2)) (f' * (-(u / 2))) 0 := by
    have hl : HasDerivAt (fun η : ℝ => X - η * u / 2) (-(u / 2)) 0 := by
      simpa [mul_div_assoc] using ((hasDerivAt_id (0 : ℝ)).mul_const (u / 2)).const_sub X
    exact HasDerivAt.comp (0 : ℝ) (by simpa using hf) hl
  have g := (g1.sub g2).tendsto_slope_zero_right
  have lim := g.div_const u
  refine (lim.congr' ?_).trans (le_of_eq ?_)
  · filter_upwards [self_mem_nhdsWithin] with η hη
    have hη0 : η ≠ 0 := (Set.mem_Ioi.1 hη).ne'
    simp only [Pi.sub_apply, smul_eq_mul, zero_add, zero_mul, zero_div, add_zero, sub_zero, sub_self]
    field_simp
  · congr 1
    rw [derivedWidth]
    show _ = (u + v) / 2 / u * f'
    field_simp; ring

/-- C132 (partial): the documented widths fit no positions. If E points `p` and H points `q` are as far apart as the documented widths say, and each H point
is the middle of its E neighbours, then the cells on both sides of every inner cell are equal. -/
theorem C132_no_positions_partial (p q : Fin (sh a) → ℝ) (hp : ∀ i : Fin (sh a), (i : ℕ) + 1 < sh a → p (wrap i 1) - p i = w a i)
    (hq : ∀ i : Fin (sh a), 0 < (i : ℕ) → q i - q (wrap i (-1)) = derivedWidth w a i)
    (hm : ∀ i : Fin (sh a), (i : ℕ) + 1 < sh a → q i = (p i + p (wrap i 1)) / 2) (i : Fin (sh a)) (h0 : 0 < (i : ℕ)) (h1 : (i : ℕ) + 1 < sh a) :
    w a (wrap i (-1)) = w a (wrap i 1) := by
  have hb := wrap_prev i h0
  have e1 := hp i h1
  have e2 := hp (wrap i (-1)) (by omega)
  have e3 := hq i h0
  have e4 := hm i h1
  have e5 := hm (wrap i (-1)) (by omega)
  rw [wrap_back] at e2 e5
  rw [derivedWidth] at e3
  linarith

/-- C132, what is right: at the documented positions the two lists have to be exchanged (derived widths for E, base widths for H); or the base widths stay
with E, the derived widths move on by one cell (`(dx[i-1] + dx[i]) / 2`), and E sits at the left ends and H at the centres. -/
theorem C132_consistent_widths (hw : ∀ i, 0 < w a i) (x : Idx sh) :
    ((x a : ℕ) + 1 < sh a → derivForward (some (derivedWidth w)) a (fun y => cellCentre w a (y a)) x = 1 ∧
      derivForward (some w) a (fun y => node w a (y a)) x = 1) ∧
    (0 < (x a : ℕ) → derivBack (some w) a (fun y => cellVertex w a (y a)) x = 1 ∧
      derivBack (some (midWidth w)) a (fun y => cellCentre w a (y a)) x = 1) := by
  have h0 := hw (x a)
  have h1 := hw (wrap (x a) 1)
  have h2 := hw (wrap (x a) (-1))
  constructor
  · intro hi
    constructor
    · have e := (documented_values w a id (derivedWidth w) x).1 hi
      simp only [id] at e
      rw [e, derivedWidth, div_eq_one_iff_eq (by positivity)]; ring
    · rw [derivForward_eq, wOf_some]
      simp only [shiftIdx, Function.update_self]
      rw [node_succ w a _ hi, add_sub_cancel_left, div_self h0.ne']
  · intro hi
    constructor
    · have e := (documented_values w a id w x).2 hi
      simp only [id] at e
      rw [e, div_eq_one_iff_eq h0.ne']; ring
    · rw [derivBack_eq, wOf_some]
      simp only [shiftIdx, Function.update_self, cellCentre]
      rw [← node_pred w a _ hi, midWidth, div_eq_one_iff_eq (by positivity)]; ring

end documented

/-! ### Cases meeting the hypotheses -/

/-- Cells of widths 1, 2, 3: the documented forward derivative of the coordinate at the first vertex is 3/2. -/
example : ∃ w : DxList (fun _ : Fin 1 => 3) ℝ, (∀ i, 0 < w 0 i) ∧ derivForward (some w) 0 (fun y => cellCentre w 0 (y 0)) (fun _ => 0) = 3 / 2 := by
  refine ⟨fun _ i => (i : ℕ) + 1, fun i => by positivity, ?_⟩
  rw [((C132_documented_widths_partial _ 0 (fun i => by positivity) (fun _ => 0)).1 (by simp)).1]
  have : ((wrap (0 : Fin 3) 1 : Fin 3) : ℕ) = 1 := by decide
  simp [derivedWidth, this]; norm_num

/-- On a uniform axis the documented positions do fit. -/
example : ∃ (w : DxList (fun _ : Fin 1 => 3) ℝ) (p q : Fin 3 → ℝ), (∀ i : Fin 3, (i : ℕ) + 1 < 3 → p (wrap i 1) - p i = w 0 i) ∧
    (∀ i : Fin 3, 0 < (i : ℕ) → q i - q (wrap i (-1)) = derivedWidth w 0 i) ∧ ∀ i : Fin 3, (i : ℕ) + 1 < 3 → q i = (p i + p (wrap i 1)) / 2 := by
  refine ⟨fun _ _ => 1, fun i => (i : ℕ), fun i => (i : ℕ) + 1 / 2, fun i hi => ?_, fun i hi => ?_, fun i hi => ?_⟩
  · simp only [wrap_next i hi]; push_cast; ring
  · have := wrap_prev i hi
    have h : ((i : ℕ) : ℝ) = ((wrap i (-1) : Fin 3) : ℕ) + 1 := by exact_mod_cast this.symm
    simp only [h, derivedWidth]; ring
  · simp only [wrap_next i hi]; push_cast; ring

end Meanas.Props
