/-
C177 (completeness of the waveguide modes).
-/
import Verif.Props.DeviceScattering
import Verif.Props.HomogeneousSpectrum
import Mathlib.LinearAlgebra.Eigenspace.Matrix
namespace Meanas.Props
open Matrix Complex Wg3 Spec Fdfd

section Cutoff
open Wg2
variable {s2 : Fin 2 → ℕ}

/-- The axial electric field belonging to transverse H: `E_z = (∂x H_y - ∂y H_x) / (iωε)`. -/
noncomputable def axialOf (ω : ℂ) (dxes : Dx2 s2) (eps : V 3 s2) (h : V 2 s2) : Idx s2 → ℂ :=
  fun y => (bwL dxes 0 (part h 1) y - bwL dxes 1 (part h 0) y) / (I * ω * eps (2, y))

/-- The derivative along the guide of transverse E from transverse H. -/
noncomputable def alongE (ω : ℂ) (dxes : Dx2 s2) (eps mu : V 3 s2) (h : V 2 s2) : V 2 s2 := fun p =>
  if p.1 = 0 then fwL dxes 0 (axialOf ω dxes eps h) p.2 - I * ω * mu (1, p.2) * h (1, p.2)
  else fwL dxes 1 (axialOf ω dxes eps h) p.2 + I * ω * mu (0, p.2) * h (0, p.2)

theorem part_add (u v : V 2 s2) (c : Fin 2) : part (u + v) c = part u c + part v c := rfl
theorem part_smul (r : ℂ) (v : V 2 s2) (c : Fin 2) : part (r • v) c = r • part v c := rfl

theorem axialOf_add (ω : ℂ) (dxes : Dx2 s2) (eps : V 3 s2) (u v : V 2 s2) : axialOf ω dxes eps (u + v) = axialOf ω dxes eps u + axialOf ω dxes eps v := by
  funext y; simp only [axialOf, part_add, map_add, Pi.add_apply]; ring
theorem axialOf_smul (ω : ℂ) (dxes : Dx2 s2) (eps : V 3 s2) (r : ℂ) (v : V 2 s2) : axialOf ω dxes eps (r • v) = r • axialOf ω dxes eps v := by
  funext y; simp only [axialOf, part_smul, map_smul, Pi.smul_apply, smul_eq_mul]; ring

/-- `alongE` as a linear map. -/
noncomputable def alongEL (ω : ℂ) (dxes : Dx2 s2) (eps mu : V 3 s2) : V 2 s2 →ₗ[ℂ] V 2 s2 where
  toFun := alongE ω dxes eps mu
  map_add' u v := by
    funext p; simp only [alongE, axialOf_add, map_add, Pi.add_apply]; split_ifs <;> ring
  map_smul' r v := by
    funext p; simp only [alongE, axialOf_smul, map_smul, Pi.smul_apply, smul_eq_mul, RingHom.id_apply]; split_ifs <;> ring

/-- The derivative along the guide of transverse H from transverse E. -/
noncomputable def alongH (ω : ℂ) (dxes : Dx2 s2) (eps mu : V 3 s2) (e : V 2 s2) : V 2 s2 := fun p =>
  let hz := fun y => (fwL dxes 0 (part e 1) y - fwL dxes 1 (part e 0) y) / mu (2, y)
  if p.1 = 0 then (-I * ω)⁻¹ * bwL dxes 0 hz p.2 + I * ω * (eps (1, p.2) * e (1, p.2))
  else (-I * ω)⁻¹ * bwL dxes 1 hz p.2 - I * ω * (eps (0, p.2) * e (0, p.2))

/-- `operator_e` is minus the second derivative along the guide. -/
theorem alongE_alongH {ω : ℂ} (hω : ω ≠ 0) (dxes : Dx2 s2) (eps mu : V 3 s2) (e : V 2 s2) :
    alongE ω dxes eps mu (alongH ω dxes eps mu e) = -(operatorE ω dxes eps (some mu) *ᵥ e) := by
  set hz : Idx s2 → ℂ := fun y => (fwL dxes 0 (part e 1) y - fwL dxes 1 (part e 0) y) / mu (2, y) with hzd
  set a : Idx s2 → ℂ := fun y => eps (0, y) * e (0, y) with ha
  set b : Idx s2 → ℂ := fun y => eps (1, y) * e (1, y) with hb
  have h0 : part (alongH ω dxes eps mu e) 0 = (-I * ω)⁻¹ • bwL dxes 0 hz + (I * ω) • b := by
    funext y; simp [part, alongH, ← hzd, hb]
  have h1 : part (alongH ω dxes eps mu e) 1 = (-I * ω)⁻¹ • bwL dxes 1 hz - (I * ω) • a := by
    funext y; simp [part, alongH, ← hzd, ha]
  have hax : axialOf ω dxes eps (alongH ω dxes eps mu e) = -fun y => (bwL dxes 0 a y + bwL dxes 1 b y) / eps (2, y) := by
    funext y
    simp only [axialOf, h0, h1, map_add, map_sub, map_smul, Pi.add_apply, Pi.sub_apply, Pi.smul_apply, smul_eq_mul, Pi.neg_apply, bwL_comm]
    rw [show (-I * ω)⁻¹ * bwL dxes 1 (bwL dxes 0 hz) y - I * ω * bwL dxes 0 a y - ((-I * ω)⁻¹ * bwL dxes 1 (bwL dxes 0 hz) y + I * ω * bwL dxes 1 b y)
      = I * ω * -(bwL dxes 0 a y + bwL dxes 1 b y) by ring, mul_div_mul_left _ _ (mul_ne_zero I_ne_zero hω), neg_div]
  have g0 : ∀ y, alongH ω dxes eps mu e (0, y) = _ := fun y => congrFun h0 y
  have g1 : ∀ y, alongH ω dxes eps mu e (1, y) = _ := fun y => congrFun h1 y
  have hII : I * ω * (-I * ω)⁻¹ = -1 := by
    have := I_ne_zero; field_simp
  have fin : ∀ c : Fin 2, c = 0 ∨ c = 1 := by decide
  funext ⟨c, x⟩
  rcases fin c with rfl | rfl
  · simp only [alongE, if_true, hax, map_neg, Pi.neg_apply, g1, operatorE_0, Option.getD_some, Pi.sub_apply, Pi.smul_apply, smul_eq_mul, ← fwL_apply, ← bwL_apply]
    rw [show (fun z => eps (0, z) * e (0, z)) = a from rfl, show (fun z => eps (1, z) * e (1, z)) = b from rfl, ← hzd]
    simp only [ha]
    linear_combination (-mu (1, x) * bwL dxes 1 hz x) * hII + (ω ^ 2 * mu (1, x) * eps (0, x) * e (0, x)) * I_sq
  · simp only [alongE, show (1 : Fin 2) ≠ 0 by decide, if_false, hax, map_neg, Pi.neg_apply, g0, operatorE_1, Option.getD_some, Pi.add_apply, Pi.smul_apply,
      smul_eq_mul, ← fwL_apply, ← bwL_apply]
    rw [show (fun z => eps (0, z) * e (0, z)) = a from rfl, show (fun z => eps (1, z) * e (1, z)) = b from rfl, ← hzd]
    simp only [hb]
    linear_combination (mu (0, x) * bwL dxes 0 hz x) * hII + (ω ^ 2 * mu (0, x) * eps (1, x) * e (1, x)) * I_sq

/-- Where no mode is at cutoff, no axial field lives on its own. -/
theorem no_axial {ω : ℂ} (hω : ω ≠ 0) (dxes : Dx2 s2) (eps mu : V 3 s2) (heps : ∀ p, eps p ≠ 0)
    (inj : ∀ v, operatorE ω dxes eps (some mu) *ᵥ v = 0 → v = 0) (f : Idx s2 → ℂ) (h : V 2 s2)
    (h0 : ∀ y, -I * ω * mu (0, y) * h (0, y) = fwL dxes 1 f y) (h1 : ∀ y, -I * ω * mu (1, y) * h (1, y) = -fwL dxes 0 f y)
    (hz : ∀ y, bwL dxes 0 (part h 1) y - bwL dxes 1 (part h 0) y = I * ω * eps (2, y) * f y) : f = 0 := by
  have hi : Function.Injective (operatorE ω dxes eps (some mu)).mulVecLin := by
    rw [← LinearMap.ker_eq_bot, LinearMap.ker_eq_bot']; exact inj
  have hs : Function.Surjective (alongEL ω dxes eps mu) := fun w => by
    obtain ⟨e, he⟩ := (LinearMap.injective_iff_surjective.1 hi) (-w)
    refine ⟨alongH ω dxes eps mu e, ?_⟩
    show alongE ω dxes eps mu _ = w
    rw [alongE_alongH hω, show operatorE ω dxes eps (some mu) *ᵥ e = -w from he, neg_neg]
  have hi' := LinearMap.injective_iff_surjective.2 hs
  have hax : axialOf ω dxes eps h = f := by
    funext y
    rw [axialOf, hz, mul_div_cancel_left₀ _ (mul_ne_zero (mul_ne_zero I_ne_zero hω) (heps _))]
  have hzero : h = 0 := by
    apply hi'
    rw [map_zero]
    have fin : ∀ c : Fin 2, c = 0 ∨ c = 1 := by decide
    funext ⟨c, x⟩
    show alongE ω dxes eps mu h (c, x) = 0
    rcases fin c with rfl | rfl
    · simp only [alongE, if_true, hax]; linear_combination h1 x
    · simp only [alongE, show (1 : Fin 2) ≠ 0 by decide, if_false, hax]; linear_combination -h0 x
  funext y
  have := hz y
  rw [hzero, show part (0 : V 2 s2) 1 = 0 from rfl, show part (0 : V 2 s2) 0 = 0 from rfl, map_zero, map_zero] at this
  simpa [I_ne_zero, hω, heps] using this.symm
end Cutoff

variable {sh : Fin 3 → ℕ} {axis : Fin 3}

/-- A section of waveguide: whole cross-section, spacing `d` and media constant along the axis, no zero entries. -/
structure UniformSection (S : Slices sh axis) (ω : ℂ) (dxes : Dx sh) (d : ℝ) (eps : VField sh ℂ) (mu : Option (VField sh ℂ)) : Prop where
  full : FullWindow S
  hd : d ≠ 0
  dE : ∀ i, dxes.1 axis i = d
  dH : ∀ i, dxes.2 axis i = d
  epsA : Along axis eps
  muA : Along axis (mu.getD fun _ _ => 1)
  hω : ω ≠ 0
  heps : ∀ c x, eps c x ≠ 0
  hmu : ∀ c x, (mu.getD fun _ _ => 1) c x ≠ 0

/-- The matrix `waveguide_2d.operator_e` of the cross-section, as `waveguide_3d.solve_mode` builds it. -/
noncomputable def sectionOp (S : Slices sh axis) (ω : ℂ) (dxes : Dx sh) (eps : VField sh ℂ) (mu : Option (VField sh ℂ)) : Wg2.M 2 2 (sh2 S) :=
  Wg2.operatorE ω (dx2d S dxes.1, dx2d S dxes.2) (reduce2d S eps) (some (reduce2d S (mu.getD fun _ _ => 1)))

/-- The cell of plane `p` above a cell of the cross-section. -/
def liftT (S : Slices sh axis) (hS : FullWindow S) (p : Fin (sh axis)) (y : Idx (sh2 S)) : Idx sh := fun b =>
  if h : b = axis then h ▸ p
  else if h1 : b = axis + 1 then ⟨y 0, by
    have := hS (axis + 1) (ne_1 axis).symm
    subst h1; exact (y 0).2.trans_eq (by rw [sh2_0, this.1, this.2]; rfl)⟩
  else ⟨y 1, by
    have hb : b = axis + 2 := by rcases fin3_cases axis b with h' | h' | h' <;> simp_all
    have := hS (axis + 2) (ne_2 axis).symm
    subst hb; exact (y 1).2.trans_eq (by rw [sh2_1, this.1, this.2]; rfl)⟩

theorem liftT_axis (S : Slices sh axis) (hS : FullWindow S) (p : Fin (sh axis)) (y : Idx (sh2 S)) : liftT S hS p y axis = p := by
  simp [liftT]

theorem projT_liftT (S : Slices sh axis) (hS : FullWindow S) (p : Fin (sh axis)) (y : Idx (sh2 S)) : projT S hS (liftT S hS p y) = y := by
  refine projT_ext S hS ?_ ?_
  · simp only [liftT, dif_neg (ne_1 axis).symm]; simp
  · simp only [liftT, dif_neg (ne_2 axis).symm, dif_neg (ne_12 axis).symm]

theorem cell_ext (S : Slices sh axis) (hS : FullWindow S) {x x' : Idx sh} (h : x axis = x' axis) (hT : projT S hS x = projT S hS x') : x = x' := by
  funext b
  rcases fin3_cases axis b with rfl | rfl | rfl
  · exact h
  · exact Fin.ext (by rw [← projT_0 S hS, ← projT_0 S hS, hT])
  · exact Fin.ext (by rw [← projT_1 S hS, ← projT_1 S hS, hT])

theorem liftT_projT (S : Slices sh axis) (hS : FullWindow S) (x : Idx sh) : liftT S hS (x axis) (projT S hS x) = x :=
  cell_ext S hS (liftT_axis ..) (projT_liftT ..)

/-- A free field satisfies Ampere's law with the H field of `e2h`. -/
theorem ampere_of_free {ω : ℂ} (hω : ω ≠ 0) {dxes : Dx sh} {eps : VField sh ℂ} {mu : Option (VField sh ℂ)} {E : VField sh ℂ} {c : Fin 3} {x : Idx sh}
    (h : (eFull ω dxes (vecS eps) (mu.map vecS) none none *ᵥ vecS E) (c, x) = 0) :
    Functional.curlBack (some dxes.2) (hField ω dxes mu E) c x = I * ω * eps c x * E c x := by
  have hmv : ∀ q : Pos sh, muV (mu.map vecS) q = mu.getD 1 q.1 q.2 := by intro q; cases mu <;> rfl
  rw [eFull_mulVec] at h
  have e : hField ω dxes mu E = fun c y => (-I * ω)⁻¹ * (cE dxes (vecS E) (c, y) / muV (mu.map vecS) (c, y)) := by
    funext c y
    rw [hField_apply, hmv, show cE dxes (vecS E) (c, y) = Functional.curlForward (some dxes.1) E c y from rfl]
    have := I_ne_zero
    field_simp
  have h2 : Functional.curlBack (some dxes.2) (fun c y => cE dxes (vecS E) (c, y) / muV (mu.map vecS) (c, y)) c x = ω ^ 2 * (eps c x * E c x) := sub_eq_zero.1 h
  rw [e, Meanas.curlBack_smul, h2]
  have := I_ne_zero
  field_simp
  linear_combination (-eps c x * E c x) * I_sq

/-- Free fields between the planes `i` and `j`. -/
def FreeOn (ω : ℂ) (dxes : Dx sh) (eps : VField sh ℂ) (mu : Option (VField sh ℂ)) (a : Fin 3) (i j : ℕ) (E : VField sh ℂ) : Prop :=
  ∀ c (x : Idx sh), i ≤ (x a : ℕ) → (x a : ℕ) ≤ j → (eFull ω dxes (vecS eps) (mu.map vecS) none none *ᵥ vecS E) (c, x) = 0

section unique
variable {S : Slices sh axis} {ω : ℂ} {dxes : Dx sh} {d : ℝ} {eps : VField sh ℂ} {mu : Option (VField sh ℂ)} (U : UniformSection S ω dxes d eps mu)
include U

theorem UniformSection.ext : Extruded axis (projT S U.full) dxes (dx2d S dxes.1) (dx2d S dxes.2) d :=
  extruded S U.full dxes d U.dE U.dH

theorem UniformSection.far (E : VField sh ℂ) (c : Fin 3) (x : Idx sh) :
    Functional.curlForward (some dxes.1) E c x = -I * ω * (mu.getD fun _ _ => 1) c x * hField ω dxes mu E c x := by
  rw [hField_apply]
  have := I_ne_zero; have := U.hω; have h := U.hmu c x
  have e : (mu.getD fun _ _ => 1) = mu.getD 1 := rfl
  rw [e] at h ⊢
  field_simp

/-- Transverse differences of an array are those of its slice. -/
theorem UniformSection.slice (F : Arr sh ℂ) (p : Fin (sh axis)) (x : Idx sh) (hx : x axis = p) :
    gradForward (some dxes.1) F (axis + 1) x = gradForward (some (dx2d S dxes.1)) (fun y => F (liftT S U.full p y)) 0 (projT S U.full x) ∧
    gradForward (some dxes.1) F (axis + 2) x = gradForward (some (dx2d S dxes.1)) (fun y => F (liftT S U.full p y)) 1 (projT S U.full x) ∧
    gradBack (some dxes.2) F (axis + 1) x = gradBack (some (dx2d S dxes.2)) (fun y => F (liftT S U.full p y)) 0 (projT S U.full x) ∧
    gradBack (some dxes.2) F (axis + 2) x = gradBack (some (dx2d S dxes.2)) (fun y => F (liftT S U.full p y)) 1 (projT S U.full x) := by
  have X := U.ext
  have l : ∀ b s, b ≠ axis → liftT S U.full p (projT S U.full (shiftIdx b s x)) = shiftIdx b s x := fun b s hb => by
    have := liftT_projT S U.full (shiftIdx b s x)
    rwa [shiftIdx_of_ne hb.symm, hx] at this
  have l0 : liftT S U.full p (projT S U.full x) = x := by have := liftT_projT S U.full x; rwa [hx] at this
  have a1 : axis + 1 ≠ axis := (ne_1 axis).symm
  have a2 : axis + 2 ≠ axis := (ne_2 axis).symm
  refine ⟨?_, ?_, ?_, ?_⟩
  · unfold gradForward; rw [← X.t1]; beta_reduce; rw [l _ _ a1, l0, wOf_some, wOf_some, X.e1]
  · unfold gradForward; rw [← X.t2]; beta_reduce; rw [l _ _ a2, l0, wOf_some, wOf_some, X.e2]
  · unfold gradBack; rw [← X.t1]; beta_reduce; rw [l _ _ a1, l0, wOf_some, wOf_some, X.h1]
  · unfold gradBack; rw [← X.t2]; beta_reduce; rw [l _ _ a2, l0, wOf_some, wOf_some, X.h2]

/-- Where no mode is at cutoff, a free field without transverse E on two neighbouring planes has no axial E between them. -/
theorem UniformSection.axial_zero (inj : ∀ v, sectionOp S ω dxes eps mu *ᵥ v = 0 → v = 0) {F : VField sh ℂ} {i : ℕ} (hi : i + 1 < sh axis)
    (hz : ∀ x : Idx sh, (x axis : ℕ) = i → (eFull ω dxes (vecS eps) (mu.map vecS) none none *ᵥ vecS F) (axis, x) = 0)
    (ht : ∀ c, c ≠ axis → ∀ x : Idx sh, (x axis : ℕ) = i ∨ (x axis : ℕ) = i + 1 → F c x = 0) (x : Idx sh) (hx : (x axis : ℕ) = i) : F axis x = 0 := by
  set p : Fin (sh axis) := ⟨i, by omega⟩ with hp
  have a1 : axis + 1 ≠ axis := (ne_1 axis).symm
  have a2 : axis + 2 ≠ axis := (ne_2 axis).symm
  let L := liftT S U.full p
  have hLa : ∀ y, (L y) axis = p := fun y => liftT_axis S U.full p y
  have hL : ∀ y, ((L y axis : Fin _) : ℕ) = i := fun y => by rw [hLa]
  have hT : ∀ y, projT S U.full (L y) = y := fun y => projT_liftT S U.full p y
  have g0 : ∀ c, c ≠ axis → ∀ y, gradForward (some dxes.1) (F c) axis (L y) = 0 := by
    intro c hc y
    unfold gradForward
    rw [ht c hc _ (Or.inl (hL y)), ht c hc _ (Or.inr (by rw [plane_shift_val (by rw [hL]; exact hi), hL])), sub_zero, zero_div]
  let H := hField ω dxes mu F
  have m : ∀ y, (mu.getD fun _ _ => 1) (axis + 1) (L y) = reduce2d S (mu.getD fun _ _ => 1) (0, y) ∧ (mu.getD fun _ _ => 1) (axis + 2) (L y) = reduce2d S (mu.getD fun _ _ => 1) (1, y) := by
    intro y
    have := reduce_along S U.full U.muA (L y)
    rw [hT] at this; exact this.2
  have me : ∀ y, eps axis (L y) = reduce2d S eps (2, y) := by
    intro y
    have := reduce_along S U.full U.epsA (L y)
    rw [hT] at this; exact this.1
  have key := no_axial U.hω (dx2d S dxes.1, dx2d S dxes.2) (reduce2d S eps) (reduce2d S (mu.getD fun _ _ => 1)) (reduce_ne S U.heps) inj
    (fun y => F axis (L y)) (fun q => if q.1 = 0 then H (axis + 1) (L q.2) else H (axis + 2) (L q.2)) (fun y => ?_) (fun y => ?_) fun y => ?_
  · have := congrFun key (projT S U.full x)
    rwa [show L (projT S U.full x) = x from ?_] at this
    have h2 := liftT_projT S U.full x
    rwa [show x axis = p from Fin.ext hx] at h2
  · have f := U.far F (axis + 1) (L y)
    rw [curlF_1, g0 _ a2, sub_zero, (U.slice (F axis) p (L y) (hLa y)).2.1, hT, (m y).1] at f
    rw [fwL_apply, ← Wg2.gradForward_fw]
    simp only [if_true]
    exact f.symm
  · have f := U.far F (axis + 2) (L y)
    rw [curlF_2, g0 _ a1, zero_sub, (U.slice (F axis) p (L y) (hLa y)).1, hT, (m y).2] at f
    rw [fwL_apply, ← Wg2.gradForward_fw]
    simp only [show (1 : Fin 2) ≠ 0 by decide, if_false]
    exact f.symm
  · have f := ampere_of_free U.hω (hz (L y) (hL y))
    rw [curlB_0, (U.slice _ p (L y) (hLa y)).2.2.1, (U.slice _ p (L y) (hLa y)).2.2.2, hT, me y] at f
    rw [bwL_apply, bwL_apply, ← Wg2.gradBack_bw, ← Wg2.gradBack_bw]
    exact f

/-- A free field whose transverse E vanishes on two neighbouring planes vanishes. -/
theorem UniformSection.zero (inj : ∀ v, sectionOp S ω dxes eps mu *ᵥ v = 0 → v = 0) {F : VField sh ℂ} {i j : ℕ} (hj : j + 1 < sh axis)
    (free : FreeOn ω dxes eps mu axis i j F) (ht : ∀ c, c ≠ axis → ∀ x : Idx sh, (x axis : ℕ) = i ∨ (x axis : ℕ) = i + 1 → F c x = 0) :
    ∀ n, i + n ≤ j → (∀ c (x : Idx sh), (x axis : ℕ) = i + n → F c x = 0) ∧ ∀ c, c ≠ axis → ∀ x : Idx sh, (x axis : ℕ) = i + n + 1 → F c x = 0 := by
  have a1 : axis + 1 ≠ axis := (ne_1 axis).symm
  have a2 : axis + 2 ≠ axis := (ne_2 axis).symm
  intro n
  induction n with
  | zero =>
    intro hn
    refine ⟨fun c x hx => ?_, fun c hc x hx => ht c hc x (Or.inr hx)⟩
    by_cases hc : c = axis
    · rw [hc]
      exact U.axial_zero inj (by omega) (fun x hx => free axis x (by omega) (by omega)) ht x hx
    · exact ht c hc x (Or.inl hx)
  | succ n ih =>
    intro hn
    obtain ⟨A, B⟩ := ih (by omega)
    let H := hField ω dxes mu F
    have hdc : (d : ℂ) ≠ 0 := ofReal_ne_zero.2 U.hd
    have hm : ∀ c x, -I * ω * (mu.getD fun _ _ => 1) c x ≠ 0 := fun c x => mul_ne_zero (mul_ne_zero (neg_ne_zero.2 I_ne_zero) U.hω) (U.hmu c x)
    -- transverse differences vanish with the array on a plane
    have gt : ∀ (G : Arr sh ℂ) (q : ℕ), (∀ x : Idx sh, (x axis : ℕ) = q → G x = 0) → ∀ x : Idx sh, (x axis : ℕ) = q → ∀ b, b ≠ axis →
        gradForward (some dxes.1) G b x = 0 ∧ gradBack (some dxes.2) G b x = 0 := by
      intro G q hG x hx b hb
      unfold gradForward gradBack
      rw [hG x hx, hG _ (by rw [shiftIdx_of_ne hb.symm]; exact hx), hG _ (by rw [shiftIdx_of_ne hb.symm]; exact hx)]
      simp
    -- H on the plane before
    have hH1 : ∀ c, c ≠ axis → ∀ x : Idx sh, (x axis : ℕ) = i + n → H c x = 0 := by
      intro c hc x hx
      have z : Functional.curlForward (some dxes.1) F c x = 0 := by
        have gz : ∀ b, b ≠ axis → gradForward (some dxes.1) (F b) axis x = 0 := fun b hb => by
          unfold gradForward
          rw [A b x hx, B b hb _ (by rw [plane_shift_val (by omega), hx]), sub_zero, zero_div]
        rcases fin3_cases axis c with h | h | h
        · exact absurd h hc
        · rw [h, curlF_1, gz _ a2, (gt _ _ (A axis) x hx _ a2).1, sub_zero]
        · rw [h, curlF_2, gz _ a1, (gt _ _ (A axis) x hx _ a1).1, sub_zero]
      rw [U.far] at z
      exact (mul_eq_zero.1 z).resolve_left (hm c x)
    -- axial H on this plane
    have hHz : ∀ x : Idx sh, (x axis : ℕ) = i + n + 1 → H axis x = 0 := by
      intro x hx
      have z := U.far F axis x
      rw [curlF_0, (gt _ _ (B _ a2) x hx _ a1).1, (gt _ _ (B _ a1) x hx _ a2).1, sub_zero] at z
      exact (mul_eq_zero.1 z.symm).resolve_left (hm axis x)
    -- transverse H on this plane
    have back : ∀ x : Idx sh, (x axis : ℕ) = i + n + 1 → ((shiftIdx axis (-1) x axis : Fin _) : ℕ) = i + n := by
      intro x hx
      have := wrap_neg_one (i := x axis) (by omega)
      rw [shiftIdx_same]; omega
    have hHt : ∀ c, c ≠ axis → ∀ x : Idx sh, (x axis : ℕ) = i + n + 1 → H c x = 0 := by
      have gb : ∀ b, b ≠ axis → ∀ x : Idx sh, (x axis : ℕ) = i + n + 1 → gradBack (some dxes.2) (H b) axis x = H b x / d := by
        intro b hb x hx
        unfold gradBack
        rw [hH1 b hb _ (back x hx), sub_zero, wOf_some, U.dH]
      intro c hc x hx
      rcases fin3_cases axis c with h | h | h
      · exact absurd h hc
      · have z := ampere_of_free U.hω (free (axis + 2) x (by omega) (by omega))
        rw [curlB_2, (gt _ _ hHz x hx _ a1).2, B _ a2 x hx, sub_zero, mul_zero] at z
        have z2 := (gb _ a1 x hx).symm.trans z
        rw [h]; exact (div_eq_zero_iff.1 z2).resolve_right hdc
      · have z := ampere_of_free U.hω (free (axis + 1) x (by omega) (by omega))
        rw [curlB_1, (gt _ _ hHz x hx _ a2).2, B _ a1 x hx, zero_sub, mul_zero, neg_eq_zero] at z
        have z2 := (gb _ a2 x hx).symm.trans z
        rw [h]; exact (div_eq_zero_iff.1 z2).resolve_right hdc
    have hEz : ∀ x : Idx sh, (x axis : ℕ) = i + n + 1 → F axis x = 0 := by
      intro x hx
      have z := ampere_of_free U.hω (free axis x (by omega) (by omega))
      rw [curlB_0, (gt _ _ (hHt _ a2) x hx _ a1).2, (gt _ _ (hHt _ a1) x hx _ a2).2, sub_zero] at z
      exact (mul_eq_zero.1 z.symm).resolve_left (mul_ne_zero (mul_ne_zero I_ne_zero U.hω) (U.heps axis x))
    refine ⟨fun c x hx => ?_, fun c hc x hx => ?_⟩
    · by_cases hc : c = axis
      · rw [hc]; exact hEz x (by omega)
      · exact B c hc x (by omega)
    · have hb : ((shiftIdx axis (-1) x axis : Fin _) : ℕ) = i + n + 1 := by
        have := wrap_neg_one (i := x axis) (by omega)
        rw [shiftIdx_same]; omega
      have hxx : shiftIdx axis 1 (shiftIdx axis (-1) x) = x := by simp
      set y : Idx sh := shiftIdx axis (-1) x
      have gf : ∀ b, b ≠ axis → gradForward (some dxes.1) (F b) axis y = F b x / d := by
        intro b hb'
        unfold gradForward
        rw [hxx, B b hb' y hb, sub_zero, wOf_some, U.dE]
      rcases fin3_cases axis c with h | h | h
      · exact absurd h hc
      · have z := U.far F (axis + 2) y
        rw [curlF_2, gf _ a1, (gt _ _ hEz y hb _ a1).1, sub_zero, show hField ω dxes mu F (axis + 2) y = 0 from hHt _ a2 y hb, mul_zero] at z
        rw [h]; exact (div_eq_zero_iff.1 z).resolve_right hdc
      · have z := U.far F (axis + 1) y
        rw [curlF_1, gf _ a2, (gt _ _ hEz y hb _ a2).1, zero_sub, show hField ω dxes mu F (axis + 1) y = 0 from hHt _ a1 y hb, mul_zero, neg_eq_zero] at z
        rw [h]; exact (div_eq_zero_iff.1 z).resolve_right hdc
end unique

/-- The field of a mode profile `e` (components 0, 1 transverse, 2 axial) with half-cell factor `p`: multiplied by `p ^ 2` from plane to plane, the axial component half a cell
further along. -/
noncomputable def guideWave (S : Slices sh axis) (hS : FullWindow S) (e : Fin 3 → Arr (sh2 S) ℂ) (p : ℂ) : VField sh ℂ := fun c x =>
  p ^ (2 * (x axis : ℕ)) * (if c = axis then p * e 2 (projT S hS x) else if c = axis + 1 then e 0 (projT S hS x) else e 1 (projT S hS x))

/-- The fields `exy2e` makes of an eigenvector of `operator_e`. -/
noncomputable def profile (S : Slices sh axis) (dxes : Dx sh) (eps : VField sh ℂ) (k : ℂ) (v : Wg2.V 2 (sh2 S)) : Fin 3 → Arr (sh2 S) ℂ :=
  fld (Wg2.exy2e k (dx2d S dxes.1, dx2d S dxes.2) (reduce2d S eps) *ᵥ v)

section waves
variable {S : Slices sh axis} {ω : ℂ} {dxes : Dx sh} {d : ℝ} {eps : VField sh ℂ} {mu : Option (VField sh ℂ)} (U : UniformSection S ω dxes d eps mu)
include U

theorem UniformSection.wave_free {k p : ℂ} {v : Wg2.V 2 (sh2 S)} (hk : k ≠ 0) (eig : sectionOp S ω dxes eps mu *ᵥ v = k ^ 2 • v) (hp0 : p ≠ 0)
    (hp : p ^ 2 - 1 = -I * k * p * d) (c : Fin 3) (x : Idx sh) (h0 : 0 < (x axis : ℕ)) (h1 : (x axis : ℕ) + 1 < sh axis) :
    (eFull ω dxes (vecS eps) (mu.map vecS) none none *ᵥ vecS (guideWave S U.full (profile S dxes eps k v) p)) (c, x) = 0 := by
  have him := C39_is_mode k ω hk U.hω (dx2d S dxes.1, dx2d S dxes.2) (reduce2d S eps) (some (reduce2d S (mu.getD fun _ _ => 1)))
    (reduce_ne S U.heps) (reduce_ne S U.hmu) v eig
  set h := fld (Wg2.exy2h k ω (dx2d S dxes.1, dx2d S dxes.2) (reduce2d S eps) (some (reduce2d S (mu.getD fun _ _ => 1))) *ᵥ v) with hh
  set e := profile S dxes eps k v with he
  let φ : Fin (sh axis) → ℂ := fun i => p ^ (2 * (i : ℕ))
  have hφ : ∀ i : Fin (sh axis), (i : ℕ) + 1 < sh axis → φ (wrap i 1) = φ i * p ^ 2 := fun i hi => by
    show p ^ (2 * ((wrap i 1 : Fin _) : ℕ)) = p ^ (2 * (i : ℕ)) * p ^ 2
    rw [wrap_one hi]; ring
  let H : VField sh ℂ := fun c x => φ (x axis) * (if c = axis then h 2 (projT S U.full x) else if c = axis + 1 then p * h 0 (projT S U.full x) else p * h 1 (projT S U.full x))
  have a1 : axis + 1 ≠ axis := (ne_1 axis).symm
  have a2 : axis + 2 ≠ axis := (ne_2 axis).symm
  have a12 : axis + 2 ≠ axis + 1 := (ne_12 axis).symm
  have hX : IsExtrusion axis (projT S U.full) φ p e h (guideWave S U.full e p) H := by
    constructor <;> funext x <;> simp only [guideWave, H, extr, if_true, if_neg a1, if_neg a2, if_neg a12] <;> rfl
  have hdc : (d : ℂ) ≠ 0 := ofReal_ne_zero.2 U.hd
  refine wave3 U.hmu (fun x hx c => ?_) (fun x hx c => ?_) c x h0 h1 (H := H)
  · exact faraday3 U.ext him hφ hdc hp hX (fun x => reduce_along S U.full U.muA x) x hx c
  · exact ampere3 U.ext him hφ hdc hp hX (fun x => reduce_along S U.full U.epsA x) hp0 x hx c
end waves

theorem guideWave_step (S : Slices sh axis) (hS : FullWindow S) (e : Fin 3 → Arr (sh2 S) ℂ) (p : ℂ) (c : Fin 3) (x : Idx sh) (hx : (x axis : ℕ) + 1 < sh axis) :
    guideWave S hS e p c (shiftIdx axis 1 x) = p ^ 2 * guideWave S hS e p c x := by
  have hT : projT S hS (shiftIdx axis 1 x) = projT S hS x := by
    refine projT_ext S hS ?_ ?_
    · rw [shiftIdx_of_ne (ne_1 axis).symm]; rfl
    · rw [shiftIdx_of_ne (ne_2 axis).symm]; rfl
  unfold guideWave
  rw [hT, plane_shift_val hx]
  ring

/-- The half-cell factor of the wavenumber that `solve_mode` returns for the eigenvalue `k ^ 2`, forwards (`true`) and backwards (`false`). The sign of the
second turns the axial component around, as in a mirror. -/
noncomputable def halfFactor (k : ℂ) (d : ℝ) (s : Bool) : ℂ := if s then exp (-I * (correct k d * d / 2)) else -exp (I * (correct k d * d / 2))

theorem halfFactor_ne (k : ℂ) (d : ℝ) (s : Bool) : halfFactor k d s ≠ 0 := by
  unfold halfFactor; split_ifs
  · exact exp_ne_zero _
  · exact neg_ne_zero.2 (exp_ne_zero _)

theorem halfFactor_false (k : ℂ) (d : ℝ) : halfFactor k d false = -(halfFactor k d true)⁻¹ := by
  simp only [halfFactor, if_true, if_false, Bool.false_eq_true, ← exp_neg]
  congr 2; ring

theorem halfFactor_eq (k : ℂ) {d : ℝ} (hd : d ≠ 0) (s : Bool) : halfFactor k d s ^ 2 - 1 = -I * k * halfFactor k d s * d := by
  have h1 : halfFactor k d true ^ 2 - 1 = -I * k * halfFactor k d true * d := by
    have := halfPhase 1 (Or.inl rfl) k d (ofReal_ne_zero.2 hd)
    simp only [Int.cast_one, mul_one, one_mul] at this
    simpa [halfFactor] using this
  cases s
  · have hn := halfFactor_ne k d true
    rw [halfFactor_false]
    field_simp
    linear_combination -h1
  · exact h1

/-- The factor from plane to plane is that of the returned wavenumber. -/
theorem halfFactor_sq (k : ℂ) (d : ℝ) : halfFactor k d true ^ 2 = exp (-I * correct k d * d) ∧ halfFactor k d false ^ 2 = exp (I * correct k d * d) := by
  constructor
  · rw [halfFactor, if_pos rfl, ← exp_nat_mul]; congr 1; push_cast; ring
  · rw [halfFactor, if_neg (by decide), neg_sq, ← exp_nat_mul]; congr 1; push_cast; ring

/-- The two directions have different factors except at cutoff and at the end of the discrete dispersion. -/
theorem halfFactor_sq_ne (k : ℂ) {d : ℝ} (hd : d ≠ 0) (hk : k ≠ 0) (hk2 : (k * d) ^ 2 ≠ 4) : halfFactor k d true ^ 2 ≠ halfFactor k d false ^ 2 := by
  intro h
  have h1 := halfFactor_eq k hd true
  have hn := halfFactor_ne k d true
  rw [halfFactor_false, neg_sq, inv_pow] at h
  generalize halfFactor k d true = q at *
  have hdc : (d : ℂ) ≠ 0 := ofReal_ne_zero.2 hd
  have h4 : (q ^ 2 - 1) * (q ^ 2 + 1) = 0 := by
    have : q ^ 2 * q ^ 2 = 1 := by nth_rewrite 2 [h]; field_simp
    linear_combination this
  rcases mul_eq_zero.1 h4 with h5 | h5
  · rw [h1] at h5
    simp only [mul_eq_zero, neg_eq_zero, I_ne_zero, hk, hn, hdc, or_self] at h5
  · apply hk2
    have : (-I * k * q * d) ^ 2 = 4 := by rw [← h1]; linear_combination (q ^ 2 - 3) * h5
    have hq : q ^ 2 = -1 := by linear_combination h5
    have e : (-I * k * q * d) ^ 2 = I ^ 2 * q ^ 2 * (k * d) ^ 2 := by ring
    rw [e, hq, I_sq] at this
    linear_combination this

theorem cast_one (a : Fin 3) : a + 1 + Fin.castSucc (1 : Fin 2) = a + 2 := by revert a; decide

theorem guideWave_transverse (S : Slices sh axis) (hS : FullWindow S) (dxes : Dx sh) (eps : VField sh ℂ) (k : ℂ) (v : Wg2.V 2 (sh2 S)) (p : ℂ) (c : Fin 2) (x : Idx sh) :
    guideWave S hS (profile S dxes eps k v) p (axis + 1 + c.castSucc) x = p ^ (2 * (x axis : ℕ)) * v (c, projT S hS x) := by
  have fin : c = 0 ∨ c = 1 := by revert c; decide
  have a1 : axis + 1 ≠ axis := (ne_1 axis).symm
  have a2 : axis + 2 ≠ axis := (ne_2 axis).symm
  have a12 : axis + 2 ≠ axis + 1 := (ne_12 axis).symm
  rcases fin with rfl | rfl
  · rw [show axis + 1 + Fin.castSucc (0 : Fin 2) = axis + 1 by simp, guideWave, if_neg a1, if_pos rfl, profile, fld, Wg2.exy2e_0]
  · rw [show axis + 1 + Fin.castSucc (1 : Fin 2) = axis + 2 from cast_one axis, guideWave, if_neg a2, if_neg a12, profile, fld, Wg2.exy2e_1]

theorem transverse_cases {c : Fin 3} (hc : c ≠ axis) : ∃ c' : Fin 2, c = axis + 1 + c'.castSucc := by
  revert axis c; decide

theorem transverse_ne (c : Fin 2) : axis + 1 + c.castSucc ≠ axis := by
  revert axis c; decide

/-- The transverse E field of a plane. -/
def planeE (S : Slices sh axis) (hS : FullWindow S) (E : VField sh ℂ) (p : Fin (sh axis)) : Wg2.V 2 (sh2 S) :=
  fun q => E (axis + 1 + q.1.castSucc) (liftT S hS p q.2)

theorem planeE_proj (S : Slices sh axis) (hS : FullWindow S) (E : VField sh ℂ) (c : Fin 2) (x : Idx sh) :
    E (axis + 1 + c.castSucc) x = planeE S hS E (x axis) (c, projT S hS x) := by
  rw [planeE, liftT_projT]

section complete
variable {S : Slices sh axis} {ω : ℂ} {dxes : Dx sh} {d : ℝ} {eps : VField sh ℂ} {mu : Option (VField sh ℂ)} (U : UniformSection S ω dxes d eps mu)
  {κ : Type*} [Fintype κ] (b : Module.Basis κ ℂ (Wg2.V 2 (sh2 S))) (k : κ → ℂ)
include U

theorem waves_transverse (u : κ × Bool → ℂ) (c : Fin 2) (x : Idx sh) :
    ∑ q, u q * guideWave S U.full (profile S dxes eps (k q.1) (b q.1)) (halfFactor (k q.1) d q.2) (axis + 1 + c.castSucc) x
      = (∑ n, (u (n, true) * halfFactor (k n) d true ^ (2 * (x axis : ℕ)) + u (n, false) * halfFactor (k n) d false ^ (2 * (x axis : ℕ))) • b n) (c, projT S U.full x) := by
  rw [Fintype.sum_prod_type, Finset.sum_apply]
  refine Finset.sum_congr rfl fun n _ => ?_
  rw [Fintype.sum_bool, guideWave_transverse, guideWave_transverse, Pi.smul_apply, smul_eq_mul]
  ring

/-- **C177.** The modes of a waveguide are complete. In a uniform section of guide whose modes (the eigenvectors of `waveguide_2d.operator_e`) form a basis, none at cutoff, every field
that solves the source-free equation on the planes `i ... j` is, on those planes, a superposition of the modes travelling forwards and backwards, each with the wavenumber that
`waveguide_3d.solve_mode` computes for its eigenvalue; and the amplitudes are unique. -/
theorem C177_complete (eig : ∀ n, sectionOp S ω dxes eps mu *ᵥ b n = k n ^ 2 • b n) (hk : ∀ n, k n ≠ 0) (hk2 : ∀ n, (k n * d) ^ 2 ≠ 4)
    {i j : ℕ} (hi : 0 < i) (hij : i ≤ j) (hj : j + 1 < sh axis) {E : VField sh ℂ} (free : FreeOn ω dxes eps mu axis i j E) :
    ∃! u : κ × Bool → ℂ, ∀ c (x : Idx sh), i ≤ (x axis : ℕ) → (x axis : ℕ) ≤ j ∨ (x axis : ℕ) = j + 1 ∧ c ≠ axis →
      E c x = ∑ q, u q * guideWave S U.full (profile S dxes eps (k q.1) (b q.1)) (halfFactor (k q.1) d q.2) c x := by
  set p₀ : Fin (sh axis) := ⟨i, by omega⟩ with hp₀
  set p₁ : Fin (sh axis) := ⟨i + 1, by omega⟩ with hp₁
  have inj : ∀ v, sectionOp S ω dxes eps mu *ᵥ v = 0 → v = 0 := by
    intro v hv
    rw [← b.sum_repr v, mulVec_sum] at hv
    simp only [mulVec_smul, eig, smul_smul] at hv
    rw [← b.sum_repr v]
    refine Finset.sum_eq_zero fun n _ => ?_
    have := Fintype.linearIndependent_iff.1 b.linearIndependent _ hv n
    rw [(mul_eq_zero.1 this).resolve_right (pow_ne_zero _ (hk n)), zero_smul]
  have hne : ∀ n, halfFactor (k n) d true ^ 2 - halfFactor (k n) d false ^ 2 ≠ 0 := fun n => sub_ne_zero.2 (halfFactor_sq_ne (k n) U.hd (hk n) (hk2 n))
  have hA : ∀ n s, halfFactor (k n) d s ^ (2 * i) ≠ 0 := fun n s => pow_ne_zero _ (halfFactor_ne _ _ _)
  have hstep : ∀ n s, halfFactor (k n) d s ^ (2 * (i + 1)) = halfFactor (k n) d s ^ (2 * i) * halfFactor (k n) d s ^ 2 := fun n s => by ring
  refine existsUnique_of_exists_of_unique ?_ ?_
  · let c₀ : κ → ℂ := fun n => b.repr (planeE S U.full E p₀) n
    let c₁ : κ → ℂ := fun n => b.repr (planeE S U.full E p₁) n
    let u : κ × Bool → ℂ := fun q => if q.2 then (c₁ q.1 - halfFactor (k q.1) d false ^ 2 * c₀ q.1)
          / ((halfFactor (k q.1) d true ^ 2 - halfFactor (k q.1) d false ^ 2) * halfFactor (k q.1) d true ^ (2 * i))
        else (halfFactor (k q.1) d true ^ 2 * c₀ q.1 - c₁ q.1)
          / ((halfFactor (k q.1) d true ^ 2 - halfFactor (k q.1) d false ^ 2) * halfFactor (k q.1) d false ^ (2 * i))
    have u0 : ∀ n, u (n, true) * halfFactor (k n) d true ^ (2 * i) + u (n, false) * halfFactor (k n) d false ^ (2 * i) = c₀ n := by
      intro n
      have h1 := hA n true; have h2 := hA n false; have h3 := hne n
      simp only [u, if_true, Bool.false_eq_true, if_false]
      generalize halfFactor (k n) d true ^ (2 * i) = A at *
      generalize halfFactor (k n) d false ^ (2 * i) = B at *
      generalize halfFactor (k n) d true ^ 2 = A2 at *
      generalize halfFactor (k n) d false ^ 2 = B2 at *
      field_simp
      ring
    have u1 : ∀ n, u (n, true) * halfFactor (k n) d true ^ (2 * (i + 1)) + u (n, false) * halfFactor (k n) d false ^ (2 * (i + 1)) = c₁ n := by
      intro n
      have h1 := hA n true; have h2 := hA n false; have h3 := hne n
      rw [hstep, hstep]
      simp only [u, if_true, Bool.false_eq_true, if_false]
      generalize halfFactor (k n) d true ^ (2 * i) = A at *
      generalize halfFactor (k n) d false ^ (2 * i) = B at *
      generalize halfFactor (k n) d true ^ 2 = A2 at *
      generalize halfFactor (k n) d false ^ 2 = B2 at *
      field_simp
      ring
    let W : κ × Bool → VField sh ℂ := fun q => guideWave S U.full (profile S dxes eps (k q.1) (b q.1)) (halfFactor (k q.1) d q.2)
    let F : VField sh ℂ := fun c x => E c x - ∑ q, u q * W q c x
    have hF : FreeOn ω dxes eps mu axis i j F := by
      intro c x h1 h2
      have e : vecS F = vecS E - ∑ q, u q • vecS (W q) := by
        funext q
        rw [Pi.sub_apply, Finset.sum_apply]
        show E q.1 q.2 - ∑ r, u r * W r q.1 q.2 = E q.1 q.2 - ∑ r, (u r • vecS (W r)) q
        rfl
      rw [e, mulVec_sub, mulVec_sum, Pi.sub_apply, free c x h1 h2, zero_sub, neg_eq_zero, Finset.sum_apply]
      refine Finset.sum_eq_zero fun q _ => ?_
      rw [mulVec_smul, Pi.smul_apply, U.wave_free (hk q.1) (eig q.1) (halfFactor_ne _ _ _) (halfFactor_eq _ U.hd _) c x (by omega) (by omega), smul_zero]
    have ht : ∀ c, c ≠ axis → ∀ x : Idx sh, (x axis : ℕ) = i ∨ (x axis : ℕ) = i + 1 → F c x = 0 := by
      intro c hc x hx
      obtain ⟨c', rfl⟩ := transverse_cases hc
      show E _ x - ∑ q, u q * W q _ x = 0
      rw [sub_eq_zero, waves_transverse U b k u c' x, planeE_proj S U.full E c' x]
      refine congrFun ?_ _
      rcases hx with hx | hx
      · rw [hx, show x axis = p₀ from Fin.ext hx]
        exact (b.sum_repr (planeE S U.full E p₀)).symm.trans (Finset.sum_congr rfl fun n _ => by rw [u0])
      · rw [hx, show x axis = p₁ from Fin.ext hx]
        exact (b.sum_repr (planeE S U.full E p₁)).symm.trans (Finset.sum_congr rfl fun n _ => by rw [u1])
    refine ⟨u, fun c x h1 h2 => sub_eq_zero.1 ?_⟩
    show F c x = 0
    rcases h2 with h2 | ⟨h2, hc⟩
    · exact (U.zero inj hj hF ht ((x axis : ℕ) - i) (by omega)).1 c x (by omega)
    · exact (U.zero inj hj hF ht (j - i) (by omega)).2 c hc x (by omega)
  · intro u u' hu hu'
    have hp : ∀ p : Fin (sh axis), (p : ℕ) = i ∨ (p : ℕ) = i + 1 → ∀ n,
        (u (n, true) - u' (n, true)) * halfFactor (k n) d true ^ (2 * (p : ℕ)) + (u (n, false) - u' (n, false)) * halfFactor (k n) d false ^ (2 * (p : ℕ)) = 0 := by
      intro p hp n
      have hs : ∑ n, (u (n, true) * halfFactor (k n) d true ^ (2 * (p : ℕ)) + u (n, false) * halfFactor (k n) d false ^ (2 * (p : ℕ))) • b n
          = ∑ n, (u' (n, true) * halfFactor (k n) d true ^ (2 * (p : ℕ)) + u' (n, false) * halfFactor (k n) d false ^ (2 * (p : ℕ))) • b n := by
        funext q
        have hx := liftT_axis S U.full p q.2
        have hr : i ≤ ((liftT S U.full p q.2 axis : Fin _) : ℕ) := by rw [hx]; omega
        have hr' : ((liftT S U.full p q.2 axis : Fin _) : ℕ) ≤ j ∨ ((liftT S U.full p q.2 axis : Fin _) : ℕ) = j + 1 ∧ axis + 1 + q.1.castSucc ≠ axis := by
          rw [hx]
          by_cases h : (p : ℕ) ≤ j
          · exact Or.inl h
          · exact Or.inr ⟨by omega, transverse_ne q.1⟩
        have h1 := hu (axis + 1 + q.1.castSucc) _ hr hr'
        have h2 := hu' (axis + 1 + q.1.castSucc) _ hr hr'
        rw [waves_transverse U b k, hx, projT_liftT] at h1 h2
        exact h1.symm.trans h2
      have h0 : ∑ n, ((u (n, true) - u' (n, true)) * halfFactor (k n) d true ^ (2 * (p : ℕ)) + (u (n, false) - u' (n, false)) * halfFactor (k n) d false ^ (2 * (p : ℕ))) • b n = 0 := by
        rw [← sub_eq_zero.2 hs, ← Finset.sum_sub_distrib]
        exact Finset.sum_congr rfl fun n _ => by rw [← sub_smul]; congr 1; ring
      exact Fintype.linearIndependent_iff.1 b.linearIndependent _ h0 n
    have hz : ∀ n, u (n, true) - u' (n, true) = 0 ∧ u (n, false) - u' (n, false) = 0 := by
      intro n
      have e0 := hp p₀ (Or.inl rfl) n
      have e1 := hp p₁ (Or.inr rfl) n
      have h1 := hA n true; have h2 := hA n false; have h3 := hne n
      simp only [hp₀, hp₁, hstep] at e0 e1
      generalize halfFactor (k n) d true ^ (2 * i) = A at *
      generalize halfFactor (k n) d false ^ (2 * i) = B at *
      generalize halfFactor (k n) d true ^ 2 = A2 at *
      generalize halfFactor (k n) d false ^ 2 = B2 at *
      constructor
      · have : (u (n, true) - u' (n, true)) * (A * (A2 - B2)) = 0 := by linear_combination e1 - B2 * e0
        exact (mul_eq_zero.1 this).resolve_right (mul_ne_zero h1 h3)
      · have : (u (n, false) - u' (n, false)) * (B * (A2 - B2)) = 0 := by linear_combination A2 * e0 - e1
        exact (mul_eq_zero.1 this).resolve_right (mul_ne_zero h2 h3)
    funext ⟨n, s⟩
    cases s
    · exact sub_eq_zero.1 (hz n).2
    · exact sub_eq_zero.1 (hz n).1
end complete

/-- A device that looks like a uniform guide on three planes has the free fields of that guide there. -/
theorem FreeOn.congr {ω : ℂ} {a : Fin 3} {i : ℕ} {dxes dxes₀ : Dx sh} {eps eps₀ : VField sh ℂ} {mu mu₀ : Option (VField sh ℂ)} (hi : 0 < i)
    (M' : SameNear a (i - 1) dxes eps mu dxes₀ eps₀ mu₀) (M : SameNear a i dxes eps mu dxes₀ eps₀ mu₀) {E : VField sh ℂ}
    (h : FreeOn ω dxes eps mu a i (i + 1) E) : FreeOn ω dxes₀ eps₀ mu₀ a i (i + 1) E := by
  have hmuv : ∀ (m : Option (VField sh ℂ)) c x, muV (m.map vecS) (c, x) = m.getD 1 c x := by intro m c x; cases m <;> rfl
  have wid : ∀ x : Idx sh, i ≤ (x a : ℕ) + 1 → (x a : ℕ) ≤ i + 1 → ∀ b, dxes.1 b (x b) = dxes₀.1 b (x b) ∧ dxes.2 b (x b) = dxes₀.2 b (x b) := by
    intro x h1 h2
    by_cases h3 : i ≤ (x a : ℕ)
    · exact M.width (by omega)
    · exact M'.width (by omega)
  have med : ∀ c, ∀ x : Idx sh, i ≤ (x a : ℕ) + 1 → (x a : ℕ) ≤ i + 1 → eps c x = eps₀ c x ∧ mu.getD 1 c x = mu₀.getD 1 c x := by
    intro c x h1 h2
    by_cases h3 : i ≤ (x a : ℕ)
    · exact M.medium c x (by omega)
    · exact M'.medium c x (by omega)
  intro c x h1 h2
  rw [← h c x h1 h2, eFull_mulVec, eFull_mulVec]
  congr 1
  · show Functional.curlBack (some dxes₀.2) (unS fun q => cE dxes₀ (vecS E) q / muV (mu₀.map vecS) q) c x
      = Functional.curlBack (some dxes.2) (unS fun q => cE dxes (vecS E) q / muV (mu.map vecS) q) c x
    have hq : ∀ c (y : Idx sh), i ≤ (y a : ℕ) + 1 → (y a : ℕ) ≤ i + 1 → (unS fun q => cE dxes₀ (vecS E) q / muV (mu₀.map vecS) q) c y
        = (unS fun q => cE dxes (vecS E) q / muV (mu.map vecS) q) c y := by
      intro c y h3 h4
      show Functional.curlForward (some dxes₀.1) E c y / muV (mu₀.map vecS) (c, y) = Functional.curlForward (some dxes.1) E c y / muV (mu.map vecS) (c, y)
      rw [hmuv, hmuv, (med c y h3 h4).2,
        curlForward_local (some dxes₀.1) (some dxes.1) E E y (fun b => ((wid y h3 h4 b).1).symm) (fun _ => rfl) (fun _ _ => rfl) c]
    refine curlBack_local (some dxes₀.2) (some dxes.2) _ _ x (fun b => ((wid x (by omega) h2 b).2).symm) (fun c => hq c x (by omega) h2) (fun c b => ?_) c
    have hb : i ≤ ((shiftIdx b (-1) x a : Fin _) : ℕ) + 1 ∧ ((shiftIdx b (-1) x a : Fin _) : ℕ) ≤ i + 1 := by
      by_cases hb : b = a
      · subst hb
        have := wrap_neg_one (i := x b) (by omega)
        rw [shiftIdx_same]; omega
      · rw [shiftIdx_of_ne (Ne.symm hb)]; omega
    exact hq c _ hb.1 hb.2
  · rw [vecS_apply, vecS_apply, vecS_apply, (med c x (by omega) h2).1]

/-- **C177.** The ports of C172 need no assumption on the field. Where a device looks like such a guide next to plane `i`, every field without sources on the planes `i`, `i + 1` is there a sum of
waves of the lead, the waves being the modes in both directions, with unique amplitudes. -/
theorem C177_port {S : Slices sh axis} {ω : ℂ} {dxes₀ : Dx sh} {d : ℝ} {eps₀ : VField sh ℂ} {mu₀ : Option (VField sh ℂ)} (U : UniformSection S ω dxes₀ d eps₀ mu₀)
    {κ : Type*} [Fintype κ] (b : Module.Basis κ ℂ (Wg2.V 2 (sh2 S))) (k : κ → ℂ) (eig : ∀ n, sectionOp S ω dxes₀ eps₀ mu₀ *ᵥ b n = k n ^ 2 • b n)
    (hk : ∀ n, k n ≠ 0) (hk2 : ∀ n, (k n * d) ^ 2 ≠ 4) {dxes : Dx sh} {eps : VField sh ℂ} {mu : Option (VField sh ℂ)} {i : ℕ} (hi : 0 < i) (hi2 : i + 2 < sh axis)
    (M' : SameNear axis (i - 1) dxes eps mu dxes₀ eps₀ mu₀) (M : SameNear axis i dxes eps mu dxes₀ eps₀ mu₀) :
    let W : κ × Bool → VField sh ℂ := fun q => guideWave S U.full (profile S dxes₀ eps₀ (k q.1) (b q.1)) (halfFactor (k q.1) d q.2)
    (∀ n, LeadWave ω dxes eps mu axis i (exp (-I * correct (k n) d * d)) (W (n, true)) ∧ LeadWave ω dxes eps mu axis i (exp (I * correct (k n) d * d)) (W (n, false))) ∧
    ∀ E, FreeOn ω dxes eps mu axis i (i + 1) E → ∃! u : κ × Bool → ℂ, SumOfWaves axis i W u E := by
  intro W
  have hw : ∀ s t, dxes₀.1 axis s = dxes₀.1 axis t := fun s t => by rw [U.dE, U.dE]
  have hlead : ∀ q, LeadWave ω dxes eps mu axis i (halfFactor (k q.1) d q.2 ^ 2) (W q) := fun q =>
    LeadWave.congr M (by omega) (LeadWave.of_steps (by omega) hw U.muA
      (fun c x hx => U.wave_free (hk q.1) (eig q.1) (halfFactor_ne _ _ _) (halfFactor_eq _ U.hd _) c x (by omega) (by omega))
      fun c x hx => guideWave_step S U.full _ _ c x (by omega))
  refine ⟨fun n => ⟨?_, ?_⟩, fun E hE => ?_⟩
  · rw [← (halfFactor_sq (k n) d).1]; exact hlead (n, true)
  · rw [← (halfFactor_sq (k n) d).2]; exact hlead (n, false)
  have hF := FreeOn.congr hi M' M hE
  obtain ⟨u, hu, -⟩ := C177_complete U b k eig hk hk2 hi (Nat.le_succ i) (by omega) hF
  obtain ⟨v, -, hv⟩ := C177_complete U b k eig hk hk2 hi le_rfl (by omega) (E := E) fun c x h1 h2 => hF c x h1 (by omega)
  have red : ∀ w, SumOfWaves axis i W w E → w = v := fun w h => hv w fun c x h1 h2 => h c x (by omega)
  have hu' : SumOfWaves axis i W u E := fun c x hx => hu c x (by omega) (Or.inl (by omega))
  exact ⟨u, hu', fun w h => (red w h).trans (red u hu').symm⟩

/-- **C177.** Distinct eigenvalues are enough: if `operator_e` has as many different eigenvalues as rows, its eigenvectors form a basis as the theorems above need it. -/
theorem C177_distinct (S : Slices sh axis) (ω : ℂ) (dxes : Dx sh) (eps : VField sh ℂ) (mu : Option (VField sh ℂ)) (lam : Fin 2 × Idx (sh2 S) → ℂ)
    (hinj : Function.Injective lam) (hl : ∀ n, IsEigenvalue (sectionOp S ω dxes eps mu) (lam n)) :
    ∃ (b : Module.Basis (Fin 2 × Idx (sh2 S)) ℂ (Wg2.V 2 (sh2 S))) (k : Fin 2 × Idx (sh2 S) → ℂ),
      (∀ n, sectionOp S ω dxes eps mu *ᵥ b n = k n ^ 2 • b n) ∧ ∀ n, k n ^ 2 = lam n := by
  choose v hv0 hv using hl
  have hev : ∀ n, Module.End.HasEigenvector (Matrix.toLin' (sectionOp S ω dxes eps mu)) (lam n) (v n) := fun n =>
    Module.End.hasEigenvector_iff.2 ⟨Module.End.mem_eigenspace_iff.2 (by rw [Matrix.toLin'_apply]; exact hv n), hv0 n⟩
  have hli := Module.End.eigenvectors_linearIndependent' (Matrix.toLin' (sectionOp S ω dxes eps mu)) lam hinj v hev
  let b := basisOfLinearIndependentOfCardEqFinrank' v hli (by simp)
  have hb : ∀ n, b n = v n := fun n => by simp [b]
  have hk : ∀ n, (lam n ^ (1 / 2 : ℂ)) ^ 2 = lam n := fun n => by
    have := cpow_nat_inv_pow (lam n) (n := 2) two_ne_zero
    rwa [show (((2 : ℕ) : ℂ)⁻¹) = (1 / 2 : ℂ) by norm_num] at this
  exact ⟨b, fun n => lam n ^ (1 / 2 : ℂ), fun n => by rw [hb, hv, hk], hk⟩

/-- The basis of plane waves of a homogeneous cross-section. -/
theorem plane_basis {s2 : Fin 2 → ℕ} (A : Wg2.M 2 2 s2) (σ : Idx s2 → ℂ)
    (hA : ∀ v c k, Meanas.Bloch.fftn (fun x => (A *ᵥ v) (c, x)) k = σ k * Meanas.Bloch.fftn (fun x => v (c, x)) k) :
    ∃ b : Module.Basis (Fin 2 × Idx s2) ℂ (Wg2.V 2 s2), ∀ q, A *ᵥ b q = σ q.2 • b q := by
  let L : Wg2.V 2 s2 ≃ₗ[ℂ] (Fin 2 × Idx s2 → ℂ) :=
    { toFun := fun v q => Meanas.Bloch.fftn (fun x => v (q.1, x)) q.2
      map_add' := fun u v => by funext q; exact fftn_add (fun x => u (q.1, x)) (fun x => v (q.1, x)) q.2
      map_smul' := fun r v => by funext q; exact fftn_mul r (fun x => v (q.1, x)) q.2
      invFun := fun w q => Meanas.Bloch.ifftn (fun x => w (q.1, x)) q.2
      left_inv := fun v => by funext q; exact congrFun (Meanas.Bloch.ifftn_fftn fun x => v (q.1, x)) q.2
      right_inv := fun w => by funext q; exact congrFun (Meanas.Bloch.fftn_ifftn fun x => w (q.1, x)) q.2 }
  refine ⟨Module.Basis.ofEquivFun L, fun q => L.injective ?_⟩
  rw [map_smul]
  funext p
  have h1 : L (A *ᵥ Module.Basis.ofEquivFun L q) p = σ p.2 * L (Module.Basis.ofEquivFun L q) p := hA _ _ _
  have h2 : L (Module.Basis.ofEquivFun L q) = Pi.single q 1 := by rw [Module.Basis.coe_ofEquivFun]; simp
  rw [h1, h2, Pi.smul_apply, smul_eq_mul]
  by_cases h : p = q
  · rw [h]
  · rw [Pi.single_eq_of_ne h, mul_zero, mul_zero]

/-- The hypotheses are met by vacuum with unit cells at `ω = 4`, for a cross-section and a length of any size and every axis: all eigenvalues of `operator_e` are real and at least 8. -/
theorem vacuum_section (S : Slices sh axis) (hS : FullWindow S) :
    ∃ (_ : UniformSection S 4 ((fun _ _ => 1, fun _ _ => 1) : Dx sh) 1 (fun _ _ => 1) none) (b : Module.Basis (Fin 2 × Idx (sh2 S)) ℂ (Wg2.V 2 (sh2 S)))
      (k : Fin 2 × Idx (sh2 S) → ℂ), (∀ n, sectionOp S 4 ((fun _ _ => 1, fun _ _ => 1) : Dx sh) (fun _ _ => 1) none *ᵥ b n = k n ^ 2 • b n) ∧ (∀ n, k n ≠ 0) ∧
        ∀ n, (k n * (1 : ℝ)) ^ 2 ≠ 4 := by
  have hop : sectionOp S 4 ((fun _ _ => 1, fun _ _ => 1) : Dx sh) (fun _ _ => 1) none
      = Wg2.operatorE 4 (uniDx2 fun _ => 1) (fun _ => 1) (some (reduce2d S fun _ _ => 1)) := by
    unfold sectionOp; congr 1
  obtain ⟨b, hb⟩ := plane_basis _ _ (fftn_operatorE 4 1 1 one_ne_zero one_ne_zero (fun _ => 1) (some (reduce2d S fun _ _ => 1)) fun p => rfl)
  have hσ : ∀ n : Idx (sh2 S), ∃ r : ℝ, 8 ≤ r ∧ planeBetaSq 4 1 1 (fun _ => 1) n = r := by
    intro n
    refine ⟨16 - ∑ a, (2 * Real.sin (Real.pi * (n a : ℕ) / (sh2 S a : ℕ))) ^ 2, ?_, ?_⟩
    · have : ∀ t : ℝ, (2 * Real.sin t) ^ 2 ≤ 4 := fun t => by nlinarith [Real.sin_sq_add_cos_sq t, sq_nonneg (Real.cos t)]
      rw [Fin.sum_univ_two]
      linarith [this (Real.pi * (n 0 : ℕ) / (sh2 S 0 : ℕ)), this (Real.pi * (n 1 : ℕ) / (sh2 S 1 : ℕ))]
    · rw [planeBetaSq]; push_cast; norm_num
  choose r hr hr2 using hσ
  have hk : ∀ q : Fin 2 × Idx (sh2 S), ((Real.sqrt (r q.2) : ℝ) : ℂ) ^ 2 = r q.2 := fun q => by
    rw [← ofReal_pow, Real.sq_sqrt (by linarith [hr q.2])]
  refine ⟨⟨hS, one_ne_zero, fun _ => by simp, fun _ => by simp, fun _ _ _ _ => rfl, fun _ _ _ _ => rfl, by norm_num, fun _ _ => one_ne_zero, fun _ _ => one_ne_zero⟩, b,
    fun q => (Real.sqrt (r q.2) : ℝ), fun q => ?_, fun q => ?_, fun q => ?_⟩
  · rw [hop, hb, hr2, hk]
  · exact ofReal_ne_zero.2 (Real.sqrt_ne_zero'.2 (by linarith [hr q.2]))
  · rw [ofReal_one, mul_one, hk]
    intro h
    have : r q.2 = 4 := by exact_mod_cast h
    linarith [hr q.2]

end Meanas.Props
