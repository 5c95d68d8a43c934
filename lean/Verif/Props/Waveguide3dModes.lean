/-
Modes expanded along a uniform waveguide are solutions of the 3D equations (C51, C54).
-/
import Verif.Props.Waveguide3d

set_option linter.unusedSectionVars false

namespace Meanas.Props

open Matrix Complex Wg3 Spec Fdfd

variable {sh : Fin 3 → ℕ} {axis : Fin 3}

/-- The window is the whole cross-section. -/
def FullWindow (S : Slices sh axis) : Prop := ∀ b, b ≠ axis → S.start b = 0 ∧ S.stop b = sh b

/-- An array that does not change along `axis`. -/
def Along (axis : Fin 3) (f : VField sh ℂ) : Prop := ∀ c x x', (∀ b, b ≠ axis → x b = x' b) → f c x = f c x'

/-- Projection of a cell to the cross-section. -/
def projT (S : Slices sh axis) (hS : FullWindow S) (x : Idx sh) : Idx (sh2 S) := fun j =>
  if hj : j = 0 then ⟨x (axis + 1), by
    have := hS (axis + 1) (ne_1 axis).symm; rw [hj, sh2_0, this.1, this.2]; exact (x _).2⟩
  else ⟨x (axis + 2), by
    have := hS (axis + 2) (ne_2 axis).symm; rw [show j = 1 by omega, sh2_1, this.1, this.2]; exact (x _).2⟩

theorem projT_0 (S : Slices sh axis) (hS : FullWindow S) (x : Idx sh) : ((projT S hS x 0 : Fin _) : ℕ) = x (axis + 1) := rfl
theorem projT_1 (S : Slices sh axis) (hS : FullWindow S) (x : Idx sh) : ((projT S hS x 1 : Fin _) : ℕ) = x (axis + 2) := rfl

theorem projT_at (S : Slices sh axis) (hS : FullWindow S) (x : Idx sh) : AtCell S (Function.update x axis S.plane) (projT S hS x) := by
  refine ⟨by simp [Slices.plane], ?_, ?_⟩
  · rw [Function.update_of_ne (ne_1 axis).symm, (hS _ (ne_1 axis).symm).1, projT_0, zero_add]
  · rw [Function.update_of_ne (ne_2 axis).symm, (hS _ (ne_2 axis).symm).1, projT_1, zero_add]

theorem ne_12 (a : Fin 3) : a + 1 ≠ a + 2 := by revert a; decide

theorem projT_ext (S : Slices sh axis) (hS : FullWindow S) {x : Idx sh} {y : Idx (sh2 S)} (h0 : (y 0 : ℕ) = x (axis + 1)) (h1 : (y 1 : ℕ) = x (axis + 2)) :
    projT S hS x = y := by
  funext j
  have hj : j = 0 ∨ j = 1 := by omega
  rcases hj with rfl | rfl
  · exact Fin.ext h0.symm
  · exact Fin.ext h1.symm

theorem wrap_cast {n m : ℕ} (i : Fin n) (j : Fin m) (s : ℤ) (hnm : n = m) (h : (i : ℕ) = j) : ((wrap i s : Fin n) : ℕ) = (wrap j s : Fin m) := by
  subst hnm; rw [Fin.ext h]

theorem extruded (S : Slices sh axis) (hS : FullWindow S) (dxes : Dx sh) (d : ℂ) (hE : ∀ i, dxes.1 axis i = d) (hH : ∀ i, dxes.2 axis i = d) :
    Extruded axis (projT S hS) dxes (dx2d S dxes.1) (dx2d S dxes.2) d := by
  have l0 : sh2 S 0 = sh (axis + 1) := by rw [sh2_0, (hS _ (ne_1 axis).symm).1, (hS _ (ne_1 axis).symm).2]; rfl
  have l1 : sh2 S 1 = sh (axis + 2) := by rw [sh2_1, (hS _ (ne_2 axis).symm).1, (hS _ (ne_2 axis).symm).2]; rfl
  refine ⟨?_, ?_, ?_, hE, ?_, ?_, hH, ?_, ?_⟩
  · intro s x
    refine projT_ext S hS ?_ ?_
    · rw [shiftIdx_of_ne (ne_1 axis).symm]; rfl
    · rw [shiftIdx_of_ne (ne_2 axis).symm]; rfl
  · intro s x
    refine projT_ext S hS ?_ ?_
    · rw [shiftIdx_same, shiftIdx_same]; exact wrap_cast _ _ _ l0 rfl
    · rw [shiftIdx_of_ne (show (1 : Fin 2) ≠ 0 by decide), shiftIdx_of_ne (ne_12 axis).symm]; rfl
  · intro s x
    refine projT_ext S hS ?_ ?_
    · rw [shiftIdx_of_ne (show (0 : Fin 2) ≠ 1 by decide), shiftIdx_of_ne (ne_12 axis)]; rfl
    · rw [shiftIdx_same, shiftIdx_same]; exact wrap_cast _ _ _ l1 rfl
  all_goals
    intro x
    have h := C50_reduction S dxes.1 (fun _ _ => 0) (projT_at S hS x)
    have h' := C50_reduction S dxes.2 (fun _ _ => 0) (projT_at S hS x)
    rw [Function.update_of_ne (ne_1 axis).symm, Function.update_of_ne (ne_2 axis).symm] at h h'
  · exact h.2.1.symm
  · exact h.2.2.symm
  · exact h'.2.1.symm
  · exact h'.2.2.symm

theorem reduce_along (S : Slices sh axis) (hS : FullWindow S) {f : VField sh ℂ} (hf : Along axis f) (x : Idx sh) :
    f axis x = reduce2d S f (2, projT S hS x) ∧ f (axis + 1) x = reduce2d S f (0, projT S hS x) ∧ f (axis + 2) x = reduce2d S f (1, projT S hS x) := by
  obtain ⟨⟨h0, h1, h2⟩, -⟩ := C50_reduction S (fun _ _ => 0) f (projT_at S hS x)
  have hu : ∀ c, f c x = f c (Function.update x axis S.plane) := fun c => hf c _ _ fun b hb => (Function.update_of_ne hb _ _).symm
  exact ⟨(hu _).trans h2.symm, (hu _).trans h0.symm, (hu _).trans h1.symm⟩

/-- Phase of plane `i` relative to the slice. -/
noncomputable def planePhase (S : Slices sh axis) (pol : ℤ) (k : ℂ) (d : ℝ) (i : Fin (sh axis)) : ℂ :=
  exp (-I * pol * k * (d * ((i : ℕ) - S.start axis)))

theorem planePhase_step (S : Slices sh axis) (pol : ℤ) (k : ℂ) (d : ℝ) (i : Fin (sh axis)) (hi : (i : ℕ) + 1 < sh axis) :
    planePhase S pol k d (wrap i 1) = planePhase S pol k d i * exp (-I * pol * (k * d / 2)) ^ 2 := by
  unfold planePhase
  rw [wrap_one hi, ← exp_nat_mul, ← exp_add]
  congr 1; push_cast; ring

theorem halfPhase (pol : ℤ) (hpol : pol = 1 ∨ pol = -1) (k2d : ℂ) (d : ℝ) (hd : (d : ℂ) ≠ 0) :
    exp (-I * pol * (correct k2d d * d / 2)) ^ 2 - 1 = -I * (pol * k2d) * exp (-I * pol * (correct k2d d * d / 2)) * d := by
  have hs := C50_wavenumber k2d d hd
  generalize correct k2d d * d / 2 = θ at *
  have hk : k2d * d = 2 * sin θ := by rw [← hs]; field_simp
  have h2 : 2 * sin θ = (exp (-θ * I) - exp (θ * I)) * I := by unfold sin; ring
  have he : exp (-θ * I) * exp (θ * I) = 1 := by rw [← exp_add]; simp
  rcases hpol with rfl | rfl
  · rw [show -I * ((1 : ℤ) : ℂ) * θ = -θ * I by push_cast; ring]
    push_cast
    linear_combination I * exp (-θ * I) * (hk.trans h2) + (exp (-θ * I) * (exp (-θ * I) - exp (θ * I))) * I_sq + he
  · rw [show -I * ((-1 : ℤ) : ℂ) * θ = θ * I by push_cast; ring]
    push_cast
    linear_combination -I * exp (θ * I) * (hk.trans h2) - (exp (θ * I) * (exp (-θ * I) - exp (θ * I))) * I_sq + he

/-- Extrusion of the fields returned by `solve_mode`. -/
theorem expand_extr (S : Slices sh axis) (hS : FullWindow S) (dxes : Dx sh) (pol : ℤ) (d : ℝ) (hE : ∀ i, dxes.1 axis i = d) (k : ℂ)
    (F : VField sh ℂ) (c : Fin 3) (f : Arr (sh2 S) ℂ) (hf : ∀ x y, AtCell S x y → F c x = f y) :
    expandE F k dxes pol S c = extr (projT S hS) (planePhase S pol k d) f := by
  funext x
  rw [expandE_uniform F k dxes pol S d (fun i => by rw [hE]; rfl), if_pos]
  · rw [hf _ _ (projT_at S hS x)]; rfl
  · intro b hb
    exact ⟨by rw [(hS b hb).1]; exact Nat.zero_le _, by rw [(hS b hb).2]; exact (x b).2⟩

theorem wave3 {dxes : Dx sh} {ω : ℂ} {eps : VField sh ℂ} {mu : Option (VField sh ℂ)} {E H : VField sh ℂ} (hmu : ∀ c x, (mu.getD fun _ _ => 1) c x ≠ 0)
    (far : ∀ x : Idx sh, (x axis : ℕ) + 1 < sh axis → ∀ c, Functional.curlForward (some dxes.1) E c x = -I * ω * (mu.getD fun _ _ => 1) c x * H c x)
    (amp : ∀ x : Idx sh, 0 < (x axis : ℕ) → ∀ c, Functional.curlBack (some dxes.2) H c x = I * ω * eps c x * E c x)
    (c : Fin 3) (x : Idx sh) (h0 : 0 < (x axis : ℕ)) (h1 : (x axis : ℕ) + 1 < sh axis) :
    (eFull ω dxes (vecS eps) (mu.map vecS) none none *ᵥ vecS E) (c, x) = 0 := by
  have hmv : ∀ c x, muV (mu.map vecS) (c, x) = (mu.getD fun _ _ => 1) c x := by intro c x; cases mu <;> rfl
  rw [eFull_mulVec]
  have hG : ∀ y : Idx sh, (y axis : ℕ) + 1 < sh axis → ∀ c, cE dxes (vecS E) (c, y) / muV (mu.map vecS) (c, y) = -I * ω * H c y := by
    intro y hy c
    rw [hmv, show cE dxes (vecS E) (c, y) = Functional.curlForward (some dxes.1) E c y from rfl, far y hy c]
    have := hmu c y
    field_simp
  have hcong : cH dxes (fun q => cE dxes (vecS E) q / muV (mu.map vecS) q) (c, x) = Functional.curlBack (some dxes.2) (fun c y => -I * ω * H c y) c x := by
    refine curlBack_congr _ (F := fun c y => cE dxes (vecS E) (c, y) / muV (mu.map vecS) (c, y)) (fun c => hG x h1 c) (fun c b => hG _ ?_ c) c
    by_cases hb : axis = b
    · subst hb; rw [shiftIdx_same, wrap_neg_one h0]; exact (x axis).2
    · rw [shiftIdx_of_ne hb]; exact h1
  rw [hcong, Meanas.curlBack_smul, amp x h0 c]
  simp only [vecS_apply]
  linear_combination -ω ^ 2 * eps c x * E c x * I_sq

/-- A mode problem on a waveguide that is uniform along the axis: whole cross-section, spacing `d`, materials constant along the axis, and an
eigenvector of the 2D operator as found by `waveguide_2d.solve_mode`. -/
structure UniformGuide (S : Slices sh axis) (ω : ℂ) (dxes : Dx sh) (d : ℝ) (eps : VField sh ℂ) (mu : Option (VField sh ℂ)) (exy : Wg2.V 2 (sh2 S))
    (k2d : ℂ) : Prop where
  full : FullWindow S
  hd : d ≠ 0
  dE : ∀ i, dxes.1 axis i = d
  dH : ∀ i, dxes.2 axis i = d
  epsA : Along axis eps
  muA : Along axis (mu.getD fun _ _ => 1)
  hω : ω ≠ 0
  hk : k2d ≠ 0
  heps : ∀ c x, eps c x ≠ 0
  hmu : ∀ c x, (mu.getD fun _ _ => 1) c x ≠ 0
  eig : Wg2.operatorE ω (dx2d S dxes.1, dx2d S dxes.2) (reduce2d S eps) (some (reduce2d S (mu.getD fun _ _ => 1))) *ᵥ exy = k2d ^ 2 • exy

theorem isMode_smul {s2 : Fin 2 → ℕ} {β ω : ℂ} {dxE dxH : DxList s2 ℂ} {eps mu E H : Fin 3 → Arr s2 ℂ} (h : IsMode β ω dxE dxH eps mu E H) (c : ℂ) :
    IsMode β ω dxE dxH eps mu (fun i y => c * E i y) (fun i y => c * H i y) := by
  refine ⟨fun x => ?_, fun x => ?_, fun x => ?_, fun x => ?_, fun x => ?_, fun x => ?_⟩ <;>
    simp only [gradForward_const_mul, gradBack_const_mul]
  · linear_combination c * h.faradayX x
  · linear_combination c * h.faradayY x
  · linear_combination c * h.faradayZ x
  · linear_combination c * h.ampereX x
  · linear_combination c * h.ampereY x
  · linear_combination c * h.ampereZ x

/-- The mirror image of a mode travels backwards. -/
theorem isMode_mirror {s2 : Fin 2 → ℕ} {β ω : ℂ} {dxE dxH : DxList s2 ℂ} {eps mu E H : Fin 3 → Arr s2 ℂ} (h : IsMode β ω dxE dxH eps mu E H) :
    IsMode (-β) ω dxE dxH eps mu (fun i y => (if i = 2 then -1 else 1) * E i y) (fun i y => (if i = 2 then 1 else -1) * H i y) := by
  refine ⟨fun x => ?_, fun x => ?_, fun x => ?_, fun x => ?_, fun x => ?_, fun x => ?_⟩ <;>
    simp only [gradForward_const_mul, gradBack_const_mul, if_true, show (0 : Fin 3) ≠ 2 by decide, show (1 : Fin 3) ≠ 2 by decide, if_false]
  · linear_combination -h.faradayX x
  · linear_combination -h.faradayY x
  · linear_combination h.faradayZ x
  · linear_combination h.ampereX x
  · linear_combination h.ampereY x
  · linear_combination -h.ampereZ x

section
variable {S : Slices sh axis} {ω : ℂ} {dxes : Dx sh} {d : ℝ} {eps : VField sh ℂ} {mu : Option (VField sh ℂ)} {exy : Wg2.V 2 (sh2 S)} {k2d : ℂ}

theorem UniformGuide.dxProp (U : UniformGuide S ω dxes d eps mu exy k2d) : dxProp S dxes = d := by
  unfold Wg3.dxProp; rw [U.dE, U.dH]; norm_num; ring

theorem reduce_ne (S : Slices sh axis) {f : VField sh ℂ} (hf : ∀ c x, f c x ≠ 0) (p : Fin 3 × Idx (sh2 S)) : reduce2d S f p ≠ 0 := by
  unfold reduce2d squeeze Wg3.transpose sliceArr
  exact hf _ _

/-- The 2D mode behind the fields returned by `solve_mode`. -/
theorem UniformGuide.mode (U : UniformGuide S ω dxes d eps mu exy k2d) {pol : ℤ} {m : Mode sh} (hm : solveMode S ω dxes pol eps mu exy k2d = .ok m) :
    m.k = correct k2d d ∧ ∃ e h, IsMode k2d ω (dx2d S dxes.1) (dx2d S dxes.2) (fun c y => reduce2d S eps (c, y))
      (fun c y => reduce2d S (mu.getD fun _ _ => 1) (c, y)) e h ∧
    ∀ x y, AtCell S x y → m.E (axis + 1) x = e 0 y ∧ m.E (axis + 2) x = e 1 y ∧ m.E axis x = exp (-I * pol * (m.k * d / 2)) * e 2 y ∧
      m.H (axis + 1) x = exp (-I * pol * (m.k * d / 2)) * (pol * h 0 y) ∧ m.H (axis + 2) x = exp (-I * pol * (m.k * d / 2)) * (pol * h 1 y) ∧
      m.H axis x = pol * h 2 y := by
  have hk : m.k = correct k2d d := by
    unfold solveMode at hm
    simp only at hm
    split at hm
    · exact absurd hm (by simp)
    · injection hm with hm
      subst hm
      show correct k2d (Wg3.dxProp S dxes) = _
      rw [U.dxProp]
  refine ⟨hk, ?_⟩
  obtain ⟨-, -, ve, vh, hn, hx⟩ := solve_mode_spec S ω dxes pol eps mu exy k2d hm
  obtain ⟨⟨c, -, hve, hvh⟩, -⟩ := C42_unit_power _ _ _ _ _ hn
  have him := C39_is_mode k2d ω U.hk U.hω (dx2d S dxes.1, dx2d S dxes.2) (reduce2d S eps) (some (reduce2d S (mu.getD fun _ _ => 1)))
    (reduce_ne S U.heps) (reduce_ne S U.hmu) exy U.eig
  refine ⟨_, _, isMode_smul him c, fun x y h => ?_⟩
  obtain ⟨h1, h2, h3, h4, h5, h6⟩ := (hx x).1 y h
  rw [U.dxProp] at h3 h4 h5
  rw [h1, h2, h3, h4, h5, h6, hve, hvh]
  refine ⟨rfl, rfl, ?_, ?_, ?_, ?_⟩ <;> simp only [Pi.smul_apply, smul_eq_mul, fld] <;> ring

/-- C51, polarity +1: the expanded mode satisfies the source-free 3D wave equation everywhere away from the periodic seam, and its H field is the
one `solve_mode` returned. Polarity -1 is missing because it is false, see `C51_backward_fails_partial`. -/
theorem C51_forward_partial (U : UniformGuide S ω dxes d eps mu exy k2d) {m : Mode sh} (hm : solveMode S ω dxes 1 eps mu exy k2d = .ok m) :
    (∀ (c : Fin 3) (x : Idx sh), 0 < (x axis : ℕ) → (x axis : ℕ) + 1 < sh axis →
      (eFull ω dxes (vecS eps) (mu.map vecS) none none *ᵥ vecS (expandE m.E m.k dxes 1 S)) (c, x) = 0) ∧
    ∀ (c : Fin 3) (x : Idx sh), (x axis : ℕ) = S.start axis → (x axis : ℕ) + 1 < sh axis →
      (Fdfd.e2h ω dxes (mu.map vecS) none *ᵥ vecS (expandE m.E m.k dxes 1 S)) (c, x) = m.H c x := by
  obtain ⟨hk, e, h, him, hx⟩ := U.mode hm
  have hd : (d : ℂ) ≠ 0 := by exact_mod_cast U.hd
  have hp := halfPhase 1 (Or.inl rfl) k2d d hd
  rw [← hk] at hp
  have ext : IsExtrusion axis (projT S U.full) (planePhase S 1 m.k d) (exp (-I * (1 : ℤ) * (m.k * d / 2))) e h (expandE m.E m.k dxes 1 S)
      (expandE m.H m.k dxes 1 S) := by
    refine ⟨?_, ?_, ?_, ?_, ?_, ?_⟩ <;> refine expand_extr S U.full dxes 1 d U.dE m.k _ _ _ fun x y h => ?_
    · exact (hx x y h).2.2.1
    · exact (hx x y h).1
    · exact (hx x y h).2.1
    · rw [(hx x y h).2.2.2.2.2]; simp
    · rw [(hx x y h).2.2.2.1]; simp
    · rw [(hx x y h).2.2.2.2.1]; simp
  have X := extruded S U.full dxes d U.dE U.dH
  have far := faraday3 X him (planePhase_step S 1 m.k d) hd (by rw [hp]; push_cast; ring) ext (mu := mu.getD fun _ _ => 1)
    (fun x => reduce_along S U.full U.muA x)
  have amp := ampere3 X him (planePhase_step S 1 m.k d) hd (by rw [hp]; push_cast; ring) ext (eps := eps)
    (fun x => reduce_along S U.full U.epsA x) (exp_ne_zero _)
  refine ⟨fun c x h0 h1 => wave3 U.hmu far amp c x h0 h1, fun c x hs h1 => ?_⟩
  have hmv : muV (mu.map vecS) (c, x) = (mu.getD fun _ _ => 1) c x := by cases mu <;> rfl
  rw [e2h_mulVec, hmv, show cE dxes (vecS (expandE m.E m.k dxes 1 S)) (c, x) = Functional.curlForward (some dxes.1) (expandE m.E m.k dxes 1 S) c x from rfl,
    far x h1 c]
  have hw : expandE m.H m.k dxes 1 S c x = m.H c x := by
    refine (C52_slice_and_window m.H m.k dxes 1 S c x).1 fun b => ?_
    by_cases hb : b = axis
    · subst hb; have := S.one; omega
    · rw [(U.full b hb).1, (U.full b hb).2]; exact ⟨Nat.zero_le _, (x b).2⟩
  rw [hw]
  have h2 := U.hmu c x
  have h3 := U.hω
  have h4 := I_ne_zero
  field_simp

/-- C51 is false for polarity -1: if the mode has any longitudinal E component, the expanded field violates the source-free equations at some cell
away from the seam. (The mirrored mode has `-E_z` and `+H_z`; `solve_mode` keeps `E_z` and flips all of `H`.) -/
theorem C51_backward_fails_partial (U : UniformGuide S ω dxes d eps mu exy k2d) {m : Mode sh} (hm : solveMode S ω dxes (-1) eps mu exy k2d = .ok m)
    (hn : 4 ≤ sh axis) {x₀ : Idx sh} (hx₀ : m.E axis x₀ ≠ 0) :
    ∃ (c : Fin 3) (x : Idx sh), 0 < (x axis : ℕ) ∧ (x axis : ℕ) + 1 < sh axis ∧
      (eFull ω dxes (vecS eps) (mu.map vecS) none none *ᵥ vecS (expandE m.E m.k dxes (-1) S)) (c, x) ≠ 0 := by
  by_contra hall
  push Not at hall
  obtain ⟨hk, e, h, him, hx⟩ := U.mode hm
  have hd : (d : ℂ) ≠ 0 := by exact_mod_cast U.hd
  have hp := halfPhase (-1) (Or.inr rfl) k2d d hd
  rw [← hk] at hp
  have hp' : exp (-I * (-1 : ℤ) * (m.k * d / 2)) ^ 2 - 1 = -I * (-k2d) * exp (-I * (-1 : ℤ) * (m.k * d / 2)) * d := by rw [hp]; push_cast; ring
  -- the mirrored mode does solve the equations
  let E' : VField sh ℂ := fun c x => (if c = axis then -1 else 1) * expandE m.E m.k dxes (-1) S c x
  let H' : VField sh ℂ := fun c x => (if c = axis then -1 else 1) * expandE m.H m.k dxes (-1) S c x
  have hext : ∀ (F : VField sh ℂ) (c : Fin 3) (f : Arr (sh2 S) ℂ), (∀ x y, AtCell S x y → F c x = f y) →
      expandE F m.k dxes (-1) S c = extr (projT S U.full) (planePhase S (-1) m.k d) f :=
    fun F c f => expand_extr S U.full dxes (-1) d U.dE m.k F c f
  have n1 := (ne_1 axis).symm
  have n2 := (ne_2 axis).symm
  have ext : IsExtrusion axis (projT S U.full) (planePhase S (-1) m.k d) (exp (-I * (-1 : ℤ) * (m.k * d / 2)))
      (fun i y => (if i = 2 then -1 else 1) * e i y) (fun i y => (if i = 2 then 1 else -1) * h i y) E' H' := by
    refine ⟨?_, ?_, ?_, ?_, ?_, ?_⟩ <;> funext x <;> simp only [E', H', if_true, if_neg n1, if_neg n2]
    · rw [hext m.E axis _ fun x y h => (hx x y h).2.2.1]; unfold extr; ring
    · rw [hext m.E _ _ fun x y h => (hx x y h).1]; unfold extr; simp
    · rw [hext m.E _ _ fun x y h => (hx x y h).2.1]; unfold extr; simp
    · rw [hext m.H axis _ fun x y h => (hx x y h).2.2.2.2.2]; unfold extr; push_cast; ring
    · rw [hext m.H _ _ fun x y h => (hx x y h).2.2.2.1]; unfold extr; push_cast; simp
    · rw [hext m.H _ _ fun x y h => (hx x y h).2.2.2.2.1]; unfold extr; push_cast; simp
  have X := extruded S U.full dxes d U.dE U.dH
  have far := faraday3 X (isMode_mirror him) (planePhase_step S (-1) m.k d) hd hp' ext (mu := mu.getD fun _ _ => 1)
    (fun x => reduce_along S U.full U.muA x)
  have amp := ampere3 X (isMode_mirror him) (planePhase_step S (-1) m.k d) hd hp' ext (eps := eps)
    (fun x => reduce_along S U.full U.epsA x) (exp_ne_zero _)
  have good := fun c x h0 h1 => wave3 (axis := axis) U.hmu far amp c x h0 h1
  -- so the difference, which only has a longitudinal component, would solve them as well
  let D : VField sh ℂ := fun c x => if c = axis then 2 * expandE m.E m.k dxes (-1) S c x else 0
  have hD : ∀ (c : Fin 3) (x : Idx sh), 0 < (x axis : ℕ) → (x axis : ℕ) + 1 < sh axis →
      (eFull ω dxes (vecS eps) (mu.map vecS) none none *ᵥ vecS D) (c, x) = 0 := by
    intro c x h0 h1
    have : vecS D = vecS (expandE m.E m.k dxes (-1) S) - vecS E' := by
      funext p
      simp only [vecS, D, E', Pi.sub_apply]
      split_ifs <;> ring
    rw [this, mulVec_sub, Pi.sub_apply, hall c x h0 h1, good c x h0 h1, sub_zero]
  -- take the divergence at plane 2 over the cell of x₀
  let x : Idx sh := Function.update x₀ axis ⟨2, by omega⟩
  have hxa : (x axis : ℕ) = 2 := by simp [x]
  have hpl : ∀ b, 0 < (shiftIdx b (-1) x axis : ℕ) ∧ (shiftIdx b (-1) x axis : ℕ) + 1 < sh axis := by
    intro b
    by_cases hb : axis = b
    · subst hb
      have := wrap_neg_one (i := x axis) (by omega)
      rw [shiftIdx_same]; omega
    · rw [shiftIdx_of_ne hb]; omega
  let G : VField sh ℂ := fun c y => cE dxes (vecS D) (c, y) / muV (mu.map vecS) (c, y)
  have hR : ∀ (c : Fin 3) (y : Idx sh), 0 < (y axis : ℕ) → (y axis : ℕ) + 1 < sh axis → Functional.curlBack (some dxes.2) G c y = ω ^ 2 * (eps c y * D c y) := by
    intro c y h0 h1
    have := hD c y h0 h1
    rw [eFull_mulVec] at this
    exact sub_eq_zero.1 this
  have hdiv := divBack_curlBack (some dxes.2) G x
  have hdiv2 : divBack (some dxes.2) (Functional.curlBack (some dxes.2) G) x = ω ^ 2 * ((eps axis x * D axis x - eps axis (shiftIdx axis (-1) x) * D axis (shiftIdx axis (-1) x)) / d) := by
    unfold divBack
    rw [Finset.sum_eq_single axis]
    · rw [hR axis x (by omega) (by omega), hR _ _ (hpl axis).1 (hpl axis).2, wOf_some, U.dH]; ring
    · intro b _ hb
      rw [hR b x (by omega) (by omega), hR _ _ (hpl b).1 (hpl b).2]
      simp [D, hb]
    · simp
  rw [hdiv2] at hdiv
  have hDx : ∀ y : Idx sh, D axis y = 2 * (planePhase S (-1) m.k d (y axis) * (exp (-I * (-1 : ℤ) * (m.k * d / 2)) * e 2 (projT S U.full y))) := by
    intro y
    simp only [D, if_true]
    rw [hext m.E axis _ fun x y h => (hx x y h).2.2.1]; rfl
  have hT : projT S U.full (shiftIdx axis (-1) x) = projT S U.full x := X.t0 (-1) x
  have heps : eps axis (shiftIdx axis (-1) x) = eps axis x := U.epsA _ _ _ fun b hb => shiftIdx_of_ne hb _ _
  have hph : planePhase S (-1) m.k d (x axis) = planePhase S (-1) m.k d (shiftIdx axis (-1) x axis) * exp (-I * (-1 : ℤ) * (m.k * d / 2)) ^ 2 := by
    rw [← planePhase_step S (-1) m.k d _ (hpl axis).2, shiftIdx_same, wrap_wrap, show (-1 : ℤ) + 1 = 0 from rfl, wrap_zero]
  rw [hDx, hDx, hT, heps, hph] at hdiv
  have he2 : e 2 (projT S U.full x) ≠ 0 := by
    intro h0
    by_cases hy : ∃ y, AtCell S x₀ y
    · obtain ⟨y, hy⟩ := hy
      have hyx : projT S U.full x = y := by
        refine projT_ext S U.full ?_ ?_
        · have := hy.2.1; rw [(U.full _ n1).1, zero_add] at this; rw [← this]; simp only [x]; rw [Function.update_of_ne n1]
        · have := hy.2.2; rw [(U.full _ n2).1, zero_add] at this; rw [← this]; simp only [x]; rw [Function.update_of_ne n2]
      rw [hyx] at h0
      exact hx₀ (by rw [(hx x₀ y hy).2.2.1, h0, mul_zero])
    · push Not at hy
      obtain ⟨-, -, ve, vh, -, hz⟩ := solve_mode_spec S ω dxes (-1) eps mu exy k2d hm
      exact hx₀ ((hz x₀).2 hy axis).1
  have hfac : ω ^ 2 * eps axis x * 2 * planePhase S (-1) m.k d (shiftIdx axis (-1) x axis) * exp (-I * (-1 : ℤ) * (m.k * d / 2)) ^ 2 * e 2 (projT S U.full x) * (I * k2d) = 0 := by
    have h1 := hdiv
    rw [mul_div_assoc', div_eq_zero_iff, or_iff_left hd] at h1
    have h2 : (ω ^ 2 * eps axis x * 2 * planePhase S (-1) m.k d (shiftIdx axis (-1) x axis) * exp (-I * (-1 : ℤ) * (m.k * d / 2)) ^ 2 * e 2 (projT S U.full x) * (I * k2d)) * d = 0 := by
      rw [← h1]
      linear_combination -(ω ^ 2 * eps axis x * 2 * planePhase S (-1) m.k d (shiftIdx axis (-1) x axis) * exp (-I * (-1 : ℤ) * (m.k * d / 2)) * e 2 (projT S U.full x)) * hp'
    exact (mul_eq_zero.1 h2).resolve_right hd
  refine absurd hfac ?_
  refine mul_ne_zero (mul_ne_zero (mul_ne_zero (mul_ne_zero (mul_ne_zero (mul_ne_zero ?_ (U.heps _ _)) two_ne_zero) ?_) ?_) he2) (mul_ne_zero I_ne_zero U.hk)
  · exact pow_ne_zero _ U.hω
  · exact exp_ne_zero _
  · exact pow_ne_zero _ (exp_ne_zero _)

/-- C54 with C51: in a uniform guide, the field that equals the expanded mode from the source plane on and vanishes before it satisfies the 3D wave equation
with the current of `compute_source`, away from the seam: the source launches the mode in one direction only (polarity +1). -/
theorem C54_unidirectional (U : UniformGuide S ω dxes d eps mu exy k2d) {m : Mode sh} (hm : solveMode S ω dxes 1 eps mu exy k2d = .ok m)
    (c : Fin 3) (x : Idx sh) (h0 : 0 < (x axis : ℕ)) (h1 : (x axis : ℕ) + 1 < sh axis) :
    (eFull ω dxes (vecS eps) (mu.map vecS) none none *ᵥ
      vecS (fun c y => if S.start axis ≤ (y axis : ℕ) then expandE m.E m.k dxes 1 S c y else 0)) (c, x)
      = -I * ω * computeSource m.E m.k ω dxes 1 S eps mu c x := by
  have hQ : vecS (fun c y => if S.start axis ≤ (y axis : ℕ) then expandE m.E m.k dxes 1 S c y else 0)
      = fun q => beyond (sh := sh) axis (S.start axis) q * vecS (expandE m.E m.k dxes 1 S) q := by
    funext q
    simp only [vecS, beyond]
    split_ifs <;> simp
  have hA := (C51_forward_partial U hm).1 c x h0 h1
  have hL := C54_layers m.E m.k ω dxes 1 (Or.inl rfl) S eps mu c x
  simp only [if_true] at hL
  rw [hQ, hL]
  have hs : S.start axis < sh axis := lt_of_lt_of_le (S.lt axis) (S.le axis)
  split
  · rw [tfsf_mulVec, hA]
    rw [mul_zero, sub_zero, ← mul_assoc, mul_one_div_cancel (negIw_ne U.hω), one_mul]
  · rename_i hn
    rw [mul_zero, eFull_mask_const _ ω dxes _ _ _ (c, x), hA, mul_zero]
    have key : ∀ (c' : Fin 3) (y : Idx sh), ((y axis : ℕ) = x axis ∨ (y axis : ℕ) = x axis + 1 ∨ (y axis : ℕ) + 1 = x axis) →
        beyond (sh := sh) axis (S.start axis) (c', y) = beyond (sh := sh) axis (S.start axis) (c, x) := by
      intro c' y hy
      unfold beyond
      refine if_congr ?_ rfl rfl
      simp only
      omega
    have s1 : ∀ b (z : Idx sh), (z axis : ℕ) + 1 < sh axis → (shiftIdx b 1 z axis : ℕ) = z axis ∨ (shiftIdx b 1 z axis : ℕ) = z axis + 1 := by
      intro b z hz
      by_cases hb : axis = b
      · subst hb; right; rw [shiftIdx_same, wrap_one hz]
      · left; rw [shiftIdx_of_ne hb]
    have s2 : ∀ b (z : Idx sh), 0 < (z axis : ℕ) → (shiftIdx b (-1) z axis : ℕ) = z axis ∨ (shiftIdx b (-1) z axis : ℕ) + 1 = z axis := by
      intro b z hz
      by_cases hb : axis = b
      · subst hb; right; rw [shiftIdx_same, wrap_neg_one hz]
      · left; rw [shiftIdx_of_ne hb]
    rintro ⟨c', y⟩ (⟨-, h | ⟨a, -, h | h⟩⟩ | ⟨hc, h | h | h | h⟩) <;> simp only at h <;> subst h <;> refine key _ _ ?_
    · exact Or.inl rfl
    · have := s1 a x h1; omega
    · have := s2 a x h0; omega
    · exact Or.inl rfl
    · have := s2 c' x h0; omega
    · have := s1 c x h1; omega
    · have q2 := s2 c' x h0
      have q1 := s1 c (shiftIdx c' (-1) x) (by omega)
      have : c' ≠ c := hc
      by_cases hc' : axis = c'
      · subst hc'
        rw [shiftIdx_of_ne this]; omega
      · rw [shiftIdx_of_ne hc'] at q1; omega
end

end Meanas.Props
