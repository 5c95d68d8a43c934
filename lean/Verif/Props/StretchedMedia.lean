/-
C150: a grid with other cell widths is the same as other media. Simulations on two grids with the same number of cells and arbitrary (also complex) widths are
translated into one another exactly; a stretched-coordinate absorber is an anisotropic absorbing medium (UPML).
-/
import Verif.Props.Duality
import Verif.Props.FdfdScpml

namespace Meanas.Props

open Matrix Complex Fdfd Spec

namespace Media

variable {sh : Fin 3 → ℕ} {K : Type*} [Field K]

/-- How much longer the edges of the grid `d` are than those of `d'`. -/
def lenE (d d' : Fdtd.Dxes sh K) : VField sh K := fun c x => d.1 c (x c) / d'.1 c (x c)
/-- The same for the edges of the H lattice. -/
def lenH (d d' : Fdtd.Dxes sh K) : VField sh K := fun c x => d.2 c (x c) / d'.2 c (x c)
/-- How much larger the face is through which `E_c` flows. -/
def faceE (d d' : Fdtd.Dxes sh K) : VField sh K := fun c x => lenH d d' (c + 1) x * lenH d d' (c + 2) x
/-- How much larger the face is through which `H_c` flows. -/
def faceH (d d' : Fdtd.Dxes sh K) : VField sh K := fun c x => lenE d d' (c + 1) x * lenE d d' (c + 2) x
/-- The permittivity on `d'` that does what `eps` does on `d`. -/
def epsOn (d d' : Fdtd.Dxes sh K) (eps : VField sh K) : VField sh K := fun c x => eps c x * faceE d d' c x / lenE d d' c x
/-- The permeability on `d'` that does what `mu` does on `d`. -/
def muOn (d d' : Fdtd.Dxes sh K) (mu : VField sh K) : VField sh K := fun c x => mu c x * faceH d d' c x / lenH d d' c x
/-- Pointwise product. -/
def mulF (s f : VField sh K) : VField sh K := fun c x => s c x * f c x

/-- All widths are nonzero. -/
def NzDx (d : Fdtd.Dxes sh K) : Prop := (∀ a i, d.1 a i ≠ 0) ∧ ∀ a i, d.2 a i ≠ 0

variable {d d' : Fdtd.Dxes sh K}

theorem lenE_ne (h : NzDx d) (h' : NzDx d') (c : Fin 3) (x : Idx sh) : lenE d d' c x ≠ 0 := div_ne_zero (h.1 _ _) (h'.1 _ _)
theorem lenH_ne (h : NzDx d) (h' : NzDx d') (c : Fin 3) (x : Idx sh) : lenH d d' c x ≠ 0 := div_ne_zero (h.2 _ _) (h'.2 _ _)
theorem faceE_ne (h : NzDx d) (h' : NzDx d') (c : Fin 3) (x : Idx sh) : faceE d d' c x ≠ 0 := mul_ne_zero (lenH_ne h h' _ _) (lenH_ne h h' _ _)
theorem faceH_ne (h : NzDx d) (h' : NzDx d') (c : Fin 3) (x : Idx sh) : faceH d d' c x ≠ 0 := mul_ne_zero (lenE_ne h h' _ _) (lenE_ne h h' _ _)

theorem faceE_0 (d d' : Fdtd.Dxes sh K) (x : Idx sh) : faceE d d' 0 x = lenH d d' 1 x * lenH d d' 2 x := rfl
theorem faceE_1 (d d' : Fdtd.Dxes sh K) (x : Idx sh) : faceE d d' 1 x = lenH d d' 2 x * lenH d d' 0 x := rfl
theorem faceE_2 (d d' : Fdtd.Dxes sh K) (x : Idx sh) : faceE d d' 2 x = lenH d d' 0 x * lenH d d' 1 x := rfl
theorem faceH_0 (d d' : Fdtd.Dxes sh K) (x : Idx sh) : faceH d d' 0 x = lenE d d' 1 x * lenE d d' 2 x := rfl
theorem faceH_1 (d d' : Fdtd.Dxes sh K) (x : Idx sh) : faceH d d' 1 x = lenE d d' 2 x * lenE d d' 0 x := rfl
theorem faceH_2 (d d' : Fdtd.Dxes sh K) (x : Idx sh) : faceH d d' 2 x = lenE d d' 0 x * lenE d d' 1 x := rfl

theorem curlForward_stretch (h : NzDx d) (h' : NzDx d') (e : VField sh K) (c : Fin 3) (x : Idx sh) :
    Functional.curlForward (some d'.1) (mulF (lenE d d') e) c x = faceH d d' c x * Functional.curlForward (some d.1) e c x := by
  have n1 := h.1; have n2 := h'.1
  revert c
  refine forall_fin3 ?_ ?_ ?_ <;>
    simp only [curlForward_0, curlForward_1, curlForward_2, derivForward_eq, wOf_some, mulF, faceH_0, faceH_1, faceH_2, lenE]
  · rw [shiftIdx_of_ne (by decide : (2 : Fin 3) ≠ 1), shiftIdx_of_ne (by decide : (1 : Fin 3) ≠ 2)]
    have := n1 1 (x 1); have := n1 2 (x 2); have := n2 1 (x 1); have := n2 2 (x 2)
    field_simp
  · rw [shiftIdx_of_ne (by decide : (0 : Fin 3) ≠ 2), shiftIdx_of_ne (by decide : (2 : Fin 3) ≠ 0)]
    have := n1 0 (x 0); have := n1 2 (x 2); have := n2 0 (x 0); have := n2 2 (x 2)
    field_simp
  · rw [shiftIdx_of_ne (by decide : (1 : Fin 3) ≠ 0), shiftIdx_of_ne (by decide : (0 : Fin 3) ≠ 1)]
    have := n1 1 (x 1); have := n1 0 (x 0); have := n2 1 (x 1); have := n2 0 (x 0)
    field_simp

theorem curlBack_stretch (h : NzDx d) (h' : NzDx d') (e : VField sh K) (c : Fin 3) (x : Idx sh) :
    Functional.curlBack (some d'.2) (mulF (lenH d d') e) c x = faceE d d' c x * Functional.curlBack (some d.2) e c x := by
  have n1 := h.2; have n2 := h'.2
  revert c
  refine forall_fin3 ?_ ?_ ?_ <;>
    simp only [curlBack_0, curlBack_1, curlBack_2, derivBack_eq, wOf_some, mulF, faceE_0, faceE_1, faceE_2, lenH]
  · rw [shiftIdx_of_ne (by decide : (2 : Fin 3) ≠ 1), shiftIdx_of_ne (by decide : (1 : Fin 3) ≠ 2)]
    have := n1 1 (x 1); have := n1 2 (x 2); have := n2 1 (x 1); have := n2 2 (x 2)
    field_simp
  · rw [shiftIdx_of_ne (by decide : (0 : Fin 3) ≠ 2), shiftIdx_of_ne (by decide : (2 : Fin 3) ≠ 0)]
    have := n1 0 (x 0); have := n1 2 (x 2); have := n2 0 (x 0); have := n2 2 (x 2)
    field_simp
  · rw [shiftIdx_of_ne (by decide : (1 : Fin 3) ≠ 0), shiftIdx_of_ne (by decide : (0 : Fin 3) ≠ 1)]
    have := n1 1 (x 1); have := n1 0 (x 0); have := n2 1 (x 1); have := n2 0 (x 0)
    field_simp

end Media

open Media

section Fdtd
open Fdtd
variable {sh : Fin 3 → ℕ} {K : Type*} [Field K]

/-- The simulation on the grid `d'` that mimics one on `d`. -/
def sysOn (d d' : Dxes sh K) (S : Sys sh K) : Sys sh K := ⟨S.dt, some d', epsOn d d' S.eps, some (muOn d d' (muOr S.mu))⟩
/-- Its fields. -/
def stateOn (d d' : Dxes sh K) (s : State sh K) : State sh K := ⟨mulF (lenE d d') s.e, mulF (lenH d d') s.h⟩
/-- Its operations: the injected currents are total currents through the faces. -/
def opOn (d d' : Dxes sh K) : Op sh K → Op sh K
  | .stepE => .stepE
  | .stepH => .stepH
  | .injJ j => .injJ (mulF (faceE d d') j)
  | .injM m => .injM (mulF (faceH d d') m)

/-- C150, time domain: runs on any two grids with the same number of cells correspond exactly. -/
theorem C150_fdtd (S : Sys sh K) (d d' : Dxes sh K) (hS : S.dxes = some d) (h : NzDx d) (h' : NzDx d') (heps : ∀ c x, S.eps c x ≠ 0)
    (hmu : ∀ c x, muOr S.mu c x ≠ 0) (s : State sh K) (ops : List (Op sh K)) :
    run (sysOn d d' S) (stateOn d d' s) (ops.map (opOn d d')) = stateOn d d' (run S s ops) := by
  induction ops generalizing s with
  | nil => rfl
  | cons op ops ih =>
    show run (sysOn d d' S) (step (sysOn d d' S) (stateOn d d' s) (opOn d d' op)) _ = stateOn d d' (run S (step S s op) ops)
    rw [← ih]
    congr 1
    cases op with
    | stepE =>
      refine State.ext' (fun c x => ?_) fun c x => rfl
      show maxwellE S.dt (some d') (mulF (lenE d d') s.e) (mulF (lenH d d') s.h) (epsOn d d' S.eps) c x
        = lenE d d' c x * maxwellE S.dt S.dxes s.e s.h S.eps c x
      rw [maxwellE_eq, maxwellE_eq, hS]
      simp only [Option.map_some]
      rw [curlBack_stretch h h']
      have := lenE_ne h h' c x; have := faceE_ne h h' c x; have := heps c x
      simp only [mulF, epsOn]
      field_simp
    | stepH =>
      refine State.ext' (fun c x => rfl) fun c x => ?_
      show maxwellH S.dt (some d') (mulF (lenE d d') s.e) (mulF (lenH d d') s.h) (some (muOn d d' (muOr S.mu))) c x
        = lenH d d' c x * maxwellH S.dt S.dxes s.e s.h S.mu c x
      rw [maxwellH_eq, maxwellH_eq, hS]
      simp only [Option.map_some]
      rw [curlForward_stretch h h']
      have := lenH_ne h h' c x; have := faceH_ne h h' c x; have := hmu c x
      simp only [mulF, muOn, muOr]
      simp only [muOr] at this
      field_simp
    | injJ j =>
      refine State.ext' (fun c x => ?_) fun c x => rfl
      show lenE d d' c x * s.e c x + faceE d d' c x * j c x / epsOn d d' S.eps c x = lenE d d' c x * (s.e c x + j c x / S.eps c x)
      have := lenE_ne h h' c x; have := faceE_ne h h' c x; have := heps c x
      simp only [epsOn]
      field_simp
    | injM m =>
      refine State.ext' (fun c x => ?_) fun c x => ?_
      · show (step (sysOn d d' S) (stateOn d d' s) (.injM (mulF (faceH d d') m))).e c x = lenE d d' c x * (step S s (.injM m)).e c x
        rw [step_injM_e, step_injM_e]; rfl
      · show (step (sysOn d d' S) (stateOn d d' s) (.injM (mulF (faceH d d') m))).h c x = lenH d d' c x * (step S s (.injM m)).h c x
        rw [step_injM_h, step_injM_h]
        show lenH d d' c x * s.h c x - faceH d d' c x * m c x / muOn d d' (muOr S.mu) c x = _
        have := lenH_ne h h' c x; have := faceH_ne h h' c x; have := hmu c x
        simp only [muOn]
        field_simp

end Fdtd

variable {sh : Fin 3 → ℕ}

namespace Media

theorem cE_stretch {d d' : Dx sh} (h : NzDx d) (h' : NzDx d') (v : Vec sh) (p : Pos sh) :
    cE d' (fun q => lenE d d' q.1 q.2 * v q) p = faceH d d' p.1 p.2 * cE d v p := curlForward_stretch h h' (unS v) p.1 p.2
theorem cH_stretch {d d' : Dx sh} (h : NzDx d) (h' : NzDx d') (v : Vec sh) (p : Pos sh) :
    cH d' (fun q => lenH d d' q.1 q.2 * v q) p = faceE d d' p.1 p.2 * cH d v p := curlBack_stretch h h' (unS v) p.1 p.2

/-- Vectorised media. -/
noncomputable def epsV (d d' : Dx sh) (eps : Vec sh) : Vec sh := vecS (epsOn d d' (unS eps))
/-- Vectorised media. -/
noncomputable def muS (d d' : Dx sh) (mu : Option (Vec sh)) : Option (Vec sh) := some (vecS (muOn d d' (unS (muV mu))))

end Media

/-- C150, frequency domain: `e_full` on the grid `d'` with the substituted media, applied to the edge voltages, gives the total currents. -/
theorem C150_e_full (ω : ℂ) (d d' : Dx sh) (h : NzDx d) (h' : NzDx d') (eps : Vec sh) (mu : Option (Vec sh)) (hmu : ∀ p, muV mu p ≠ 0)
    (pec pmc : Option (Pos sh → Bool)) (E : Vec sh) :
    eFull ω d' (epsV d d' eps) (muS d d' mu) pec pmc *ᵥ (fun p : Pos sh => lenE d d' p.1 p.2 * E p)
      = fun p => faceE d d' p.1 p.2 * (eFull ω d eps mu pec pmc *ᵥ E) p := by
  funext p
  rw [eFull_mulVec_masks, eFull_mulVec_masks]
  have g1 : (fun r : Pos sh => (openAt pec r : ℂ) * (lenE d d' r.1 r.2 * E r)) = fun r => lenE d d' r.1 r.2 * (openAt pec r * E r) := by
    funext r; ring
  have g2 : (fun q : Pos sh => (openAt pmc q : ℂ) * (cE d' (fun r => lenE d d' r.1 r.2 * (openAt pec r * E r)) q / muV (muS d d' mu) q))
      = fun q => lenH d d' q.1 q.2 * (openAt pmc q * (cE d (fun r => openAt pec r * E r) q / muV mu q)) := by
    funext q
    rw [cE_stretch h h']
    show (openAt pmc q : ℂ) * (_ / (muV mu q * faceH d d' q.1 q.2 / lenH d d' q.1 q.2)) = _
    have := lenH_ne h h' q.1 q.2; have := faceH_ne h h' q.1 q.2; have := hmu q
    field_simp
  rw [g1, g2, cH_stretch h h']
  show _ * (_ - ω ^ 2 * (eps p * faceE d d' p.1 p.2 / lenE d d' p.1 p.2 * _)) = _
  have := lenE_ne h h' p.1 p.2
  field_simp

/-- C150: `h_full`, likewise. -/
theorem C150_h_full (ω : ℂ) (d d' : Dx sh) (h : NzDx d) (h' : NzDx d') (eps : Vec sh) (mu : Option (Vec sh)) (heps : ∀ p, eps p ≠ 0)
    (pec pmc : Option (Pos sh → Bool)) (H : Vec sh) :
    hFull ω d' (epsV d d' eps) (muS d d' mu) pec pmc *ᵥ (fun p : Pos sh => lenH d d' p.1 p.2 * H p)
      = fun p => faceH d d' p.1 p.2 * (hFull ω d eps mu pec pmc *ᵥ H) p := by
  funext p
  rw [Duality.hFull_mulVec_masks, Duality.hFull_mulVec_masks]
  have g1 : (fun r : Pos sh => (openAt pmc r : ℂ) * (lenH d d' r.1 r.2 * H r)) = fun r => lenH d d' r.1 r.2 * (openAt pmc r * H r) := by
    funext r; ring
  have g2 : (fun q : Pos sh => (openAt pec q : ℂ) * (cH d' (fun r => lenH d d' r.1 r.2 * (openAt pmc r * H r)) q / epsV d d' eps q))
      = fun q => lenE d d' q.1 q.2 * (openAt pec q * (cH d (fun r => openAt pmc r * H r) q / eps q)) := by
    funext q
    rw [cH_stretch h h']
    show (openAt pec q : ℂ) * (_ / (eps q * faceE d d' q.1 q.2 / lenE d d' q.1 q.2)) = _
    have := lenE_ne h h' q.1 q.2; have := faceE_ne h h' q.1 q.2; have := heps q
    field_simp
  rw [g1, g2, cE_stretch h h']
  show _ * (_ - ω ^ 2 * (muV mu p * faceH d d' p.1 p.2 / lenH d d' p.1 p.2 * _)) = _
  have := lenH_ne h h' p.1 p.2
  field_simp

/-- C150: driven fields correspond: `E` solves the problem on `d` with the current density `J` if and only if the edge voltages solve the one on `d'` with the
total currents. -/
theorem C150_solutions (ω : ℂ) (d d' : Dx sh) (h : NzDx d) (h' : NzDx d') (eps : Vec sh) (mu : Option (Vec sh)) (hmu : ∀ p, muV mu p ≠ 0)
    (pec pmc : Option (Pos sh → Bool)) (E J : Vec sh) :
    eFull ω d eps mu pec pmc *ᵥ E = (-I * ω) • J ↔
      eFull ω d' (epsV d d' eps) (muS d d' mu) pec pmc *ᵥ (fun p : Pos sh => lenE d d' p.1 p.2 * E p) = (-I * ω) • fun p => faceE d d' p.1 p.2 * J p := by
  rw [C150_e_full ω d d' h h' eps mu hmu, funext_iff, funext_iff]
  refine forall_congr' fun p => ?_
  have := faceE_ne h h' p.1 p.2
  simp only [Pi.smul_apply, smul_eq_mul]
  rw [show -I * ω * (faceE d d' p.1 p.2 * J p) = faceE d d' p.1 p.2 * (-I * ω * J p) by ring, mul_right_inj' this]

/-- C150: `e2h` and `m2j` follow. -/
theorem C150_conversions (ω : ℂ) (d d' : Dx sh) (h : NzDx d) (h' : NzDx d') (mu : Option (Vec sh)) (hmu : ∀ p, muV mu p ≠ 0) (E M : Vec sh) :
    (Fdfd.e2h ω d' (muS d d' mu) none *ᵥ fun p : Pos sh => lenE d d' p.1 p.2 * E p) = (fun p : Pos sh => lenH d d' p.1 p.2 * (Fdfd.e2h ω d mu none *ᵥ E) p) ∧
    (Fdfd.m2j ω d' (muS d d' mu) *ᵥ fun p : Pos sh => faceH d d' p.1 p.2 * M p) = fun p => faceE d d' p.1 p.2 * (Fdfd.m2j ω d mu *ᵥ M) p := by
  constructor
  · funext p
    rw [e2h_mulVec, e2h_mulVec, cE_stretch h h']
    show _ / _ / (muV mu p * faceH d d' p.1 p.2 / lenH d d' p.1 p.2) = _
    have := lenH_ne h h' p.1 p.2; have := faceH_ne h h' p.1 p.2; have := hmu p
    field_simp
  · funext p
    rw [m2j_mulVec, m2j_mulVec]
    have g : (fun q : Pos sh => faceH d d' q.1 q.2 * M q / muV (muS d d' mu) q) = fun q => lenH d d' q.1 q.2 * (M q / muV mu q) := by
      funext q
      show faceH d d' q.1 q.2 * M q / (muV mu q * faceH d d' q.1 q.2 / lenH d d' q.1 q.2) = _
      have := lenH_ne h h' q.1 q.2; have := faceH_ne h h' q.1 q.2; have := hmu q
      field_simp
    rw [g, cH_stretch h h']
    ring

/-! ### Absorbers -/

open Scpml in
/-- C150: the grid of `uniform_grid_scpml` is the plain unit grid filled with an anisotropic absorbing medium: with the stretch factors `s` of the returned
widths, `eps_c` is multiplied by `s_a s_b / s_c` (H widths for the two transverse factors, E widths for its own), `mu_c` likewise. Fields in cells
outside the layers along all axes are the same. -/
theorem C150_upml (thicknesses : Fin 3 → ℤ) (omega : ℂ) (epsEff : ℝ) (s : Option (ℝ → ℝ)) (ω : ℂ) (eps : Vec sh) (mu : Option (Vec sh))
    (hmu : ∀ p, muV mu p ≠ 0) (pec pmc : Option (Pos sh → Bool)) (E J : Vec sh) :
    let g := uniformGridScpml sh thicknesses omega epsEff s
    let d : Dx sh := (fun a => (g a).1, fun a => (g a).2)
    let one : Dx sh := (fun _ _ => 1, fun _ _ => 1)
    eFull ω d eps mu pec pmc *ᵥ E = (-I * ω) • J ↔
      eFull ω one (fun p => eps p * (d.2 (p.1 + 1) (p.2 (p.1 + 1)) * d.2 (p.1 + 2) (p.2 (p.1 + 2)) / d.1 p.1 (p.2 p.1)))
          (some fun p => muV mu p * (d.1 (p.1 + 1) (p.2 (p.1 + 1)) * d.1 (p.1 + 2) (p.2 (p.1 + 2)) / d.2 p.1 (p.2 p.1))) pec pmc
        *ᵥ (fun p => d.1 p.1 (p.2 p.1) * E p) = (-I * ω) • fun p => d.2 (p.1 + 1) (p.2 (p.1 + 1)) * d.2 (p.1 + 2) (p.2 (p.1 + 2)) * J p := by
  intro g d one
  have key : ∀ (r c : ℝ), (1 + I * (r : ℂ) / (c : ℂ)) ≠ 0 := by
    intro r c h0
    have := congrArg Complex.re h0
    rw [mul_div_assoc, ← ofReal_div] at this
    simp at this
  have hd : NzDx d := by
    refine ⟨fun a i => ?_, fun a i => ?_⟩
    · show (uniformAxis (sh a) (thicknesses a) (sCorrection epsEff omega) _).1 i ≠ 0
      unfold uniformAxis
      split
      · exact key _ _
      · exact one_ne_zero
    · show (uniformAxis (sh a) (thicknesses a) (sCorrection epsEff omega) _).2 i ≠ 0
      unfold uniformAxis
      split
      · exact key _ _
      · exact one_ne_zero
  have h1 : NzDx one := ⟨fun _ _ => one_ne_zero, fun _ _ => one_ne_zero⟩
  rw [C150_solutions ω d one hd h1 eps mu hmu pec pmc]
  have e1 : ∀ c (x : Idx sh), lenE d one c x = d.1 c (x c) := fun c x => div_one _
  have e2 : ∀ c (x : Idx sh), lenH d one c x = d.2 c (x c) := fun c x => div_one _
  have m1 : epsV d one eps = fun p => eps p * (d.2 (p.1 + 1) (p.2 (p.1 + 1)) * d.2 (p.1 + 2) (p.2 (p.1 + 2)) / d.1 p.1 (p.2 p.1)) := by
    funext p
    show eps p * (lenH d one (p.1 + 1) p.2 * lenH d one (p.1 + 2) p.2) / lenE d one p.1 p.2 = _
    rw [e1, e2, e2, mul_div_assoc]
  have m2 : muS d one mu = some fun p => muV mu p * (d.1 (p.1 + 1) (p.2 (p.1 + 1)) * d.1 (p.1 + 2) (p.2 (p.1 + 2)) / d.2 p.1 (p.2 p.1)) := by
    refine congrArg some (funext fun p => ?_)
    show muV mu p * (lenE d one (p.1 + 1) p.2 * lenE d one (p.1 + 2) p.2) / lenH d one p.1 p.2 = _
    rw [e1, e1, e2, mul_div_assoc]
  rw [m1, m2]
  simp only [faceE, e1, e2]

/-- C150: a layer added by `stretch_with_scpml` to a real grid is an anisotropic absorbing medium in that layer on the unchanged grid: the two problems have the
same solutions up to known factors, and outside the layer media, fields and currents are unchanged. -/
theorem C150_upml_stretch (a b : (x : Fin 3) → Fin (sh x) → ℝ) (ha : ∀ x i, 0 < a x i) (hb : ∀ x i, 0 < b x i) (axis : Fin 3) (polarity : ℤ) (omega : ℂ)
    (epsEff : ℝ) (ho : omega.re ≠ 0) (he : 0 < epsEff) (t : ℕ) (ht0 : 0 < t) (ht : t ≤ sh axis) (s : Option (ℂ → ℂ))
    (hs : ∀ f, s = some f → RealProfile f) (ω : ℂ) (eps : Vec sh) (mu : Option (Vec sh)) (hmu : ∀ p, muV mu p ≠ 0) (pec pmc : Option (Pos sh → Bool)) :
    ∃ g : CGrid sh, Scpml.stretchWithScpml (fun x i => (a x i : ℂ), fun x i => (b x i : ℂ)) axis polarity omega epsEff t s = okGrid g ∧
      ∃ (eps' mu' u w : Vec sh),
        (∀ p, u p ≠ 0 ∧ w p ≠ 0) ∧
        (∀ E J : Vec sh, eFull ω g eps mu pec pmc *ᵥ E = (-I * ω) • J ↔
          eFull ω (cDx (a, b)) eps' (some mu') pec pmc *ᵥ (fun p => u p * E p) = (-I * ω) • fun p => w p * J p) ∧
        ∀ p : Pos sh, ¬ InLayer (sh axis) polarity t (p.2 axis) → eps' p = eps p ∧ mu' p = muV mu p ∧ u p = 1 ∧ w p = 1 := by
  obtain ⟨g, h1, h2, h3⟩ := C38_layer_only a b ha axis polarity omega epsEff ho he t ht0 ht s hs
  have ng : NzDx g := by
    refine ⟨fun x i h0 => ?_, fun x i h0 => ?_⟩
    · have := (h2 x i).1; rw [h0, zero_re] at this; exact (ha x i).ne this
    · have := (h2 x i).2; rw [h0, zero_re] at this; exact (hb x i).ne this
  have nd : NzDx (cDx (a, b)) := ⟨fun x i => ofReal_ne_zero.2 (ha x i).ne', fun x i => ofReal_ne_zero.2 (hb x i).ne'⟩
  refine ⟨g, h1, epsV g (cDx (a, b)) eps, vecS (muOn g (cDx (a, b)) (unS (muV mu))), fun p => lenE g (cDx (a, b)) p.1 p.2,
    fun p => faceE g (cDx (a, b)) p.1 p.2, fun p => ⟨lenE_ne ng nd _ _, faceE_ne ng nd _ _⟩,
    fun E J => C150_solutions ω g (cDx (a, b)) ng nd eps mu hmu pec pmc E J, fun p hp => ?_⟩
  have o1 : ∀ c, lenE g (cDx (a, b)) c p.2 = 1 := fun c => by
    have : g.1 c (p.2 c) = a c (p.2 c) := (h3 c (p.2 c) (by rintro ⟨rfl, h⟩; exact hp h)).1
    show g.1 c (p.2 c) / (a c (p.2 c) : ℂ) = 1
    rw [this]; exact div_self (nd.1 _ _)
  have o2 : ∀ c, lenH g (cDx (a, b)) c p.2 = 1 := fun c => by
    have : g.2 c (p.2 c) = b c (p.2 c) := (h3 c (p.2 c) (by rintro ⟨rfl, h⟩; exact hp h)).2
    show g.2 c (p.2 c) / (b c (p.2 c) : ℂ) = 1
    rw [this]; exact div_self (nd.2 _ _)
  refine ⟨?_, ?_, o1 _, ?_⟩
  · show eps p * (lenH g _ (p.1 + 1) p.2 * lenH g _ (p.1 + 2) p.2) / lenE g _ p.1 p.2 = eps p
    rw [o1, o2, o2]; simp
  · show muV mu p * (lenE g _ (p.1 + 1) p.2 * lenE g _ (p.1 + 2) p.2) / lenH g _ p.1 p.2 = muV mu p
    rw [o1, o1, o2]; simp
  · show lenH g _ (p.1 + 1) p.2 * lenH g _ (p.1 + 2) p.2 = 1
    rw [o2, o2]; simp

/-! ### Waveguide modes -/

section Modes
open Wg2 OperatorsS
variable {s2 : Fin 2 → ℕ}

/-- Stretch of the cross-section along `a`, E lattice. -/
noncomputable def rE (d d' : Dx2 s2) (a : Fin 2) (x : Idx s2) : ℂ := d.1 a (x a) / d'.1 a (x a)
/-- Stretch of the cross-section along `a`, H lattice. -/
noncomputable def rH (d d' : Dx2 s2) (a : Fin 2) (x : Idx s2) : ℂ := d.2 a (x a) / d'.2 a (x a)
/-- Fields of the mode on the other cross-section. -/
noncomputable def modeE (d d' : Dx2 s2) (e : V 3 s2) : V 3 s2 := fun p =>
  (if p.1 = 0 then rE d d' 0 p.2 else if p.1 = 1 then rE d d' 1 p.2 else 1) * e p
/-- Fields of the mode on the other cross-section. -/
noncomputable def modeH (d d' : Dx2 s2) (h : V 3 s2) : V 3 s2 := fun p =>
  (if p.1 = 0 then rH d d' 0 p.2 else if p.1 = 1 then rH d d' 1 p.2 else 1) * h p
/-- Its permittivity. -/
noncomputable def modeEps (d d' : Dx2 s2) (eps : V 3 s2) : V 3 s2 := fun p =>
  (if p.1 = 0 then rH d d' 1 p.2 / rE d d' 0 p.2 else if p.1 = 1 then rH d d' 0 p.2 / rE d d' 1 p.2 else rH d d' 0 p.2 * rH d d' 1 p.2) * eps p
/-- Its permeability. -/
noncomputable def modeMu (d d' : Dx2 s2) (mu : V 3 s2) : V 3 s2 := fun p =>
  (if p.1 = 0 then rE d d' 1 p.2 / rH d d' 0 p.2 else if p.1 = 1 then rE d d' 0 p.2 / rH d d' 1 p.2 else rE d d' 0 p.2 * rE d d' 1 p.2) * mu p

/-- All widths of the cross-section are nonzero. -/
def Nz2 (d : Dx2 s2) : Prop := (∀ a i, d.1 a i ≠ 0) ∧ ∀ a i, d.2 a i ≠ 0

theorem fw_stretch {d d' : Dx2 s2} (h : Nz2 d) (h' : Nz2 d') (a : Fin 2) (f : Idx s2 → ℂ) (x : Idx s2) :
    fw d' a f x = rE d d' a x * fw d a f x := by
  have := h.1 a (x a); have := h'.1 a (x a)
  simp only [fw, derivForward_eq, wOf_some, rE]; field_simp
theorem bw_stretch {d d' : Dx2 s2} (h : Nz2 d) (h' : Nz2 d') (a : Fin 2) (f : Idx s2 → ℂ) (x : Idx s2) :
    bw d' a f x = rH d d' a x * bw d a f x := by
  have := h.2 a (x a); have := h'.2 a (x a)
  simp only [bw, derivBack_eq, wOf_some, rH]; field_simp
theorem fw_rE {d d' : Dx2 s2} (d0 : Dx2 s2) {a b : Fin 2} (hab : b ≠ a) (f : Idx s2 → ℂ) (x : Idx s2) :
    fw d0 a (fun y => rE d d' b y * f y) x = rE d d' b x * fw d0 a f x := by
  simp only [fw, derivForward_eq, rE, shiftIdx_of_ne hab]; ring
theorem bw_rH {d d' : Dx2 s2} (d0 : Dx2 s2) {a b : Fin 2} (hab : b ≠ a) (f : Idx s2 → ℂ) (x : Idx s2) :
    bw d0 a (fun y => rH d d' b y * f y) x = rH d d' b x * bw d0 a f x := by
  simp only [bw, derivBack_eq, rH, shiftIdx_of_ne hab]; ring

/-- C150: modes of a waveguide on any two cross-section grids with the same number of cells correspond, with the same wavenumber. -/
theorem C150_modes (β ω : ℂ) (d d' : Dx2 s2) (hd : Nz2 d) (hd' : Nz2 d') (eps mu e h : V 3 s2) :
    IsMode β ω d.1 d.2 (fld eps) (fld mu) (fld e) (fld h) ↔
      IsMode β ω d'.1 d'.2 (fld (modeEps d d' eps)) (fld (modeMu d d' mu)) (fld (modeE d d' e)) (fld (modeH d d' h)) := by
  have r0 : ∀ a x, rE d d' a x ≠ 0 := fun a x => div_ne_zero (hd.1 _ _) (hd'.1 _ _)
  have s0 : ∀ a x, rH d d' a x ≠ 0 := fun a x => div_ne_zero (hd.2 _ _) (hd'.2 _ _)
  rw [isMode_iff, isMode_iff]
  have pe0 : part (modeE d d' e) 0 = fun y => rE d d' 0 y * part e 0 y := by funext y; simp [part, modeE]
  have pe1 : part (modeE d d' e) 1 = fun y => rE d d' 1 y * part e 1 y := by funext y; simp [part, modeE]
  have pe2 : part (modeE d d' e) 2 = part e 2 := by funext y; simp [part, modeE]
  have ph0 : part (modeH d d' h) 0 = fun y => rH d d' 0 y * part h 0 y := by funext y; simp [part, modeH]
  have ph1 : part (modeH d d' h) 1 = fun y => rH d d' 1 y * part h 1 y := by funext y; simp [part, modeH]
  have ph2 : part (modeH d d' h) 2 = part h 2 := by funext y; simp [part, modeH]
  have n01 : (0 : Fin 2) ≠ 1 := by decide
  have n10 : (1 : Fin 2) ≠ 0 := by decide
  have key : ∀ {k u v u' v' : ℂ}, k ≠ 0 → u' = k * u → v' = k * v → (u = v ↔ u' = v') := by
    intro k u v u' v' hk h1 h2
    rw [h1, h2, mul_right_inj' hk]
  refine and_congr (forall_congr' ?_) (forall_congr' ?_)
  · rintro ⟨c, x⟩
    have a0 := r0 0 x; have a1 := r0 1 x; have b0 := s0 0 x; have b1 := s0 1 x
    revert c
    refine forall_fin3 ?_ ?_ ?_
    · refine key a1 ?_ ?_
      · rw [curlE_0, curlE_0, pe2, fw_stretch hd hd']; simp [modeE]; ring
      · simp [modeMu, modeH]; field_simp
    · refine key a0 ?_ ?_
      · rw [curlE_1, curlE_1, pe2, fw_stretch hd hd']; simp [modeE]; ring
      · simp [modeMu, modeH]; field_simp
    · refine key (mul_ne_zero a0 a1) ?_ ?_
      · rw [curlE_2, curlE_2, pe0, pe1, fw_rE _ n10, fw_rE _ n01, fw_stretch hd hd', fw_stretch hd hd']; ring
      · simp [modeMu, modeH]; ring
  · rintro ⟨c, x⟩
    have a0 := r0 0 x; have a1 := r0 1 x; have b0 := s0 0 x; have b1 := s0 1 x
    revert c
    refine forall_fin3 ?_ ?_ ?_
    · refine key b1 ?_ ?_
      · rw [curlH_0, curlH_0, ph2, bw_stretch hd hd']; simp [modeH]; ring
      · simp [modeEps, modeE]; field_simp
    · refine key b0 ?_ ?_
      · rw [curlH_1, curlH_1, ph2, bw_stretch hd hd']; simp [modeH]; ring
      · simp [modeEps, modeE]; field_simp
    · refine key (mul_ne_zero b0 b1) ?_ ?_
      · rw [curlH_2, curlH_2, ph0, ph1, bw_rH _ n10, bw_rH _ n01, bw_stretch hd hd', bw_stretch hd hd']; ring
      · simp [modeEps, modeE]; ring

/-- C150: the mode operator `operator_e` on the other cross-section is the same operator in scaled components, so `solve_modes` sees the same eigenvalues. -/
theorem C150_operator_e (ω : ℂ) (d d' : Dx2 s2) (hd : Nz2 d) (hd' : Nz2 d') (eps : V 3 s2) (mu : Option (V 3 s2)) (hε : ∀ p, eps p ≠ 0)
    (hμ : ∀ p, mu.getD 1 p ≠ 0) (v : V 2 s2) :
    operatorE ω d' (modeEps d d' eps) (some (modeMu d d' (mu.getD 1))) *ᵥ (fun p => rE d d' p.1 p.2 * v p)
      = fun p => rE d d' p.1 p.2 * (operatorE ω d eps mu *ᵥ v) p := by
  have r0 : ∀ a x, rE d d' a x ≠ 0 := fun a x => div_ne_zero (hd.1 _ _) (hd'.1 _ _)
  have s0 : ∀ a x, rH d d' a x ≠ 0 := fun a x => div_ne_zero (hd.2 _ _) (hd'.2 _ _)
  have n01 : (0 : Fin 2) ≠ 1 := by decide
  have n10 : (1 : Fin 2) ≠ 0 := by decide
  have pv : ∀ a, part (fun p : Fin 2 × Idx s2 => rE d d' p.1 p.2 * v p) a = fun y => rE d d' a y * part v a y := fun a => rfl
  have q1 : (fun y => (fw d' 0 (part (fun p : Fin 2 × Idx s2 => rE d d' p.1 p.2 * v p) 1) y - fw d' 1 (part (fun p : Fin 2 × Idx s2 => rE d d' p.1 p.2 * v p) 0) y)
        / (some (modeMu d d' (mu.getD 1))).getD 1 (2, y))
      = fun y => (fw d 0 (part v 1) y - fw d 1 (part v 0) y) / mu.getD 1 (2, y) := by
    funext y
    rw [pv, pv, fw_rE _ n10, fw_rE _ n01, fw_stretch hd hd', fw_stretch hd hd']
    have := r0 0 y; have := r0 1 y; have := hμ (2, y)
    simp only [Option.getD_some, modeMu, show (2 : Fin 3) ≠ 0 by decide, show (2 : Fin 3) ≠ 1 by decide, if_false]
    field_simp
  have e0 : (fun z => modeEps d d' eps (0, z) * (rE d d' 0 z * v (0, z))) = fun z => rH d d' 1 z * (eps (0, z) * v (0, z)) := by
    funext z; have := r0 0 z; simp [modeEps]; field_simp
  have e1 : (fun z => modeEps d d' eps (1, z) * (rE d d' 1 z * v (1, z))) = fun z => rH d d' 0 z * (eps (1, z) * v (1, z)) := by
    funext z; have := r0 1 z; simp [modeEps]; field_simp
  have q2 : (fun y => (bw d' 0 (fun z => modeEps d d' eps (0, z) * (rE d d' 0 z * v (0, z))) y + bw d' 1 (fun z => modeEps d d' eps (1, z) * (rE d d' 1 z * v (1, z))) y)
        / modeEps d d' eps (2, y))
      = fun y => (bw d 0 (fun z => eps (0, z) * v (0, z)) y + bw d 1 (fun z => eps (1, z) * v (1, z)) y) / eps (2, y) := by
    funext y
    rw [e0, e1, bw_rH _ n10, bw_rH _ n01, bw_stretch hd hd', bw_stretch hd hd']
    have := s0 0 y; have := s0 1 y; have := hε (2, y)
    simp only [modeEps, show (2 : Fin 3) ≠ 0 by decide, show (2 : Fin 3) ≠ 1 by decide, if_false]
    field_simp
  funext p
  obtain ⟨c, x⟩ := p
  have a0 := r0 0 x; have a1 := r0 1 x; have b0 := s0 0 x; have b1 := s0 1 x
  revert c
  rw [Fin.forall_fin_two]
  refine ⟨?_, ?_⟩
  · rw [operatorE_0]
    show ω ^ 2 * _ - _ + _ = rE d d' 0 x * (operatorE ω d eps mu *ᵥ v) (0, x)
    rw [operatorE_0, q1, q2, bw_stretch hd hd', fw_stretch hd hd']
    simp [modeMu, modeEps]
    field_simp
  · rw [operatorE_1]
    show ω ^ 2 * _ + _ + _ = rE d d' 1 x * (operatorE ω d eps mu *ᵥ v) (1, x)
    rw [operatorE_1, q1, q2, bw_stretch hd hd', fw_stretch hd hd']
    simp [modeMu, modeEps]
    field_simp

end Modes

/-- Widths that meet the hypotheses: a graded grid and the unit grid. On a cube of edge 2 the permittivity doubles on the unit grid. -/
example : NzDx (sh := sh) (K := ℚ) (fun _ i => 1 + i, fun _ i => 1 / (1 + i)) ∧ NzDx (sh := sh) (K := ℚ) (fun _ _ => 1, fun _ _ => 1) :=
  ⟨⟨fun _ i => by positivity, fun _ i => by positivity⟩, fun _ _ => one_ne_zero, fun _ _ => one_ne_zero⟩

example (c : Fin 3) (x : Idx sh) : epsOn (K := ℚ) (fun _ _ => 2, fun _ _ => 2) (fun _ _ => 1, fun _ _ => 1) (fun _ _ => 3) c x = 6 := by
  simp only [epsOn, faceE, lenE, lenH]; norm_num

end Meanas.Props
