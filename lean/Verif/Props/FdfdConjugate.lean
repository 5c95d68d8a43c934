/-
C108 (conjugate FDFD problems: negative frequencies and time reversal).
-/
import Verif.Props.GridInvariance
import Verif.Props.FdfdSystem
import Verif.Model.Scpml

namespace Meanas.Props

open Matrix Complex Fdfd Spec

variable {sh : Fin 3 → ℕ}

/-- Complex conjugate of a vectorised field. -/
noncomputable def conjVec (v : Vec sh) : Vec sh := fun p => (starRingEnd ℂ) (v p)

/-- Complex conjugate of all cell widths. -/
noncomputable def conjDx (d : Dx sh) : Dx sh := (fun a i => (starRingEnd ℂ) (d.1 a i), fun a i => (starRingEnd ℂ) (d.2 a i))

theorem conjVec_cE (d : Dx sh) (v : Vec sh) : cE (conjDx d) (conjVec v) = conjVec (cE d v) := by
  funext ⟨c, x⟩
  show Functional.curlForward (some (conjDx d).1) (unS (conjVec v)) c x = (starRingEnd ℂ) (Functional.curlForward (some d.1) (unS v) c x)
  revert c
  refine forall_fin3 ?_ ?_ ?_ <;>
    simp only [curlForward_0, curlForward_1, curlForward_2, derivForward_eq, wOf_some, map_sub, map_div₀] <;> rfl

theorem conjVec_cH (d : Dx sh) (v : Vec sh) : cH (conjDx d) (conjVec v) = conjVec (cH d v) := by
  funext ⟨c, x⟩
  show Functional.curlBack (some (conjDx d).2) (unS (conjVec v)) c x = (starRingEnd ℂ) (Functional.curlBack (some d.2) (unS v) c x)
  revert c
  refine forall_fin3 ?_ ?_ ?_ <;>
    simp only [curlBack_0, curlBack_1, curlBack_2, derivBack_eq, wOf_some, map_sub, map_div₀] <;> rfl

theorem conj_openAt (m : Option (Pos sh → Bool)) (p : Pos sh) : (starRingEnd ℂ) (openAt m p : ℂ) = openAt m p := by
  cases m with
  | none => simp [openAt]
  | some m => simp only [openAt]; split <;> simp

theorem conj_muV (mu : Option (Vec sh)) (p : Pos sh) : muV (mu.map conjVec) p = (starRingEnd ℂ) (muV mu p) := by
  cases mu with
  | none => simp
  | some m => rfl

/-- **C108.** The operator of the conjugate problem (frequency, grid and media conjugated, or with the opposite sign of the frequency) is the conjugate
operator. -/
theorem C108_conjugate (ω : ℂ) (d : Dx sh) (eps : Vec sh) (mu : Option (Vec sh)) (pec pmc : Option (Pos sh → Bool)) (E : Vec sh) :
    eFull ((starRingEnd ℂ) ω) (conjDx d) (conjVec eps) (mu.map conjVec) pec pmc *ᵥ conjVec E = conjVec (eFull ω d eps mu pec pmc *ᵥ E) ∧
    eFull (-(starRingEnd ℂ) ω) (conjDx d) (conjVec eps) (mu.map conjVec) pec pmc *ᵥ conjVec E = conjVec (eFull ω d eps mu pec pmc *ᵥ E) := by
  have key : ∀ w : ℂ, w ^ 2 = ((starRingEnd ℂ) ω) ^ 2 →
      eFull w (conjDx d) (conjVec eps) (mu.map conjVec) pec pmc *ᵥ conjVec E = conjVec (eFull ω d eps mu pec pmc *ᵥ E) := by
    intro w hw
    funext p
    show _ = (starRingEnd ℂ) ((eFull ω d eps mu pec pmc *ᵥ E) p)
    rw [eFull_mulVec_masks, eFull_mulVec_masks]
    have h1 : (fun r => openAt pec r * conjVec E r) = conjVec fun r => openAt pec r * E r := by
      funext r; simp only [conjVec, map_mul, conj_openAt]
    rw [h1, conjVec_cE]
    have h2 : (fun q => openAt pmc q * (conjVec (cE d fun r => openAt pec r * E r) q / muV (mu.map conjVec) q))
        = conjVec fun q => openAt pmc q * (cE d (fun r => openAt pec r * E r) q / muV mu q) := by
      funext q; simp only [conjVec, map_mul, map_div₀, conj_openAt, conj_muV]
    rw [h2, conjVec_cH]
    simp only [conjVec, map_mul, map_sub, map_pow, conj_openAt, hw]
  exact ⟨key _ rfl, key _ (by ring)⟩

/-- **C108.** The magnetic field of the conjugate problem: `e2h` at the opposite frequency gives the conjugate field, at the conjugate frequency
minus that. -/
theorem C108_conjugate_h (ω : ℂ) (d : Dx sh) (mu : Option (Vec sh)) (pmc : Option (Pos sh → Bool)) (E : Vec sh) :
    Fdfd.e2h (-(starRingEnd ℂ) ω) (conjDx d) (mu.map conjVec) pmc *ᵥ conjVec E = conjVec (Fdfd.e2h ω d mu pmc *ᵥ E) ∧
    Fdfd.e2h ((starRingEnd ℂ) ω) (conjDx d) (mu.map conjVec) pmc *ᵥ conjVec E = -conjVec (Fdfd.e2h ω d mu pmc *ᵥ E) := by
  have hval : ∀ (w : ℂ) (d : Dx sh) (mu : Option (Vec sh)) (v : Vec sh) (p : Pos sh),
      (Fdfd.e2h w d mu pmc *ᵥ v) p = openAt pmc p * (cE d v p / (-I * w) / muV mu p) := by
    intro w d mu v p
    cases pmc with
    | none => rw [e2h_mulVec]; simp [openAt]
    | some m => rw [C28_pmc_e2h, e2h_mulVec]; simp only [openAt]; split <;> simp
  constructor <;> funext p
  · rw [hval, conjVec, hval, conjVec_cE, conj_muV]
    simp only [conjVec, map_mul, map_div₀, conj_openAt, map_neg, conj_I]
    congr 3; ring
  · rw [hval, Pi.neg_apply, conjVec, hval, conjVec_cE, conj_muV]
    simp only [conjVec, map_mul, map_div₀, conj_openAt, map_neg, conj_I, neg_neg]
    rw [neg_mul, div_neg, neg_div, mul_neg]

/-- **C108.** Negative frequencies: the field at the opposite frequency, in conjugate media on the conjugate grid, driven by the conjugate currents, is the
conjugate field (so that the signals they are the spectrum of are real), and so is its magnetic field. -/
theorem C108_negative_frequency (ω : ℂ) (d : Dx sh) (eps : Vec sh) (mu : Option (Vec sh)) (pec pmc : Option (Pos sh → Bool)) (E J : Vec sh)
    (h : eFull ω d eps mu pec pmc *ᵥ E = (-I * ω) • J) :
    eFull (-(starRingEnd ℂ) ω) (conjDx d) (conjVec eps) (mu.map conjVec) pec pmc *ᵥ conjVec E
      = (-I * -(starRingEnd ℂ) ω) • conjVec J ∧
    Fdfd.e2h (-(starRingEnd ℂ) ω) (conjDx d) (mu.map conjVec) pmc *ᵥ conjVec E = conjVec (Fdfd.e2h ω d mu pmc *ᵥ E) := by
  refine ⟨?_, (C108_conjugate_h ω d mu pmc E).1⟩
  rw [(C108_conjugate ω d eps mu pec pmc E).2, h]
  funext p
  simp only [conjVec, Pi.smul_apply, smul_eq_mul, map_mul, map_neg, conj_I]
  ring

/-- **C108.** The grid of the opposite frequency is the conjugate grid: `uniform_grid_scpml` with any real profile. -/
theorem C108_scpml (shape : Fin 3 → ℕ) (th : Fin 3 → ℤ) (ω : ℂ) (epsEff : ℝ) (s : Option (ℝ → ℝ)) (a : Fin 3) (i : Fin (shape a)) :
    (Scpml.uniformGridScpml shape th (-(starRingEnd ℂ) ω) epsEff s a).1 i
        = (starRingEnd ℂ) ((Scpml.uniformGridScpml shape th ω epsEff s a).1 i) ∧
    (Scpml.uniformGridScpml shape th (-(starRingEnd ℂ) ω) epsEff s a).2 i
        = (starRingEnd ℂ) ((Scpml.uniformGridScpml shape th ω epsEff s a).2 i) := by
  simp only [Scpml.uniformGridScpml, Scpml.uniformAxis]
  split
  · simp only [Scpml.sCorrection, map_add, map_div₀, map_mul, map_one, conj_I, conj_ofReal, neg_re, conj_re, mul_neg, ofReal_neg, div_neg, neg_mul,
      neg_div, and_self]
  · simp

/-- **C108.** Time reversal: in lossless media on a real grid at a real frequency, conjugating the electric field and reversing the conjugate of the
magnetic field gives the field of the reversed conjugate currents. -/
theorem C108_time_reversal (ω : ℝ) (d : DxList sh ℝ × DxList sh ℝ) (eps : Pos sh → ℝ) (mu : Option (Pos sh → ℝ)) (pec pmc : Option (Pos sh → Bool))
    (E J : Vec sh) (h : eFull ω (cDx d) (fun p => eps p) (realMu mu) pec pmc *ᵥ E = (-I * ω) • J) :
    eFull ω (cDx d) (fun p => eps p) (realMu mu) pec pmc *ᵥ conjVec E = (-I * ω) • (-conjVec J) ∧
    Fdfd.e2h ω (cDx d) (realMu mu) pmc *ᵥ conjVec E = -conjVec (Fdfd.e2h ω (cDx d) (realMu mu) pmc *ᵥ E) := by
  have hd : conjDx (cDx d) = cDx d := by simp only [conjDx, cDx, conj_ofReal]
  have he : conjVec (fun p => (eps p : ℂ)) = fun p => (eps p : ℂ) := by funext p; simp only [conjVec, conj_ofReal]
  have hm : (realMu mu).map conjVec = realMu mu := by
    cases mu with
    | none => rfl
    | some m => simp only [realMu, Option.map_some]; congr 1; funext p; simp only [conjVec, conj_ofReal]
  have h1 := (C108_conjugate ω (cDx d) (fun p => eps p) (realMu mu) pec pmc E).1
  have h2 := (C108_conjugate_h ω (cDx d) (realMu mu) pmc E).2
  rw [hd, he, hm, conj_ofReal] at h1
  rw [hd, hm, conj_ofReal] at h2
  refine ⟨?_, h2⟩
  rw [h1, h]
  funext p
  simp only [conjVec, Pi.smul_apply, Pi.neg_apply, smul_eq_mul, map_mul, map_neg, conj_I, conj_ofReal]
  ring

/-- **C108.** In a lossless system with a unique solution, currents that are all in phase drive an electric field in quadrature and a magnetic field in
phase with them. -/
theorem C108_quadrature (ω : ℝ) (d : DxList sh ℝ × DxList sh ℝ) (eps : Pos sh → ℝ) (mu : Option (Pos sh → ℝ))
    (pmc : Option (Pos sh → Bool)) (huniq : ∀ v, eFull ω (cDx d) (fun p => eps p) (realMu mu) none pmc *ᵥ v = 0 → v = 0)
    (E : Vec sh) (J : Pos sh → ℝ) (h : eFull ω (cDx d) (fun p => eps p) (realMu mu) none pmc *ᵥ E = (-I * ω) • fun p => (J p : ℂ)) (p : Pos sh) :
    (E p).re = 0 ∧ ((Fdfd.e2h ω (cDx d) (realMu mu) pmc *ᵥ E) p).im = 0 := by
  have hJ : conjVec (fun p => (J p : ℂ)) = fun p => (J p : ℂ) := by funext p; simp only [conjVec, conj_ofReal]
  obtain ⟨h1, h2⟩ := C108_time_reversal ω d eps mu none pmc E _ h
  rw [hJ] at h1
  have h3 : conjVec E = -E := by
    have := huniq (conjVec E + E) (by rw [mulVec_add, h1, h, smul_neg, neg_add_cancel])
    exact eq_neg_of_add_eq_zero_left this
  constructor
  · have := congrArg re (congrFun h3 p)
    simp only [conjVec, conj_re, Pi.neg_apply, neg_re] at this
    linarith
  · rw [h3, mulVec_neg, neg_inj] at h2
    have := congrArg im (congrFun h2 p)
    simp only [conjVec, conj_im] at this
    linarith

/-- A case for `C108_quadrature`: a uniform grid, ε negative (a lossless metal), μ = 1, where the operator is positive definite. -/
example : ∃ (sh : Fin 3 → ℕ) (d : DxList sh ℝ × DxList sh ℝ) (eps : Pos sh → ℝ) (E : Vec sh) (J : Pos sh → ℝ),
    (∀ v, eFull (1 : ℝ) (cDx d) (fun p => eps p) (realMu none) none none *ᵥ v = 0 → v = 0) ∧
    eFull (1 : ℝ) (cDx d) (fun p => eps p) (realMu none) none none *ᵥ E = (-I * (1 : ℝ)) • (fun p => (J p : ℂ)) ∧ E ≠ 0 := by
  have hz : ∀ (v : Vec (fun _ => 1)) (p : Pos (fun _ : Fin 3 => 1)), 
      (eFull (1 : ℝ) (cDx (fun _ _ => (1 : ℝ), fun _ _ => (1 : ℝ))) (fun _ => ((-1 : ℝ) : ℂ)) (realMu none) none none *ᵥ v) p = v p := by
    intro v p
    have hc : ∀ (g : VField (fun _ => 1) ℂ) c x, Functional.curlBack (some (cDx ((fun _ _ => (1 : ℝ), fun _ _ => (1 : ℝ)) : DxList (fun _ : Fin 3 => 1) ℝ × DxList (fun _ => 1) ℝ)).2) g c x = 0 := by
      intro g c x
      revert c
      refine forall_fin3 ?_ ?_ ?_ <;>
        simp only [curlBack_0, curlBack_1, curlBack_2, derivBack_eq, Subsingleton.elim (shiftIdx _ _ x) x, sub_self, zero_div]
    rw [eFull_mulVec]
    have : ∀ g : Vec (fun _ => 1), cH (cDx (fun _ _ => (1 : ℝ), fun _ _ => (1 : ℝ))) g p = 0 := fun g => hc _ _ _
    rw [this]
    push_cast
    ring
  refine ⟨fun _ => 1, (fun _ _ => 1, fun _ _ => 1), fun _ => -1, fun _ => -I, fun _ => 1, fun v hv => ?_, ?_, ?_⟩
  · funext p
    rw [← hz v p]
    exact congrFun hv p
  · funext p
    rw [hz]
    simp
  · intro h
    exact I_ne_zero (neg_eq_zero.1 (congrFun h (0, fun _ => 0)))

end Meanas.Props
