/-
C124: resonances of a cavity: the frequencies at which the wave operator of meanas/fdfd/operators.py:40-96 (`e_full`) has a source-free solution.
-/
import Verif.Props.FdfdSystem
import Verif.Props.FdfdConvergence
import Verif.Lemmas.Pencil
import Mathlib.LinearAlgebra.Eigenspace.Minpoly
import Mathlib.LinearAlgebra.Matrix.Charpoly.Eigs

namespace Meanas.Props

open Matrix Complex Fdfd Spec Solvers

variable {sh : Fin 3 → ℕ}

/-- The field vanishes in the perfect electric conductor. -/
def OffPec (pec : Option (Pos sh → Bool)) (E : Vec sh) : Prop := ∀ m, pec = some m → ∀ p, m p = true → E p = 0

/-- A source-free solution at frequency `ω`. -/
structure IsResonant (ω : ℂ) (dxes : Dx sh) (eps : Vec sh) (mu : Option (Vec sh)) (pec pmc : Option (Pos sh → Bool)) (E : Vec sh) : Prop where
  off : OffPec pec E
  free : eFull ω dxes eps mu pec pmc *ᵥ E = 0

/-- The resonance frequencies. -/
def resonances (dxes : Dx sh) (eps : Vec sh) (mu : Option (Vec sh)) (pec pmc : Option (Pos sh → Bool)) : Set ℂ :=
  {ω | ∃ E, E ≠ 0 ∧ IsResonant ω dxes eps mu pec pmc E}

theorem openAt_cases (m : Option (Pos sh → Bool)) (p : Pos sh) : openAt m p = 0 ∨ openAt m p = 1 := by
  cases m with
  | none => exact .inr rfl
  | some m => simp only [openAt]; split <;> simp

theorem offPec_iff (pec : Option (Pos sh → Bool)) (E : Vec sh) : OffPec pec E ↔ ∀ p, (openAt pec p : ℂ) * E p = E p := by
  cases pec with
  | none => simp [OffPec, openAt]
  | some m =>
    simp only [OffPec, openAt, Option.some.injEq, forall_eq']
    refine forall_congr' fun p => ?_
    by_cases h : m p <;> simp [h, eq_comm]

theorem eFull_apply (ω : ℂ) (dxes : Dx sh) (eps : Vec sh) (mu : Option (Vec sh)) (pec pmc : Option (Pos sh → Bool)) (E : Vec sh) (p : Pos sh) :
    (eFull ω dxes eps mu pec pmc *ᵥ E) p
      = (openAt pec p : ℂ) * ((eFull 0 dxes eps mu none pmc *ᵥ fun q => (openAt pec q : ℂ) * E q) p - ω ^ 2 * (eps p * (openAt pec p * E p))) := by
  have h0 : (diagonal fun p => (openAt pec p : ℂ)) *ᵥ E = fun q => (openAt pec q : ℂ) * E q := by funext q; rw [mulVec_diagonal]
  simp only [eFull, notMask_openAt pec, ← mulVec_mulVec, h0, mulVec_diagonal]
  congr 1
  have hn : notMask (none : Option (Pos sh → Bool)) = 1 := rfl
  simp only [hn, one_mulVec, sub_mulVec, smul_mulVec, Pi.sub_apply, Pi.smul_apply, mulVec_diagonal, smul_eq_mul, zero_pow two_ne_zero, zero_mul,
    sub_zero]

theorem eFull_zero_eps (dxes : Dx sh) (eps eps' : Vec sh) (mu : Option (Vec sh)) (pec pmc : Option (Pos sh → Bool)) :
    eFull 0 dxes eps mu pec pmc = eFull 0 dxes eps' mu pec pmc := by
  simp [eFull]

/-- Difference of the operator at two frequencies on a field vanishing in the conductor. -/
theorem eFull_off (ω : ℂ) (dxes : Dx sh) (eps : Vec sh) (mu : Option (Vec sh)) (pec pmc : Option (Pos sh → Bool)) {E : Vec sh} (hE : OffPec pec E)
    (p : Pos sh) : (eFull ω dxes eps mu pec pmc *ᵥ E) p = (eFull 0 dxes eps mu pec pmc *ᵥ E) p - ω ^ 2 * (eps p * E p) := by
  have h := (offPec_iff pec E).1 hE p
  rw [eFull_apply ω, eFull_apply 0 dxes eps mu pec]
  rcases openAt_cases pec p with h0 | h0
  · rw [h0] at h ⊢
    simp only [ofReal_zero, zero_mul] at h ⊢
    rw [← h]; simp
  · rw [h0] at h ⊢
    simp

theorem mem_resonances_iff (ω : ℂ) (dxes : Dx sh) (eps : Vec sh) (mu : Option (Vec sh)) (pec pmc : Option (Pos sh → Bool)) (E : Vec sh)
    (hE : OffPec pec E) :
    eFull ω dxes eps mu pec pmc *ᵥ E = 0 ↔ ∀ p, (eFull 0 dxes eps mu pec pmc *ᵥ E) p = ω ^ 2 * (eps p * E p) := by
  rw [funext_iff]
  exact forall_congr' fun p => by rw [eFull_off ω dxes eps mu pec pmc hE p, Pi.zero_apply, sub_eq_zero]

/-- C124: a grid has finitely many resonances, whatever the (complex) widths, the media and the conductors. -/
theorem C124_finite (dxes : Dx sh) (eps : Vec sh) (heps : ∀ p, eps p ≠ 0) (mu : Option (Vec sh)) (pec pmc : Option (Pos sh → Bool)) :
    (resonances dxes eps mu pec pmc).Finite := by
  set M : Mat sh := diagonal (fun p => (eps p)⁻¹) * eFull 0 dxes eps mu pec pmc with hM
  have hfin : (spectrum ℂ M).Finite := M.finite_spectrum
  refine Set.Finite.of_finite_fibers (fun ω : ℂ => ω ^ 2) (hfin.subset ?_) ?_
  · rintro _ ⟨ω, ⟨E, h0, hoff, hE⟩, rfl⟩
    rw [mem_resonances_iff ω dxes eps mu pec pmc E hoff] at hE
    rw [spectrum.mem_iff]
    intro hu
    have hinj := Matrix.mulVec_injective_iff_isUnit.2 hu
    refine h0 (hinj ?_)
    rw [mulVec_zero, sub_mulVec, hM, ← mulVec_mulVec]
    funext p
    rw [Pi.sub_apply, mulVec_diagonal, hE p, Algebra.algebraMap_eq_smul_one, smul_mulVec, one_mulVec, Pi.smul_apply, smul_eq_mul, Pi.zero_apply]
    field_simp [heps p]
    ring
  · intro z _
    by_cases h : ∃ a : ℂ, a ^ 2 = z
    · obtain ⟨a, rfl⟩ := h
      refine (Set.toFinite {a, -a}).subset ?_
      rintro b ⟨_, hb⟩
      exact sq_eq_sq_iff_eq_or_eq_neg.1 hb
    · refine Set.finite_empty.subset ?_
      rintro b ⟨_, hb⟩
      exact h ⟨b, hb⟩

/-- C124: off resonance every current outside the conductor drives exactly one field. -/
theorem C124_solvable (ω : ℂ) (dxes : Dx sh) (eps : Vec sh) (mu : Option (Vec sh)) (pec pmc : Option (Pos sh → Bool))
    (hω : ω ∉ resonances dxes eps mu pec pmc) (J : Vec sh) (hJ : OffPec pec J) :
    ∃! E, OffPec pec E ∧ eFull ω dxes eps mu pec pmc *ᵥ E = (-I * ω) • J := by
  set M : Mat sh := eFull ω dxes eps mu pec pmc + diagonal fun p => ((1 - openAt pec p : ℝ) : ℂ) with hM
  have hrow : ∀ E p, (M *ᵥ E) p = (eFull ω dxes eps mu pec pmc *ᵥ E) p + ((1 - openAt pec p : ℝ) : ℂ) * E p := fun E p => by
    rw [hM, add_mulVec, Pi.add_apply, mulVec_diagonal]
  have hz : ∀ (E : Vec sh) p, openAt pec p = 0 → (eFull ω dxes eps mu pec pmc *ᵥ E) p = 0 := fun E p h => by rw [eFull_apply, h]; simp
  have key : ∀ (E b : Vec sh), OffPec pec b → M *ᵥ E = b → OffPec pec E ∧ eFull ω dxes eps mu pec pmc *ᵥ E = b := by
    intro E b hb h
    have hoff : OffPec pec E := by
      rw [offPec_iff] at hb ⊢
      intro p
      rcases openAt_cases pec p with h0 | h0
      · have h1 := congrFun h p
        rw [hrow, hz E p h0, h0, ← hb p, h0] at h1
        simp only [sub_zero, ofReal_one, one_mul, zero_add, ofReal_zero, zero_mul] at h1
        rw [h1, mul_zero]
      · rw [h0]; simp
    refine ⟨hoff, ?_⟩
    funext p
    have h1 := congrFun h p
    rw [hrow] at h1
    rw [← h1, ← (offPec_iff pec E).1 hoff p]
    rcases openAt_cases pec p with h0 | h0 <;> rw [h0] <;> simp
  have hinj : Function.Injective M.mulVec := by
    refine (injective_iff_map_eq_zero M.mulVecLin).2 fun E hE => ?_
    obtain ⟨h1, h2⟩ := key E 0 (fun _ _ _ _ => rfl) hE
    by_contra h0
    exact hω ⟨E, h0, h1, h2⟩
  obtain ⟨E, hE⟩ := Matrix.mulVec_surjective_iff_isUnit.2 (Matrix.mulVec_injective_iff_isUnit.1 hinj) ((-I * ω) • J)
  obtain ⟨h1, h2⟩ := key E _ (fun m hm p hp => by rw [Pi.smul_apply, hJ m hm p hp, smul_zero]) hE
  refine ⟨E, ⟨h1, h2⟩, fun E' ⟨h1', h2'⟩ => ?_⟩
  by_contra hne
  refine hω ⟨E' - E, sub_ne_zero.2 hne, fun m hm p hp => by rw [Pi.sub_apply, h1 m hm p hp, h1' m hm p hp, sub_zero], ?_⟩
  rw [mulVec_sub, h2, h2', sub_self]

/-- C124: conversely, at a resonance no current drives exactly one field. -/
theorem C124_only_if (ω : ℂ) (dxes : Dx sh) (eps : Vec sh) (mu : Option (Vec sh)) (pec pmc : Option (Pos sh → Bool)) (J : Vec sh)
    (h : ∃! E, OffPec pec E ∧ eFull ω dxes eps mu pec pmc *ᵥ E = (-I * ω) • J) : ω ∉ resonances dxes eps mu pec pmc := by
  rintro ⟨F, h0, hoff, hF⟩
  obtain ⟨E, ⟨h1, h2⟩, hu⟩ := h
  refine h0 ?_
  have := hu (E + F) ⟨fun m hm p hp => by rw [Pi.add_apply, h1 m hm p hp, hoff m hm p hp, add_zero], by rw [mulVec_add, h2, hF, add_zero]⟩
  simpa using this

/-- C124: off resonance `generic` with an exact matrix solver returns the driven field, outside the conductor. -/
theorem C124_solver {R : Type} (hasH : Bool) (solve : Mat sh → Vec sh → Opts sh R → Vec sh) (hs : Exact solve) (opts : Opts sh R)
    (P : Problem sh) (hg : GridNz P.dxes) (hadj : P.adjoint = false) (hω : P.ω ∉ resonances P.dxes P.eps P.mu P.pec P.pmc) (hJ : OffPec P.pec P.J) :
    ∃ E F, (generic hasH solve opts P).1 = .ok F ∧ OffPec P.pec E ∧ eFull P.ω P.dxes P.eps P.mu P.pec P.pmc *ᵥ E = (-I * P.ω) • P.J ∧
      ∀ p, openAt P.pec p = 1 → F p = E p := by
  obtain ⟨E, ⟨h1, h2⟩, hu⟩ := C124_solvable P.ω P.dxes P.eps P.mu P.pec P.pmc hω P.J hJ
  obtain ⟨F, hF, hF2⟩ := C32_solves_partial hasH solve hs opts P hg hadj ⟨E, h2⟩
  refine ⟨E, F, hF, h1, h2, ?_⟩
  set G : Vec sh := fun p => openAt P.pec p * F p with hG
  have hGo : OffPec P.pec G := (offPec_iff _ _).2 fun p => by
    rcases openAt_cases P.pec p with h0 | h0 <;> simp [hG, h0]
  have hGF : eFull P.ω P.dxes P.eps P.mu P.pec P.pmc *ᵥ G = eFull P.ω P.dxes P.eps P.mu P.pec P.pmc *ᵥ F := by
    funext p
    rw [eFull_apply, eFull_apply P.ω P.dxes P.eps P.mu P.pec P.pmc F]
    have : (fun q => (openAt P.pec q : ℂ) * G q) = fun q => (openAt P.pec q : ℂ) * F q := (funext fun q => (offPec_iff _ _).1 hGo q)
    rw [this, congrFun this p]
  have hGE := hu G ⟨hGo, hGF.trans hF2⟩
  intro p hp
  rw [← hGE, hG]
  simp [hp]

/-! ### Lossless cavities -/

/-- Permeability values. -/
def muR (mu : Option (Pos sh → ℝ)) (p : Pos sh) : ℝ :=
  match mu with
  | none => 1
  | some m => m p

theorem muV_realMu (mu : Option (Pos sh → ℝ)) (p : Pos sh) : muV (realMu mu) p = muR mu p := by
  cases mu <;> simp [realMu, muR]

/-- Real permittivity as a complex vector. -/
noncomputable def rEps (eps : Pos sh → ℝ) : Vec sh := fun p => (eps p : ℂ)

variable (d : DxList sh ℝ × DxList sh ℝ) (hd : PosGrid d) (eps : Pos sh → ℝ) (mu : Option (Pos sh → ℝ)) (pec pmc : Option (Pos sh → Bool))

/-- The magnetic part of the form, at unit frequency. -/
noncomputable def curlEnergy (E : Vec sh) : ℝ :=
  ∑ p : Pos sh, volH d.1 d.2 p.1 p.2 * openAt pmc p * (muR mu p)⁻¹ * normSq (cE (cDx d) E p)

include hd in
theorem curlEnergy_nonneg (hmu : ∀ p, 0 < muR mu p) (E : Vec sh) : 0 ≤ curlEnergy d mu pmc E := by
  refine Finset.sum_nonneg fun p _ => mul_nonneg (mul_nonneg (mul_nonneg (hd.volH p.1 p.2).le ?_) (inv_pos.2 (hmu p)).le) (normSq_nonneg _)
  rcases openAt_cases pmc p with h | h <;> rw [h] <;> norm_num

include hd in
/-- The form of the operator on a field vanishing in the conductor. -/
theorem quad_off (ω : ℂ) {E : Vec sh} (hE : OffPec pec E) :
    ∑ p : Pos sh, ((volE d.1 d.2 p.1 p.2 : ℝ) : ℂ) * ((starRingEnd ℂ) (E p) * (eFull ω (cDx d) (rEps eps) (realMu mu) pec pmc *ᵥ E) p)
      = (curlEnergy d mu pmc E : ℂ) - ω ^ 2 * ((∑ p : Pos sh, volE d.1 d.2 p.1 p.2 * eps p * normSq (E p) : ℝ) : ℂ) := by
  have hE' := (offPec_iff pec E).1 hE
  rw [quad_form_eq ω d hd (rEps eps) mu pec pmc E, funext hE', curlEnergy]
  congr 1
  · congr 1
    refine Finset.sum_congr rfl fun p _ => ?_
    rw [muV_realMu, ← ofReal_inv, ofReal_re]
  · push_cast
    rw [Finset.mul_sum]
    refine Finset.sum_congr rfl fun p _ => ?_
    rw [hE' p, rEps]; ring

theorem eps_energy_pos (hd : PosGrid d) (heps : ∀ p, 0 < eps p) {E : Vec sh} (h0 : E ≠ 0) : 0 < ∑ p : Pos sh, volE d.1 d.2 p.1 p.2 * eps p * normSq (E p) := by
  obtain ⟨p, hp⟩ := Function.ne_iff.1 h0
  exact Finset.sum_pos' (fun p _ => mul_nonneg (mul_pos (hd.vol p.1 p.2) (heps p)).le (normSq_nonneg _))
    ⟨p, Finset.mem_univ p, mul_pos (mul_pos (hd.vol p.1 p.2) (heps p)) (normSq_pos.2 hp)⟩

include hd in
/-- C124: the square of a resonance frequency is the ratio of the energies of the field. -/
theorem C124_rayleigh (heps : ∀ p, 0 < eps p) (ω : ℂ) {E : Vec sh} (h0 : E ≠ 0)
    (h : IsResonant ω (cDx d) (rEps eps) (realMu mu) pec pmc E) :
    ω ^ 2 = ((curlEnergy d mu pmc E / ∑ p : Pos sh, volE d.1 d.2 p.1 p.2 * eps p * normSq (E p) : ℝ) : ℂ) := by
  have hq := quad_off d hd eps mu pec pmc ω h.off
  rw [h.free] at hq
  simp only [Pi.zero_apply, mul_zero, Finset.sum_const_zero] at hq
  have hS := eps_energy_pos d eps hd heps h0
  generalize (∑ p : Pos sh, volE d.1 d.2 p.1 p.2 * eps p * normSq (E p)) = S at hq hS ⊢
  rw [ofReal_div, eq_div_iff (ofReal_ne_zero.2 hS.ne')]
  exact (sub_eq_zero.1 hq.symm).symm

include hd in
/-- C124: the resonances of a lossless cavity are real. -/
theorem C124_real (heps : ∀ p, 0 < eps p) (hmu : ∀ p, 0 < muR mu p) (ω : ℂ) (h : ω ∈ resonances (cDx d) (rEps eps) (realMu mu) pec pmc) :
    ω.im = 0 := by
  obtain ⟨E, h0, hE⟩ := h
  have h1 := C124_rayleigh d hd eps mu pec pmc heps ω h0 hE
  have h2 : 0 ≤ curlEnergy d mu pmc E / ∑ p : Pos sh, volE d.1 d.2 p.1 p.2 * eps p * normSq (E p) :=
    div_nonneg (curlEnergy_nonneg d hd mu pmc hmu E) (eps_energy_pos d eps hd heps h0).le
  generalize (curlEnergy d mu pmc E / ∑ p : Pos sh, volE d.1 d.2 p.1 p.2 * eps p * normSq (E p)) = r at h1 h2
  have hre := congrArg re h1
  have him := congrArg im h1
  rw [sq, mul_re, ofReal_re] at hre
  rw [sq, mul_im, ofReal_im] at him
  have him' : ω.re * ω.im = 0 := by linarith
  rcases mul_eq_zero.1 him' with h3 | h3
  · rw [h3] at hre
    have : ω.im * ω.im ≤ 0 := by linarith
    exact mul_self_eq_zero.1 (le_antisymm this (mul_self_nonneg _))
  · exact h3

/-- Weighted operator at zero frequency. -/
noncomputable def stiff : Mat sh := diagonal (pSquared (cDx d)) * eFull 0 (cDx d) (rEps eps) (realMu mu) pec pmc

theorem pSquared_real (p : Pos sh) : pSquared (cDx d) p = ((volE d.1 d.2 p.1 p.2 : ℝ) : ℂ) := by
  rw [← volE_cDx]; exact pSquared_eq _ p.1 p.2

theorem curl_real : (OperatorsS.curlForward (cDx d).1)ᴴ = (OperatorsS.curlForward (cDx d).1 : Mat sh)ᵀ := by
  ext i j
  rw [conjTranspose_apply, transpose_apply]
  have h1 : ∀ u : Vec sh, OperatorsS.curlForward (cDx d).1 *ᵥ star u = star (OperatorsS.curlForward (cDx d).1 *ᵥ u) := fun u => by
    rw [curlForward_mulVec, curlForward_mulVec]
    exact funext fun p => conj_curlForward d.1 (unS u) p.1 p.2
  have h2 := congrFun (h1 (Pi.single i 1)) j
  have h3 : star (Pi.single i 1 : Vec sh) = Pi.single i 1 := by
    funext q; by_cases h : q = i
    · subst h; simp
    · simp [h]
  rw [h3, Pi.star_apply, mulVec_single_one] at h2
  exact h2.symm

include hd in
theorem stiff_hermitian : (stiff d eps mu pec pmc).IsHermitian := by
  have hreal : ∀ f : Pos sh → ℝ, (diagonal fun p => (f p : ℂ) : Mat sh)ᴴ = diagonal fun p => (f p : ℂ) := Pencil.dg_conj
  rw [stiff, vol_eFull 0 (cDx d) hd.nz (rEps eps) (realMu mu) pec pmc _ _ (notMask_openAt pec) (notMask_openAt pmc)]
  have hD : (fun p : Pos sh => volH (cDx d).1 (cDx d).2 p.1 p.2 * (openAt pmc p : ℂ) * (muV (realMu mu) p)⁻¹)
      = fun p => ((volH d.1 d.2 p.1 p.2 * openAt pmc p * (muR mu p)⁻¹ : ℝ) : ℂ) := by
    funext p; rw [volH_cDx, muV_realMu]; push_cast; ring
  rw [hD, zero_pow two_ne_zero, zero_smul, sub_zero, IsHermitian]
  have hC := curl_real d
  have hC' : ((OperatorsS.curlForward (cDx d).1 : Mat sh)ᵀ)ᴴ = OperatorsS.curlForward (cDx d).1 := by rw [← hC, conjTranspose_conjTranspose]
  simp only [conjTranspose_mul, hreal, hC, hC', Matrix.mul_assoc]

/-- The mass of a cell. -/
noncomputable def mass (p : Pos sh) : ℝ := volE d.1 d.2 p.1 p.2 * eps p

include hd in
/-- A resonance is an eigenvalue of the pencil. -/
theorem resonant_iff (ω : ℂ) {E : Vec sh} (hE : OffPec pec E) :
    eFull ω (cDx d) (rEps eps) (realMu mu) pec pmc *ᵥ E = 0 ↔ stiff d eps mu pec pmc *ᵥ E = ω ^ 2 • (Pencil.dg (mass d eps) *ᵥ E) := by
  rw [mem_resonances_iff ω _ _ _ pec pmc E hE, funext_iff]
  refine forall_congr' fun p => ?_
  have hv : ((volE d.1 d.2 p.1 p.2 : ℝ) : ℂ) ≠ 0 := ofReal_ne_zero.2 (hd.vol p.1 p.2).ne'
  rw [stiff, ← mulVec_mulVec, mulVec_diagonal, Pi.smul_apply, smul_eq_mul, Pencil.dg_mulVec, mass, pSquared_real, ofReal_mul, rEps]
  constructor
  · intro h; rw [h]; ring
  · intro h; refine mul_left_cancel₀ hv (h.trans ?_); ring

theorem mass_pos (hd : PosGrid d) (heps : ∀ p, 0 < eps p) (p : Pos sh) : 0 < mass d eps p := mul_pos (hd.vol p.1 p.2) (heps p)

include hd in
/-- C124: fields resonant at different frequencies are orthogonal. -/
theorem C124_orthogonal (heps : ∀ p, 0 < eps p) (ω₁ ω₂ : ℂ) (hne : ω₁ ^ 2 ≠ ω₂ ^ 2) {E₁ E₂ : Vec sh}
    (h₁ : IsResonant ω₁ (cDx d) (rEps eps) (realMu mu) pec pmc E₁) (h₂ : IsResonant ω₂ (cDx d) (rEps eps) (realMu mu) pec pmc E₂) :
    ∑ p : Pos sh, ((volE d.1 d.2 p.1 p.2 * eps p : ℝ) : ℂ) * ((starRingEnd ℂ) (E₁ p) * E₂ p) = 0 := by
  by_cases h0 : E₁ = 0
  · simp [h0]
  have hr : (starRingEnd ℂ) (ω₁ ^ 2) = ω₁ ^ 2 := by
    rw [C124_rayleigh d hd eps mu pec pmc heps ω₁ h0 h₁, conj_ofReal]
  have e1 := (resonant_iff d hd eps mu pec pmc ω₁ h₁.off).1 h₁.free
  have e2 := (resonant_iff d hd eps mu pec pmc ω₂ h₂.off).1 h₂.free
  have hK := stiff_hermitian d hd eps mu pec pmc
  have h3 : star E₁ ⬝ᵥ (stiff d eps mu pec pmc *ᵥ E₂) = star (stiff d eps mu pec pmc *ᵥ E₁) ⬝ᵥ E₂ := by
    rw [star_mulVec, hK.eq, dotProduct_mulVec]
  rw [e1, e2, star_smul, smul_dotProduct, dotProduct_smul, RCLike.star_def, hr, star_mulVec, Pencil.dg_conj, ← dotProduct_mulVec] at h3
  have h4 : star E₁ ⬝ᵥ (Pencil.dg (mass d eps) *ᵥ E₂) = 0 := by
    have : (ω₂ ^ 2 - ω₁ ^ 2) * (star E₁ ⬝ᵥ (Pencil.dg (mass d eps) *ᵥ E₂)) = 0 := by
      rw [sub_mul]; simp only [smul_eq_mul] at h3; rw [h3, sub_self]
    exact (mul_eq_zero.1 this).resolve_left (sub_ne_zero.2 (Ne.symm hne))
  rw [← h4]
  simp only [dotProduct, Pencil.dg_mulVec, mass]
  exact Finset.sum_congr rfl fun p _ => by rw [Pi.star_apply, RCLike.star_def]; ring

/-- The span of the fields resonant at real frequencies with `ω² ≤ w`. -/
def resonantSpan (w : ℝ) : Submodule ℂ (Vec sh) :=
  Submodule.span ℂ {E | ∃ ω : ℝ, ω ^ 2 ≤ w ∧ IsResonant ω (cDx d) (rEps eps) (realMu mu) pec pmc E}

/-- The number of resonances with `ω² ≤ w`, counted with multiplicity. -/
noncomputable def resonanceCount (w : ℝ) : ℕ := Module.finrank ℂ (resonantSpan d eps mu pec pmc w)

/-- The stiffness with the conductor's cells moved out of the way. -/
noncomputable def stiffG (g : Pos sh → ℝ) : Mat sh := stiff d eps mu pec pmc + Pencil.dg fun p => (1 - openAt pec p) * g p

include hd in
theorem stiffG_hermitian (g : Pos sh → ℝ) : (stiffG d eps mu pec pmc g).IsHermitian :=
  (stiff_hermitian d hd eps mu pec pmc).add (Pencil.dg_conj _)

theorem stiffG_off (g : Pos sh → ℝ) {E : Vec sh} (hE : OffPec pec E) : stiffG d eps mu pec pmc g *ᵥ E = stiff d eps mu pec pmc *ᵥ E := by
  rw [stiffG, add_mulVec]
  funext p
  rw [Pi.add_apply, Pencil.dg_mulVec, ← (offPec_iff pec E).1 hE p]
  rcases openAt_cases pec p with h | h <;> rw [h] <;> simp

theorem stiff_row (E : Vec sh) (p : Pos sh) (h : openAt pec p = 0) : (stiff d eps mu pec pmc *ᵥ E) p = 0 := by
  rw [stiff, ← mulVec_mulVec, mulVec_diagonal, eFull_apply, h]; simp

include hd in
theorem stiff_form {E : Vec sh} (hE : OffPec pec E) : (star E ⬝ᵥ (stiff d eps mu pec pmc *ᵥ E)).re = curlEnergy d mu pmc E := by
  have h := quad_off d hd eps mu pec pmc 0 hE
  rw [zero_pow two_ne_zero, zero_mul, sub_zero] at h
  have : star E ⬝ᵥ (stiff d eps mu pec pmc *ᵥ E) = (curlEnergy d mu pmc E : ℂ) := by
    rw [← h, stiff, ← mulVec_mulVec, dotProduct]
    refine Finset.sum_congr rfl fun p _ => ?_
    rw [mulVec_diagonal, pSquared_real, Pi.star_apply, RCLike.star_def]; ring
  rw [this, ofReal_re]

include hd in
theorem modes_eq (heps : ∀ p, 0 < eps p) (hmu : ∀ p, 0 < muR mu p) (w : ℝ) (g : Pos sh → ℝ) (hg : ∀ p, w * mass d eps p < g p) :
    Pencil.modes (stiffG d eps mu pec pmc g) (mass d eps) w = resonantSpan d eps mu pec pmc w := by
  apply le_antisymm
  · refine Submodule.span_le.2 ?_
    rintro E ⟨l, hl, hE⟩
    have hoff : OffPec pec E := (offPec_iff pec E).2 fun p => by
      rcases openAt_cases pec p with h | h
      · have := congrFun hE p
        rw [stiffG, add_mulVec, Pi.add_apply, stiff_row d eps mu pec pmc E p h, Pencil.dg_mulVec, h, Pi.smul_apply, Pencil.dg_mulVec, smul_eq_mul,
          zero_add, sub_zero, one_mul] at this
        have h2 : ((g p - l * mass d eps p : ℝ) : ℂ) * E p = 0 := by push_cast; rw [sub_mul, this]; ring
        have h3 : g p - l * mass d eps p ≠ 0 := by
          have := mul_le_mul_of_nonneg_right hl (mass_pos d eps hd heps p).le
          have := hg p
          intro h; linarith
        rw [(mul_eq_zero.1 h2).resolve_left (ofReal_ne_zero.2 h3), mul_zero]
      · rw [h]; simp
    by_cases h0 : E = 0
    · rw [h0]; exact Submodule.zero_mem _
    rw [stiffG_off d eps mu pec pmc g hoff] at hE
    have hl0 : 0 ≤ l := by
      have h1 := stiff_form d hd eps mu pec pmc hoff
      rw [hE, dotProduct_smul] at h1
      have h2 : star E ⬝ᵥ (Pencil.dg (mass d eps) *ᵥ E) = ((∑ p : Pos sh, volE d.1 d.2 p.1 p.2 * eps p * normSq (E p) : ℝ) : ℂ) := by
        rw [dotProduct]; push_cast
        refine Finset.sum_congr rfl fun p _ => ?_
        rw [Pencil.dg_mulVec, mass, Pi.star_apply, RCLike.star_def, ← mul_conj]; push_cast; ring
      rw [h2, smul_eq_mul, ← ofReal_mul, ofReal_re] at h1
      have h3 := curlEnergy_nonneg d hd mu pmc hmu E
      rw [← h1] at h3
      exact nonneg_of_mul_nonneg_left h3 (eps_energy_pos d eps hd heps h0)
    refine Submodule.subset_span ⟨Real.sqrt l, by rw [Real.sq_sqrt hl0]; exact hl, hoff, ?_⟩
    rw [resonant_iff d hd eps mu pec pmc _ hoff, hE, ← ofReal_pow, Real.sq_sqrt hl0]
  · refine Submodule.span_le.2 ?_
    rintro E ⟨ω, hω, hE⟩
    refine Submodule.subset_span ⟨ω ^ 2, hω, ?_⟩
    rw [stiffG_off d eps mu pec pmc g hE.off, (resonant_iff d hd eps mu pec pmc _ hE.off).1 hE.free, ofReal_pow]

theorem resonantSpan_off (w : ℝ) {E : Vec sh} (hE : E ∈ resonantSpan d eps mu pec pmc w) : OffPec pec E := by
  refine Submodule.span_induction (p := fun E _ => OffPec pec E) ?_ ?_ ?_ ?_ hE
  · rintro E ⟨_, _, h⟩; exact h.off
  · intro _ _ _ _; rfl
  · intro x y _ _ hx hy m hm p hp; rw [Pi.add_apply, hx m hm p hp, hy m hm p hp, add_zero]
  · intro a x _ hx m hm p hp; rw [Pi.smul_apply, hx m hm p hp, smul_zero]

/-- C124: adding dielectric or magnetic material, removing electric conductor or adding magnetic conductor lowers every resonance: if `ε ≤ t ε'`, `μ ≤ μ'`,
the second cavity's electric conductor is contained in the first's and its magnetic conductor contains the first's, then the second cavity has at least as
many resonances with `ω² ≤ t w` as the first has with `ω² ≤ w`. -/
theorem C124_monotone (heps : ∀ p, 0 < eps p) (hmu : ∀ p, 0 < muR mu p) (hd : PosGrid d) (eps' : Pos sh → ℝ) (mu' : Option (Pos sh → ℝ)) (pec' pmc' : Option (Pos sh → Bool))
    (heps' : ∀ p, 0 < eps' p) (t : ℝ) (he : ∀ p, eps p ≤ t * eps' p) (hm : ∀ p, muR mu p ≤ muR mu' p)
    (hpec : ∀ p, openAt pec p ≤ openAt pec' p) (hpmc : ∀ p, openAt pmc' p ≤ openAt pmc p) (w : ℝ) :
    resonanceCount d eps mu pec pmc w ≤ resonanceCount d eps' mu' pec' pmc' (t * w) := by
  rcases lt_or_ge w 0 with hw | hw
  · have : resonantSpan d eps mu pec pmc w = ⊥ := by
      refine Submodule.span_eq_bot.2 ?_
      rintro E ⟨ω, hω, _⟩
      exact absurd (sq_nonneg ω) (by linarith)
    rw [resonanceCount, this, finrank_bot]
    exact Nat.zero_le _
  have hmu' : ∀ p, 0 < muR mu' p := fun p => (hmu p).trans_le (hm p)
  have e1 := modes_eq d hd eps mu pec pmc heps hmu w (fun p => w * mass d eps p + 1) (fun p => by linarith)
  have e2 := modes_eq d hd eps' mu' pec' pmc' heps' hmu' (t * w) (fun p => t * w * mass d eps' p + 1) (fun p => by linarith)
  rw [resonanceCount, resonanceCount, ← e1, ← e2]
  refine Pencil.finrank_modes_le (stiffG_hermitian d hd eps mu pec pmc _) (stiffG_hermitian d hd eps' mu' pec' pmc' _)
    (mass_pos d eps hd heps) (mass_pos d eps' hd heps') ?_ ?_
  · intro E hE
    rw [e1] at hE
    have hoff := resonantSpan_off d eps mu pec pmc w hE
    have hoff' : OffPec pec' E := (offPec_iff _ _).2 fun p => by
      have h1 := (offPec_iff _ _).1 hoff p
      have h2 := hpec p
      rcases openAt_cases pec p with h | h
      · rw [h] at h1; rw [← h1]; simp
      · rcases openAt_cases pec' p with h' | h'
        · rw [h, h'] at h2; norm_num at h2
        · rw [h']; simp
    rw [stiffG_off d eps mu pec pmc _ hoff, stiffG_off d eps' mu' pec' pmc' _ hoff', stiff_form d hd eps mu pec pmc hoff,
      stiff_form d hd eps' mu' pec' pmc' hoff', curlEnergy, curlEnergy]
    refine Finset.sum_le_sum fun p _ => mul_le_mul_of_nonneg_right ?_ (normSq_nonneg _)
    have ho : 0 ≤ openAt pmc p := by rcases openAt_cases pmc p with h | h <;> rw [h] <;> norm_num
    exact mul_le_mul (mul_le_mul_of_nonneg_left (hpmc p) (hd.volH p.1 p.2).le) (inv_anti₀ (hmu p) (hm p)) (inv_pos.2 (hmu' p)).le
      (mul_nonneg (hd.volH p.1 p.2).le ho)
  · intro p
    rw [mass, mass]
    have := mul_le_mul_of_nonneg_left (he p) (mul_nonneg hw (hd.vol p.1 p.2).le)
    nlinarith

include hd in
/-- C124: the resonant fields are complete: every field vanishing in the conductor is a superposition of resonant fields. -/
theorem C124_complete (heps : ∀ p, 0 < eps p) (hmu : ∀ p, 0 < muR mu p) :
    ∃ w, ∀ E, OffPec pec E → E ∈ resonantSpan d eps mu pec pmc w := by
  obtain ⟨F, l, h1, h2⟩ := Pencil.exists_diag (stiff_hermitian d hd eps mu pec pmc) (mass_pos d eps hd heps)
  refine ⟨∑ j, |l j|, fun E hE => ?_⟩
  have hs : ∀ v : Vec sh, stiff d eps mu pec pmc *ᵥ (fun p => openAt pec p * v p) = stiff d eps mu pec pmc *ᵥ v := fun v => by
    funext p
    rw [stiff, ← mulVec_mulVec, ← mulVec_mulVec, mulVec_diagonal, mulVec_diagonal, eFull_apply, eFull_apply 0 _ _ _ pec _ v]
    have : (fun q => (openAt pec q : ℂ) * (openAt pec q * v q)) = fun q => (openAt pec q : ℂ) * v q := by
      funext q; rcases openAt_cases pec q with h | h <;> rw [h] <;> simp
    rw [this, congrFun this p]
  set c := (Fᴴ * Pencil.dg (mass d eps)) *ᵥ E with hc
  have hx := Pencil.expand h1 E
  have hsum : E = ∑ j, c j • fun p => (openAt pec p : ℂ) * F p j := by
    funext p
    rw [← (offPec_iff pec E).1 hE p, Finset.sum_apply]
    conv_lhs => rw [← hx, ← hc, mulVec, dotProduct, Finset.mul_sum]
    exact Finset.sum_congr rfl fun j _ => by rw [Pi.smul_apply, smul_eq_mul]; ring
  rw [hsum]
  refine Submodule.sum_mem _ fun j _ => Submodule.smul_mem _ _ ?_
  set v : Vec sh := fun p => openAt pec p * F p j with hv
  have hoff : OffPec pec v := (offPec_iff _ _).2 fun p => by
    rcases openAt_cases pec p with h | h <;> simp [hv, h]
  have hmem : v ∈ Pencil.modes (stiffG d eps mu pec pmc fun p => (∑ j, |l j|) * mass d eps p + 1) (mass d eps) (∑ j, |l j|) := by
    refine Submodule.subset_span ⟨l j, (le_abs_self _).trans (Finset.single_le_sum (f := fun j => |l j|) (fun _ _ => abs_nonneg _) (Finset.mem_univ j)), ?_⟩
    rw [stiffG_off d eps mu pec pmc _ hoff, hv, hs fun p => F p j]
    funext p
    have h3 : (stiff d eps mu pec pmc *ᵥ fun p => F p j) p = mass d eps p * F p j * l j := by
      have := congrFun (congrFun h2 p) j
      rw [Pencil.mul_dg] at this
      refine (show _ = _ from this).trans ?_
      rw [Pencil.dg, diagonal_mul]
    rw [Pi.smul_apply, Pencil.dg_mulVec, smul_eq_mul]
    rcases openAt_cases pec p with h | h
    · rw [stiff_row d eps mu pec pmc _ p h, h]; simp
    · rw [h3, h]; push_cast; ring
  rwa [modes_eq d hd eps mu pec pmc heps hmu _ _ fun p => by linarith] at hmem

include hd in
/-- C124: without electric conductor there are as many resonances, with multiplicity, as field components. -/
theorem C124_total (heps : ∀ p, 0 < eps p) (hmu : ∀ p, 0 < muR mu p) : ∃ w, resonanceCount d eps mu none pmc w = Fintype.card (Pos sh) := by
  obtain ⟨w, h⟩ := C124_complete d hd eps mu none pmc heps hmu
  refine ⟨w, ?_⟩
  have : resonantSpan d eps mu none pmc w = ⊤ := Submodule.eq_top_iff'.2 fun E => h E fun m hm => by simp at hm
  rw [resonanceCount, this, finrank_top, Module.finrank_fintype_fun_eq_card]

/-- The hypotheses are met: the vacuum on a unit grid is lossless. A second medium with one brighter cell is compared with it by `C124_monotone`. -/
example (q : Pos sh) : ∃ w, 0 < Fintype.card (Pos sh) ∧
    Fintype.card (Pos sh) ≤ resonanceCount (sh := sh) (fun _ _ => 1, fun _ _ => 1) (fun p => if p = q then 4 else 1) none none none w := by
  have hd : PosGrid (sh := sh) (fun _ _ => 1, fun _ _ => 1) := ⟨fun _ _ => one_pos, fun _ _ => one_pos⟩
  obtain ⟨w, h⟩ := C124_total _ hd (fun _ : Pos sh => 1) none none (fun _ => one_pos) (fun _ => one_pos)
  refine ⟨1 * w, Fintype.card_pos_iff.2 ⟨q⟩, h.symm.le.trans ?_⟩
  exact C124_monotone _ _ none none none (fun _ => one_pos) (fun _ => one_pos) hd _ none none none (fun p => by split <;> norm_num) 1
    (fun p => by split <;> norm_num) (fun _ => le_rfl) (fun _ => le_rfl) (fun _ => le_rfl) w

end Meanas.Props
