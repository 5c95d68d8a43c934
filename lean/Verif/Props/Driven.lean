/-
C142: driven fields as sums over the resonances, and Foster's reactance theorem, for `e_full` of meanas/fdfd/operators.py:40-96.
-/
import Verif.Props.Resonances
import Verif.Props.Perturbation
import Verif.Props.HomogeneousSpectrum
import Mathlib.Analysis.Calculus.Deriv.MeanValue
import Mathlib.Analysis.Calculus.Deriv.Inv
import Mathlib.Topology.Order.IntermediateValue

namespace Meanas.Props

open Matrix Complex Fdfd Spec Solvers

variable {sh : Fin 3 → ℕ}

/-- The field `E` driven by the current `J` at frequency `ω`. -/
structure IsDriven (ω : ℂ) (dxes : Dx sh) (eps : Vec sh) (mu : Option (Vec sh)) (pec pmc : Option (Pos sh → Bool)) (J E : Vec sh) : Prop where
  off : OffPec pec E
  eqn : eFull ω dxes eps mu pec pmc *ᵥ E = (-I * ω) • J

/-- `∫ F* · J dV`. -/
noncomputable def coupling (d : DxList sh ℝ × DxList sh ℝ) (F J : Vec sh) : ℂ :=
  ∑ p : Pos sh, ((volE d.1 d.2 p.1 p.2 : ℝ) : ℂ) * ((starRingEnd ℂ) (F p) * J p)

/-- `∫ ε F* · E dV`. -/
noncomputable def epsOverlap (d : DxList sh ℝ × DxList sh ℝ) (eps : Pos sh → ℝ) (F E : Vec sh) : ℂ :=
  ∑ p : Pos sh, ((volE d.1 d.2 p.1 p.2 * eps p : ℝ) : ℂ) * ((starRingEnd ℂ) (F p) * E p)

section
variable (d : DxList sh ℝ × DxList sh ℝ) (hd : PosGrid d) (eps : Pos sh → ℝ) (mu : Option (Pos sh → ℝ)) (pec pmc : Option (Pos sh → Bool))

theorem driven_stiff (ω : ℂ) {J E : Vec sh} (h : IsDriven ω (cDx d) (rEps eps) (realMu mu) pec pmc J E) (p : Pos sh) :
    (stiff d eps mu pec pmc *ᵥ E) p = -I * ω * ((volE d.1 d.2 p.1 p.2 : ℝ) * J p) + ω ^ 2 * (mass d eps p * E p) := by
  have h1 := eFull_off ω (cDx d) (rEps eps) (realMu mu) pec pmc h.off p
  rw [h.eqn, Pi.smul_apply, smul_eq_mul] at h1
  rw [stiff, ← mulVec_mulVec, mulVec_diagonal, pSquared_real, mass, ofReal_mul]
  rw [eq_sub_iff_add_eq] at h1
  rw [← h1, rEps]; ring

theorem epsOverlap_eq (F E : Vec sh) : epsOverlap d eps F E = star F ⬝ᵥ (Pencil.dg (mass d eps) *ᵥ E) := by
  simp only [epsOverlap, dotProduct, Pencil.dg_mulVec, mass, Pi.star_apply, RCLike.star_def]
  exact Finset.sum_congr rfl fun p _ => by ring

theorem stiff_swap (hd : PosGrid d) (F E : Vec sh) : star F ⬝ᵥ (stiff d eps mu pec pmc *ᵥ E) = star (stiff d eps mu pec pmc *ᵥ F) ⬝ᵥ E := by
  rw [star_mulVec, ← dotProduct_mulVec, (stiff_hermitian d hd eps mu pec pmc).eq]

include hd in
/-- **C142.** Amplitude with which a current excites a resonance: `(ω_k² - ω²) ∫ ε E_k* E dV = -iω ∫ E_k* J dV`. -/
theorem C142_amplitude (heps : ∀ p, 0 < eps p) (ω ωk : ℂ) {F J E : Vec sh} (hF : IsResonant ωk (cDx d) (rEps eps) (realMu mu) pec pmc F)
    (h : IsDriven ω (cDx d) (rEps eps) (realMu mu) pec pmc J E) :
    (ωk ^ 2 - ω ^ 2) * epsOverlap d eps F E = -I * ω * coupling d F J := by
  by_cases h0 : F = 0
  · simp [h0, epsOverlap, coupling]
  have hr : (starRingEnd ℂ) (ωk ^ 2) = ωk ^ 2 := by rw [C124_rayleigh d hd eps mu pec pmc heps ωk h0 hF, conj_ofReal]
  have e1 := (resonant_iff d hd eps mu pec pmc ωk hF.off).1 hF.free
  have h1 := stiff_swap d eps mu pec pmc hd F E
  rw [e1] at h1
  have h2 : star (ωk ^ 2 • (Pencil.dg (mass d eps) *ᵥ F)) ⬝ᵥ E = ωk ^ 2 * epsOverlap d eps F E := by
    simp only [epsOverlap, dotProduct, Pi.star_apply, Pi.smul_apply, smul_eq_mul, Pencil.dg_mulVec, RCLike.star_def, map_mul, hr, conj_ofReal, Finset.mul_sum, mass]
    exact Finset.sum_congr rfl fun p _ => by ring
  have h3 : star F ⬝ᵥ (stiff d eps mu pec pmc *ᵥ E) = -I * ω * coupling d F J + ω ^ 2 * epsOverlap d eps F E := by
    simp only [dotProduct, driven_stiff d eps mu pec pmc ω h, coupling, epsOverlap, Finset.mul_sum, ← Finset.sum_add_distrib, Pi.star_apply, RCLike.star_def, mass]
    exact Finset.sum_congr rfl fun p _ => by ring
  rw [h2, h3] at h1
  linear_combination -h1

include hd in
/-- An orthonormal basis of resonant fields for the fields vanishing in the conductor. -/
theorem resonant_basis (heps : ∀ p, 0 < eps p) (hmu : ∀ p, 0 < muR mu p) :
    ∃ (ι : Type) (_ : Fintype ι) (F : ι → Vec sh) (w : ι → ℝ),
      (∀ j, 0 ≤ w j ∧ IsResonant (w j : ℂ) (cDx d) (rEps eps) (realMu mu) pec pmc (F j)) ∧
      (∀ j, epsOverlap d eps (F j) (F j) = 1) ∧ (∀ i j, i ≠ j → epsOverlap d eps (F i) (F j) = 0) ∧
      ∀ E, OffPec pec E → E = ∑ j, epsOverlap d eps (F j) E • F j := by
  classical
  have hm := mass_pos d eps hd heps
  obtain ⟨F, l, h1, h2⟩ := Pencil.exists_diag (stiffG_hermitian d hd eps mu pec pmc fun p => -mass d eps p) hm
  have hcol : ∀ j, stiffG d eps mu pec pmc (fun p => -mass d eps p) *ᵥ (fun p => F p j) = fun p => (l j : ℂ) * (mass d eps p * F p j) := by
    intro j
    funext p
    have := congrFun (congrFun h2 p) j
    rw [Pencil.mul_dg, Pencil.dg, diagonal_mul, Matrix.mul_apply] at this
    rw [mulVec, dotProduct, this]; ring
  have hov : ∀ i j, epsOverlap d eps (fun p => F p i) (fun p => F p j) = if i = j then 1 else 0 := by
    intro i j
    have := congrFun (congrFun h1 i) j
    rw [Matrix.one_apply, Matrix.mul_apply] at this
    rw [← this, epsOverlap]
    refine Finset.sum_congr rfl fun p _ => ?_
    rw [Pencil.mul_dg, conjTranspose_apply, RCLike.star_def, mass]; ring
  have hclosed : ∀ j p, openAt pec p = 0 → ((l j : ℂ) + 1) * F p j = 0 := by
    intro j p hp
    have := congrFun (hcol j) p
    rw [stiffG, add_mulVec, Pi.add_apply, stiff_row d eps mu pec pmc _ p hp, Pencil.dg_mulVec, hp] at this
    have hmp : (mass d eps p : ℂ) ≠ 0 := ofReal_ne_zero.2 (hm p).ne'
    refine mul_left_cancel₀ hmp ?_
    push_cast at this
    linear_combination -this
  have hoff : ∀ j, 0 ≤ l j → OffPec pec fun p => F p j := by
    intro j hj
    refine (offPec_iff _ _).2 fun p => ?_
    rcases openAt_cases pec p with h | h
    · have h3 := hclosed j p h
      rcases mul_eq_zero.1 h3 with h4 | h4
      · exfalso
        have : l j + 1 = 0 := by exact_mod_cast h4
        linarith
      · rw [h4, mul_zero]
    · rw [h]; simp
  have hneg : ∀ j, l j < 0 → ∀ E, OffPec pec E → epsOverlap d eps (fun p => F p j) E = 0 := by
    intro j hj E hE
    set v : Vec sh := fun p => (openAt pec p : ℂ) * F p j with hv
    have hvo : OffPec pec v := (offPec_iff _ _).2 fun p => by
      rcases openAt_cases pec p with h | h <;> simp [hv, h]
    have hs : stiff d eps mu pec pmc *ᵥ v = stiff d eps mu pec pmc *ᵥ fun p => F p j := by
      funext p
      rw [stiff, ← mulVec_mulVec, ← mulVec_mulVec, mulVec_diagonal, mulVec_diagonal, eFull_apply, eFull_apply 0 _ _ _ pec _ fun p => F p j]
      have : (fun q => (openAt pec q : ℂ) * v q) = fun q => (openAt pec q : ℂ) * F q j := by
        funext q; rcases openAt_cases pec q with h | h <;> simp [hv, h]
      rw [this, congrFun this p]
    have hst : ∀ p, (stiff d eps mu pec pmc *ᵥ v) p = (l j : ℂ) * (mass d eps p * v p) := by
      intro p
      rcases openAt_cases pec p with h | h
      · rw [stiff_row d eps mu pec pmc _ p h]; simp [hv, h]
      · have := congrFun (hcol j) p
        rw [stiffG, add_mulVec, Pi.add_apply, Pencil.dg_mulVec, h] at this
        rw [hs]; simp only [hv, h]
        push_cast at this ⊢
        linear_combination this
    have hform := stiff_form d hd eps mu pec pmc hvo
    have hpos := curlEnergy_nonneg d hd mu pmc hmu v
    rw [← hform] at hpos
    have hq : (star v ⬝ᵥ (stiff d eps mu pec pmc *ᵥ v)).re = l j * ∑ p, mass d eps p * normSq (v p) := by
      simp only [dotProduct, hst, Pi.star_apply, RCLike.star_def]
      rw [re_sum, Finset.mul_sum]
      refine Finset.sum_congr rfl fun p _ => ?_
      rw [show (starRingEnd ℂ) (v p) * ((l j : ℂ) * (mass d eps p * v p)) = ((l j * (mass d eps p * normSq (v p)) : ℝ) : ℂ) by
        push_cast; rw [normSq_eq_conj_mul_self]; ring, ofReal_re]
    have hv0 : ∀ p, v p = 0 := by
      have hle : ∑ p, mass d eps p * normSq (v p) ≤ 0 := by
        by_contra hc
        have := mul_neg_of_neg_of_pos hj (not_le.1 hc)
        rw [hq] at hpos; linarith
      have h5 := (Finset.sum_eq_zero_iff_of_nonneg (fun p _ => mul_nonneg (hm p).le (normSq_nonneg (v p)))).1
        (le_antisymm hle (Finset.sum_nonneg fun p _ => mul_nonneg (hm p).le (normSq_nonneg _)))
      intro p
      exact normSq_eq_zero.1 ((mul_eq_zero.1 (h5 p (Finset.mem_univ p))).resolve_left (hm p).ne')
    refine Finset.sum_eq_zero fun p _ => ?_
    rcases openAt_cases pec p with h | h
    · have : E p = 0 := by rw [← (offPec_iff pec E).1 hE p, h]; simp
      rw [this]; simp
    · have : F p j = 0 := by have := hv0 p; simpa [hv, h] using this
      show _ * ((starRingEnd ℂ) (F p j) * E p) = 0
      rw [this]; simp
  refine ⟨{j // 0 ≤ l j}, inferInstance, fun j p => F p j.1, fun j => Real.sqrt (l j.1), fun j => ⟨Real.sqrt_nonneg _, hoff j.1 j.2, ?_⟩, fun j => ?_, fun i j hij => ?_,
    fun E hE => ?_⟩
  · rw [resonant_iff d hd eps mu pec pmc _ (hoff j.1 j.2), ← stiffG_off d eps mu pec pmc (fun p => -mass d eps p) (hoff j.1 j.2), hcol]
    funext p
    rw [Pi.smul_apply, smul_eq_mul, Pencil.dg_mulVec, ← ofReal_pow, Real.sq_sqrt j.2]
  · rw [hov, if_pos rfl]
  · rw [hov, if_neg fun h => hij (Subtype.ext h)]
  · have hx := Pencil.expand h1 E
    have hc : ∀ j, ((Fᴴ * Pencil.dg (mass d eps)) *ᵥ E) j = epsOverlap d eps (fun p => F p j) E := by
      intro j
      rw [mulVec, dotProduct, epsOverlap]
      refine Finset.sum_congr rfl fun p _ => ?_
      rw [Pencil.mul_dg, conjTranspose_apply, RCLike.star_def, mass]; ring
    funext p
    rw [Finset.sum_apply]
    conv_lhs => rw [← hx, mulVec, dotProduct]
    rw [← Fintype.sum_subtype_add_sum_subtype (fun j => 0 ≤ l j)]
    rw [show ∑ j : {j // ¬0 ≤ l j}, F p j.1 * ((Fᴴ * Pencil.dg (mass d eps)) *ᵥ E) j.1 = 0 from
      Finset.sum_eq_zero fun j _ => by rw [hc, hneg j.1 (not_le.1 j.2) E hE, mul_zero], add_zero]
    exact Finset.sum_congr rfl fun j _ => by rw [hc, Pi.smul_apply, smul_eq_mul, mul_comm]


theorem coupling_conj (J E : Vec sh) : (starRingEnd ℂ) (coupling d J E) = coupling d E J := by
  simp only [coupling, map_sum, map_mul, conj_ofReal, conj_conj]
  exact Finset.sum_congr rfl fun p _ => by ring

theorem epsOverlap_conj (J E : Vec sh) : (starRingEnd ℂ) (epsOverlap d eps J E) = epsOverlap d eps E J := by
  simp only [epsOverlap, map_sum, map_mul, conj_ofReal, conj_conj]
  exact Finset.sum_congr rfl fun p _ => by ring

theorem epsOverlap_sum {ι : Type} [Fintype ι] (F : Vec sh) (a : ι → ℂ) (G : ι → Vec sh) :
    epsOverlap d eps F (∑ j, a j • G j) = ∑ j, a j * epsOverlap d eps F (G j) := by
  simp only [epsOverlap, Finset.sum_apply, Pi.smul_apply, smul_eq_mul, Finset.mul_sum]
  rw [Finset.sum_comm]
  exact Finset.sum_congr rfl fun j _ => Finset.sum_congr rfl fun p _ => by ring

theorem coupling_sum {ι : Type} [Fintype ι] (F : Vec sh) (a : ι → ℂ) (G : ι → Vec sh) :
    coupling d F (∑ j, a j • G j) = ∑ j, a j * coupling d F (G j) := by
  simp only [coupling, Finset.sum_apply, Pi.smul_apply, smul_eq_mul, Finset.mul_sum]
  rw [Finset.sum_comm]
  exact Finset.sum_congr rfl fun j _ => Finset.sum_congr rfl fun p _ => by ring

theorem epsOverlap_self (E : Vec sh) : epsOverlap d eps E E = ((∑ p : Pos sh, volE d.1 d.2 p.1 p.2 * eps p * normSq (E p) : ℝ) : ℂ) := by
  rw [epsOverlap]
  push_cast
  exact Finset.sum_congr rfl fun p _ => by rw [normSq_eq_conj_mul_self]

/-- A resonant field is resonant at any frequency of the same square. -/
theorem IsResonant.of_sq {ω ω' : ℂ} {dxes : Dx sh} {eps : Vec sh} {mu : Option (Vec sh)} {pec pmc : Option (Pos sh → Bool)} {E : Vec sh}
    (h : IsResonant ω dxes eps mu pec pmc E) (hs : ω ^ 2 = ω' ^ 2) : IsResonant ω' dxes eps mu pec pmc E :=
  ⟨h.off, (mem_resonances_iff ω' _ _ _ _ _ E h.off).2 (hs ▸ (mem_resonances_iff ω _ _ _ _ _ E h.off).1 h.free)⟩

/-- What `resonant_basis` provides. -/
structure IsResonantBasis {ι : Type} [Fintype ι] (F : ι → Vec sh) (w : ι → ℝ) : Prop where
  nonneg : ∀ j, 0 ≤ w j
  res : ∀ j, IsResonant (w j : ℂ) (cDx d) (rEps eps) (realMu mu) pec pmc (F j)
  norm : ∀ j, epsOverlap d eps (F j) (F j) = 1
  orth : ∀ i j, i ≠ j → epsOverlap d eps (F i) (F j) = 0
  expand : ∀ E, OffPec pec E → E = ∑ j, epsOverlap d eps (F j) E • F j

variable {d eps mu pec pmc} in
theorem IsResonantBasis.ne {ι : Type} [Fintype ι] {F : ι → Vec sh} {w : ι → ℝ} (hB : IsResonantBasis d eps mu pec pmc F w) {ω : ℂ}
    (hω : ω ∉ resonances (cDx d) (rEps eps) (realMu mu) pec pmc) (j : ι) : (w j : ℂ) ^ 2 - ω ^ 2 ≠ 0 := by
  intro h
  refine hω ⟨F j, fun h0 => ?_, (hB.res j).of_sq (sub_eq_zero.1 h)⟩
  have := hB.norm j
  rw [h0] at this
  simp [epsOverlap] at this

include hd in
/-- **C142.** Every driven field is the sum over the resonances `Σ_k -iω (∫ E_k* J dV) / (ω_k² - ω²) E_k`: there are finitely many resonant fields, orthonormal in
`∫ ε E_i* E_j dV` and the same for all frequencies and currents, with this property. -/
theorem C142_expansion (heps : ∀ p, 0 < eps p) (hmu : ∀ p, 0 < muR mu p) :
    ∃ (ι : Type) (_ : Fintype ι) (F : ι → Vec sh) (w : ι → ℝ), IsResonantBasis d eps mu pec pmc F w ∧
      ∀ ω ∉ resonances (cDx d) (rEps eps) (realMu mu) pec pmc, ∀ J E, IsDriven ω (cDx d) (rEps eps) (realMu mu) pec pmc J E →
        E = ∑ j, (-I * ω * coupling d (F j) J / ((w j : ℂ) ^ 2 - ω ^ 2)) • F j := by
  obtain ⟨ι, hι, F, w, h1, h2, h3, h4⟩ := resonant_basis d hd eps mu pec pmc heps hmu
  have hB : IsResonantBasis d eps mu pec pmc F w := ⟨fun j => (h1 j).1, fun j => (h1 j).2, h2, h3, h4⟩
  refine ⟨ι, hι, F, w, hB, fun ω hω J E hE => ?_⟩
  conv_lhs => rw [h4 E hE.off]
  refine Finset.sum_congr rfl fun j _ => ?_
  congr 1
  rw [eq_div_iff (hB.ne hω j), mul_comm]
  exact C142_amplitude d hd eps mu pec pmc heps ω (w j) (h1 j).2 hE

include hd in
/-- **C142.** The response near a resonance it couples to is as large as `|ω ∫ F* J dV| / |ω_k² - ω²|`, relative to the field `F` of the resonance. -/
theorem C142_peak (heps : ∀ p, 0 < eps p) (ω ωk : ℂ) {F J E : Vec sh} (hF : IsResonant ωk (cDx d) (rEps eps) (realMu mu) pec pmc F)
    (h : IsDriven ω (cDx d) (rEps eps) (realMu mu) pec pmc J E) :
    normSq (ω * coupling d F J) ≤ normSq (ωk ^ 2 - ω ^ 2)
      * ((∑ p : Pos sh, volE d.1 d.2 p.1 p.2 * eps p * normSq (F p)) * ∑ p : Pos sh, volE d.1 d.2 p.1 p.2 * eps p * normSq (E p)) := by
  have h1 := congrArg normSq (C142_amplitude d hd eps mu pec pmc heps ω ωk hF h)
  rw [normSq_mul, mul_assoc, normSq_mul (-I), normSq_neg, normSq_I, one_mul] at h1
  rw [← h1]
  refine mul_le_mul_of_nonneg_left ?_ (normSq_nonneg _)
  have hm := mass_pos d eps hd heps
  have e1 : ‖epsOverlap d eps F E‖ ≤ ∑ p : Pos sh, (Real.sqrt (mass d eps p) * ‖F p‖) * (Real.sqrt (mass d eps p) * ‖E p‖) := by
    refine (norm_sum_le _ _).trans (Finset.sum_le_sum fun p _ => ?_)
    rw [norm_mul, norm_mul, RCLike.norm_conj, norm_real, ← mass, Real.norm_of_nonneg (hm p).le]
    rw [show Real.sqrt (mass d eps p) * ‖F p‖ * (Real.sqrt (mass d eps p) * ‖E p‖)
      = (Real.sqrt (mass d eps p) * Real.sqrt (mass d eps p)) * (‖F p‖ * ‖E p‖) by ring, Real.mul_self_sqrt (hm p).le]
  have e2 := Finset.sum_mul_sq_le_sq_mul_sq Finset.univ (fun p => Real.sqrt (mass d eps p) * ‖F p‖) (fun p => Real.sqrt (mass d eps p) * ‖E p‖)
  have e3 : ∀ G : Vec sh, ∑ p, (Real.sqrt (mass d eps p) * ‖G p‖) ^ 2 = ∑ p : Pos sh, volE d.1 d.2 p.1 p.2 * eps p * normSq (G p) := fun G =>
    Finset.sum_congr rfl fun p _ => by rw [mul_pow, Real.sq_sqrt (hm p).le, normSq_eq_norm_sq, mass]
  rw [e3, e3] at e2
  rw [normSq_eq_norm_sq]
  exact (pow_le_pow_left₀ (norm_nonneg _) e1 2).trans e2

include hd in
/-- **C142.** At a resonance itself there is a driven field exactly for the currents that do not couple to it. -/
theorem C142_fredholm (heps : ∀ p, 0 < eps p) (hmu : ∀ p, 0 < muR mu p) {ω : ℂ} (hω : ω ≠ 0) {J : Vec sh} (hJ : OffPec pec J) :
    (∃ E, IsDriven ω (cDx d) (rEps eps) (realMu mu) pec pmc J E) ↔
      ∀ F, IsResonant ω (cDx d) (rEps eps) (realMu mu) pec pmc F → coupling d F J = 0 := by
  classical
  constructor
  · rintro ⟨E, hE⟩ F hF
    have h := C142_amplitude d hd eps mu pec pmc heps ω ω hF hE
    rw [sub_self, zero_mul, eq_comm, mul_eq_zero] at h
    exact h.resolve_left (mul_ne_zero (neg_ne_zero.2 I_ne_zero) hω)
  · intro h
    obtain ⟨ι, hι, F, w, h1, h2, h3, h4⟩ := resonant_basis d hd eps mu pec pmc heps hmu
    set G : Vec sh := ∑ j, (-I * ω * coupling d (F j) J / ((w j : ℂ) ^ 2 - ω ^ 2)) • F j with hG
    have hoff : OffPec pec G := fun m hm p hp => by
      rw [hG, Finset.sum_apply]
      exact Finset.sum_eq_zero fun j _ => by rw [Pi.smul_apply, (h1 j).2.off m hm p hp, smul_zero]
    refine ⟨G, hoff, ?_⟩
    have hJe : OffPec pec fun p => J p / eps p := fun m hm p hp => by simp only [hJ m hm p hp, zero_div]
    have hx := h4 _ hJe
    have hc : ∀ j, epsOverlap d eps (F j) (fun p => J p / eps p) = coupling d (F j) J := fun j => by
      rw [epsOverlap, coupling]
      refine Finset.sum_congr rfl fun p _ => ?_
      have := ofReal_ne_zero.2 (heps p).ne'
      push_cast
      field_simp
    have hrow : ∀ j p, (eFull ω (cDx d) (rEps eps) (realMu mu) pec pmc *ᵥ F j) p = ((w j : ℂ) ^ 2 - ω ^ 2) * (eps p * F j p) := fun j p => by
      rw [eFull_off ω _ _ _ _ _ (h1 j).2.off, (mem_resonances_iff _ _ _ _ _ _ _ (h1 j).2.off).1 (h1 j).2.free p, rEps]; ring
    funext p
    rw [hG, mulVec_sum, Finset.sum_apply, Pi.smul_apply, smul_eq_mul]
    have hp : J p = eps p * ∑ j, coupling d (F j) J * F j p := by
      have := congrFun hx p
      simp only [Finset.sum_apply, Pi.smul_apply, smul_eq_mul, hc] at this
      rw [← this, mul_div_cancel₀ _ (ofReal_ne_zero.2 (heps p).ne')]
    rw [hp, Finset.mul_sum, Finset.mul_sum]
    refine Finset.sum_congr rfl fun j _ => ?_
    rw [mulVec_smul, Pi.smul_apply, smul_eq_mul, hrow]
    by_cases hz : (w j : ℂ) ^ 2 - ω ^ 2 = 0
    · rw [h (F j) ((h1 j).2.of_sq (sub_eq_zero.1 hz))]; simp
    · field_simp

include hd in
/-- **C142.** Without loss a current exchanges reactive power only. -/
theorem C142_reactive (ω : ℝ) (hω : ω ≠ 0) {J E : Vec sh} (h : IsDriven ω (cDx d) (rEps eps) (realMu mu) pec pmc J E) : (coupling d J E).re = 0 := by
  have hq := quad_off d hd eps mu pec pmc (ω : ℂ) h.off
  rw [h.eqn] at hq
  have h1 : ∑ p : Pos sh, ((volE d.1 d.2 p.1 p.2 : ℝ) : ℂ) * ((starRingEnd ℂ) (E p) * (((-I * ω) • J) p)) = -I * ω * coupling d E J := by
    rw [coupling, Finset.mul_sum]
    exact Finset.sum_congr rfl fun p _ => by rw [Pi.smul_apply, smul_eq_mul]; ring
  rw [h1, ← coupling_conj] at hq
  have := congrArg im hq
  rw [← ofReal_pow, ← ofReal_mul, ← ofReal_sub, ofReal_im] at this
  simp at this
  tauto

theorem curlEnergy_e2h (ω : ℝ) (hω : ω ≠ 0) (hmu : ∀ p, 0 < muR mu p) (E : Vec sh) :
    curlEnergy d mu pmc E = ω ^ 2 * ∑ p : Pos sh, volH d.1 d.2 p.1 p.2 * muR mu p * normSq ((Fdfd.e2h ω (cDx d) (realMu mu) pmc *ᵥ E) p) := by
  rw [curlEnergy, Finset.mul_sum]
  refine Finset.sum_congr rfl fun p _ => ?_
  have hm := (hmu p).ne'
  rw [e2h_mulVec_masks, muV_realMu, normSq_mul, normSq_div, normSq_div, normSq_mul, normSq_neg, normSq_I, normSq_ofReal, normSq_ofReal, normSq_ofReal]
  rcases openAt_cases pmc p with h | h <;> rw [h]
  · simp
  · field_simp

/-- Energy of a driven field from the amplitudes. -/
theorem driven_energy {ι : Type} [Fintype ι] {F : ι → Vec sh} {w : ι → ℝ} (hB : IsResonantBasis d eps mu pec pmc F w) {E : Vec sh} (hE : OffPec pec E) :
    ∑ p : Pos sh, volE d.1 d.2 p.1 p.2 * eps p * normSq (E p) = ∑ j, normSq (epsOverlap d eps (F j) E) := by
  apply ofReal_injective
  rw [← epsOverlap_self]
  have h1 : epsOverlap d eps E E = epsOverlap d eps E (∑ j, epsOverlap d eps (F j) E • F j) := congrArg _ (hB.expand E hE)
  rw [h1, epsOverlap_sum]
  push_cast
  exact Finset.sum_congr rfl fun j _ => by rw [← epsOverlap_conj d eps (F j) E, normSq_eq_conj_mul_self, mul_comm]

/-- The reactive power taken by the current. -/
theorem driven_power {ι : Type} [Fintype ι] {F : ι → Vec sh} {w : ι → ℝ} (heps : ∀ p, 0 < eps p) (hd : PosGrid d) (hB : IsResonantBasis d eps mu pec pmc F w) {ω : ℝ}
    (hω : ∀ j, w j ^ 2 - ω ^ 2 ≠ 0) {J E : Vec sh} (h : IsDriven ω (cDx d) (rEps eps) (realMu mu) pec pmc J E) :
    coupling d J E = -I * ((∑ j, ω * normSq (coupling d (F j) J) / (w j ^ 2 - ω ^ 2) : ℝ) : ℂ) := by
  rw [hB.expand E h.off, coupling_sum]
  push_cast
  rw [Finset.mul_sum]
  refine Finset.sum_congr rfl fun j _ => ?_
  have hz : ((w j : ℂ) ^ 2 - (ω : ℂ) ^ 2) ≠ 0 := by exact_mod_cast hω j
  have ha := C142_amplitude d hd eps mu pec pmc heps ω (w j) (hB.res j) h
  rw [← coupling_conj, normSq_eq_conj_mul_self, mul_div_assoc', eq_div_iff hz]
  linear_combination (starRingEnd ℂ) (coupling d (F j) J) * ha

/-- The resonances are isolated. -/
theorem basis_ne_eventually {ι : Type} [Finite ι] {w : ι → ℝ} {ω₀ : ℝ} (h : ∀ j, w j ^ 2 - ω₀ ^ 2 ≠ 0) : ∀ᶠ ω in nhds ω₀, ∀ j, w j ^ 2 - ω ^ 2 ≠ 0 :=
  Filter.eventually_all.2 fun j => (by fun_prop : ContinuousAt (fun ω => w j ^ 2 - ω ^ 2) ω₀).eventually_ne (h j)

variable {d eps mu pec pmc} in
theorem IsResonantBasis.ne_real {ι : Type} [Fintype ι] {F : ι → Vec sh} {w : ι → ℝ} (hB : IsResonantBasis d eps mu pec pmc F w) {ω : ℝ}
    (hω : (ω : ℂ) ∉ resonances (cDx d) (rEps eps) (realMu mu) pec pmc) (j : ι) : w j ^ 2 - ω ^ 2 ≠ 0 := by
  have := hB.ne hω j
  exact_mod_cast this

theorem foster_deriv {ι : Type} [Fintype ι] (w c : ι → ℝ) {ω₀ : ℝ} (h : ∀ j, w j ^ 2 - ω₀ ^ 2 ≠ 0) :
    HasDerivAt (fun ω => ∑ j, ω * c j / (w j ^ 2 - ω ^ 2)) (∑ j, c j * (w j ^ 2 + ω₀ ^ 2) / (w j ^ 2 - ω₀ ^ 2) ^ 2) ω₀ := by
  refine HasDerivAt.fun_sum fun j _ => ?_
  have h1 : HasDerivAt (fun ω => ω * c j) (1 * c j) ω₀ := (hasDerivAt_id ω₀).mul_const (c j)
  have h2 : HasDerivAt (fun ω : ℝ => w j ^ 2 - ω ^ 2) (-(2 * ω₀)) ω₀ := by
    have := (hasDerivAt_pow 2 ω₀).const_sub (w j ^ 2)
    simpa using this
  refine (h1.div h2 (h j)).congr_deriv ?_
  congr 1; ring

include hd in
/-- **C142.** Foster's reactance theorem: without loss, the derivative with respect to the frequency of the reactive power `-Im ∫ J* E dV` taken by a given current
is the stored energy `∫ ε |E|² + μ |H|² dV` of its field. -/
theorem C142_foster (heps : ∀ p, 0 < eps p) (hmu : ∀ p, 0 < muR mu p) {ω₀ : ℝ} (hω₀ : ω₀ ≠ 0)
    (hres : (ω₀ : ℂ) ∉ resonances (cDx d) (rEps eps) (realMu mu) pec pmc) (J : Vec sh) (E : ℝ → Vec sh)
    (hE : ∀ᶠ ω : ℝ in nhds ω₀, IsDriven ω (cDx d) (rEps eps) (realMu mu) pec pmc J (E ω)) :
    let H := Fdfd.e2h ω₀ (cDx d) (realMu mu) pmc *ᵥ E ω₀
    HasDerivAt (fun ω => -(coupling d J (E ω)).im) (∑ p : Pos sh, volE d.1 d.2 p.1 p.2 * eps p * normSq (E ω₀ p)
      + ∑ p : Pos sh, volH d.1 d.2 p.1 p.2 * muR mu p * normSq (H p)) ω₀ := by
  intro H
  obtain ⟨ι, hι, F, w, hB, -⟩ := C142_expansion d hd eps mu pec pmc heps hmu
  have hne := hB.ne_real hres
  have h0 := hE.self_of_nhds
  have hP : ∀ {ω : ℝ}, (∀ j, w j ^ 2 - ω ^ 2 ≠ 0) → IsDriven ω (cDx d) (rEps eps) (realMu mu) pec pmc J (E ω) →
      -(coupling d J (E ω)).im = ∑ j, ω * normSq (coupling d (F j) J) / (w j ^ 2 - ω ^ 2) := by
    intro ω h1 h2
    rw [driven_power d eps mu pec pmc heps hd hB h1 h2]
    simp only [neg_mul, neg_im, mul_im, I_re, I_im, ofReal_re, ofReal_im, zero_mul, one_mul, zero_add, neg_neg]
  have hd1 := foster_deriv w (fun j => normSq (coupling d (F j) J)) hne
  have hev : (fun ω => -(coupling d J (E ω)).im) =ᶠ[nhds ω₀] fun ω => ∑ j, ω * normSq (coupling d (F j) J) / (w j ^ 2 - ω ^ 2) := by
    filter_upwards [basis_ne_eventually hne, hE] with ω h1 h2 using hP h1 h2
  refine (hd1.congr_of_eventuallyEq hev).congr_deriv ?_
  have hS : ∑ p : Pos sh, volE d.1 d.2 p.1 p.2 * eps p * normSq (E ω₀ p) = ∑ j, ω₀ ^ 2 * normSq (coupling d (F j) J) / (w j ^ 2 - ω₀ ^ 2) ^ 2 := by
    rw [driven_energy d eps mu pec pmc hB h0.off]
    refine Finset.sum_congr rfl fun j _ => ?_
    have ha := congrArg normSq (C142_amplitude d hd eps mu pec pmc heps ω₀ (w j) (hB.res j) h0)
    rw [normSq_mul, normSq_mul, normSq_mul, normSq_neg, normSq_I, one_mul, ← ofReal_pow, ← ofReal_pow, ← ofReal_sub, normSq_ofReal, normSq_ofReal] at ha
    rw [eq_div_iff (pow_ne_zero 2 (hne j))]
    linear_combination ha
  have hC : curlEnergy d mu pmc (E ω₀) = ω₀ * (∑ j, ω₀ * normSq (coupling d (F j) J) / (w j ^ 2 - ω₀ ^ 2))
      + ω₀ ^ 2 * ∑ p : Pos sh, volE d.1 d.2 p.1 p.2 * eps p * normSq (E ω₀ p) := by
    have hq := quad_off d hd eps mu pec pmc (ω₀ : ℂ) h0.off
    rw [h0.eqn] at hq
    have h1 : ∑ p : Pos sh, ((volE d.1 d.2 p.1 p.2 : ℝ) : ℂ) * ((starRingEnd ℂ) (E ω₀ p) * (((-I * ω₀) • J) p)) = -I * ω₀ * coupling d (E ω₀) J := by
      rw [coupling, Finset.mul_sum]
      exact Finset.sum_congr rfl fun p _ => by rw [Pi.smul_apply, smul_eq_mul]; ring
    rw [h1, ← coupling_conj, driven_power d eps mu pec pmc heps hd hB hne h0, map_mul, map_neg, conj_I, conj_ofReal] at hq
    apply ofReal_injective
    rw [ofReal_add, ofReal_mul, ofReal_mul, ofReal_pow]
    linear_combination -hq - (ω₀ : ℂ) * (((∑ j, ω₀ * normSq (coupling d (F j) J) / (w j ^ 2 - ω₀ ^ 2) : ℝ)) : ℂ) * I_sq
  rw [curlEnergy_e2h d mu pmc ω₀ hω₀ hmu] at hC
  have hC' : ∑ p : Pos sh, volH d.1 d.2 p.1 p.2 * muR mu p * normSq (H p) = (∑ j, normSq (coupling d (F j) J) / (w j ^ 2 - ω₀ ^ 2))
      + ∑ p : Pos sh, volE d.1 d.2 p.1 p.2 * eps p * normSq (E ω₀ p) := by
    refine mul_left_cancel₀ (pow_ne_zero 2 hω₀) (hC.trans ?_)
    rw [mul_add]
    congr 1
    rw [Finset.mul_sum, Finset.mul_sum]
    exact Finset.sum_congr rfl fun j _ => by ring
  rw [hC', hS, ← Finset.sum_add_distrib, ← Finset.sum_add_distrib]
  refine Finset.sum_congr rfl fun j _ => ?_
  have := hne j
  field_simp
  ring

include hd in
/-- **C142.** Between resonances the reactive power taken by a current rises strictly with the frequency. -/
theorem C142_monotone (heps : ∀ p, 0 < eps p) (hmu : ∀ p, 0 < muR mu p) {a b : ℝ} (ha : 0 ≤ a)
    (hres : ∀ ω : ℝ, a < ω → ω < b → (ω : ℂ) ∉ resonances (cDx d) (rEps eps) (realMu mu) pec pmc) {J : Vec sh} (hJ : J ≠ 0) (E : ℝ → Vec sh)
    (hE : ∀ ω : ℝ, a < ω → ω < b → IsDriven ω (cDx d) (rEps eps) (realMu mu) pec pmc J (E ω)) :
    StrictMonoOn (fun ω => -(coupling d J (E ω)).im) (Set.Ioo a b) := by
  have key : ∀ ω ∈ Set.Ioo a b, ∃ D, 0 < D ∧ HasDerivAt (fun ω => -(coupling d J (E ω)).im) D ω := by
    intro ω hω
    have hω0 : ω ≠ 0 := (ha.trans_lt hω.1).ne'
    refine ⟨_, ?_, C142_foster d hd eps mu pec pmc heps hmu hω0 (hres ω hω.1 hω.2) J E ?_⟩
    · have hne : E ω ≠ 0 := by
        intro h0
        have := (hE ω hω.1 hω.2).eqn
        rw [h0, mulVec_zero, eq_comm, smul_eq_zero] at this
        rcases this with h | h
        · exact mul_ne_zero (neg_ne_zero.2 I_ne_zero) (ofReal_ne_zero.2 hω0) h
        · exact hJ h
      exact add_pos_of_pos_of_nonneg (eps_energy_pos d eps hd heps hne)
        (Finset.sum_nonneg fun p _ => mul_nonneg (mul_nonneg (hd.volH p.1 p.2).le (hmu p).le) (normSq_nonneg _))
    · filter_upwards [Ioo_mem_nhds hω.1 hω.2] with ω' hω' using hE ω' hω'.1 hω'.2
  refine strictMonoOn_of_deriv_pos (convex_Ioo a b) (fun ω hω => ?_) fun ω hω => ?_
  · obtain ⟨D, -, h⟩ := key ω hω
    exact h.continuousAt.continuousWithinAt
  · rw [interior_Ioo] at hω
    obtain ⟨D, h0, h⟩ := key ω hω
    rw [h.deriv]; exact h0

theorem foster_pole {ι : Type} [Fintype ι] (w c : ι → ℝ) (hw : ∀ j, 0 ≤ w j) (hc : ∀ j, 0 ≤ c j) {v : ℝ} (hv : 0 < v) (hj : ∃ j, w j = v ∧ 0 < c j) :
    ∀ᶠ ω in nhds v, ω ≠ v → (ω - v) * (∑ j, ω * c j / (w j ^ 2 - ω ^ 2)) < 0 := by
  classical
  set g : ι → ℝ → ℝ := fun j ω => if w j = v then -(ω * c j) / (v + ω) else (ω - v) * (ω * c j) / (w j ^ 2 - ω ^ 2) with hg
  have hcont : ContinuousAt (fun ω => ∑ j, g j ω) v := by
    refine tendsto_finsetSum _ fun j _ => ?_
    by_cases h : w j = v
    · have : g j = fun ω => -(ω * c j) / (v + ω) := by funext ω; simp [hg, h]
      rw [this]
      exact (by fun_prop : ContinuousAt (fun ω => -(ω * c j)) v).div (by fun_prop) (by positivity)
    · have : g j = fun ω => (ω - v) * (ω * c j) / (w j ^ 2 - ω ^ 2) := by funext ω; simp [hg, h]
      rw [this]
      refine (by fun_prop : ContinuousAt (fun ω => (ω - v) * (ω * c j)) v).div (by fun_prop) (sub_ne_zero.2 fun h2 => h ?_)
      exact (sq_eq_sq₀ (hw j) hv.le).1 h2
  have hneg : ∑ j, g j v < 0 := by
    obtain ⟨k, hk, hck⟩ := hj
    refine Finset.sum_neg' (fun j _ => ?_) ⟨k, Finset.mem_univ k, ?_⟩
    · by_cases h : w j = v
      · simp only [hg, h, if_true]
        exact div_nonpos_of_nonpos_of_nonneg (neg_nonpos.2 (mul_nonneg hv.le (hc j))) (by positivity)
      · simp only [hg, h, if_false]; simp
    · simp only [hg, hk, if_true]
      exact div_neg_of_neg_of_pos (neg_neg_of_pos (mul_pos hv hck)) (by positivity)
  filter_upwards [hcont.eventually_lt_const hneg, eventually_gt_nhds hv] with ω h1 h2 h3
  refine lt_of_eq_of_lt ?_ h1
  rw [Finset.mul_sum]
  refine Finset.sum_congr rfl fun j _ => ?_
  by_cases h : w j = v
  · simp only [hg, h, if_true]
    have h4 : v + ω ≠ 0 := by positivity
    have h5 : v - ω ≠ 0 := sub_ne_zero.2 h3.symm
    rw [show v ^ 2 - ω ^ 2 = (v - ω) * (v + ω) by ring]
    field_simp
    ring
  · simp only [hg, h, if_false]
    ring

/-- A resonant field that couples to the current contains a member of the basis that does. -/
theorem coupled_member {ι : Type} [Fintype ι] {F : ι → Vec sh} {w : ι → ℝ} (heps : ∀ p, 0 < eps p) (hd : PosGrid d) (hB : IsResonantBasis d eps mu pec pmc F w) {v : ℝ}
    (hv : 0 ≤ v) {G J : Vec sh} (hG : IsResonant v (cDx d) (rEps eps) (realMu mu) pec pmc G) (hc : coupling d G J ≠ 0) :
    ∃ j, w j = v ∧ 0 < normSq (coupling d (F j) J) := by
  by_contra hcon
  push Not at hcon
  refine hc ?_
  rw [← coupling_conj, hB.expand G hG.off, coupling_sum, map_sum]
  refine Finset.sum_eq_zero fun j _ => ?_
  by_cases h : w j = v
  · have := normSq_eq_zero.1 (le_antisymm (hcon j h) (normSq_nonneg _))
    rw [map_mul, coupling_conj, this, mul_zero]
  · have hne : (w j : ℂ) ^ 2 ≠ (v : ℂ) ^ 2 := by
      intro h2
      exact h ((sq_eq_sq₀ (hB.nonneg j) hv).1 (by exact_mod_cast h2))
    have : epsOverlap d eps (F j) G = 0 := C124_orthogonal d hd eps mu pec pmc heps _ _ hne (hB.res j) hG
    rw [this, zero_mul, map_zero]

include hd in
/-- **C142.** Poles and zeros alternate: between two neighbouring resonances that the current excites there is exactly one frequency at which it takes no reactive power
(hence no power at all), the antiresonance. -/
theorem C142_antiresonance (heps : ∀ p, 0 < eps p) (hmu : ∀ p, 0 < muR mu p) {a b : ℝ} (ha : 0 < a) (hab : a < b) {J : Vec sh} {Ga Gb : Vec sh}
    (hGa : IsResonant a (cDx d) (rEps eps) (realMu mu) pec pmc Ga) (hca : coupling d Ga J ≠ 0)
    (hGb : IsResonant b (cDx d) (rEps eps) (realMu mu) pec pmc Gb) (hcb : coupling d Gb J ≠ 0)
    (hres : ∀ ω : ℝ, a < ω → ω < b → (ω : ℂ) ∉ resonances (cDx d) (rEps eps) (realMu mu) pec pmc) (E : ℝ → Vec sh)
    (hE : ∀ ω : ℝ, a < ω → ω < b → IsDriven ω (cDx d) (rEps eps) (realMu mu) pec pmc J (E ω)) :
    ∃! ω : ℝ, (a < ω ∧ ω < b) ∧ coupling d J (E ω) = 0 := by
  obtain ⟨ι, hι, F, w, hB, -⟩ := C142_expansion d hd eps mu pec pmc heps hmu
  have hJ : J ≠ 0 := fun h => hca (by simp [coupling, h])
  have hmono := C142_monotone d hd eps mu pec pmc heps hmu ha.le hres hJ E hE
  set c : ι → ℝ := fun j => normSq (coupling d (F j) J) with hc
  have hP : ∀ ω : ℝ, a < ω → ω < b → coupling d J (E ω) = -I * ((∑ j, ω * c j / (w j ^ 2 - ω ^ 2) : ℝ) : ℂ) := fun ω h1 h2 =>
    driven_power d eps mu pec pmc heps hd hB (hB.ne_real (hres ω h1 h2)) (hE ω h1 h2)
  have hIm : ∀ ω : ℝ, a < ω → ω < b → -(coupling d J (E ω)).im = ∑ j, ω * c j / (w j ^ 2 - ω ^ 2) := fun ω h1 h2 => by
    rw [hP ω h1 h2]
    simp only [neg_mul, neg_im, mul_im, I_re, I_im, ofReal_re, ofReal_im, zero_mul, one_mul, zero_add, neg_neg]
  have hz : ∀ ω : ℝ, a < ω → ω < b → (coupling d J (E ω) = 0 ↔ ∑ j, ω * c j / (w j ^ 2 - ω ^ 2) = 0) := fun ω h1 h2 => by
    rw [hP ω h1 h2, mul_eq_zero, ofReal_eq_zero]
    exact or_iff_right (neg_ne_zero.2 I_ne_zero)
  have pa := foster_pole w c hB.nonneg (fun j => normSq_nonneg _) ha (coupled_member d eps mu pec pmc heps hd hB ha.le hGa hca)
  have pb := foster_pole w c hB.nonneg (fun j => normSq_nonneg _) (ha.trans hab) (coupled_member d eps mu pec pmc heps hd hB (ha.trans hab).le hGb hcb)
  obtain ⟨x, hx1, hx2, hxm⟩ : ∃ x, (a < x ∧ x < b) ∧ ∑ j, x * c j / (w j ^ 2 - x ^ 2) < 0 ∧ x < (a + b) / 2 := by
    have h1 := pa.filter_mono (nhdsWithin_le_nhds (s := Set.Ioi a))
    have h2 : ∀ᶠ x in nhdsWithin a (Set.Ioi a), x < (a + b) / 2 := nhdsWithin_le_nhds (eventually_lt_nhds (by linarith))
    obtain ⟨x, h3, h4, h5⟩ := (h1.and (h2.and self_mem_nhdsWithin)).exists
    have h5' : a < x := h5
    exact ⟨x, ⟨h5', by linarith⟩, by have := h3 h5'.ne'; nlinarith [sub_pos.2 h5'], h4⟩
  obtain ⟨y, hy1, hy2, hym⟩ : ∃ y, (a < y ∧ y < b) ∧ 0 < ∑ j, y * c j / (w j ^ 2 - y ^ 2) ∧ (a + b) / 2 < y := by
    have h1 := pb.filter_mono (nhdsWithin_le_nhds (s := Set.Iio b))
    have h2 : ∀ᶠ x in nhdsWithin b (Set.Iio b), (a + b) / 2 < x := nhdsWithin_le_nhds (eventually_gt_nhds (by linarith))
    obtain ⟨x, h3, h4, h5⟩ := (h1.and (h2.and self_mem_nhdsWithin)).exists
    have h5' : x < b := h5
    exact ⟨x, ⟨by linarith, h5'⟩, by have := h3 h5'.ne; nlinarith [sub_neg.2 h5'], h4⟩
  have hcont : ContinuousOn (fun ω => ∑ j, ω * c j / (w j ^ 2 - ω ^ 2)) (Set.Icc x y) := fun ω hω =>
    (foster_deriv w c (hB.ne_real (hres ω (hx1.1.trans_le hω.1) (hω.2.trans_lt hy1.2)))).continuousAt.continuousWithinAt
  obtain ⟨z, hz1, hz2⟩ := intermediate_value_Icc (hxm.le.trans hym.le) hcont ⟨hx2.le, hy2.le⟩
  have hzi : a < z ∧ z < b := ⟨hx1.1.trans_le hz1.1, hz1.2.trans_lt hy1.2⟩
  refine ⟨z, ⟨hzi, (hz z hzi.1 hzi.2).2 hz2⟩, ?_⟩
  rintro u ⟨hu, hu0⟩
  refine hmono.injOn hu hzi ?_
  show -(coupling d J (E u)).im = -(coupling d J (E z)).im
  rw [hIm u hu.1 hu.2, hIm z hzi.1 hzi.2, (hz u hu.1 hu.2).1 hu0]
  exact hz2.symm

end

/-- Resonances of a 2-by-2-by-1 box of unit vacuum cells. -/
theorem box22 (ω : ℂ) : ω ∈ resonances (sh := ![2, 2, 1]) (cDx (fun _ _ => 1, fun _ _ => 1)) (rEps fun _ => 1) (realMu (some fun _ => 1)) none none
    ↔ ω ^ 2 = 0 ∨ ω ^ 2 = 4 ∨ ω ^ 2 = 8 := by
  have e0 : cDx (sh := ![2, 2, 1]) (fun _ _ => 1, fun _ _ => 1) = uniDx fun _ => 1 := by simp [cDx, uniDx]
  have e0' : rEps (sh := ![2, 2, 1]) (fun _ => 1) = fun _ => 1 := by funext p; simp [rEps]
  have e0'' : realMu (sh := ![2, 2, 1]) (some fun _ => 1) = some fun _ => 1 := by simp [realMu]
  rw [e0, e0', e0'', C131_box (sh := ![2, 2, 1]) 1 1 one_ne_zero one_ne_zero (fun _ => 1) (fun _ => one_ne_zero)]
  have h2 : Complex.sin (Real.pi * 1 / 2) = 1 := by rw [mul_one]; exact Complex.sin_pi_div_two
  have e2 : ∀ n : Idx ![2, 2, 1], (n 2 : ℕ) = 0 := fun n => Nat.lt_one_iff.1 (n 2).2
  have hk : ∀ n : Idx ![2, 2, 1], ∑ a, (2 * Complex.sin (Real.pi * (n a : ℕ) / ((![2, 2, 1] : Fin 3 → ℕ) a : ℕ)) / 1) ^ 2
      = 4 * Complex.sin (Real.pi * (n 0 : ℕ) / 2) ^ 2 + 4 * Complex.sin (Real.pi * (n 1 : ℕ) / 2) ^ 2 := by
    intro n
    rw [Fin.sum_univ_three, e2 n]; simp; ring
  simp only [hk, mul_one]
  have hone : (((1 : Fin 2) : ℕ) : ℂ) = 1 := by norm_num
  constructor
  · rintro ⟨n, h⟩
    have h0 : (n 0 : ℕ) < 2 := (n 0).2
    have h1 : (n 1 : ℕ) < 2 := (n 1).2
    rw [h]
    interval_cases (n 0 : ℕ) <;> interval_cases (n 1 : ℕ) <;> push_cast <;> simp only [h2, mul_zero, zero_div, Complex.sin_zero] <;> norm_num
  · rintro (h | h | h)
    · exact ⟨fun a => match a with | 0 => (0 : Fin 2) | 1 => (0 : Fin 2) | 2 => (0 : Fin 1), by simp [h]⟩
    · refine ⟨fun a => match a with | 0 => (1 : Fin 2) | 1 => (0 : Fin 2) | 2 => (0 : Fin 1), ?_⟩
      show _ = 4 * Complex.sin (Real.pi * (((1 : Fin 2) : ℕ) : ℂ) / 2) ^ 2 + 4 * Complex.sin (Real.pi * (((0 : Fin 2) : ℕ) : ℂ) / 2) ^ 2
      rw [hone, h2, h]; simp
    · refine ⟨fun a => match a with | 0 => (1 : Fin 2) | 1 => (1 : Fin 2) | 2 => (0 : Fin 1), ?_⟩
      show _ = 4 * Complex.sin (Real.pi * (((1 : Fin 2) : ℕ) : ℂ) / 2) ^ 2 + 4 * Complex.sin (Real.pi * (((1 : Fin 2) : ℕ) : ℂ) / 2) ^ 2
      rw [hone, h2, h]; norm_num

/-! The hypotheses are met: in a vacuum box of 2-by-2-by-1 cells, with resonances 2 and √8, some current has its antiresonance in between. -/
example : ∃ (J : Vec ![2, 2, 1]) (E : ℝ → Vec ![2, 2, 1]),
    (∀ ω : ℝ, 2 < ω → ω < Real.sqrt 8 → IsDriven ω (cDx (fun _ _ => 1, fun _ _ => 1)) (rEps fun _ => 1) (realMu (some fun _ => 1)) none none J (E ω)) ∧
      ∃! ω : ℝ, (2 < ω ∧ ω < Real.sqrt 8) ∧ coupling (fun _ _ => 1, fun _ _ => 1) J (E ω) = 0 := by
  classical
  have hd : PosGrid (sh := ![2, 2, 1]) (fun _ _ => 1, fun _ _ => 1) := ⟨fun _ _ => one_pos, fun _ _ => one_pos⟩
  have h8 : (2 : ℝ) < Real.sqrt 8 := by rw [Real.lt_sqrt (by norm_num)]; norm_num
  have h8s : ((Real.sqrt 8 : ℝ) : ℂ) ^ 2 = 8 := by rw [← ofReal_pow, Real.sq_sqrt (by norm_num)]; norm_num
  obtain ⟨Ga, ha0, hGa⟩ := (box22 ((2 : ℝ) : ℂ)).2 (by right; left; norm_num)
  obtain ⟨Gb, hb0, hGb⟩ := (box22 ((Real.sqrt 8 : ℝ) : ℂ)).2 (by right; right; exact h8s)
  have hres : ∀ ω : ℝ, 2 < ω → ω < Real.sqrt 8 →
      (ω : ℂ) ∉ resonances (sh := ![2, 2, 1]) (cDx (fun _ _ => 1, fun _ _ => 1)) (rEps fun _ => 1) (realMu (some fun _ => 1)) none none := by
    intro ω h1 h2
    rw [box22]
    have h3 : ω ^ 2 < 8 := by rw [Real.lt_sqrt (by linarith)] at h2; exact h2
    rintro (h | h | h)
    · have : ω ^ 2 = 0 := by exact_mod_cast h
      nlinarith
    · have : ω ^ 2 = 4 := by exact_mod_cast h
      nlinarith
    · have : ω ^ 2 = 8 := by exact_mod_cast h
      linarith
  have hcoup : ∀ F G : Vec ![2, 2, 1], coupling (fun _ _ => 1, fun _ _ => 1) F G = epsOverlap (fun _ _ => 1, fun _ _ => 1) (fun _ => 1) F G := by
    intro F G; simp [coupling, epsOverlap]
  have hpos : ∀ F : Vec ![2, 2, 1], F ≠ 0 → epsOverlap (fun _ _ => 1, fun _ _ => 1) (fun _ => 1) F F ≠ 0 := by
    intro F hF
    rw [epsOverlap_self]
    exact ofReal_ne_zero.2 (eps_energy_pos _ _ hd (fun _ => one_pos) hF).ne'
  have hne : (((2 : ℝ) : ℂ)) ^ 2 ≠ ((Real.sqrt 8 : ℝ) : ℂ) ^ 2 := by rw [h8s]; norm_num
  have hadd : ∀ F G H : Vec ![2, 2, 1], coupling (fun _ _ => 1, fun _ _ => 1) F (G + H) = coupling (fun _ _ => 1, fun _ _ => 1) F G + coupling (fun _ _ => 1, fun _ _ => 1) F H := by
    intro F G H
    simp only [coupling, Pi.add_apply, ← Finset.sum_add_distrib]
    exact Finset.sum_congr rfl fun p _ => by ring
  have hE : ∀ ω : ℝ, ∃ E, 2 < ω → ω < Real.sqrt 8 →
      IsDriven ω (cDx (fun _ _ => 1, fun _ _ => 1)) (rEps fun _ => 1) (realMu (some fun _ => 1)) none none (Ga + Gb) E := by
    intro ω
    by_cases h : 2 < ω ∧ ω < Real.sqrt 8
    · obtain ⟨E, ⟨h1, h2⟩, -⟩ := C124_solvable (ω : ℂ) _ _ _ none none (hres ω h.1 h.2) (Ga + Gb) (fun m hm => by simp at hm)
      exact ⟨E, fun _ _ => ⟨h1, h2⟩⟩
    · exact ⟨0, fun h1 h2 => absurd ⟨h1, h2⟩ h⟩
  choose E hE using hE
  refine ⟨Ga + Gb, E, hE, C142_antiresonance _ hd _ _ none none (fun _ => one_pos) (fun _ => one_pos) two_pos h8 hGa ?_ hGb ?_ hres E hE⟩
  · rw [hadd, hcoup, hcoup, show epsOverlap _ _ Ga Gb = 0 from C124_orthogonal _ hd _ _ none none (fun _ => one_pos) _ _ hne hGa hGb, add_zero]
    exact hpos Ga ha0
  · rw [hadd, hcoup, hcoup, show epsOverlap _ _ Gb Ga = 0 from C124_orthogonal _ hd _ _ none none (fun _ => one_pos) _ _ hne.symm hGb hGa, zero_add]
    exact hpos Gb hb0

end Meanas.Props
