/-
C174: nondegenerate resonances of cavities continue smoothly and uniquely when the media change, with the shifts of first-order perturbation theory
(meanas/fdfd/operators.py:40-135).
-/
import Verif.Props.ModeBranch
import Verif.Props.Perturbation

namespace Meanas.Props

open Matrix Complex Fdfd Spec Solvers Topology BranchAux

variable {sh : Fin 3 → ℕ}

/-- A branch of resonances through the resonance `(ω₀, E₀)` of the cavity with media `q₀ = (ε₀, μ₀)`: frequency and field are analytic functions of the media, and no
other resonance is near. -/
structure ResonanceBranch (dxes : Dx sh) (pec pmc : Option (Pos sh → Bool)) (q₀ : Vec sh × Vec sh) (ω₀ : ℂ) (E₀ : Vec sh) (ω : Vec sh × Vec sh → ℂ)
    (E : Vec sh × Vec sh → Vec sh) : Prop where
  /-- the frequency is analytic -/
  analytic : ContDiffAt ℝ ⊤ ω q₀
  /-- so is the field -/
  field_analytic : ContDiffAt ℝ ⊤ E q₀
  /-- the branch passes through the given resonance -/
  start : ω q₀ = ω₀
  /-- with the given field -/
  field_start : E q₀ = E₀
  /-- and consists of resonances -/
  resonant : ∀ᶠ q in 𝓝 q₀, IsResonant (ω q) dxes q.1 (some q.2) pec pmc (E q)
  /-- every resonance of a nearby cavity with a nearby frequency is on it -/
  unique : ∀ᶠ r : (Vec sh × Vec sh) × ℂ in 𝓝 (q₀, ω₀), ∀ u : Vec sh, u ≠ 0 → IsResonant r.2 dxes r.1.1 (some r.1.2) pec pmc u → r.2 = ω r.1 ∧ ∃ c : ℂ, u = c • E r.1

namespace ResBranch

/-- The matrix with eigenvalues `ω²`. -/
noncomputable def resMat (dxes : Dx sh) (pec pmc : Option (Pos sh → Bool)) (q : Vec sh × Vec sh) : Mat sh :=
  diagonal (fun p => 1 / q.1 p) * eFull 0 dxes 0 (some q.2) pec pmc

theorem resMat_apply (dxes : Dx sh) (pec pmc : Option (Pos sh → Bool)) (q : Vec sh × Vec sh) (E : Vec sh) (p : Pos sh) :
    (resMat dxes pec pmc q *ᵥ E) p = 1 / q.1 p * (eFull 0 dxes 0 (some q.2) pec pmc *ᵥ E) p := by
  rw [resMat, ← mulVec_mulVec, mulVec_diagonal]

theorem eFull_open (ω : ℂ) (dxes : Dx sh) (eps : Vec sh) (mu : Option (Vec sh)) (pec pmc : Option (Pos sh → Bool)) (E : Vec sh) (p : Pos sh) :
    (openAt pec p : ℂ) * (eFull ω dxes eps mu pec pmc *ᵥ E) p = (eFull ω dxes eps mu pec pmc *ᵥ E) p := by
  rw [eFull_apply]
  rcases openAt_cases pec p with h | h <;> simp [h]

/-- Resonant fields are the eigenvectors of the matrix. -/
theorem resMat_iff {ω : ℂ} (hω : ω ≠ 0) (dxes : Dx sh) (pec pmc : Option (Pos sh → Bool)) {q : Vec sh × Vec sh} (heps : ∀ p, q.1 p ≠ 0) (E : Vec sh) :
    IsResonant ω dxes q.1 (some q.2) pec pmc E ↔ resMat dxes pec pmc q *ᵥ E = ω ^ 2 • E := by
  have hz : eFull 0 dxes q.1 (some q.2) pec pmc = eFull 0 dxes 0 (some q.2) pec pmc := eFull_zero_eps _ _ _ _ _ _
  constructor
  · rintro ⟨h1, h2⟩
    rw [mem_resonances_iff _ _ _ _ _ _ _ h1, hz] at h2
    funext p
    rw [resMat_apply, h2 p, Pi.smul_apply, smul_eq_mul]
    have := heps p
    field_simp
  · intro h
    have hp : ∀ p, (eFull 0 dxes 0 (some q.2) pec pmc *ᵥ E) p = ω ^ 2 * (q.1 p * E p) := fun p => by
      have := congrFun h p
      rw [resMat_apply, Pi.smul_apply, smul_eq_mul, one_div, inv_mul_eq_iff_eq_mul₀ (heps p)] at this
      rw [this]; ring
    have hoff : OffPec pec E := by
      rw [offPec_iff]
      intro p
      have := eFull_open 0 dxes 0 (some q.2) pec pmc E p
      rw [hp p] at this
      refine mul_left_cancel₀ (mul_ne_zero (pow_ne_zero 2 hω) (heps p)) ?_
      linear_combination this
    exact ⟨hoff, (mem_resonances_iff _ _ _ _ _ _ _ hoff).2 (by rw [hz]; exact hp)⟩

theorem resMat_smooth (dxes : Dx sh) (pec pmc : Option (Pos sh → Bool)) {q : Vec sh × Vec sh} (heps : ∀ p, q.1 p ≠ 0) (hmu : ∀ p, q.2 p ≠ 0) :
    Sm (⊤ : WithTop ℕ∞) (fun q => resMat dxes pec pmc q) q := by
  have e : ∀ i, ContDiffAt ℝ ⊤ (fun q : Vec sh × Vec sh => q.1 i) q := contDiffAt_pi.1 contDiffAt_fst
  have m : ∀ i, ContDiffAt ℝ ⊤ (fun q : Vec sh × Vec sh => q.2 i) q := contDiffAt_pi.1 contDiffAt_snd
  have h2 : Sm (⊤ : WithTop ℕ∞) (fun q : Vec sh × Vec sh => eFull 0 dxes 0 (some q.2) pec pmc) q := by
    have h : ∀ q : Vec sh × Vec sh, eFull 0 dxes 0 (some q.2) pec pmc
        = notMask pec * (OperatorsS.curlBack dxes.2 * notMask pmc * (diagonal fun p => 1 / q.2 p) * OperatorsS.curlForward dxes.1) * notMask pec := fun q => by
      simp [eFull, muDiv]
    simp only [h]
    exact ((Sm.const _).mul (((Sm.const _).mul (Sm.diagonal fun i => sm_inv (m i) (hmu i))).mul (Sm.const _))).mul (Sm.const _)
  exact (Sm.diagonal fun i => sm_inv (e i) (heps i)).mul h2

/-- Pairing with a resonant field. -/
theorem resMat_pair {ω : ℂ} {dxes : Dx sh} (hg : GridNz dxes) {pec pmc : Option (Pos sh → Bool)} {q : Vec sh × Vec sh} (heps : ∀ p, q.1 p ≠ 0) {E : Vec sh}
    (hE : IsResonant ω dxes q.1 (some q.2) pec pmc E) (w : Vec sh) : eInt dxes q.1 E (resMat dxes pec pmc q *ᵥ w) = ω ^ 2 * eInt dxes q.1 E w := by
  have hs := vol_eFull_symm 0 dxes hg 0 (some q.2) pec pmc
  have h1 : eInt dxes q.1 E (resMat dxes pec pmc q *ᵥ w) = E ⬝ᵥ (((diagonal (pSquared dxes) : Mat sh) * eFull 0 dxes 0 (some q.2) pec pmc) *ᵥ w) := by
    rw [eInt, ← mulVec_mulVec]
    simp only [dotProduct, mulVec_diagonal, Fintype.sum_prod_type, pSquared_eq, resMat_apply]
    refine Finset.sum_congr rfl fun c _ => Finset.sum_congr rfl fun x _ => ?_
    have := heps (c, x)
    field_simp
  have hp : ∀ p, (eFull 0 dxes 0 (some q.2) pec pmc *ᵥ E) p = ω ^ 2 * (q.1 p * E p) := by
    have := (mem_resonances_iff _ _ _ _ _ _ _ hE.off).1 hE.free
    rw [eFull_zero_eps _ _ 0] at this
    exact this
  rw [h1, dotProduct_mulVec, ← mulVec_transpose, hs, ← mulVec_mulVec, eInt, Finset.mul_sum]
  simp only [dotProduct, mulVec_diagonal, Fintype.sum_prod_type, pSquared_eq, hp]
  refine Finset.sum_congr rfl fun c _ => ?_
  rw [Finset.mul_sum]
  exact Finset.sum_congr rfl fun x _ => by ring

end ResBranch

open ResBranch

/-- **C174.** Continuation of a nondegenerate resonance, for any media, lossy ones and complex-stretched grids included. If the fields that resonate at `ω₀ ≠ 0` are the multiples
of one field `E₀` with `∫ ε E₀·E₀ dV ≠ 0`, then all nearby media have exactly one resonance near it. Its frequency and field are analytic functions of all entries of
`epsilon` and `mu`, and `dω = -ω/2 (∫ dε E₀·E₀ dV - ∫ dμ H₀·H₀ dV) / ∫ ε E₀·E₀ dV`. -/
theorem C174_branch {dxes : Dx sh} (hg : GridNz dxes) {pec pmc : Option (Pos sh → Bool)} {eps₀ mu₀ : Vec sh} (heps : ∀ p, eps₀ p ≠ 0) (hmu : ∀ p, mu₀ p ≠ 0) {ω₀ : ℂ} (hω : ω₀ ≠ 0)
    {E₀ : Vec sh} (hE : IsResonant ω₀ dxes eps₀ (some mu₀) pec pmc E₀) (hone : ∀ u, IsResonant ω₀ dxes eps₀ (some mu₀) pec pmc u → ∃ c : ℂ, u = c • E₀)
    (hN : eInt dxes eps₀ E₀ E₀ ≠ 0) :
    ∃ (ω : Vec sh × Vec sh → ℂ) (E : Vec sh × Vec sh → Vec sh) (L : Vec sh × Vec sh →L[ℝ] ℂ), ResonanceBranch dxes pec pmc (eps₀, mu₀) ω₀ E₀ ω E ∧ HasFDerivAt ω L (eps₀, mu₀) ∧
      let H₀ := Fdfd.e2h ω₀ dxes (some mu₀) pmc *ᵥ E₀
      ∀ δε δμ : Vec sh, L (δε, δμ) = -ω₀ / 2 * ((eInt dxes δε E₀ E₀ - hInt dxes δμ H₀ H₀) / eInt dxes eps₀ E₀ E₀) := by
  have hE0 : E₀ ≠ 0 := fun h => hN (by simp [h, eInt])
  have he := (resMat_iff hω dxes pec pmc (q := (eps₀, mu₀)) heps E₀).1 hE
  have hs : (resMat dxes pec pmc (eps₀, mu₀)).charpoly.rootMultiplicity (ω₀ ^ 2) = 1 := by
    refine Branch.simple_of_kernel hE0 he (fun u hu => hone u ((resMat_iff hω dxes pec pmc (q := (eps₀, mu₀)) heps u).2 hu)) fun w hw => hN ?_
    have h1 := resMat_pair hg (q := (eps₀, mu₀)) heps hE w
    have h2 : eInt dxes eps₀ E₀ (resMat dxes pec pmc (eps₀, mu₀) *ᵥ w - ω₀ ^ 2 • w) = eInt dxes eps₀ E₀ (resMat dxes pec pmc (eps₀, mu₀) *ᵥ w) - ω₀ ^ 2 * eInt dxes eps₀ E₀ w := by
      simp only [eInt, Finset.mul_sum, ← Finset.sum_sub_distrib, Pi.sub_apply, Pi.smul_apply, smul_eq_mul]
      exact Finset.sum_congr rfl fun c _ => Finset.sum_congr rfl fun x _ => by ring
    rw [hw, h1, sub_self] at h2
    exact h2
  obtain ⟨ω, E, a1, a2, a3, a4, a5, a6⟩ := Branch.exists_branch (by simp) (resMat_smooth dxes pec pmc (q := (eps₀, mu₀)) heps hmu) hω hE0 he hs
  have ne1 : ∀ᶠ q : Vec sh × Vec sh in 𝓝 (eps₀, mu₀), ∀ p, q.1 p ≠ 0 :=
    Filter.eventually_all.2 fun p => ContinuousAt.eventually_ne ((continuous_apply p).continuousAt.comp continuousAt_fst) (heps p)
  have ne2 : ∀ᶠ q : Vec sh × Vec sh in 𝓝 (eps₀, mu₀), ω q ≠ 0 := a1.continuousAt.eventually_ne (by rw [a3]; exact hω)
  have hres : ∀ᶠ q in 𝓝 (eps₀, mu₀), IsResonant (ω q) dxes q.1 (some q.2) pec pmc (E q) := by
    filter_upwards [a5, ne1, ne2] with q h1 h2 h3
    exact (resMat_iff h3 dxes pec pmc h2 _).2 h1
  refine ⟨ω, E, fderiv ℝ ω (eps₀, mu₀), ⟨a1, a2, a3, a4, hres, ?_⟩, (a1.differentiableAt (by simp)).hasFDerivAt, ?_⟩
  · have ne3 : ∀ᶠ r : (Vec sh × Vec sh) × ℂ in 𝓝 ((eps₀, mu₀), ω₀), ∀ p, r.1.1 p ≠ 0 :=
      (continuousAt_fst (p := ((eps₀, mu₀), ω₀))).eventually ne1
    have ne4 : ∀ᶠ r : (Vec sh × Vec sh) × ℂ in 𝓝 ((eps₀, mu₀), ω₀), r.2 ≠ 0 := continuousAt_snd.eventually_ne hω
    filter_upwards [a6, ne3, ne4] with r h1 h2 h3 u hu hr
    exact h1 u hu ((resMat_iff h3 dxes pec pmc h2 _).1 hr)
  · intro H₀ δε δμ
    have hl : HasDerivAt (fun t : ℝ => ((eps₀, mu₀) : Vec sh × Vec sh) + t • (δε, δμ)) (δε, δμ) 0 := by
      simpa using ((hasDerivAt_id (0 : ℝ)).smul_const ((δε, δμ) : Vec sh × Vec sh)).const_add (eps₀, mu₀)
    have hl0 : ((eps₀, mu₀) : Vec sh × Vec sh) + (0 : ℝ) • (δε, δμ) = (eps₀, mu₀) := by simp
    have hc := hl.continuousAt
    have hd : HasDerivAt (fun t : ℝ => ω ((eps₀, mu₀) + t • (δε, δμ))) (fderiv ℝ ω (eps₀, mu₀) (δε, δμ)) 0 := by
      have h := (a1.differentiableAt (by simp)).hasFDerivAt
      rw [← hl0] at h
      have := h.comp_hasDerivAt (0 : ℝ) hl
      rw [hl0] at this
      exact this
    have hline : ∀ (a b : Vec sh) p, HasDerivAt (fun t : ℝ => (a + t • b) p) (b p) 0 := fun a b p => by
      have : HasDerivAt (fun t : ℝ => a p + t • b p) (b p) 0 := by simpa using ((hasDerivAt_id (0 : ℝ)).smul_const (b p)).const_add (a p)
      exact this
    have z1 : eps₀ + (0 : ℝ) • δε = eps₀ := by simp
    have z2 : mu₀ + (0 : ℝ) • δμ = mu₀ := by simp
    have hev : ∀ᶠ t : ℝ in 𝓝 0, IsResonant (ω ((eps₀, mu₀) + t • (δε, δμ))) dxes (eps₀ + t • δε) (some (mu₀ + t • δμ)) pec pmc (E ((eps₀, mu₀) + t • (δε, δμ))) := by
      have : Filter.Tendsto (fun t : ℝ => ((eps₀, mu₀) : Vec sh × Vec sh) + t • (δε, δμ)) (𝓝 0) (𝓝 (eps₀, mu₀)) := by have h := hc.tendsto; rwa [hl0] at h
      exact this.eventually hres
    have key := C135_shift hg (fun t => eps₀ + t • δε) (fun t => mu₀ + t • δμ) δε δμ (hline _ _) (hline _ _) (by rw [z2]; exact hmu)
      (fun t => ω ((eps₀, mu₀) + t • (δε, δμ))) (fun t => E ((eps₀, mu₀) + t • (δε, δμ))) hd.continuousAt
      (ContinuousAt.comp (g := E) (by rw [hl0]; exact a2.continuousAt) hc) (by simp only [hl0, a3]; exact hω) hev E₀ (by simp only [hl0, z1, z2, a3]; exact hE)
      (by simp only [hl0, z1, a4]; exact hN)
    simp only [hl0, z1, z2, a3, a4] at key
    exact hd.unique key

/-- **C174.** In a lossless cavity a nondegenerate resonance needs no other condition, and its field satisfies `∫ ε E₀·E₀ dV ≠ 0`. The changes may be lossy:
`dω = -ω/2 (∫ dε |E₀|² dV + ∫ dμ |H₀|² dV) / ∫ ε |E₀|² dV`. -/
theorem C174_lossless {d : DxList sh ℝ × DxList sh ℝ} (hd : PosGrid d) {pec pmc : Option (Pos sh → Bool)} {eps₀ mu₀ : Pos sh → ℝ} (heps : ∀ p, 0 < eps₀ p) (hmu : ∀ p, mu₀ p ≠ 0)
    {w : ℝ} (hw : w ≠ 0) {E₀ : Vec sh} (hE0 : E₀ ≠ 0) (hE : IsResonant w (cDx d) (rEps eps₀) (some (rEps mu₀)) pec pmc E₀)
    (hone : ∀ u, IsResonant w (cDx d) (rEps eps₀) (some (rEps mu₀)) pec pmc u → ∃ c : ℂ, u = c • E₀) :
    ∃ (ω : Vec sh × Vec sh → ℂ) (E : Vec sh × Vec sh → Vec sh) (L : Vec sh × Vec sh →L[ℝ] ℂ), ResonanceBranch (cDx d) pec pmc (rEps eps₀, rEps mu₀) w E₀ ω E ∧
      HasFDerivAt ω L (rEps eps₀, rEps mu₀) ∧ (∀ᶠ q in 𝓝 (rEps eps₀, rEps mu₀), (∀ p, (q.1 p).im = 0) → (∀ p, (q.2 p).im = 0) → (ω q).im = 0) ∧
      let H₀ := Fdfd.e2h w (cDx d) (some (rEps mu₀)) pmc *ᵥ E₀
      ∀ δε δμ : Vec sh, L (δε, δμ) = -(w : ℂ) / 2 * ((∑ c, ∑ x, volE d.1 d.2 c x * (δε (c, x) * normSq (E₀ (c, x))) + ∑ c, ∑ x, volH d.1 d.2 c x * (δμ (c, x) * normSq (H₀ (c, x))))
        / ((∑ c, ∑ x, volE d.1 d.2 c x * (eps₀ (c, x) * normSq (E₀ (c, x))) : ℝ) : ℂ)) := by
  have hn : GridNz (cDx d) := ⟨fun a i => ofReal_ne_zero.2 (hd.1 a i).ne', fun a i => ofReal_ne_zero.2 (hd.2 a i).ne'⟩
  have hcd : conjDx (cDx d) = cDx d := by simp only [conjDx, cDx, conj_ofReal]
  have hcv : ∀ f : Pos sh → ℝ, conjVec (rEps f) = rEps f := fun f => by funext p; simp only [conjVec, rEps, conj_ofReal]
  have hcr : ∀ {z : ℂ} {eps mu u : Vec sh}, conjVec eps = eps → conjVec mu = mu → IsResonant z (cDx d) eps (some mu) pec pmc u →
      IsResonant ((starRingEnd ℂ) z) (cDx d) eps (some mu) pec pmc (conjVec u) := fun {z eps mu u} he hm h => by
    refine ⟨fun m hm p hp => ?_, ?_⟩
    · show (starRingEnd ℂ) (u p) = 0
      rw [h.off m hm p hp, map_zero]
    · have := (C108_conjugate z (cDx d) eps (some mu) pec pmc u).1
      rw [hcd, he, Option.map_some, hm, h.free] at this
      rw [this]; funext p; simp [conjVec]
  have hcE := hcr (hcv _) (hcv _) hE
  rw [conj_ofReal] at hcE
  obtain ⟨c, hc⟩ := hone _ hcE
  have hpos : 0 < ∑ c, ∑ x, volE d.1 d.2 c x * (eps₀ (c, x) * normSq (E₀ (c, x))) := by
    have := eps_energy_pos d eps₀ hd heps hE0
    rw [Fintype.sum_prod_type] at this
    simpa only [mul_assoc] using this
  have hN : eInt (cDx d) (rEps eps₀) E₀ E₀ ≠ 0 := by
    intro h0
    have h1 : ((∑ c, ∑ x, volE d.1 d.2 c x * (eps₀ (c, x) * normSq (E₀ (c, x))) : ℝ) : ℂ) = c * eInt (cDx d) (rEps eps₀) E₀ E₀ := by
      rw [eInt, Finset.mul_sum]
      push_cast
      refine Finset.sum_congr rfl fun a _ => ?_
      rw [Finset.mul_sum]
      refine Finset.sum_congr rfl fun x _ => ?_
      have h2 : (starRingEnd ℂ) (E₀ (a, x)) = c * E₀ (a, x) := congrFun hc (a, x)
      rw [normSq_eq_conj_mul_self, h2, volE_cDx, rEps]; ring
    rw [h0, mul_zero] at h1
    exact hpos.ne' (ofReal_eq_zero.1 h1)
  obtain ⟨ω, E, L, B, hL, hform⟩ := C174_branch (eps₀ := rEps eps₀) (mu₀ := rEps mu₀) hn (fun p => ofReal_ne_zero.2 (heps p).ne') (fun p => ofReal_ne_zero.2 (hmu p)) (ofReal_ne_zero.2 hw) hE hone hN
  refine ⟨ω, E, L, B, hL, ?_, ?_⟩
  · have ht : Filter.Tendsto (fun q => (q, (starRingEnd ℂ) (ω q))) (𝓝 (rEps eps₀, rEps mu₀)) (𝓝 ((rEps eps₀, rEps mu₀), (w : ℂ))) := by
      have : (starRingEnd ℂ) (ω (rEps eps₀, rEps mu₀)) = w := by rw [B.start, conj_ofReal]
      rw [← this]
      exact (continuousAt_id.prodMk (continuous_conj.continuousAt.comp B.analytic.continuousAt)).tendsto
    filter_upwards [B.resonant, ht.eventually B.unique, B.field_analytic.continuousAt.eventually_ne (by rw [B.field_start]; exact hE0)] with q h1 h2 h3 r1 r2
    have := hcr (funext fun p => conj_eq_iff_im.2 (r1 p)) (funext fun p => conj_eq_iff_im.2 (r2 p)) h1
    refine conj_eq_iff_im.1 (h2 _ (fun h => h3 (funext fun p => (map_eq_zero (starRingEnd ℂ)).1 (congrFun h p))) this).1
  · intro H₀ δε δμ
    rw [hform δε δμ]
    have hH : Fdfd.e2h w (cDx d) (some (rEps mu₀)) pmc *ᵥ conjVec E₀ = -conjVec H₀ := by
      have := (C108_conjugate_h (w : ℂ) (cDx d) (some (rEps mu₀)) pmc E₀).2
      rw [hcd, Option.map_some, hcv, conj_ofReal] at this
      exact this
    have hc' : conjVec E₀ = c • E₀ := hc
    have hc0 : c ≠ 0 := fun h => hE0 (funext fun p => (map_eq_zero (starRingEnd ℂ)).1 (by have := congrFun hc' p; rw [h, zero_smul] at this; exact this))
    have hcH : -conjVec H₀ = c • H₀ := by rw [← hH, hc', mulVec_smul]
    have s1 : ∀ δ : Vec sh, ∑ a, ∑ x, ((volE d.1 d.2 a x : ℝ) : ℂ) * (δ (a, x) * normSq (E₀ (a, x))) = c * eInt (cDx d) δ E₀ E₀ := fun δ => by
      rw [eInt, Finset.mul_sum]
      refine Finset.sum_congr rfl fun a _ => ?_
      rw [Finset.mul_sum]
      refine Finset.sum_congr rfl fun x _ => ?_
      have h2 : (starRingEnd ℂ) (E₀ (a, x)) = c * E₀ (a, x) := congrFun hc (a, x)
      rw [normSq_eq_conj_mul_self, h2, volE_cDx]; ring
    have s2 : ∑ a, ∑ x, ((volH d.1 d.2 a x : ℝ) : ℂ) * (δμ (a, x) * normSq (H₀ (a, x))) = -(c * hInt (cDx d) δμ H₀ H₀) := by
      rw [hInt, Finset.mul_sum, ← Finset.sum_neg_distrib]
      refine Finset.sum_congr rfl fun a _ => ?_
      rw [Finset.mul_sum, ← Finset.sum_neg_distrib]
      refine Finset.sum_congr rfl fun x _ => ?_
      have h2 : -(starRingEnd ℂ) (H₀ (a, x)) = c * H₀ (a, x) := congrFun hcH (a, x)
      rw [normSq_eq_conj_mul_self, volH_cDx, ← neg_neg ((starRingEnd ℂ) (H₀ (a, x))), h2]; ring
    have s3 := s1 (rEps eps₀)
    have s4 : ((∑ c, ∑ x, volE d.1 d.2 c x * (eps₀ (c, x) * normSq (E₀ (c, x))) : ℝ) : ℂ) = c * eInt (cDx d) (rEps eps₀) E₀ E₀ := by
      rw [← s3]; push_cast; rfl
    rw [s1, s2, s4, ← sub_eq_add_neg, ← mul_sub, mul_div_mul_left _ _ hc0]

/-- The only free component of the example. -/
def freePos : Pos (fun _ : Fin 3 => 2) := (2, fun _ => 0)

/-- Its electric wall: everything else. -/
def oneOpen : Option (Pos (fun _ : Fin 3 => 2) → Bool) := some fun p => !decide (p = freePos)

/-- Two cells along each axis, in which only `E_z` of the first cell is free: it resonates at `ω = 2`, and is the only field that does. So all hypotheses are met. -/
example : ∃ E₀ : Vec (fun _ => 2), E₀ ≠ 0 ∧
    IsResonant (2 : ℝ) (cDx (fun _ _ => 1, fun _ _ => 1)) (rEps fun _ => 1) (some (rEps fun _ => 1)) oneOpen none E₀ ∧
    ∀ u, IsResonant (2 : ℝ) (cDx (fun _ _ => 1, fun _ _ => 1)) (rEps fun _ => 1) (some (rEps fun _ => 1)) oneOpen none u → ∃ c : ℂ, u = c • E₀ := by
  refine ⟨fun p => if p = freePos then 1 else 0, fun h => by simpa using congrFun h freePos, ⟨?_, ?_⟩, fun u hu => ⟨u freePos, ?_⟩⟩
  · intro m hm p hp
    obtain rfl := Option.some.inj hm
    simpa using hp
  · funext p
    rw [eFull_mulVec_masks]
    by_cases hp : p = freePos
    · subst hp
      have h1 : (fun r : Pos (fun _ : Fin 3 => 2) => (openAt oneOpen r : ℂ) * if r = freePos then (1 : ℂ) else 0) = fun r => if r = freePos then 1 else 0 := by
        funext r
        by_cases hr : r = freePos <;> simp [hr, openAt, oneOpen]
      rw [h1]
      have n1 : ∀ a : Fin 3, shiftIdx (sh := fun _ : Fin 3 => 2) a 1 (fun _ => 0) ≠ fun _ => 0 := by decide
      have n2 : ∀ a : Fin 3, shiftIdx (sh := fun _ : Fin 3 => 2) a (-1) (fun _ => 0) ≠ fun _ => 0 := by decide
      simp [cH, cE, vecS, freePos, openAt, oneOpen, rEps, cDx, Functional.derivForward, Functional.derivBack, roll, n1, n2]
      norm_num
    · simp [openAt, oneOpen, hp]
  · funext p
    by_cases hp : p = freePos
    · subst hp; simp
    · simp [hp, hu.off _ rfl p (by simp [hp])]

end Meanas.Props
