/-
C160: how much FDFD fields can change when the current, the medium, the frequency or the accuracy of the solver change (`e_full` of
meanas/fdfd/operators.py:40-96, `generic` of meanas/fdfd/solvers.py:62-141).
-/
import Verif.Props.Driven
import Verif.Props.Scattering
import Verif.Props.SolverResidual
import Mathlib.Analysis.InnerProductSpace.PiL2

namespace Meanas.Props

open Matrix Complex Fdfd Spec Solvers

variable {sh : Fin 3 → ℕ}

/-- `√(∫ w |v|² dV)`: the norm of a field with the weight `w`. -/
noncomputable def wNorm (d : DxList sh ℝ × DxList sh ℝ) (w : Pos sh → ℝ) (v : Vec sh) : ℝ := √(∑ p : Pos sh, volE d.1 d.2 p.1 p.2 * w p * ‖v p‖ ^ 2)

namespace CondAux

theorem wNorm_nonneg (d : DxList sh ℝ × DxList sh ℝ) (w : Pos sh → ℝ) (v : Vec sh) : 0 ≤ wNorm d w v := Real.sqrt_nonneg _

theorem wNorm_sq (d : DxList sh ℝ × DxList sh ℝ) (hd : PosGrid d) {w : Pos sh → ℝ} (hw : ∀ p, 0 < w p) (v : Vec sh) :
    wNorm d w v ^ 2 = ∑ p : Pos sh, volE d.1 d.2 p.1 p.2 * w p * ‖v p‖ ^ 2 :=
  Real.sq_sqrt (Finset.sum_nonneg fun p _ => mul_nonneg (mul_nonneg (hd.vol p.1 p.2).le (hw p).le) (sq_nonneg _))

theorem wNorm_eq (d : DxList sh ℝ × DxList sh ℝ) (hd : PosGrid d) {w : Pos sh → ℝ} (hw : ∀ p, 0 < w p) (v : Vec sh) :
    wNorm d w v = ‖WithLp.toLp 2 (fun p : Pos sh => ((√(volE d.1 d.2 p.1 p.2 * w p) : ℝ) : ℂ) * v p)‖ := by
  rw [EuclideanSpace.norm_eq, wNorm]
  congr 1
  refine Finset.sum_congr rfl fun p _ => ?_
  have h := mul_nonneg (hd.vol p.1 p.2).le (hw p).le
  rw [show (WithLp.toLp 2 (fun p : Pos sh => ((√(volE d.1 d.2 p.1 p.2 * w p) : ℝ) : ℂ) * v p)) p = ((√(volE d.1 d.2 p.1 p.2 * w p) : ℝ) : ℂ) * v p from rfl,
    norm_mul, mul_pow, norm_real, Real.norm_eq_abs, sq_abs, Real.sq_sqrt h]

theorem wNorm_add (d : DxList sh ℝ × DxList sh ℝ) (hd : PosGrid d) {w : Pos sh → ℝ} (hw : ∀ p, 0 < w p) (u v : Vec sh) :
    wNorm d w (u + v) ≤ wNorm d w u + wNorm d w v := by
  rw [wNorm_eq d hd hw, wNorm_eq d hd hw, wNorm_eq d hd hw]
  refine (le_of_eq ?_).trans (norm_add_le _ _)
  congr 1
  ext p
  simp [mul_add]

theorem wNorm_smul (d : DxList sh ℝ × DxList sh ℝ) (hd : PosGrid d) {w : Pos sh → ℝ} (hw : ∀ p, 0 < w p) (c : ℂ) (v : Vec sh) :
    wNorm d w (c • v) = ‖c‖ * wNorm d w v := by
  rw [wNorm_eq d hd hw, wNorm_eq d hd hw, ← norm_smul]
  congr 1
  ext p
  simp only [Pi.smul_apply, smul_eq_mul, PiLp.smul_apply]
  ring

theorem wNorm_le (d : DxList sh ℝ × DxList sh ℝ) (hd : PosGrid d) {w w' : Pos sh → ℝ} {t : ℝ} (ht : 0 ≤ t) {u v : Vec sh}
    (h : ∀ p, w' p * ‖u p‖ ^ 2 ≤ t ^ 2 * (w p * ‖v p‖ ^ 2)) : wNorm d w' u ≤ t * wNorm d w v := by
  rw [wNorm, wNorm, ← Real.sqrt_sq ht, ← Real.sqrt_mul (sq_nonneg t), Finset.mul_sum]
  refine Real.sqrt_le_sqrt (Finset.sum_le_sum fun p _ => ?_)
  have := mul_le_mul_of_nonneg_left (h p) (hd.vol p.1 p.2).le
  calc _ = volE d.1 d.2 p.1 p.2 * (w' p * ‖u p‖ ^ 2) := by ring
    _ ≤ _ := this
    _ = _ := by ring

/-- Parseval in the basis of resonant fields. -/
theorem parseval {d : DxList sh ℝ × DxList sh ℝ} (hd : PosGrid d) {eps : Pos sh → ℝ} (heps : ∀ p, 0 < eps p) {mu : Option (Pos sh → ℝ)} {pec pmc : Option (Pos sh → Bool)}
    {ι : Type} [Fintype ι] {F : ι → Vec sh} {w : ι → ℝ} (hB : IsResonantBasis d eps mu pec pmc F w) {E : Vec sh} (hE : OffPec pec E) :
    wNorm d eps E ^ 2 = ∑ j, ‖epsOverlap d eps (F j) E‖ ^ 2 := by
  have h1 : ((wNorm d eps E ^ 2 : ℝ) : ℂ) = epsOverlap d eps E E := by
    rw [epsOverlap_self, wNorm_sq d hd heps]
    congr 1
    exact Finset.sum_congr rfl fun p _ => by rw [normSq_eq_norm_sq]
  have h2 : epsOverlap d eps E E = ∑ j, epsOverlap d eps (F j) E * epsOverlap d eps E (F j) := by
    conv_lhs => rw [hB.expand E hE]
    conv_lhs => rw [← hB.expand E hE]
    conv_lhs => arg 4; rw [hB.expand E hE]
    rw [epsOverlap_sum]
  have h3 : ((wNorm d eps E ^ 2 : ℝ) : ℂ) = ((∑ j, ‖epsOverlap d eps (F j) E‖ ^ 2 : ℝ) : ℂ) := by
    rw [h1, h2, ofReal_sum]
    refine Finset.sum_congr rfl fun j _ => ?_
    rw [← epsOverlap_conj d eps (F j) E, mul_conj, normSq_eq_norm_sq]
  exact_mod_cast h3

end CondAux

open CondAux

section
variable (d : DxList sh ℝ × DxList sh ℝ) (hd : PosGrid d) (eps : Pos sh → ℝ) (heps : ∀ p, 0 < eps p) (mu : Option (Pos sh → ℝ)) (hmu : ∀ p, 0 < muR mu p)
  (pec pmc : Option (Pos sh → Bool))

/-- All resonances are at least `g` away from the frequency `ω`, in terms of squared frequencies. -/
def Gap (ω : ℂ) (g : ℝ) : Prop := ∀ ωk ∈ resonances (cDx d) (rEps eps) (realMu mu) pec pmc, g ≤ ‖ωk ^ 2 - ω ^ 2‖

include hd heps hmu in
/-- **C160.** The wave operator of a lossless structure is bounded below by the distance to the nearest resonance: a field with a small residual in the wave equation is small. -/
theorem C160_residual (ω : ℂ) {g : ℝ} (hg : 0 ≤ g) (hgap : Gap d eps mu pec pmc ω g) {E : Vec sh} (hE : OffPec pec E) :
    g * wNorm d eps E ≤ wNorm d (fun p => (eps p)⁻¹) (eFull ω (cDx d) (rEps eps) (realMu mu) pec pmc *ᵥ E) := by
  obtain ⟨ι, hι, F, w, h1, h2, h3, h4⟩ := resonant_basis d hd eps mu pec pmc heps hmu
  have hB : IsResonantBasis d eps mu pec pmc F w := ⟨fun j => (h1 j).1, fun j => (h1 j).2, h2, h3, h4⟩
  set r := eFull ω (cDx d) (rEps eps) (realMu mu) pec pmc *ᵥ E with hr
  set u : Vec sh := fun p => r p / eps p with hu
  have hpe : ∀ p, (eps p : ℂ) ≠ 0 := fun p => ofReal_ne_zero.2 (heps p).ne'
  have huoff : OffPec pec u := (offPec_iff _ _).2 fun p => by
    rcases openAt_cases pec p with h | h
    · simp only [hu, hr]; rw [eFull_apply, h]; simp
    · rw [h]; simp
  have hwn : wNorm d (fun p => (eps p)⁻¹) r = wNorm d eps u := by
    rw [wNorm, wNorm]
    congr 1
    refine Finset.sum_congr rfl fun p _ => ?_
    simp only [hu, norm_div, norm_real, Real.norm_of_nonneg (heps p).le]
    have := (heps p).ne'
    field_simp
  -- amplitudes
  have hamp : ∀ j, epsOverlap d eps (F j) u = ((w j : ℂ) ^ 2 - ω ^ 2) * epsOverlap d eps (F j) E := by
    intro j
    have e1 := (resonant_iff d hd eps mu pec pmc (w j) (h1 j).2.off).1 (h1 j).2.free
    have e2 := stiff_swap d eps mu pec pmc hd (F j) E
    rw [e1] at e2
    have e3 : star ((w j : ℂ) ^ 2 • (Pencil.dg (mass d eps) *ᵥ F j)) ⬝ᵥ E = (w j : ℂ) ^ 2 * epsOverlap d eps (F j) E := by
      simp only [epsOverlap, dotProduct, Pi.star_apply, Pi.smul_apply, smul_eq_mul, Pencil.dg_mulVec, RCLike.star_def, map_mul, map_pow, conj_ofReal, Finset.mul_sum, mass]
      exact Finset.sum_congr rfl fun p _ => by ring
    have e4 : star (F j) ⬝ᵥ (stiff d eps mu pec pmc *ᵥ E) = epsOverlap d eps (F j) u + ω ^ 2 * epsOverlap d eps (F j) E := by
      simp only [dotProduct, epsOverlap, Finset.mul_sum, ← Finset.sum_add_distrib, Pi.star_apply, RCLike.star_def]
      refine Finset.sum_congr rfl fun p _ => ?_
      have h5 := eFull_off ω (cDx d) (rEps eps) (realMu mu) pec pmc hE p
      rw [← hr, rEps] at h5
      have h6 : (eps p : ℂ) * u p = r p := by simp only [hu]; field_simp [hpe p]
      rw [stiff, ← mulVec_mulVec, mulVec_diagonal, pSquared_real]
      push_cast
      rw [show (eFull 0 (cDx d) (rEps eps) (realMu mu) pec pmc *ᵥ E) p = r p + ω ^ 2 * (eps p * E p) by rw [h5]; ring, ← h6]
      ring
    rw [e3, e4] at e2
    linear_combination e2
  have hne : ∀ j, F j ≠ 0 := fun j h0 => by
    have := h2 j
    rw [h0] at this; simp [epsOverlap] at this
  refine le_of_sq_le_sq ?_ (wNorm_nonneg _ _ _)
  rw [hwn, mul_pow, parseval hd heps hB hE, parseval hd heps hB huoff, Finset.mul_sum]
  refine Finset.sum_le_sum fun j _ => ?_
  rw [hamp, norm_mul, mul_pow]
  exact mul_le_mul_of_nonneg_right (pow_le_pow_left₀ hg (hgap _ ⟨F j, hne j, (h1 j).2⟩) 2) (sq_nonneg _)

include hd heps hmu in
/-- **C160.** The field driven by a current is at most `|ω| / g` times as large as the current. -/
theorem C160_field (ω : ℂ) {g : ℝ} (hg : 0 ≤ g) (hgap : Gap d eps mu pec pmc ω g) {J E : Vec sh}
    (h : IsDriven ω (cDx d) (rEps eps) (realMu mu) pec pmc J E) : g * wNorm d eps E ≤ ‖ω‖ * wNorm d (fun p => (eps p)⁻¹) J := by
  have h1 := C160_residual d hd eps heps mu hmu pec pmc ω hg hgap h.off
  rw [h.eqn, wNorm_smul d hd (fun p => inv_pos.2 (heps p)), norm_mul, norm_neg, norm_I, one_mul] at h1
  exact h1

include hd heps in
/-- **C160.** The bound is attained: the field of any resonance is driven, at any other frequency, by a current for which `|ω_k² - ω²|` times the field is exactly `|ω|` times the current. -/
theorem C160_attained (ω : ℂ) (hω : ω ≠ 0) {ωk : ℂ} {F : Vec sh} (hF : IsResonant ωk (cDx d) (rEps eps) (realMu mu) pec pmc F) :
    ∃ J, OffPec pec J ∧ IsDriven ω (cDx d) (rEps eps) (realMu mu) pec pmc J F ∧ ‖ωk ^ 2 - ω ^ 2‖ * wNorm d eps F = ‖ω‖ * wNorm d (fun p => (eps p)⁻¹) J := by
  have hn : (-I * ω) ≠ 0 := mul_ne_zero (neg_ne_zero.2 I_ne_zero) hω
  have hr : ∀ p, (eFull ω (cDx d) (rEps eps) (realMu mu) pec pmc *ᵥ F) p = (ωk ^ 2 - ω ^ 2) * (eps p * F p) := by
    intro p
    rw [eFull_off ω _ _ _ pec pmc hF.off, (mem_resonances_iff ωk _ _ _ pec pmc F hF.off).1 hF.free p, rEps]; ring
  refine ⟨fun p => (-I * ω)⁻¹ * ((ωk ^ 2 - ω ^ 2) * (eps p * F p)), fun m hm p hp => ?_, ⟨hF.off, ?_⟩, ?_⟩
  · show _ * (_ * (_ * F p)) = 0
    rw [hF.off m hm p hp]; simp
  · funext p
    rw [hr, Pi.smul_apply, smul_eq_mul, mul_inv_cancel_left₀ hn]
  · have h1 : (fun p => (-I * ω)⁻¹ * ((ωk ^ 2 - ω ^ 2) * (eps p * F p))) = ((-I * ω)⁻¹ * (ωk ^ 2 - ω ^ 2)) • fun p => (eps p : ℂ) * F p := by
      funext p; rw [Pi.smul_apply, smul_eq_mul]; ring
    have h2 : wNorm d (fun p => (eps p)⁻¹) (fun p => (eps p : ℂ) * F p) = wNorm d eps F := by
      rw [wNorm, wNorm]
      congr 1
      refine Finset.sum_congr rfl fun p _ => ?_
      rw [norm_mul, norm_real, Real.norm_of_nonneg (heps p).le]
      have := (heps p).ne'
      field_simp
    have h3 : ‖ω‖ ≠ 0 := norm_ne_zero_iff.2 hω
    rw [h1, wNorm_smul d hd (fun p => inv_pos.2 (heps p)), h2, norm_mul, norm_inv, norm_mul, norm_neg, norm_I, one_mul]
    field_simp

include hd heps hmu in
/-- **C160.** Errors of the medium: if the permittivity is changed everywhere by at most the fraction `t` (by losses or gain too), the field of the same current changes by at most
`t |ω|² / g` times the new field; so if `t |ω|² < g`, by at most `t |ω|² / (g - t |ω|²)` times the old one. -/
theorem C160_media (ω : ℂ) {g : ℝ} (hg : 0 ≤ g) (hgap : Gap d eps mu pec pmc ω g) {eps' : Vec sh} {t : ℝ} (ht : 0 ≤ t) (hclose : ∀ p, ‖eps' p - eps p‖ ≤ t * eps p) {J E E' : Vec sh}
    (h : IsDriven ω (cDx d) (rEps eps) (realMu mu) pec pmc J E) (h' : IsDriven ω (cDx d) eps' (realMu mu) pec pmc J E') :
    g * wNorm d eps (E' - E) ≤ t * ‖ω‖ ^ 2 * wNorm d eps E' ∧ (g - t * ‖ω‖ ^ 2) * wNorm d eps (E' - E) ≤ t * ‖ω‖ ^ 2 * wNorm d eps E := by
  have h1 := (C145_polarisation ω (cDx d) eps' (rEps eps) (realMu mu) pec pmc E E' J h'.off h.eqn).1 h'.eqn
  have hoff : OffPec pec (E' - E) := fun m hm p hp => by rw [Pi.sub_apply, h.off m hm p hp, h'.off m hm p hp, sub_zero]
  have h2 := C160_residual d hd eps heps mu hmu pec pmc ω hg hgap hoff
  have h3 : wNorm d (fun p => (eps p)⁻¹) (eFull ω (cDx d) (rEps eps) (realMu mu) pec pmc *ᵥ (E' - E)) ≤ t * ‖ω‖ ^ 2 * wNorm d eps E' := by
    refine wNorm_le d hd (by positivity) fun p => ?_
    rw [h1]
    simp only [Pi.smul_apply, smul_eq_mul, norm_mul, norm_neg, norm_I, one_mul, rEps]
    have h4 : ‖eps' p - eps p‖ ^ 2 ≤ t ^ 2 * eps p ^ 2 := by
      rw [← mul_pow]; exact pow_le_pow_left₀ (norm_nonneg _) (hclose p) 2
    have h5 : (eps p)⁻¹ * (t ^ 2 * eps p ^ 2) = t ^ 2 * eps p := by have := (heps p).ne'; field_simp
    calc (eps p)⁻¹ * (‖ω‖ * (‖ω‖ * (‖eps' p - eps p‖ * ‖E' p‖))) ^ 2 = (eps p)⁻¹ * ‖eps' p - eps p‖ ^ 2 * (‖ω‖ ^ 4 * ‖E' p‖ ^ 2) := by ring
      _ ≤ (eps p)⁻¹ * (t ^ 2 * eps p ^ 2) * (‖ω‖ ^ 4 * ‖E' p‖ ^ 2) := by
        refine mul_le_mul_of_nonneg_right (mul_le_mul_of_nonneg_left h4 (inv_pos.2 (heps p)).le) (by positivity)
      _ = _ := by rw [h5]; ring
  refine ⟨h2.trans h3, ?_⟩
  have h4 := wNorm_add d hd heps (E' - E) E
  rw [sub_add_cancel] at h4
  have h5 := mul_le_mul_of_nonneg_left h4 (show 0 ≤ t * ‖ω‖ ^ 2 by positivity)
  linarith [h2.trans h3]

include hd heps hmu in
/-- **C160.** And the changed structure, lossless or not, still has exactly one field for every current. -/
theorem C160_solvable (ω : ℂ) {g : ℝ} (hgap : Gap d eps mu pec pmc ω g) {eps' : Vec sh} {t : ℝ} (ht : 0 ≤ t) (hclose : ∀ p, ‖eps' p - eps p‖ ≤ t * eps p)
    (hsmall : t * ‖ω‖ ^ 2 < g) (J : Vec sh) (hJ : OffPec pec J) : ∃! E, OffPec pec E ∧ eFull ω (cDx d) eps' (realMu mu) pec pmc *ᵥ E = (-I * ω) • J := by
  refine C124_solvable ω (cDx d) eps' (realMu mu) pec pmc ?_ J hJ
  rintro ⟨E', h0, hE'⟩
  have hg : 0 ≤ g := le_trans (by positivity) hsmall.le
  have h0' : IsDriven ω (cDx d) (rEps eps) (realMu mu) pec pmc 0 0 := ⟨fun _ _ _ _ => rfl, by simp⟩
  have h1 : IsDriven ω (cDx d) eps' (realMu mu) pec pmc 0 E' := ⟨hE'.off, by rw [hE'.free, smul_zero]⟩
  have h2 := (C160_media d hd eps heps mu hmu pec pmc ω hg hgap ht hclose h0' h1).1
  rw [sub_zero] at h2
  have h3 : 0 < wNorm d eps E' := by
    refine Real.sqrt_pos.2 ?_
    have := eps_energy_pos d eps hd heps h0
    simpa only [normSq_eq_norm_sq] using this
  have := mul_lt_mul_of_pos_right hsmall h3
  linarith

include hd heps hmu in
/-- **C160.** Errors of the frequency. -/
theorem C160_frequency (ω ω' : ℂ) {g : ℝ} (hg : 0 ≤ g) (hgap : Gap d eps mu pec pmc ω g) {J E E' : Vec sh}
    (h : IsDriven ω (cDx d) (rEps eps) (realMu mu) pec pmc J E) (h' : IsDriven ω' (cDx d) (rEps eps) (realMu mu) pec pmc J E') :
    g * wNorm d eps (E' - E) ≤ ‖ω' ^ 2 - ω ^ 2‖ * wNorm d eps E' + ‖ω' - ω‖ * wNorm d (fun p => (eps p)⁻¹) J := by
  have hi : ∀ p, 0 < (eps p)⁻¹ := fun p => inv_pos.2 (heps p)
  have hoff : OffPec pec (E' - E) := fun m hm p hp => by rw [Pi.sub_apply, h.off m hm p hp, h'.off m hm p hp, sub_zero]
  have h2 := C160_residual d hd eps heps mu hmu pec pmc ω hg hgap hoff
  refine h2.trans ?_
  have h3 : eFull ω (cDx d) (rEps eps) (realMu mu) pec pmc *ᵥ (E' - E) = (ω' ^ 2 - ω ^ 2) • (fun p => (eps p : ℂ) * E' p) + (-I * (ω' - ω)) • J := by
    funext p
    rw [mulVec_sub, Pi.sub_apply, h.eqn, eFull_off ω _ _ _ pec pmc h'.off]
    have h4 := eFull_off ω' (cDx d) (rEps eps) (realMu mu) pec pmc h'.off p
    rw [h'.eqn] at h4
    simp only [Pi.smul_apply, Pi.add_apply, smul_eq_mul, rEps] at h4 ⊢
    linear_combination -h4
  have h5 : wNorm d (fun p => (eps p)⁻¹) (fun p => (eps p : ℂ) * E' p) ≤ 1 * wNorm d eps E' := by
    refine wNorm_le d hd zero_le_one fun p => ?_
    rw [norm_mul, norm_real, Real.norm_of_nonneg (heps p).le]
    have := (heps p).ne'
    refine le_of_eq ?_
    field_simp
  rw [h3]
  refine (wNorm_add d hd hi _ _).trans ?_
  rw [wNorm_smul d hd hi, wNorm_smul d hd hi, norm_mul, norm_neg, norm_I, one_mul]
  rw [one_mul] at h5
  linarith [mul_le_mul_of_nonneg_left h5 (norm_nonneg (ω' ^ 2 - ω ^ 2))]

end

/-- **C160.** Accuracy of the solver without loss: with the default solver and reported convergence, in a lossless structure without electric conductor, `ε ≥ e` and resonances at least `g` away, the
field returned by `generic` differs from the solution by at most `rtol |ω| / (g e)` times the current (cell volumes as weights). -/
theorem C160_solver {R : Type} (rtol : ℝ) (hr : 0 ≤ rtol) (qmr : Mat sh → Vec sh → Opts sh R → Vec sh × ℤ) (hq : QmrContract rtol qmr) (hasH : Bool) (opts : Opts sh R)
    (P : Problem sh) (d : DxList sh ℝ × DxList sh ℝ) (hd : PosGrid d) (hdx : P.dxes = cDx d) (eps : Pos sh → ℝ) (heps : P.eps = rEps eps) (mu : Option (Pos sh → ℝ))
    (hmu : ∀ p, 0 < muR mu p) (hPmu : P.mu = realMu mu) (hpec : P.pec = none) (hadj : P.adjoint = false) {g e : ℝ} (hg : 0 ≤ g) (he : 0 < e) (hee : ∀ p, e ≤ eps p)
    (hgap : Gap d eps mu none P.pmc P.ω g)
    (hinfo : (qmr ((preconditioners P.dxes).1 * eFull P.ω P.dxes P.eps P.mu P.pec P.pmc * (preconditioners P.dxes).2) ((preconditioners P.dxes).1 *ᵥ ((-I * P.ω) • P.J))
      (generic hasH (scipyQmr qmr) opts P).2).2 = 0)
    (E₀ : Vec sh) (hE₀ : eFull P.ω P.dxes P.eps P.mu P.pec P.pmc *ᵥ E₀ = (-I * P.ω) • P.J) :
    ∃ E, (generic hasH (scipyQmr qmr) opts P).1 = .ok E ∧ g * e * wNorm d 1 (E - E₀) ≤ rtol * ‖P.ω‖ * wNorm d 1 P.J := by
  obtain ⟨E, hE, hres⟩ := C156_residual_partial rtol hr qmr hq hasH opts P (by rw [hdx]; exact hd.nz) hadj hinfo
  refine ⟨E, hE, ?_⟩
  have hpos : ∀ p, 0 < eps p := fun p => he.trans_le (hee p)
  have hv : ∀ p, absVol P.dxes p = volE d.1 d.2 p.1 p.2 := by
    intro p
    have : volE P.dxes.1 P.dxes.2 p.1 p.2 = ((volE d.1 d.2 p.1 p.2 : ℝ) : ℂ) := by rw [hdx]; exact volE_cDx d p.1 p.2
    rw [absVol, this, Complex.norm_real, Real.norm_of_nonneg (hd.vol p.1 p.2).le]
  set r := eFull P.ω P.dxes P.eps P.mu P.pec P.pmc *ᵥ (E - E₀) with hrdef
  have e1 : ∀ p, (eFull P.ω P.dxes P.eps P.mu P.pec P.pmc *ᵥ E) p + I * P.ω * P.J p = r p := by
    intro p
    rw [hrdef, mulVec_sub, hE₀, Pi.sub_apply, Pi.smul_apply, smul_eq_mul]; ring
  simp only [e1, hv, norm_mul] at hres
  have h1 : wNorm d 1 r ≤ rtol * ‖P.ω‖ * wNorm d 1 P.J := by
    have hs : 0 ≤ rtol * ‖P.ω‖ := mul_nonneg hr (norm_nonneg _)
    rw [wNorm, wNorm, ← Real.sqrt_sq hs, ← Real.sqrt_mul (sq_nonneg _)]
    refine Real.sqrt_le_sqrt ?_
    simp only [Pi.one_apply, mul_one]
    refine hres.trans (le_of_eq ?_)
    rw [Finset.mul_sum, Finset.mul_sum]
    exact Finset.sum_congr rfl fun p _ => by ring
  have h2 := C160_residual d hd eps hpos mu hmu none P.pmc P.ω hg hgap (E := E - E₀) (fun m hm => by simp at hm)
  rw [← hdx, ← heps, ← hPmu, ← hpec, ← hrdef] at h2
  have hs : 0 < √e := Real.sqrt_pos.2 he
  have h3 : √e * wNorm d 1 (E - E₀) ≤ wNorm d eps (E - E₀) := by
    rw [wNorm, wNorm, ← Real.sqrt_mul he.le, Finset.mul_sum]
    refine Real.sqrt_le_sqrt (Finset.sum_le_sum fun p _ => ?_)
    have := mul_le_mul_of_nonneg_right (hee p) (mul_nonneg (hd.vol p.1 p.2).le (sq_nonneg ‖(E - E₀) p‖))
    simp only [Pi.one_apply]
    linarith
  have h4 : √e * wNorm d (fun p => (eps p)⁻¹) r ≤ wNorm d 1 r := by
    rw [wNorm, wNorm, ← Real.sqrt_mul he.le, Finset.mul_sum]
    refine Real.sqrt_le_sqrt (Finset.sum_le_sum fun p _ => ?_)
    have h5 : e * (eps p)⁻¹ ≤ 1 := by rw [← div_eq_mul_inv, div_le_one (hpos p)]; exact hee p
    have := mul_le_mul_of_nonneg_right h5 (mul_nonneg (hd.vol p.1 p.2).le (sq_nonneg ‖r p‖))
    simp only [Pi.one_apply]
    linarith
  calc g * e * wNorm d 1 (E - E₀) = √e * (g * (√e * wNorm d 1 (E - E₀))) := by
        conv_lhs => rw [← Real.mul_self_sqrt he.le]
        ring
    _ ≤ √e * (g * wNorm d eps (E - E₀)) := mul_le_mul_of_nonneg_left (mul_le_mul_of_nonneg_left h3 hg) hs.le
    _ ≤ √e * wNorm d (fun p => (eps p)⁻¹) r := mul_le_mul_of_nonneg_left h2 hs.le
    _ ≤ wNorm d 1 r := h4
    _ ≤ _ := h1

/-! The hypotheses are met: at `ω = 1` in the vacuum box of 2-by-2-by-1 cells (resonances 0, 2 and √8) the gap is 1; changing the permittivity anywhere by less than half, for instance
to `1.2 - 0.3 i`, leaves every current with one field, which changes by at most as much as it was. -/
theorem gap22 : Gap (sh := ![2, 2, 1]) (fun _ _ => 1, fun _ _ => 1) (fun _ => 1) (some fun _ => 1) none none 1 1 := by
  intro ωk h
  rcases (box22 ωk).1 h with h | h | h <;> rw [h] <;> norm_num

example (J : Vec ![2, 2, 1]) : ∃ E E' : Vec ![2, 2, 1],
    IsDriven 1 (cDx (fun _ _ => 1, fun _ _ => 1)) (rEps fun _ => 1) (realMu (some fun _ => 1)) none none J E ∧
    IsDriven 1 (cDx (fun _ _ => 1, fun _ _ => 1)) (fun _ => 1.2 - 0.3 * I) (realMu (some fun _ => 1)) none none J E' ∧
    wNorm (fun _ _ => 1, fun _ _ => 1) (fun _ => 1) (E' - E) ≤ wNorm (fun _ _ => 1, fun _ _ => 1) (fun _ => 1) E := by
  have hd : PosGrid (sh := ![2, 2, 1]) (fun _ _ => 1, fun _ _ => 1) := ⟨fun _ _ => one_pos, fun _ _ => one_pos⟩
  have hJ : OffPec none J := fun m hm => by simp at hm
  have hone : ‖(1 : ℂ)‖ = 1 := norm_one
  have hc : ∀ p : Pos ![2, 2, 1], ‖((1.2 : ℂ) - 0.3 * I) - ((1 : ℝ) : ℂ)‖ ≤ 1 / 2 * 1 := by
    intro _
    rw [show ((1.2 : ℂ) - 0.3 * I) - ((1 : ℝ) : ℂ) = 0.2 + (-0.3) * I by push_cast; ring]
    refine (norm_add_le _ _).trans ?_
    rw [norm_mul, norm_I, norm_neg]
    norm_num
  obtain ⟨E, hE, -⟩ := C124_solvable 1 (cDx (fun _ _ => 1, fun _ _ => 1)) (rEps fun _ => 1) (realMu (some fun _ => 1)) none none
    (by rw [box22]; norm_num) J hJ
  obtain ⟨E', hE', -⟩ := C160_solvable _ hd (fun _ => 1) (fun _ => one_pos) (some fun _ => 1) (fun _ => one_pos) none none 1 gap22 (eps' := fun _ => 1.2 - 0.3 * I) (t := 1 / 2)
    (by norm_num) hc (by norm_num) J hJ
  refine ⟨E, E', ⟨hE.1, hE.2⟩, ⟨hE'.1, hE'.2⟩, ?_⟩
  have := (C160_media _ hd (fun _ => 1) (fun _ => one_pos) (some fun _ => 1) (fun _ => one_pos) none none 1 zero_le_one gap22 (eps' := fun _ => 1.2 - 0.3 * I) (t := 1 / 2)
    (by norm_num) hc ⟨hE.1, hE.2⟩ ⟨hE'.1, hE'.2⟩).2
  rw [hone] at this
  linarith

end Meanas.Props
