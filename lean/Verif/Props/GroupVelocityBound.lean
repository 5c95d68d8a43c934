import Verif.Props.Waveguide2dPower
import Mathlib.Analysis.Calculus.Deriv.MeanValue

/-! C122: the group velocity of a lossless waveguide follows the direction of the power flow and never exceeds the speed of light in the
material with the smallest index (`/repo/meanas/fdfd/waveguide_2d.py`: `operator_e`, `exy2e`, `exy2h`). -/

namespace Meanas.Props
open Matrix Complex Spec Wg2

variable {sh : Fin 2 → ℕ}

/-- Twice the energy of a mode per unit length, `∫ (ε|E|² + μ|H|²) dA`. -/
noncomputable def lineEnergy (dE dH : DxList sh ℝ) (eps mu : Fin 3 → Arr sh ℂ) (E H : Fin 3 → Arr sh ℂ) : ℝ :=
  ∑ c, ∑ x, (areaE dE dH c x * normSq (E c x) * (eps c x).re + areaH dE dH c x * normSq (H c x) * (mu c x).re)

theorem local_power {n e m : ℝ} (he : 0 < e) (hm : 0 < m) (hnem : n ^ 2 ≤ e * m) (a b : ℂ) :
    2 * n * (‖a‖ * ‖b‖) ≤ normSq a * e + normSq b * m := by
  have h1 : n ≤ √e * √m := by rw [← Real.sqrt_mul he.le]; exact Real.le_sqrt_of_sq_le hnem
  have h2 := sq_nonneg (√e * ‖a‖ - √m * ‖b‖)
  have hab : 0 ≤ ‖a‖ * ‖b‖ := by positivity
  have h3 := Real.sq_sqrt he.le
  have h4 := Real.sq_sqrt hm.le
  rw [normSq_eq_norm_sq, normSq_eq_norm_sq]
  nlinarith [mul_le_mul_of_nonneg_right h1 hab]

/-- The power carried by any pair of fields is at most the energy per length times the speed of light in the lowest index. -/
theorem power_le_energy {n : ℝ} (hn : 0 ≤ n) {dE dH : DxList sh ℝ} (hE : ∀ a i, 0 < dE a i) (hH : ∀ a i, 0 < dH a i)
    {eps mu : Fin 3 → Arr sh ℂ} (heps : ∀ c x, 0 < (eps c x).re) (hmu : ∀ c x, 0 < (mu c x).re)
    (h01 : ∀ x, n ^ 2 ≤ (eps 0 x).re * (mu 1 x).re) (h10 : ∀ x, n ^ 2 ≤ (eps 1 x).re * (mu 0 x).re) (E H : Fin 3 → Arr sh ℂ) :
    2 * n * ‖modePower dE dH E H‖ ≤ lineEnergy dE dH eps mu E H := by
  have hb : ‖modePower dE dH E H‖ ≤ ∑ x, (areaE dE dH 0 x * (‖E 0 x‖ * ‖H 1 x‖) + areaE dE dH 1 x * (‖E 1 x‖ * ‖H 0 x‖)) := by
    refine (norm_sum_le _ _).trans (Finset.sum_le_sum fun x _ => (norm_sub_le _ _).trans (le_of_eq ?_))
    have p0 : 0 ≤ areaE dE dH 0 x := by rw [areaE_0]; exact (mul_pos (hE _ _) (hH _ _)).le
    have p1 : 0 ≤ areaE dE dH 1 x := by rw [areaE_1]; exact (mul_pos (hH _ _) (hE _ _)).le
    simp only [norm_mul, norm_real, Real.norm_eq_abs, abs_of_nonneg p0, abs_of_nonneg p1, RCLike.norm_conj]
  refine (mul_le_mul_of_nonneg_left hb (by positivity)).trans ?_
  rw [lineEnergy, Finset.sum_comm, Finset.mul_sum]
  refine Finset.sum_le_sum fun x _ => ?_
  have a0 : 0 < areaE dE dH 0 x := by rw [areaE_0]; exact mul_pos (hE _ _) (hH _ _)
  have a1 : 0 < areaE dE dH 1 x := by rw [areaE_1]; exact mul_pos (hH _ _) (hE _ _)
  have a2 : 0 < areaE dE dH 2 x := by rw [areaE_2]; exact mul_pos (hH _ _) (hH _ _)
  have b2 : 0 < areaH dE dH 2 x := by rw [areaH_2]; exact mul_pos (hE _ _) (hE _ _)
  have e1 : areaH dE dH 1 x = areaE dE dH 0 x := by rw [areaH_1, areaE_0]
  have e0 : areaH dE dH 0 x = areaE dE dH 1 x := by rw [areaH_0, areaE_1]
  have l0 := mul_le_mul_of_nonneg_left (local_power (heps 0 x) (hmu 1 x) (h01 x) (E 0 x) (H 1 x)) a0.le
  have l1 := mul_le_mul_of_nonneg_left (local_power (heps 1 x) (hmu 0 x) (h10 x) (E 1 x) (H 0 x)) a1.le
  have z1 : 0 ≤ areaE dE dH 2 x * normSq (E 2 x) * (eps 2 x).re := mul_nonneg (mul_nonneg a2.le (normSq_nonneg _)) (heps 2 x).le
  have z2 : 0 ≤ areaH dE dH 2 x * normSq (H 2 x) * (mu 2 x).re := mul_nonneg (mul_nonneg b2.le (normSq_nonneg _)) (hmu 2 x).le
  rw [Fin.sum_univ_three, e0, e1]
  nlinarith

/-- C122: along a continuous branch of modes of a lossless, non-dispersive waveguide the group index `dβ/dω` is real, has the sign of the power
carried by the mode, and its magnitude is at least every `n` with `n² ≤ ε μ` in all cells: the mode never carries energy faster than light travels in
the material with the lowest index. -/
theorem C122_group_index {ω₀ : ℝ} (hω₀ : ω₀ ≠ 0) {dE dH : DxList sh ℝ} (hE : ∀ a i, 0 < dE a i) (hH : ∀ a i, 0 < dH a i)
    (eps : V 3 sh) (mu : Option (V 3 sh)) (hepsr : ∀ p, (eps p).im = 0) (heps : ∀ p, 0 < (eps p).re)
    (hmur : ∀ p, (mu.getD 1 p).im = 0) (hmu : ∀ p, 0 < (mu.getD 1 p).re) {n : ℝ} (hn : 0 < n)
    (h01 : ∀ x, n ^ 2 ≤ (eps (0, x)).re * (mu.getD 1 (1, x)).re) (h10 : ∀ x, n ^ 2 ≤ (eps (1, x)).re * (mu.getD 1 (0, x)).re)
    (β : ℝ → ℂ) (v : ℝ → V 2 sh) (hv : ContinuousAt v ω₀) (hβc : ContinuousAt β ω₀) (hβ : β ω₀ ≠ 0)
    (hmode : ∀ᶠ ω : ℝ in nhds ω₀, operatorE ω (cw dE, cw dH) eps mu *ᵥ v ω = β ω ^ 2 • v ω)
    (hP : (modePower dE dH (fld (exy2e (β ω₀) (cw dE, cw dH) eps *ᵥ v ω₀)) (fld (exy2h (β ω₀) ω₀ (cw dE, cw dH) eps mu *ᵥ v ω₀))).re ≠ 0) :
    ∃ g : ℝ, HasDerivAt β (g : ℂ) ω₀ ∧ n ≤ |g| ∧
      (0 < g ↔ 0 < (modePower dE dH (fld (exy2e (β ω₀) (cw dE, cw dH) eps *ᵥ v ω₀)) (fld (exy2h (β ω₀) ω₀ (cw dE, cw dH) eps mu *ᵥ v ω₀))).re) := by
  have ne : ∀ {z : ℂ}, 0 < z.re → z ≠ 0 := fun h h0 => by rw [h0] at h; exact lt_irrefl _ h
  set E := fld (exy2e (β ω₀) (cw dE, cw dH) eps *ᵥ v ω₀)
  set H := fld (exy2h (β ω₀) ω₀ (cw dE, cw dH) eps mu *ᵥ v ω₀)
  have hd : HasDerivAt β ((lineEnergy dE dH (fld eps) (fld (mu.getD 1)) E H / (2 * (modePower dE dH E H).re) : ℝ) : ℂ) ω₀ :=
    C97_group_velocity hω₀ (fun a i => (hE a i).ne') (fun a i => (hH a i).ne') eps mu (fun p => ne (heps p)) hepsr
      (fun p => ne (hmu p)) hmur β v hv hβc hβ hmode hP
  have hU := power_le_energy hn.le hE hH (eps := fld eps) (mu := fld (mu.getD 1)) (fun c x => heps (c, x)) (fun c x => hmu (c, x)) h01 h10 E H
  refine ⟨_, hd, ?_⟩
  generalize lineEnergy dE dH (fld eps) (fld (mu.getD 1)) E H = U at hU ⊢
  generalize modePower dE dH E H = P at hU hP ⊢
  have hPn : |P.re| ≤ ‖P‖ := abs_re_le_norm P
  have hPp : 0 < |P.re| := abs_pos.2 hP
  have hUp : 2 * n * |P.re| ≤ U := (mul_le_mul_of_nonneg_left hPn (by positivity)).trans hU
  have hU0 : 0 < U := lt_of_lt_of_le (by positivity) hUp
  constructor
  · rw [abs_div, abs_mul, abs_two, abs_of_pos hU0, le_div_iff₀ (by positivity)]
    linarith
  · rw [div_pos_iff_of_pos_left hU0]
    constructor <;> intro h <;> linarith

/-- C122, finite frequency steps: on an interval where the mode carries power forward, the wavenumber grows at least as fast as that of a plane wave
in the material with the lowest index; in particular a forward mode has one frequency for each wavenumber. -/
theorem C122_dispersion {a b : ℝ} (h0 : 0 ≤ a) {dE dH : DxList sh ℝ} (hE : ∀ a i, 0 < dE a i) (hH : ∀ a i, 0 < dH a i)
    (eps : V 3 sh) (mu : Option (V 3 sh)) (hepsr : ∀ p, (eps p).im = 0) (heps : ∀ p, 0 < (eps p).re)
    (hmur : ∀ p, (mu.getD 1 p).im = 0) (hmu : ∀ p, 0 < (mu.getD 1 p).re) {n : ℝ} (hn : 0 < n)
    (h01 : ∀ x, n ^ 2 ≤ (eps (0, x)).re * (mu.getD 1 (1, x)).re) (h10 : ∀ x, n ^ 2 ≤ (eps (1, x)).re * (mu.getD 1 (0, x)).re)
    (β : ℝ → ℂ) (v : ℝ → V 2 sh) (hv : ContinuousOn v (Set.Ioo a b)) (hβc : ContinuousOn β (Set.Ioo a b)) (hβ : ∀ ω ∈ Set.Ioo a b, β ω ≠ 0)
    (hmode : ∀ ω ∈ Set.Ioo a b, operatorE (ω : ℝ) (cw dE, cw dH) eps mu *ᵥ v ω = β ω ^ 2 • v ω)
    (hP : ∀ ω ∈ Set.Ioo a b, 0 < (modePower dE dH (fld (exy2e (β ω) (cw dE, cw dH) eps *ᵥ v ω)) (fld (exy2h (β ω) (ω : ℝ) (cw dE, cw dH) eps mu *ᵥ v ω))).re)
    {ω₁ ω₂ : ℝ} (h1 : ω₁ ∈ Set.Ioo a b) (h2 : ω₂ ∈ Set.Ioo a b) (h12 : ω₁ ≤ ω₂) :
    n * (ω₂ - ω₁) ≤ (β ω₂).re - (β ω₁).re := by
  have hd : ∀ ω ∈ Set.Ioo a b, ∃ g : ℝ, HasDerivAt (fun w => (β w).re) g ω ∧ n ≤ g := by
    intro ω hω
    have hnh := isOpen_Ioo.mem_nhds hω
    obtain ⟨g, g1, g2, g3⟩ := C122_group_index (lt_of_le_of_lt h0 hω.1).ne' hE hH eps mu hepsr heps hmur hmu hn h01 h10 β v (hv.continuousAt hnh)
      (hβc.continuousAt hnh) (hβ ω hω) (Filter.eventually_of_mem hnh hmode) (hP ω hω).ne'
    rw [abs_of_pos (g3.2 (hP ω hω))] at g2
    exact ⟨g, (reCLM.hasFDerivAt.comp_hasDerivAt ω g1 :), g2⟩
  refine Convex.mul_sub_le_image_sub_of_le_deriv (f := fun w => (β w).re) (convex_Ioo a b) (fun ω hω => ?_) (fun ω hω => ?_) (fun ω hω => ?_) ω₁ h1 ω₂ h2 h12
  · obtain ⟨g, g1, -⟩ := hd ω hω
    exact g1.continuousAt.continuousWithinAt
  · rw [interior_Ioo] at hω
    obtain ⟨g, g1, -⟩ := hd ω hω
    exact g1.differentiableAt.differentiableWithinAt
  · rw [interior_Ioo] at hω
    obtain ⟨g, g1, g2⟩ := hd ω hω
    rw [g1.deriv]; exact g2

/-! ### The hypotheses are met -/

/-- The branch `β = √(ω² - 1)` on a non-uniform grid in vacuum meets the hypotheses of `C122_dispersion` (and so of `C122_group_index`) for all
frequencies above cut-off, with `n = 1`. -/
example : ∃ (β : ℝ → ℂ) (v : ℝ → V 2 (fun _ => 2)), ContinuousOn v (Set.Ioo 1 5) ∧ ContinuousOn β (Set.Ioo 1 5) ∧ β (5 / 4) = (3 / 4 : ℝ) ∧
    (∀ ω ∈ Set.Ioo (1 : ℝ) 5, β ω ≠ 0) ∧ (∀ ω ∈ Set.Ioo (1 : ℝ) 5, operatorE (ω : ℝ) (cw exE, cw exH) (exEps 1) none *ᵥ v ω = β ω ^ 2 • v ω) ∧
    (∀ ω ∈ Set.Ioo (1 : ℝ) 5, 0 < (modePower exE exH (fld (exy2e (β ω) (cw exE, cw exH) (exEps 1) *ᵥ v ω))
      (fld (exy2h (β ω) (ω : ℝ) (cw exE, cw exH) (exEps 1) none *ᵥ v ω))).re) ∧
    (∀ p, (exEps 1 p).im = 0 ∧ 0 < (exEps 1 p).re) ∧ ∀ x, (1 : ℝ) ^ 2 ≤ (exEps 1 (0, x)).re * ((none : Option (V 3 (fun _ => 2))).getD 1 (1, x)).re := by
  have h34 : √((5 / 4 : ℝ) ^ 2 - 1) = 3 / 4 := by
    rw [show ((5 / 4 : ℝ) ^ 2 - 1) = (3 / 4) ^ 2 by norm_num]; exact Real.sqrt_sq (by norm_num)
  have hone : ∀ p, exEps 1 p = 1 := fun p => by simp [exEps]
  have hpos : ∀ ω ∈ Set.Ioo (1 : ℝ) 5, 0 < √(ω ^ 2 - 1) := fun ω hω => Real.sqrt_pos.2 (by nlinarith [hω.1])
  refine ⟨fun ω => ((√(ω ^ 2 - 1) : ℝ) : ℂ), fun _ => exV (-2), continuousOn_const, ?_, by simp only [h34], fun ω hω => ?_, fun ω hω => ?_, fun ω hω => ?_,
    fun p => by simp [hone], fun x => by simp [hone]⟩
  · exact (continuous_ofReal.comp (Real.continuous_sqrt.comp ((continuous_id.pow 2).sub continuous_const))).continuousOn
  · exact ofReal_ne_zero.2 (hpos ω hω).ne'
  · have hs : ((√(ω ^ 2 - 1) : ℝ) : ℂ) ^ 2 = ((ω ^ 2 - 1 : ℝ) : ℂ) := by rw [← ofReal_pow, Real.sq_sqrt (by nlinarith [hω.1])]
    rw [← exDx_cw, hs]
    exact exMode _ _ _ _ (by push_cast; ring) (by push_cast; ring)
  · rw [← exDx_cw]
    exact exPower _ _ _ (by linarith [hω.1]) (by rw [ofReal_re]; exact hpos ω hω)

end Meanas.Props
