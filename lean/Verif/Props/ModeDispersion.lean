import Verif.Props.BendMedium
import Verif.Props.Waveguide3dModes

/-! C166: the effective index of a waveguide mode is the difference of its transverse and longitudinal energies over its power, so that the
group index exceeds it by twice the longitudinal share: modes of lossless waveguides and bends have normal dispersion
(`/repo/meanas/fdfd/waveguide_2d.py`: `operator_e`, `exy2e`, `exy2h`; `/repo/meanas/fdfd/waveguide_cyl.py`: `cylindrical_operator`). -/

namespace Meanas.Props
open Matrix Complex Spec Wg2

variable {sh : Fin 2 → ℕ}

/-- Twice the energy per unit length in the field components along one axis, `∫ (ε|E_c|² + μ|H_c|²) dA`. -/
noncomputable def axisEnergy (dE dH : DxList sh ℝ) (eps mu E H : Fin 3 → Arr sh ℂ) (c : Fin 3) : ℝ :=
  ∑ x, (areaE dE dH c x * normSq (E c x) * (eps c x).re + areaH dE dH c x * normSq (H c x) * (mu c x).re)

theorem lineEnergy_axes (dE dH : DxList sh ℝ) (eps mu E H : Fin 3 → Arr sh ℂ) :
    lineEnergy dE dH eps mu E H = axisEnergy dE dH eps mu E H 0 + axisEnergy dE dH eps mu E H 1 + axisEnergy dE dH eps mu E H 2 := by
  rw [lineEnergy, Fin.sum_univ_three]; rfl

/-- Sign of a component under reversal of the propagation axis. -/
def zSign (c : Fin 3) : ℝ := if c = 2 then -1 else 1

/-- A mode against the conjugate of its own mirror image. -/
theorem mode_mirror_poynting {β : ℂ} {ω : ℝ} {dE dH : DxList sh ℝ} (hE : Nonzero dE) (hH : Nonzero dH) {eps mu E H : Fin 3 → Arr sh ℂ}
    (m : IsMode β ω (cw dE) (cw dH) eps mu E H) :
    ((2 * β.re : ℝ) : ℂ) * modePower dE dH E H
      = ω * (∑ c, ∑ x, ((areaH dE dH c x * normSq (H c x) * zSign c : ℝ) : ℂ) * mu c x)
        + ω * ∑ c, ∑ x, ((areaE dE dH c x * normSq (E c x) * zSign c : ℝ) : ℂ) * (starRingEnd ℂ) (eps c x) := by
  have h := lorentz hE hH m (isMode_mirror (conj_isMode m))
  rw [neg_neg, conj_ofReal] at h
  have e0 : β + (starRingEnd ℂ) β = ((2 * β.re : ℝ) : ℂ) := add_conj β
  have e1 : areaOverlap (cw dE) (cw dH) E (fun i y => (if i = 2 then 1 else -1) * -(starRingEnd ℂ) (H i y)) = modePower dE dH E H := by
    rw [areaOverlap, modePower]
    refine Finset.sum_congr rfl fun x _ => ?_
    rw [volE_0, volE_1, areaE_0, areaE_1, if_neg (by decide), if_neg (by decide)]; simp only [cw]; push_cast; ring
  have e2 : ∑ c, ∑ x, (areaH dE dH c x : ℂ) * (mu c x * H c x * ((if c = 2 then 1 else -1) * -(starRingEnd ℂ) (H c x)))
      = ∑ c, ∑ x, ((areaH dE dH c x * normSq (H c x) * zSign c : ℝ) : ℂ) * mu c x := by
    refine Finset.sum_congr rfl fun c _ => Finset.sum_congr rfl fun x _ => ?_
    push_cast; rw [← mul_conj, zSign]; split_ifs <;> push_cast <;> ring
  have e3 : ∑ c, ∑ x, (areaE dE dH c x : ℂ) * ((starRingEnd ℂ) (eps c x) * E c x * ((if c = 2 then -1 else 1) * (starRingEnd ℂ) (E c x)))
      = ∑ c, ∑ x, ((areaE dE dH c x * normSq (E c x) * zSign c : ℝ) : ℂ) * (starRingEnd ℂ) (eps c x) := by
    refine Finset.sum_congr rfl fun c _ => Finset.sum_congr rfl fun x _ => ?_
    push_cast; rw [← mul_conj, zSign]; split_ifs <;> push_cast <;> ring
  rw [e0, e1, e2, e3] at h
  exact h

theorem zSign_0 : zSign 0 = 1 := if_neg (by decide)
theorem zSign_1 : zSign 1 = 1 := if_neg (by decide)
theorem zSign_2 : zSign 2 = -1 := if_pos rfl

/-- **C166.** The effective index from the fields: `2 Re β · Re P = ω (W_x + W_y - W_z)`, where `W_c = ∫ (ε|E_c|² + μ|H_c|²) dA`, for every mode at real ω
of every waveguide on a real grid, lossy (real parts of ε and μ) or not. -/
theorem C166_index {β : ℂ} {ω : ℝ} {dE dH : DxList sh ℝ} (hE : Nonzero dE) (hH : Nonzero dH) {eps mu E H : Fin 3 → Arr sh ℂ}
    (m : IsMode β ω (cw dE) (cw dH) eps mu E H) :
    2 * β.re * (modePower dE dH E H).re
      = ω * (axisEnergy dE dH eps mu E H 0 + axisEnergy dE dH eps mu E H 1 - axisEnergy dE dH eps mu E H 2) := by
  have h := congrArg Complex.re (mode_mirror_poynting hE hH m)
  rw [re_ofReal_mul, add_re, re_ofReal_mul, re_ofReal_mul, re_sum, re_sum] at h
  simp only [re_sum, re_ofReal_mul, conj_re] at h
  rw [h, Fin.sum_univ_three, Fin.sum_univ_three, zSign_0, zSign_1, zSign_2]
  simp only [axisEnergy, Finset.sum_add_distrib, mul_one, mul_neg, neg_mul, Finset.sum_neg_distrib]
  ring

/-- **C166.** The complex power of a mode of a lossless waveguide is real unless its wavenumber is imaginary, and the energies of a mode with an
imaginary wavenumber are half longitudinal. -/
theorem C166_reactive {β : ℂ} {ω : ℝ} (hω : ω ≠ 0) {dE dH : DxList sh ℝ} (hE : Nonzero dE) (hH : Nonzero dH) {eps mu E H : Fin 3 → Arr sh ℂ}
    (m : IsMode β ω (cw dE) (cw dH) eps mu E H) (heps : ∀ c x, (eps c x).im = 0) (hmu : ∀ c x, (mu c x).im = 0) :
    (β.re ≠ 0 → (modePower dE dH E H).im = 0) ∧
    (β.re = 0 → axisEnergy dE dH eps mu E H 2 = axisEnergy dE dH eps mu E H 0 + axisEnergy dE dH eps mu E H 1) := by
  constructor
  · intro hβ
    have h := congrArg Complex.im (mode_mirror_poynting hE hH m)
    rw [im_ofReal_mul, add_im, im_ofReal_mul, im_ofReal_mul, im_sum, im_sum] at h
    simp only [im_sum, im_ofReal_mul, conj_im, heps, hmu, neg_zero, mul_zero, Finset.sum_const_zero, add_zero] at h
    exact (mul_eq_zero.1 h).resolve_left (mul_ne_zero two_ne_zero hβ)
  · intro hβ
    have h := C166_index hE hH m
    rw [hβ, mul_zero, zero_mul] at h
    have := (mul_eq_zero.1 h.symm).resolve_left hω
    linarith

theorem axisEnergy_nonneg {dE dH : DxList sh ℝ} (hE : ∀ a i, 0 < dE a i) (hH : ∀ a i, 0 < dH a i) {eps mu : Fin 3 → Arr sh ℂ}
    (heps : ∀ c x, 0 < (eps c x).re) (hmu : ∀ c x, 0 < (mu c x).re) (E H : Fin 3 → Arr sh ℂ) (c : Fin 3) :
    0 ≤ axisEnergy dE dH eps mu E H c ∧ ((∃ x, E c x ≠ 0 ∨ H c x ≠ 0) → 0 < axisEnergy dE dH eps mu E H c) := by
  have pE : ∀ x, 0 < areaE dE dH c x := fun x => Finset.prod_pos fun a _ => by split_ifs; exacts [hE _ _, hH _ _]
  have pH : ∀ x, 0 < areaH dE dH c x := fun x => Finset.prod_pos fun a _ => by split_ifs; exacts [hH _ _, hE _ _]
  have nE : ∀ x, 0 ≤ areaE dE dH c x * normSq (E c x) * (eps c x).re := fun x =>
    mul_nonneg (mul_nonneg (pE x).le (normSq_nonneg _)) (heps c x).le
  have nH : ∀ x, 0 ≤ areaH dE dH c x * normSq (H c x) * (mu c x).re := fun x =>
    mul_nonneg (mul_nonneg (pH x).le (normSq_nonneg _)) (hmu c x).le
  refine ⟨Finset.sum_nonneg fun x _ => add_nonneg (nE x) (nH x), ?_⟩
  rintro ⟨x, hx⟩
  refine Finset.sum_pos' (fun x _ => add_nonneg (nE x) (nH x)) ⟨x, Finset.mem_univ _, ?_⟩
  rcases hx with hx | hx
  · exact add_pos_of_pos_of_nonneg (mul_pos (mul_pos (pE x) (normSq_pos.2 hx)) (heps c x)) (nH x)
  · exact add_pos_of_nonneg_of_pos (nE x) (mul_pos (mul_pos (pH x) (normSq_pos.2 hx)) (hmu c x))

/-- **C166.** Normal dispersion: along a continuous branch of modes of a lossless, non-dispersive waveguide that carry power forwards, the group index
`dβ/dω` exceeds the effective index `β/ω` by the longitudinal energy over the power. So it is never below it, and it is above it unless the mode is
TEM. -/
theorem C166_group {ω₀ : ℝ} (hω₀ : 0 < ω₀) {dE dH : DxList sh ℝ} (hE : ∀ a i, 0 < dE a i) (hH : ∀ a i, 0 < dH a i)
    (eps : V 3 sh) (mu : Option (V 3 sh)) (hepsr : ∀ p, (eps p).im = 0) (heps : ∀ p, 0 < (eps p).re)
    (hmur : ∀ p, (mu.getD 1 p).im = 0) (hmu : ∀ p, 0 < (mu.getD 1 p).re)
    (β : ℝ → ℂ) (v : ℝ → V 2 sh) (hv : ContinuousAt v ω₀) (hβc : ContinuousAt β ω₀) (hβ : β ω₀ ≠ 0)
    (hmode : ∀ᶠ ω : ℝ in nhds ω₀, operatorE ω (cw dE, cw dH) eps mu *ᵥ v ω = β ω ^ 2 • v ω)
    (hP : 0 < (modePower dE dH (fld (exy2e (β ω₀) (cw dE, cw dH) eps *ᵥ v ω₀)) (fld (exy2h (β ω₀) ω₀ (cw dE, cw dH) eps mu *ᵥ v ω₀))).re) :
    let E := fld (exy2e (β ω₀) (cw dE, cw dH) eps *ᵥ v ω₀)
    let H := fld (exy2h (β ω₀) ω₀ (cw dE, cw dH) eps mu *ᵥ v ω₀)
    ∃ g : ℝ, HasDerivAt β (g : ℂ) ω₀ ∧ g = (β ω₀).re / ω₀ + axisEnergy dE dH (fld eps) (fld (mu.getD 1)) E H 2 / (modePower dE dH E H).re ∧
      (β ω₀).re / ω₀ ≤ g ∧ ((∃ x, E 2 x ≠ 0 ∨ H 2 x ≠ 0) → (β ω₀).re / ω₀ < g) := by
  intro E H
  have ne : ∀ {z : ℂ}, 0 < z.re → z ≠ 0 := fun h h0 => by rw [h0] at h; exact lt_irrefl _ h
  have nE : Nonzero dE := fun a i => (hE a i).ne'
  have nH : Nonzero dH := fun a i => (hH a i).ne'
  have hd : HasDerivAt β ((lineEnergy dE dH (fld eps) (fld (mu.getD 1)) E H / (2 * (modePower dE dH E H).re) : ℝ) : ℂ) ω₀ :=
    C97_group_velocity hω₀.ne' nE nH eps mu (fun p => ne (heps p)) hepsr (fun p => ne (hmu p)) hmur β v hv hβc hβ hmode hP.ne'
  have M : IsMode (β ω₀) ω₀ (cw dE) (cw dH) (fld eps) (fld (mu.getD 1)) E H :=
    C39_is_mode (β ω₀) ω₀ hβ (ofReal_ne_zero.2 hω₀.ne') (cw dE, cw dH) eps mu (fun p => ne (heps p)) (fun p => ne (hmu p)) (v ω₀) hmode.self_of_nhds
  have k := C166_index nE nH M
  obtain ⟨w1, w2⟩ := axisEnergy_nonneg hE hH (eps := fld eps) (mu := fld (mu.getD 1)) (fun c x => heps (c, x)) (fun c x => hmu (c, x)) E H 2
  have hP' : 0 < (modePower dE dH E H).re := hP
  have hg : lineEnergy dE dH (fld eps) (fld (mu.getD 1)) E H / (2 * (modePower dE dH E H).re)
      = (β ω₀).re / ω₀ + axisEnergy dE dH (fld eps) (fld (mu.getD 1)) E H 2 / (modePower dE dH E H).re := by
    rw [lineEnergy_axes, div_add_div _ _ hω₀.ne' hP'.ne', div_eq_div_iff (by positivity) (by positivity)]
    linear_combination -(modePower dE dH E H).re * k
  refine ⟨_, hd, hg, ?_, fun hz => ?_⟩
  · rw [hg]; exact le_add_of_nonneg_right (div_nonneg w1 hP'.le)
  · rw [hg]; exact lt_add_of_pos_right _ (div_pos (w2 hz) hP')

/-- **C166.** Finite frequency steps: on an interval where the mode carries power forwards, its effective index `β/ω` never falls with frequency. -/
theorem C166_dispersion {a b : ℝ} (h0 : 0 ≤ a) {dE dH : DxList sh ℝ} (hE : ∀ a i, 0 < dE a i) (hH : ∀ a i, 0 < dH a i)
    (eps : V 3 sh) (mu : Option (V 3 sh)) (hepsr : ∀ p, (eps p).im = 0) (heps : ∀ p, 0 < (eps p).re)
    (hmur : ∀ p, (mu.getD 1 p).im = 0) (hmu : ∀ p, 0 < (mu.getD 1 p).re)
    (β : ℝ → ℂ) (v : ℝ → V 2 sh) (hv : ContinuousOn v (Set.Ioo a b)) (hβc : ContinuousOn β (Set.Ioo a b)) (hβ : ∀ ω ∈ Set.Ioo a b, β ω ≠ 0)
    (hmode : ∀ ω ∈ Set.Ioo a b, operatorE (ω : ℝ) (cw dE, cw dH) eps mu *ᵥ v ω = β ω ^ 2 • v ω)
    (hP : ∀ ω ∈ Set.Ioo a b, 0 < (modePower dE dH (fld (exy2e (β ω) (cw dE, cw dH) eps *ᵥ v ω)) (fld (exy2h (β ω) (ω : ℝ) (cw dE, cw dH) eps mu *ᵥ v ω))).re) :
    MonotoneOn (fun ω => (β ω).re / ω) (Set.Ioo a b) ∧
    ((∀ ω ∈ Set.Ioo a b, ∃ x, (exy2e (β ω) (cw dE, cw dH) eps *ᵥ v ω) (2, x) ≠ 0 ∨ (exy2h (β ω) (ω : ℝ) (cw dE, cw dH) eps mu *ᵥ v ω) (2, x) ≠ 0) →
      StrictMonoOn (fun ω => (β ω).re / ω) (Set.Ioo a b)) := by
  have pos : ∀ ω ∈ Set.Ioo a b, 0 < ω := fun ω hω => lt_of_le_of_lt h0 hω.1
  have hd : ∀ ω ∈ Set.Ioo a b, ∃ g : ℝ, HasDerivAt (fun w => (β w).re / w) ((g - (β ω).re / ω) / ω) ω ∧ (β ω).re / ω ≤ g ∧
      ((∃ x, (exy2e (β ω) (cw dE, cw dH) eps *ᵥ v ω) (2, x) ≠ 0 ∨ (exy2h (β ω) (ω : ℝ) (cw dE, cw dH) eps mu *ᵥ v ω) (2, x) ≠ 0) → (β ω).re / ω < g) := by
    intro ω hω
    have hnh := isOpen_Ioo.mem_nhds hω
    have hp := pos ω hω
    obtain ⟨g, g1, -, g2, g3⟩ := C166_group hp hE hH eps mu hepsr heps hmur hmu β v (hv.continuousAt hnh)
      (hβc.continuousAt hnh) (hβ ω hω) (Filter.eventually_of_mem hnh hmode) (hP ω hω)
    refine ⟨g, ?_, g2, g3⟩
    have h1 : HasDerivAt (fun w => (β w).re) g ω := (reCLM.hasFDerivAt.comp_hasDerivAt ω g1 :)
    have h2 := h1.div (hasDerivAt_id ω) hp.ne'
    have e : (g - (β ω).re / ω) / ω = (g * id ω - (β ω).re * 1) / id ω ^ 2 := by
      simp only [id]; field_simp
    rw [e]; exact h2
  have hcont : ContinuousOn (fun ω => (β ω).re / ω) (Set.Ioo a b) := fun ω hω => by
    obtain ⟨g, g1, -⟩ := hd ω hω
    exact g1.continuousAt.continuousWithinAt
  constructor
  · refine monotoneOn_of_deriv_nonneg (convex_Ioo a b) hcont (fun ω hω => ?_) (fun ω hω => ?_) <;> rw [interior_Ioo] at hω <;> obtain ⟨g, g1, g2, -⟩ := hd ω hω
    · exact g1.differentiableAt.differentiableWithinAt
    · rw [g1.deriv]; exact div_nonneg (sub_nonneg.2 g2) (pos ω hω).le
  · intro hz
    refine strictMonoOn_of_deriv_pos (convex_Ioo a b) hcont (fun ω hω => ?_)
    rw [interior_Ioo] at hω
    obtain ⟨g, g1, -, g2⟩ := hd ω hω
    rw [g1.deriv]; exact div_pos (sub_pos.2 (g2 (hz ω hω))) (pos ω hω)

/-! ### Bends -/

/-- Twice the energy per radian of a bend in the field components along one axis, `∫ (ε|E_c|² + μ|H_c|²) r dA`. -/
noncomputable def bendAxisEnergy (dE dH : DxList sh ℝ) (r : ℝ) (eps mu e h : V 3 sh) (c : Fin 3) : ℝ :=
  ∑ x, (areaE dE dH c x * radE dE dH r c x * normSq (e (c, x)) * (eps (c, x)).re + areaH dE dH c x * radH dE dH r c x * normSq (h (c, x)) * (mu (c, x)).re)

theorem bend_axisEnergy {dE dH : DxList sh ℝ} {r : ℝ} (hr : r ≠ 0) (ha : ∀ i, radA dE r i ≠ 0) (hb : ∀ i, radB dE dH r i ≠ 0) (eps mu e h : V 3 sh) (c : Fin 3) :
    axisEnergy dE dH (fld (bendEps (cw dE, cw dH) r eps)) (fld (bendMu (cw dE, cw dH) r mu)) (fld (bendE (cw dE, cw dH) r e)) (fld (bendH (cw dE, cw dH) r h)) c
      = bendAxisEnergy dE dH r eps mu e h c / r := by
  rw [axisEnergy, bendAxisEnergy, Finset.sum_div]
  refine Finset.sum_congr rfl fun x _ => ?_
  have h1 := congrArg Complex.re (bend_densityE dE dH hr ha eps e c x)
  have h2 := congrArg Complex.re (bend_densityH dE dH hr hb mu h c x)
  rw [re_ofReal_mul, div_ofReal_re, re_ofReal_mul] at h1 h2
  rw [mul_assoc (areaE dE dH c x), h1, mul_assoc (areaH dE dH c x), h2]
  ring

/-- **C166.** The angular wavenumber of a bent mode from its fields: `2 Re m · Re P = ω (W_r + W_y - W_θ)`, the energies being those per radian. -/
theorem C166_bend {m : ℂ} {ω r : ℝ} (hr : r ≠ 0) {dE dH : DxList sh ℝ} (hE : Nonzero dE) (hH : Nonzero dH) (ha : ∀ i, radA dE r i ≠ 0)
    (hb : ∀ i, radB dE dH r i ≠ 0) {eps mu e h : V 3 sh}
    (M : IsBentMode m ω (cw dE) (cw dH) (fun i => (radA dE r i : ℂ)) (fun i => (radB dE dH r i : ℂ)) (fld eps) (fld mu) (fld e) (fld h)) :
    2 * m.re * (modePower dE dH (fld e) (fld h)).re
      = ω * (bendAxisEnergy dE dH r eps mu e h 0 + bendAxisEnergy dE dH r eps mu e h 1 - bendAxisEnergy dE dH r eps mu e h 2) := by
  have hr' : (r : ℂ) ≠ 0 := ofReal_ne_zero.2 hr
  have k := C166_index hE hH ((C140_modes m ω (cw dE, cw dH) hr' (fun i => by rw [ra_cw]; exact ofReal_ne_zero.2 (ha i))
    (fun i => by rw [rb_cw]; exact ofReal_ne_zero.2 (hb i)) eps mu e h).1 (by
      rw [show WgCyl.ra (cw dE, cw dH) (r : ℂ) = fun i => (radA dE r i : ℂ) from funext (ra_cw dE dH r),
        show WgCyl.rb (cw dE, cw dH) (r : ℂ) = fun i => (radB dE dH r i : ℂ) from funext (rb_cw dE dH r)]
      exact M))
  rw [bend_power, bend_axisEnergy hr ha hb, bend_axisEnergy hr ha hb, bend_axisEnergy hr ha hb, div_ofReal_re] at k
  field_simp at k
  linear_combination k

/-- **C166.** Normal dispersion of bends: where a continuous branch of bent modes carries power forwards, `dm/dω` exceeds `m/ω` by the azimuthal energy
per radian over the power. -/
theorem C166_bend_group {ω₀ r : ℝ} (hω₀ : 0 < ω₀) (hr : 0 < r) {dE dH : DxList sh ℝ} (hE : ∀ a i, 0 < dE a i) (hH : ∀ a i, 0 < dH a i) (eps : V 3 sh)
    (heps : Lossless eps) (m : ℝ → ℂ) (v : ℝ → V 2 sh) (hv : ContinuousAt v ω₀) (hmc : ContinuousAt m ω₀) (hm : m ω₀ ≠ 0)
    (hmode : ∀ᶠ ω : ℝ in nhds ω₀, WgCyl.cylindricalOperator ω (cw dE, cw dH) eps r *ᵥ v ω = (m ω / r) ^ 2 • v ω)
    (e h : V 3 sh) (he : xy e = v ω₀)
    (M : IsBentMode (m ω₀) ω₀ (cw dE) (cw dH) (fun i => (radA dE r i : ℂ)) (fun i => (radB dE dH r i : ℂ)) (fld eps) (fun _ _ => 1) (fld e) (fld h))
    (hP : 0 < (modePower dE dH (fld e) (fld h)).re) :
    ∃ g : ℝ, HasDerivAt m (g : ℂ) ω₀ ∧ g = (m ω₀).re / ω₀ + bendAxisEnergy dE dH r eps 1 e h 2 / (modePower dE dH (fld e) (fld h)).re ∧
      (m ω₀).re / ω₀ ≤ g ∧ ((∃ x, e (2, x) ≠ 0 ∨ h (2, x) ≠ 0) → (m ω₀).re / ω₀ < g) := by
  have hA : ∀ i, radA dE r i ≠ 0 := fun i => (radA_pos hE hr i).ne'
  have hB : ∀ i, radB dE dH r i ≠ 0 := fun i => (radB_pos hE hH hr i).ne'
  have k := C166_bend hr.ne' (fun a i => (hE a i).ne') (fun a i => (hH a i).ne') hA hB (mu := 1) M
  have hne : Nonempty (Idx sh) := by
    by_contra hno
    rw [not_nonempty_iff] at hno
    rw [modePower, Finset.univ_eq_empty, Finset.sum_empty] at hP
    exact lt_irrefl _ hP
  -- smallest index and radius, for C140
  obtain ⟨p₀, hp₀⟩ := Finite.exists_min fun p : Fin 3 × Idx sh => (eps p).re
  have hn2 : ∀ p, √((eps p₀).re) ^ 2 ≤ (eps p).re := fun p => by rw [Real.sq_sqrt (heps p₀).2.le]; exact hp₀ p
  obtain ⟨g, g1, g2, -, -⟩ := C140_group hω₀.ne' hr hE hH eps heps (Real.sqrt_pos.2 (heps p₀).2) hr hn2
    (fun i => by rw [radA]; exact le_add_of_nonneg_right (Finset.sum_nonneg fun j _ => by split_ifs; exacts [(hE 0 j).le, le_rfl]))
    (fun i => by rw [radB, add_assoc]; exact le_add_of_nonneg_right (add_nonneg (half_pos (hE 0 i)).le (Finset.sum_nonneg fun j _ => by split_ifs; exacts [(hH 0 j).le, le_rfl])))
    m v hv hmc hm hmode e h he M hP.ne'
  have e1 : (∑ c, ∑ x, (areaE dE dH c x * radE dE dH r c x * normSq (e (c, x)) * (eps (c, x)).re + areaH dE dH c x * radH dE dH r c x * normSq (h (c, x))))
      = bendAxisEnergy dE dH r eps 1 e h 0 + bendAxisEnergy dE dH r eps 1 e h 1 + bendAxisEnergy dE dH r eps 1 e h 2 := by
    rw [Fin.sum_univ_three]
    simp only [bendAxisEnergy, Pi.one_apply, one_re, mul_one]
  have hg : g = (m ω₀).re / ω₀ + bendAxisEnergy dE dH r eps 1 e h 2 / (modePower dE dH (fld e) (fld h)).re := by
    rw [g2, e1, div_add_div _ _ hω₀.ne' hP.ne', div_eq_div_iff (by positivity) (by positivity)]
    linear_combination -(modePower dE dH (fld e) (fld h)).re * k
  obtain ⟨w1, w2⟩ := axisEnergy_nonneg hE hH (eps := fld (bendEps (cw dE, cw dH) r eps)) (mu := fld (bendMu (cw dE, cw dH) r 1))
    (fun c x => ((bendEps_lossless hE hH hr heps).1 (c, x)).2) (fun c x => ((bendEps_lossless hE hH hr one_lossless).2 (c, x)).2)
    (fld (bendE (cw dE, cw dH) r e)) (fld (bendH (cw dE, cw dH) r h)) 2
  rw [bend_axisEnergy hr.ne' hA hB] at w1 w2
  refine ⟨g, g1, hg, ?_, fun hz => ?_⟩
  · rw [hg]
    refine le_add_of_nonneg_right (div_nonneg ?_ hP.le)
    by_contra hlt
    exact absurd w1 (not_le.2 (div_neg_of_neg_of_pos (not_le.1 hlt) hr))
  · rw [hg]
    refine lt_add_of_pos_right _ (div_pos ?_ hP)
    have := w2 (by
      obtain ⟨x, hx⟩ := hz
      refine ⟨x, ?_⟩
      rw [fld, fld, bendE_2, bendH_2, tA_cw, tB_cw]
      exact hx.imp (mul_ne_zero (ofReal_ne_zero.2 (div_ne_zero (hA _) hr.ne'))) (mul_ne_zero (ofReal_ne_zero.2 (div_ne_zero (hB _) hr.ne'))))
    exact (div_pos_iff_of_pos_right hr).1 this

/-! ### The hypotheses are met -/

/-- The branch `β = √(ω² - 1)` on a non-uniform grid in vacuum meets all hypotheses between `ω = 1` (its cut-off) and 5, and has a longitudinal field: its
effective index grows strictly. -/
theorem C166_case : ∃ (β : ℝ → ℂ) (v : ℝ → V 2 (fun _ => 2)), ContinuousOn v (Set.Ioo 1 5) ∧ ContinuousOn β (Set.Ioo 1 5) ∧ β (5 / 4) = (3 / 4 : ℝ) ∧
    (∀ ω ∈ Set.Ioo (1 : ℝ) 5, β ω ≠ 0) ∧ (∀ ω ∈ Set.Ioo (1 : ℝ) 5, operatorE (ω : ℝ) (cw exE, cw exH) (exEps 1) none *ᵥ v ω = β ω ^ 2 • v ω) ∧
    (∀ ω ∈ Set.Ioo (1 : ℝ) 5, 0 < (modePower exE exH (fld (exy2e (β ω) (cw exE, cw exH) (exEps 1) *ᵥ v ω))
      (fld (exy2h (β ω) (ω : ℝ) (cw exE, cw exH) (exEps 1) none *ᵥ v ω))).re) ∧
    (∀ p, (exEps 1 p).im = 0 ∧ 0 < (exEps 1 p).re) ∧ StrictMonoOn (fun ω => (β ω).re / ω) (Set.Ioo 1 5) := by
  have h34 : √((5 / 4 : ℝ) ^ 2 - 1) = 3 / 4 := by
    rw [show ((5 / 4 : ℝ) ^ 2 - 1) = (3 / 4) ^ 2 by norm_num]; exact Real.sqrt_sq (by norm_num)
  have hone : ∀ p, exEps 1 p = 1 := fun p => by simp [exEps]
  have hpos : ∀ ω ∈ Set.Ioo (1 : ℝ) 5, 0 < √(ω ^ 2 - 1) := fun ω hω => Real.sqrt_pos.2 (by nlinarith [hω.1])
  obtain ⟨β, hβ⟩ : ∃ β : ℝ → ℂ, β = fun ω => ((√(ω ^ 2 - 1) : ℝ) : ℂ) := ⟨_, rfl⟩
  have c2 : ContinuousOn β (Set.Ioo 1 5) := by
    rw [hβ]; exact (continuous_ofReal.comp (Real.continuous_sqrt.comp ((continuous_id.pow 2).sub continuous_const))).continuousOn
  have b0 : ∀ ω ∈ Set.Ioo (1 : ℝ) 5, β ω ≠ 0 := fun ω hω => by rw [hβ]; exact ofReal_ne_zero.2 (hpos ω hω).ne'
  have hm : ∀ ω ∈ Set.Ioo (1 : ℝ) 5, operatorE (ω : ℝ) (cw exE, cw exH) (exEps 1) none *ᵥ exV (-2) = β ω ^ 2 • exV (-2) := fun ω hω => by
    have hs : β ω ^ 2 = ((ω ^ 2 - 1 : ℝ) : ℂ) := by rw [hβ, ← ofReal_pow, Real.sq_sqrt (by nlinarith [hω.1])]
    rw [← exDx_cw, hs]
    exact exMode _ _ _ _ (by push_cast; ring) (by push_cast; ring)
  have hP : ∀ ω ∈ Set.Ioo (1 : ℝ) 5, 0 < (modePower exE exH (fld (exy2e (β ω) (cw exE, cw exH) (exEps 1) *ᵥ exV (-2)))
      (fld (exy2h (β ω) (ω : ℝ) (cw exE, cw exH) (exEps 1) none *ᵥ exV (-2)))).re := fun ω hω => by
    rw [← exDx_cw]
    exact exPower _ _ _ (by linarith [hω.1]) (by rw [hβ, ofReal_re]; exact hpos ω hω)
  refine ⟨β, fun _ => exV (-2), continuousOn_const, c2, by rw [hβ]; simp only [h34], b0, hm, hP, fun p => by simp [hone], ?_⟩
  refine (C166_dispersion zero_le_one exE_pos exH_pos (exEps 1) none (fun p => by simp [hone]) (fun p => by simp [hone]) (fun p => by simp) (fun p => by simp)
    β (fun _ => exV (-2)) continuousOn_const c2 b0 hm hP).2 fun ω hω => ⟨fun _ => 0, Or.inr fun h0 => ?_⟩
  have M := C39_is_mode (β ω) (ω : ℂ) (b0 ω hω) (ofReal_ne_zero.2 (by linarith [hω.1])) (cw exE, cw exH) (exEps 1) none (by simp [hone]) (by simp) _ (hm ω hω)
  have f := M.faradayZ fun _ => 0
  rw [show fld (exy2h (β ω) (ω : ℂ) (cw exE, cw exH) (exEps 1) none *ᵥ exV (-2)) 2 (fun _ => 0) = 0 from h0, mul_zero] at f
  have k0 : ∀ x, fld (exy2e (β ω) (cw exE, cw exH) (exEps 1) *ᵥ exV (-2)) 0 x = 0 := fun x => by rw [fld, exy2e_0]; simp [exV]
  have k1 : ∀ x, fld (exy2e (β ω) (cw exE, cw exH) (exEps 1) *ᵥ exV (-2)) 1 x = exV (-2) (1, x) := fun x => exy2e_1 ..
  simp only [gradForward, k0, k1] at f
  norm_num [exV, cw, exE, shiftIdx] at f
  exact absurd f (by simp [wrap]; norm_num)

end Meanas.Props
