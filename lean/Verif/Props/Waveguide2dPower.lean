/-
C96: attenuation and stored energy of waveguide modes. C97: group velocity. C98: bound on the effective index.
-/
import Verif.Props.Waveguide2dModes
import Mathlib.Analysis.Calculus.Deriv.Slope
import Mathlib.Analysis.Calculus.Deriv.Mul
import Mathlib.Analysis.Complex.Basic

namespace Meanas.Props

open Matrix Complex Spec Wg2

variable {sh : Fin 2 → ℕ}

/-- Complex widths of a real grid. -/
def cw (d : DxList sh ℝ) : DxList sh ℂ := fun a i => (d a i : ℂ)

/-- Area of the Yee cell around an E component. -/
def areaE (dE dH : DxList sh ℝ) (c : Fin 3) (x : Idx sh) : ℝ := ∏ a : Fin 2, if a.castSucc = c then dE a (x a) else dH a (x a)
/-- Area of the Yee cell around an H component. -/
def areaH (dE dH : DxList sh ℝ) (c : Fin 3) (x : Idx sh) : ℝ := ∏ a : Fin 2, if a.castSucc = c then dH a (x a) else dE a (x a)

/-- Complex power through the cross-section, `∫ (E × H*)_z dA`. -/
noncomputable def modePower (dE dH : DxList sh ℝ) (E H : Fin 3 → Arr sh ℂ) : ℂ :=
  ∑ x, ((areaE dE dH 0 x : ℂ) * (E 0 x * (starRingEnd ℂ) (H 1 x)) - (areaE dE dH 1 x : ℂ) * (E 1 x * (starRingEnd ℂ) (H 0 x)))

theorem areaE_0 (dE dH : DxList sh ℝ) (x : Idx sh) : areaE dE dH 0 x = dE 0 (x 0) * dH 1 (x 1) := by
  rw [areaE, Fin.prod_univ_two, if_pos (by decide), if_neg (by decide)]
theorem areaE_1 (dE dH : DxList sh ℝ) (x : Idx sh) : areaE dE dH 1 x = dH 0 (x 0) * dE 1 (x 1) := by simp [areaE, Fin.prod_univ_two, Fin.ext_iff]
theorem areaE_2 (dE dH : DxList sh ℝ) (x : Idx sh) : areaE dE dH 2 x = dH 0 (x 0) * dH 1 (x 1) := by simp [areaE, Fin.prod_univ_two, Fin.ext_iff]
theorem areaH_0 (dE dH : DxList sh ℝ) (x : Idx sh) : areaH dE dH 0 x = dH 0 (x 0) * dE 1 (x 1) := by
  rw [areaH, Fin.prod_univ_two, if_pos (by decide), if_neg (by decide)]
theorem areaH_1 (dE dH : DxList sh ℝ) (x : Idx sh) : areaH dE dH 1 x = dE 0 (x 0) * dH 1 (x 1) := by simp [areaH, Fin.prod_univ_two, Fin.ext_iff]
theorem areaH_2 (dE dH : DxList sh ℝ) (x : Idx sh) : areaH dE dH 2 x = dE 0 (x 0) * dE 1 (x 1) := by simp [areaH, Fin.prod_univ_two, Fin.ext_iff]

/-- Lorentz reciprocity for two modes, possibly of different media and frequencies on the same grid. -/
theorem lorentz {β₁ β₂ ω₁ ω₂ : ℂ} {dE dH : DxList sh ℝ} (hE : Nonzero dE) (hH : Nonzero dH) {eps₁ mu₁ eps₂ mu₂ E₁ H₁ E₂ H₂ : Fin 3 → Arr sh ℂ}
    (m₁ : IsMode β₁ ω₁ (cw dE) (cw dH) eps₁ mu₁ E₁ H₁) (m₂ : IsMode β₂ ω₂ (cw dE) (cw dH) eps₂ mu₂ E₂ H₂) :
    (β₁ + β₂) * areaOverlap (cw dE) (cw dH) E₁ H₂
      = ω₁ * (∑ c, ∑ x, (areaH dE dH c x : ℂ) * (mu₁ c x * H₁ c x * H₂ c x)) + ω₂ * ∑ c, ∑ x, (areaE dE dH c x : ℂ) * (eps₂ c x * E₁ c x * E₂ c x) := by
  have hE' : Nonzero (cw dE) := fun a i => ofReal_ne_zero.2 (hE a i)
  have hH' : Nonzero (cw dH) := fun a i => ofReal_ne_zero.2 (hH a i)
  rw [add_mul, overlap_faraday hE' hH' m₁ m₂, overlap_ampere hE' hH' m₁ m₂]
  simp only [Finset.mul_sum, Fin.sum_univ_three, ← Finset.sum_add_distrib]
  refine Finset.sum_congr rfl fun x _ => ?_
  simp only [areaE_0, areaE_1, areaE_2, areaH_0, areaH_1, areaH_2, cw]
  push_cast
  ring

theorem conj_gradForward (d : DxList sh ℝ) (f : Arr sh ℂ) (a : Fin 2) (x : Idx sh) :
    gradForward (some (cw d)) (fun y => (starRingEnd ℂ) (f y)) a x = (starRingEnd ℂ) (gradForward (some (cw d)) f a x) := by
  simp only [gradForward, cw, wOf_some, map_div₀, map_sub, conj_ofReal]

theorem conj_gradBack (d : DxList sh ℝ) (f : Arr sh ℂ) (a : Fin 2) (x : Idx sh) :
    gradBack (some (cw d)) (fun y => (starRingEnd ℂ) (f y)) a x = (starRingEnd ℂ) (gradBack (some (cw d)) f a x) := by
  simp only [gradBack, cw, wOf_some, map_div₀, map_sub, conj_ofReal]

theorem neg_gradBack (d : DxList sh ℂ) (f : Arr sh ℂ) (a : Fin 2) (x : Idx sh) :
    gradBack (some d) (fun y => -f y) a x = -gradBack (some d) f a x := by
  simp only [gradBack]; ring

/-- The conjugate of a mode, with H reversed, is the mode of the conjugate medium that travels the other way. -/
theorem conj_isMode {β ω : ℂ} {dE dH : DxList sh ℝ} {eps mu E H : Fin 3 → Arr sh ℂ} (m : IsMode β ω (cw dE) (cw dH) eps mu E H) :
    IsMode (-(starRingEnd ℂ) β) ((starRingEnd ℂ) ω) (cw dE) (cw dH) (fun c x => (starRingEnd ℂ) (eps c x)) (fun c x => (starRingEnd ℂ) (mu c x))
      (fun c x => (starRingEnd ℂ) (E c x)) fun c x => -(starRingEnd ℂ) (H c x) := by
  refine ⟨fun x => ?_, fun x => ?_, fun x => ?_, fun x => ?_, fun x => ?_, fun x => ?_⟩ <;>
    simp only [neg_gradBack, conj_gradForward, conj_gradBack]
  · have := congrArg (starRingEnd ℂ) (m.faradayX x)
    simp only [map_sub, map_mul, map_neg, conj_I] at this
    linear_combination this
  · have := congrArg (starRingEnd ℂ) (m.faradayY x)
    simp only [map_sub, map_mul, map_neg, conj_I] at this
    linear_combination this
  · have := congrArg (starRingEnd ℂ) (m.faradayZ x)
    simp only [map_sub, map_mul, map_neg, conj_I] at this
    linear_combination this
  · have := congrArg (starRingEnd ℂ) (m.ampereX x)
    simp only [map_sub, map_mul, map_neg, conj_I] at this
    linear_combination -this
  · have := congrArg (starRingEnd ℂ) (m.ampereY x)
    simp only [map_sub, map_mul, map_neg, conj_I] at this
    linear_combination -this
  · have := congrArg (starRingEnd ℂ) (m.ampereZ x)
    simp only [map_sub, map_mul, conj_I] at this
    linear_combination -this

/-- Complex Poynting theorem of one mode. -/
theorem mode_poynting {β ω : ℂ} {dE dH : DxList sh ℝ} (hE : Nonzero dE) (hH : Nonzero dH) {eps mu E H : Fin 3 → Arr sh ℂ}
    (m : IsMode β ω (cw dE) (cw dH) eps mu E H) :
    ((starRingEnd ℂ) β - β) * modePower dE dH E H
      = (starRingEnd ℂ) ω * (∑ c, ∑ x, ((areaE dE dH c x * normSq (E c x) : ℝ) : ℂ) * (starRingEnd ℂ) (eps c x))
        - ω * ∑ c, ∑ x, ((areaH dE dH c x * normSq (H c x) : ℝ) : ℂ) * mu c x := by
  have h := lorentz hE hH m (conj_isMode m)
  have e1 : areaOverlap (cw dE) (cw dH) E (fun c x => -(starRingEnd ℂ) (H c x)) = -modePower dE dH E H := by
    rw [areaOverlap, modePower, ← Finset.sum_neg_distrib]
    refine Finset.sum_congr rfl fun x _ => ?_
    rw [volE_0, volE_1, areaE_0, areaE_1]; simp only [cw]; push_cast; ring
  have e2 : ∑ c, ∑ x, (areaH dE dH c x : ℂ) * (mu c x * H c x * -(starRingEnd ℂ) (H c x))
      = -∑ c, ∑ x, ((areaH dE dH c x * normSq (H c x) : ℝ) : ℂ) * mu c x := by
    simp only [← Finset.sum_neg_distrib]
    refine Finset.sum_congr rfl fun c _ => Finset.sum_congr rfl fun x _ => ?_
    push_cast; rw [← mul_conj]; ring
  have e3 : ∑ c, ∑ x, (areaE dE dH c x : ℂ) * ((starRingEnd ℂ) (eps c x) * E c x * (starRingEnd ℂ) (E c x))
      = ∑ c, ∑ x, ((areaE dE dH c x * normSq (E c x) : ℝ) : ℂ) * (starRingEnd ℂ) (eps c x) := by
    refine Finset.sum_congr rfl fun c _ => Finset.sum_congr rfl fun x _ => ?_
    push_cast; rw [← mul_conj]; ring
  rw [e1, e2, e3] at h
  linear_combination h

/-- C96: attenuation equals absorption. At real ω, `2 Im β · Re P = ω ∫ (Im ε |E|² + Im μ |H|²) dA`, for every medium and real grid. -/
theorem C96_attenuation {β : ℂ} {ω : ℝ} {dE dH : DxList sh ℝ} (hE : Nonzero dE) (hH : Nonzero dH) {eps mu E H : Fin 3 → Arr sh ℂ}
    (m : IsMode β ω (cw dE) (cw dH) eps mu E H) :
    2 * β.im * (modePower dE dH E H).re
      = ω * ∑ c, ∑ x, (areaE dE dH c x * normSq (E c x) * (eps c x).im + areaH dE dH c x * normSq (H c x) * (mu c x).im) := by
  have h := congrArg Complex.im (mode_poynting hE hH m)
  have hb : (starRingEnd ℂ) β - β = ((-2 * β.im : ℝ) : ℂ) * I := by
    apply Complex.ext <;> simp; ring
  rw [hb, conj_ofReal, mul_assoc, sub_im, im_ofReal_mul, im_ofReal_mul, im_ofReal_mul, I_mul_im, im_sum, im_sum] at h
  simp only [im_sum, im_ofReal_mul, conj_im] at h
  simp only [Finset.sum_add_distrib, mul_add]
  simp only [mul_neg, Finset.sum_neg_distrib] at h
  linarith

/-- C96: electric and magnetic energy are equal in a mode with a real wavenumber. -/
theorem C96_equipartition {β : ℂ} {ω : ℝ} (hω : ω ≠ 0) {dE dH : DxList sh ℝ} (hE : Nonzero dE) (hH : Nonzero dH) {eps mu E H : Fin 3 → Arr sh ℂ}
    (m : IsMode β ω (cw dE) (cw dH) eps mu E H) (hβ : β.im = 0) :
    ∑ c, ∑ x, areaE dE dH c x * normSq (E c x) * (eps c x).re = ∑ c, ∑ x, areaH dE dH c x * normSq (H c x) * (mu c x).re := by
  have h := congrArg Complex.re (mode_poynting hE hH m)
  have hb : (starRingEnd ℂ) β - β = 0 := sub_eq_zero.2 (conj_eq_iff_im.2 hβ)
  rw [hb, conj_ofReal, zero_mul, zero_re, sub_re, re_ofReal_mul, re_ofReal_mul, re_sum, re_sum] at h
  simp only [re_sum, re_ofReal_mul, conj_re] at h
  exact mul_left_cancel₀ hω (by linarith)

/-- C96: a mode of a lossless waveguide that carries power has a real wavenumber. -/
theorem C96_lossless {β : ℂ} {ω : ℝ} {dE dH : DxList sh ℝ} (hE : Nonzero dE) (hH : Nonzero dH) {eps mu E H : Fin 3 → Arr sh ℂ}
    (m : IsMode β ω (cw dE) (cw dH) eps mu E H) (heps : ∀ c x, (eps c x).im = 0) (hmu : ∀ c x, (mu c x).im = 0)
    (hP : (modePower dE dH E H).re ≠ 0) : β.im = 0 := by
  have h := C96_attenuation hE hH m
  simp only [heps, hmu, mul_zero, add_zero, Finset.sum_const_zero] at h
  rcases mul_eq_zero.1 h with h | h
  · linarith
  · exact absurd h hP

/-- C96: in a passive medium (`Im ε ≤ 0`, `Im μ ≤ 0` for `exp(+iωt)`) a mode that carries power forwards decays forwards, strictly if it has
any field in an absorbing cell. -/
theorem C96_passive {β : ℂ} {ω : ℝ} (hω : 0 < ω) {dE dH : DxList sh ℝ} (hE : ∀ a i, 0 < dE a i) (hH : ∀ a i, 0 < dH a i)
    {eps mu E H : Fin 3 → Arr sh ℂ} (m : IsMode β ω (cw dE) (cw dH) eps mu E H) (heps : ∀ c x, (eps c x).im ≤ 0) (hmu : ∀ c x, (mu c x).im ≤ 0)
    (hP : 0 < (modePower dE dH E H).re) :
    β.im ≤ 0 ∧ ((∃ c x, (eps c x).im < 0 ∧ E c x ≠ 0) → β.im < 0) := by
  have h := C96_attenuation (fun a i => (hE a i).ne') (fun a i => (hH a i).ne') m
  have aE : ∀ c x, 0 < areaE dE dH c x := fun c x => Finset.prod_pos fun a _ => by split <;> simp [hE, hH]
  have aH : ∀ c x, 0 < areaH dE dH c x := fun c x => Finset.prod_pos fun a _ => by split <;> simp [hE, hH]
  have t1 : ∀ c x, areaE dE dH c x * normSq (E c x) * (eps c x).im ≤ 0 := fun c x =>
    mul_nonpos_of_nonneg_of_nonpos (mul_nonneg (aE c x).le (normSq_nonneg _)) (heps c x)
  have t2 : ∀ c x, areaH dE dH c x * normSq (H c x) * (mu c x).im ≤ 0 := fun c x =>
    mul_nonpos_of_nonneg_of_nonpos (mul_nonneg (aH c x).le (normSq_nonneg _)) (hmu c x)
  set s := ∑ c, ∑ x, (areaE dE dH c x * normSq (E c x) * (eps c x).im + areaH dE dH c x * normSq (H c x) * (mu c x).im) with hs
  constructor
  · have : s ≤ 0 := Finset.sum_nonpos fun c _ => Finset.sum_nonpos fun x _ => add_nonpos (t1 c x) (t2 c x)
    by_contra hb
    push Not at hb
    nlinarith [mul_pos hb hP]
  · rintro ⟨c, x, h1, h2⟩
    have : s < 0 := by
      refine Finset.sum_neg' (fun c _ => Finset.sum_nonpos fun x _ => add_nonpos (t1 c x) (t2 c x)) ⟨c, Finset.mem_univ _, ?_⟩
      refine Finset.sum_neg' (fun x _ => add_nonpos (t1 c x) (t2 c x)) ⟨x, Finset.mem_univ _, ?_⟩
      exact add_neg_of_neg_of_nonpos (mul_neg_of_pos_of_neg (mul_pos (aE c x) (normSq_pos.2 h2)) h1) (t2 c x)
    by_contra hb
    push Not at hb
    nlinarith [mul_nonneg hb hP.le]

/-! ### C97 -/

/-- Two modes of a lossless waveguide at different frequencies. -/
theorem mode_pair {β₁ : ℂ} {β₂ ω₁ ω₂ : ℝ} {dE dH : DxList sh ℝ} (hE : Nonzero dE) (hH : Nonzero dH) {eps mu E₁ H₁ E₂ H₂ : Fin 3 → Arr sh ℂ}
    (m₁ : IsMode β₁ ω₁ (cw dE) (cw dH) eps mu E₁ H₁) (m₂ : IsMode β₂ ω₂ (cw dE) (cw dH) eps mu E₂ H₂)
    (heps : ∀ c x, (eps c x).im = 0) (hmu : ∀ c x, (mu c x).im = 0) :
    (β₁ - β₂) * (modePower dE dH E₁ H₂ + areaOverlap (cw dE) (cw dH) (fun c x => (starRingEnd ℂ) (E₂ c x)) H₁)
      = (ω₁ - ω₂) * ((∑ c, ∑ x, (areaH dE dH c x : ℂ) * (mu c x * H₁ c x * (starRingEnd ℂ) (H₂ c x)))
        + ∑ c, ∑ x, (areaE dE dH c x : ℂ) * (eps c x * E₁ c x * (starRingEnd ℂ) (E₂ c x))) := by
  have hc := conj_isMode m₂
  simp only [conj_eq_iff_im.2 (heps _ _), conj_eq_iff_im.2 (hmu _ _), conj_ofReal] at hc
  have h1 := lorentz hE hH m₁ hc
  have h2 := lorentz hE hH hc m₁
  have e1 : areaOverlap (cw dE) (cw dH) E₁ (fun c x => -(starRingEnd ℂ) (H₂ c x)) = -modePower dE dH E₁ H₂ := by
    rw [areaOverlap, modePower, ← Finset.sum_neg_distrib]
    refine Finset.sum_congr rfl fun x _ => ?_
    rw [volE_0, volE_1, areaE_0, areaE_1]; simp only [cw]; push_cast; ring
  have e2 : ∑ c, ∑ x, (areaH dE dH c x : ℂ) * (mu c x * H₁ c x * -(starRingEnd ℂ) (H₂ c x))
      = -∑ c, ∑ x, (areaH dE dH c x : ℂ) * (mu c x * H₁ c x * (starRingEnd ℂ) (H₂ c x)) := by
    simp only [← Finset.sum_neg_distrib, mul_neg]
  have e3 : ∑ c, ∑ x, (areaH dE dH c x : ℂ) * (mu c x * -(starRingEnd ℂ) (H₂ c x) * H₁ c x)
      = -∑ c, ∑ x, (areaH dE dH c x : ℂ) * (mu c x * H₁ c x * (starRingEnd ℂ) (H₂ c x)) := by
    simp only [← Finset.sum_neg_distrib]
    exact Finset.sum_congr rfl fun c _ => Finset.sum_congr rfl fun x _ => by ring
  have e4 : ∑ c, ∑ x, (areaE dE dH c x : ℂ) * (eps c x * (starRingEnd ℂ) (E₂ c x) * E₁ c x)
      = ∑ c, ∑ x, (areaE dE dH c x : ℂ) * (eps c x * E₁ c x * (starRingEnd ℂ) (E₂ c x)) :=
    Finset.sum_congr rfl fun c _ => Finset.sum_congr rfl fun x _ => by ring
  rw [e1, e2] at h1
  rw [e3, e4] at h2
  linear_combination h2 - h1

theorem power_self (dE dH : DxList sh ℝ) (E H : Fin 3 → Arr sh ℂ) :
    modePower dE dH E H + areaOverlap (cw dE) (cw dH) (fun c x => (starRingEnd ℂ) (E c x)) H = ((2 * (modePower dE dH E H).re : ℝ) : ℂ) := by
  have : areaOverlap (cw dE) (cw dH) (fun c x => (starRingEnd ℂ) (E c x)) H = (starRingEnd ℂ) (modePower dE dH E H) := by
    rw [areaOverlap, modePower, map_sum]
    refine Finset.sum_congr rfl fun x _ => ?_
    rw [volE_0, volE_1, areaE_0, areaE_1]
    simp only [cw, map_sub, map_mul, conj_ofReal, conj_conj]; push_cast; ring
  rw [this, add_conj]

/-- Group velocity for a family of modes that is continuous in the frequency. -/
theorem group_velocity {ω₀ : ℝ} {dE dH : DxList sh ℝ} (hE : Nonzero dE) (hH : Nonzero dH) {eps mu : Fin 3 → Arr sh ℂ}
    (heps : ∀ c x, (eps c x).im = 0) (hmu : ∀ c x, (mu c x).im = 0) (β : ℝ → ℂ) (E H : ℝ → Fin 3 → Arr sh ℂ) (hβ : (β ω₀).im = 0)
    (hEc : ∀ c x, ContinuousAt (fun ω => E ω c x) ω₀) (hHc : ∀ c x, ContinuousAt (fun ω => H ω c x) ω₀)
    (hm : ∀ᶠ ω : ℝ in nhds ω₀, IsMode (β ω) ω (cw dE) (cw dH) eps mu (E ω) (H ω)) (hP : (modePower dE dH (E ω₀) (H ω₀)).re ≠ 0) :
    HasDerivAt β (((∑ c, ∑ x, (areaE dE dH c x * normSq (E ω₀ c x) * (eps c x).re + areaH dE dH c x * normSq (H ω₀ c x) * (mu c x).re))
      / (2 * (modePower dE dH (E ω₀) (H ω₀)).re) : ℝ) : ℂ) ω₀ := by
  set N : ℝ → ℂ := fun ω => modePower dE dH (E ω) (H ω₀) + areaOverlap (cw dE) (cw dH) (fun c x => (starRingEnd ℂ) (E ω₀ c x)) (H ω) with hN
  set W : ℝ → ℂ := fun ω => (∑ c, ∑ x, (areaH dE dH c x : ℂ) * (mu c x * H ω c x * (starRingEnd ℂ) (H ω₀ c x)))
        + ∑ c, ∑ x, (areaE dE dH c x : ℂ) * (eps c x * E ω c x * (starRingEnd ℂ) (E ω₀ c x)) with hW
  have hN0 : N ω₀ = ((2 * (modePower dE dH (E ω₀) (H ω₀)).re : ℝ) : ℂ) := power_self _ _ _ _
  have hNne : N ω₀ ≠ 0 := by rw [hN0]; exact ofReal_ne_zero.2 (mul_ne_zero two_ne_zero hP)
  have hW0 : W ω₀ = ((∑ c, ∑ x, (areaE dE dH c x * normSq (E ω₀ c x) * (eps c x).re + areaH dE dH c x * normSq (H ω₀ c x) * (mu c x).re) : ℝ) : ℂ) := by
    rw [hW]
    simp only
    rw [← Finset.sum_add_distrib]
    push_cast
    refine Finset.sum_congr rfl fun c _ => ?_
    rw [← Finset.sum_add_distrib]
    refine Finset.sum_congr rfl fun x _ => ?_
    have h1 : (((eps c x).re : ℝ) : ℂ) = eps c x := Complex.ext (by simp) (by simp [heps])
    have h2 : (((mu c x).re : ℝ) : ℂ) = mu c x := Complex.ext (by simp) (by simp [hmu])
    rw [h1, h2, ← mul_conj, ← mul_conj]; ring
  have hNc : ContinuousAt N ω₀ := by
    refine ContinuousAt.add ?_ ?_
    · unfold modePower
      refine tendsto_finsetSum _ fun x _ => ?_
      exact ((hEc 0 x).mul continuousAt_const |>.const_mul _).sub ((hEc 1 x).mul continuousAt_const |>.const_mul _)
    · unfold areaOverlap
      refine tendsto_finsetSum _ fun x _ => ?_
      exact ((continuousAt_const.mul (hHc 1 x)).const_mul _).sub ((continuousAt_const.mul (hHc 0 x)).const_mul _)
  have hWc : ContinuousAt W ω₀ := by
    refine ContinuousAt.add ?_ ?_
    · refine tendsto_finsetSum _ fun c _ => tendsto_finsetSum _ fun x _ => ?_
      exact ((continuousAt_const.mul (hHc c x)).mul continuousAt_const).const_mul _
    · refine tendsto_finsetSum _ fun c _ => tendsto_finsetSum _ fun x _ => ?_
      exact ((continuousAt_const.mul (hEc c x)).mul continuousAt_const).const_mul _
  have hb0 : (((β ω₀).re : ℝ) : ℂ) = β ω₀ := Complex.ext (by simp) (by simp [hβ])
  have m₀ := hm.self_of_nhds
  rw [← hb0] at m₀
  have hlim : Filter.Tendsto (fun ω => W ω / N ω) (nhdsWithin ω₀ {ω₀}ᶜ) (nhds (W ω₀ / N ω₀)) :=
    ((hWc.div hNc hNne).tendsto).mono_left nhdsWithin_le_nhds
  rw [hasDerivAt_iff_tendsto_slope]
  rw [ofReal_div, ← hW0, ← hN0]
  refine hlim.congr' ?_
  have hNe : ∀ᶠ ω in nhds ω₀, N ω ≠ 0 := hNc.eventually_ne hNne
  filter_upwards [nhdsWithin_le_nhds hm, nhdsWithin_le_nhds hNe, self_mem_nhdsWithin] with ω h1 h2 h3
  have hk := mode_pair hE hH h1 m₀ heps hmu
  rw [hb0] at hk
  have h3' : ((ω : ℂ) - ω₀) ≠ 0 := by
    rw [← ofReal_sub]; exact ofReal_ne_zero.2 (sub_ne_zero.2 h3)
  change (β ω - β ω₀) * N ω = (ω - ω₀) * W ω at hk
  rw [slope_def_module, real_smul]
  push_cast
  rw [div_eq_iff h2, mul_assoc, hk]
  field_simp

theorem continuousAt_fw {t₀ : ℝ} (dxes : Dx2 sh) (a : Fin 2) (f : ℝ → Arr sh ℂ) (hf : ∀ x, ContinuousAt (fun t => f t x) t₀) (x : Idx sh) :
    ContinuousAt (fun t => fw dxes a (f t) x) t₀ := by
  simp only [fw, derivForward_eq]
  exact ((hf _).sub (hf _)).div_const _

theorem continuousAt_bw {t₀ : ℝ} (dxes : Dx2 sh) (a : Fin 2) (f : ℝ → Arr sh ℂ) (hf : ∀ x, ContinuousAt (fun t => f t x) t₀) (x : Idx sh) :
    ContinuousAt (fun t => bw dxes a (f t) x) t₀ := by
  simp only [bw, derivBack_eq]
  exact ((hf _).sub (hf _)).div_const _

/-- The fields that `exy2e` reconstructs depend continuously on the eigenvector and the wavenumber. -/
theorem continuousAt_exy2e {t₀ : ℝ} (dxes : Dx2 sh) (eps : V 3 sh) (heps : ∀ p, eps p ≠ 0) {β : ℝ → ℂ} {v : ℝ → V 2 sh} (hv : ContinuousAt v t₀)
    (hβ : ContinuousAt β t₀) (hβ0 : β t₀ ≠ 0) (p : Fin 3 × Idx sh) : ContinuousAt (fun t => (exy2e (β t) dxes eps *ᵥ v t) p) t₀ := by
  have hvp : ∀ q, ContinuousAt (fun t => v t q) t₀ := fun q => (continuous_apply q).continuousAt.comp hv
  obtain ⟨c, x⟩ := p
  match c with
  | 0 => simp only [exy2e_0]; exact hvp _
  | 1 => simp only [exy2e_1]; exact hvp _
  | 2 =>
    simp only [exy2e_2]
    refine ContinuousAt.div (ContinuousAt.add ?_ ?_) ((continuousAt_const.mul hβ).mul continuousAt_const) ?_
    · exact continuousAt_bw _ _ _ (fun y => continuousAt_const.mul (hvp _)) _
    · exact continuousAt_bw _ _ _ (fun y => continuousAt_const.mul (hvp _)) _
    · exact mul_ne_zero (mul_ne_zero I_ne_zero hβ0) (heps _)

theorem continuousAt_exy2h {ω₀ : ℝ} (hω₀ : ω₀ ≠ 0) (dxes : Dx2 sh) (eps : V 3 sh) (heps : ∀ p, eps p ≠ 0) (mu : Option (V 3 sh)) (hmu : ∀ p, mu.getD 1 p ≠ 0)
    {β : ℝ → ℂ} {v : ℝ → V 2 sh} (hv : ContinuousAt v ω₀) (hβ : ContinuousAt β ω₀) (hβ0 : β ω₀ ≠ 0) (p : Fin 3 × Idx sh) :
    ContinuousAt (fun ω : ℝ => (exy2h (β ω) ω dxes eps mu *ᵥ v ω) p) ω₀ := by
  have hE := continuousAt_exy2e dxes eps heps hv hβ hβ0
  simp only [exy2h, ← mulVec_mulVec, e2h_mulVec]
  refine ContinuousAt.div ?_ ((continuousAt_const.mul continuous_ofReal.continuousAt).mul continuousAt_const)
    (mul_ne_zero (negIw_ne (ofReal_ne_zero.2 hω₀)) (hmu p))
  obtain ⟨c, x⟩ := p
  match c with
  | 0 =>
    simp only [curlE_0]
    exact (continuousAt_fw _ _ _ (fun y => hE (2, y)) _).sub ((continuousAt_const.mul hβ).mul (hE _))
  | 1 =>
    simp only [curlE_1]
    exact ((continuousAt_const.mul hβ).mul (hE _)).sub (continuousAt_fw _ _ _ (fun y => hE (2, y)) _)
  | 2 =>
    simp only [curlE_2]
    exact (continuousAt_fw _ _ _ (fun y => hE (1, y)) _).sub (continuousAt_fw _ _ _ (fun y => hE (0, y)) _)

/-- C97: the group velocity is the energy velocity. Along any continuous branch of eigenpairs of `operator_e` of a lossless, non-dispersive
waveguide on a real grid, `dβ/dω = ∫ (ε|E|² + μ|H|²) dA / (2 Re ∫ (E × H*)_z dA)`. -/
theorem C97_group_velocity {ω₀ : ℝ} (hω₀ : ω₀ ≠ 0) {dE dH : DxList sh ℝ} (hE : Nonzero dE) (hH : Nonzero dH) (eps : V 3 sh) (mu : Option (V 3 sh))
    (heps : ∀ p, eps p ≠ 0) (hepsr : ∀ p, (eps p).im = 0) (hmu : ∀ p, mu.getD 1 p ≠ 0) (hmur : ∀ p, (mu.getD 1 p).im = 0)
    (β : ℝ → ℂ) (v : ℝ → V 2 sh) (hv : ContinuousAt v ω₀) (hβc : ContinuousAt β ω₀) (hβ : β ω₀ ≠ 0)
    (hmode : ∀ᶠ ω : ℝ in nhds ω₀, operatorE ω (cw dE, cw dH) eps mu *ᵥ v ω = β ω ^ 2 • v ω)
    (hP : (modePower dE dH (fld (exy2e (β ω₀) (cw dE, cw dH) eps *ᵥ v ω₀)) (fld (exy2h (β ω₀) ω₀ (cw dE, cw dH) eps mu *ᵥ v ω₀))).re ≠ 0) :
    let E := fld (exy2e (β ω₀) (cw dE, cw dH) eps *ᵥ v ω₀)
    let H := fld (exy2h (β ω₀) ω₀ (cw dE, cw dH) eps mu *ᵥ v ω₀)
    HasDerivAt β (((∑ c, ∑ x, (areaE dE dH c x * normSq (E c x) * (eps (c, x)).re + areaH dE dH c x * normSq (H c x) * (mu.getD 1 (c, x)).re))
      / (2 * (modePower dE dH E H).re) : ℝ) : ℂ) ω₀ := by
  intro E H
  have hm : ∀ᶠ ω : ℝ in nhds ω₀, IsMode (β ω) ω (cw dE) (cw dH) (fld eps) (fld (mu.getD 1)) (fld (exy2e (β ω) (cw dE, cw dH) eps *ᵥ v ω))
      (fld (exy2h (β ω) ω (cw dE, cw dH) eps mu *ᵥ v ω)) := by
    filter_upwards [hmode, hβc.eventually_ne hβ, eventually_ne_nhds hω₀] with ω h1 h2 h3
    exact C39_is_mode (β ω) ω h2 (ofReal_ne_zero.2 h3) (cw dE, cw dH) eps mu heps hmu (v ω) h1
  exact group_velocity hE hH (fun c x => hepsr (c, x)) (fun c x => hmur (c, x)) β
    (fun ω => fld (exy2e (β ω) (cw dE, cw dH) eps *ᵥ v ω)) (fun ω => fld (exy2h (β ω) ω (cw dE, cw dH) eps mu *ᵥ v ω))
    (C96_lossless hE hH hm.self_of_nhds (fun c x => hepsr (c, x)) (fun c x => hmur (c, x)) hP)
    (fun c x => continuousAt_exy2e _ eps heps hv hβc hβ (c, x)) (fun c x => continuousAt_exy2h hω₀ _ eps heps mu hmu hv hβc hβ (c, x)) hm hP

/-! ### C98 -/

theorem gradForward_comm (d : DxList sh ℂ) (f : Arr sh ℂ) (x : Idx sh) :
    gradForward (some d) (fun y => gradForward (some d) f 1 y) 0 x = gradForward (some d) (fun y => gradForward (some d) f 0 y) 1 x := by
  have := derivForward_comm (some d) (some d) (show (0 : Fin 2) ≠ 1 by decide) f x
  simpa only [derivForward_eq, gradForward] using this

theorem gradForward_lin (d : DxList sh ℂ) (r s : ℂ) (f g : Arr sh ℂ) (a : Fin 2) (x : Idx sh) :
    gradForward (some d) (fun y => r * f y + s * g y) a x = r * gradForward (some d) f a x + s * gradForward (some d) g a x := by
  simp only [gradForward]; ring

/-- The magnetic field of a mode of a non-magnetic (uniform μ) waveguide has no divergence. -/
theorem mode_div_H {β ω : ℂ} (hω : ω ≠ 0) {dE dH : DxList sh ℂ} {eps mu E H : Fin 3 → Arr sh ℂ} {m₀ : ℂ} (hm₀ : m₀ ≠ 0) (hmu : ∀ c x, mu c x = m₀)
    (m : IsMode β ω dE dH eps mu E H) (x : Idx sh) :
    gradForward (some dE) (H 0) 0 x + gradForward (some dE) (H 1) 1 x = I * β * H 2 x := by
  have hne : -I * ω * m₀ ≠ 0 := mul_ne_zero (negIw_ne hω) hm₀
  have h0 : H 0 = fun y => (-I * ω * m₀)⁻¹ * gradForward (some dE) (E 2) 1 y + (-I * ω * m₀)⁻¹ * (I * β) * E 1 y := by
    funext y
    have := m.faradayX y
    rw [hmu] at this
    field_simp
    field_simp at this
    linear_combination this
  have h1 : H 1 = fun y => -(-I * ω * m₀)⁻¹ * gradForward (some dE) (E 2) 0 y + -((-I * ω * m₀)⁻¹ * (I * β)) * E 0 y := by
    funext y
    have := m.faradayY y
    rw [hmu] at this
    field_simp
    field_simp at this
    linear_combination this
  have h2 := m.faradayZ x
  rw [hmu] at h2
  rw [h0, h1, gradForward_lin, gradForward_lin, gradForward_comm]
  have : (-I * ω * m₀)⁻¹ * (-I * ω * m₀) = 1 := inv_mul_cancel₀ hne
  linear_combination ((-I * ω * m₀)⁻¹ * (I * β)) * h2 + (I * β * H 2 x) * this

/-- `∫ |curl H|² ≥ β² ∫ |H|²` for fields without divergence. -/
theorem curl_energy {β : ℝ} {dE dH : DxList sh ℝ} (hE : ∀ a i, 0 < dE a i) (hH : ∀ a i, 0 < dH a i) {H : Fin 3 → Arr sh ℂ}
    (hdiv : ∀ x, gradForward (some (cw dE)) (H 0) 0 x + gradForward (some (cw dE)) (H 1) 1 x = I * β * H 2 x) :
    β ^ 2 * ∑ c, ∑ x, areaH dE dH c x * normSq (H c x)
      ≤ ∑ x, (areaE dE dH 0 x * normSq (gradBack (some (cw dH)) (H 2) 1 x - (-I * β) * H 1 x)
        + areaE dE dH 1 x * normSq ((-I * β) * H 0 x - gradBack (some (cw dH)) (H 2) 0 x)
        + areaE dE dH 2 x * normSq (gradBack (some (cw dH)) (H 1) 0 x - gradBack (some (cw dH)) (H 0) 1 x)) := by
  have hE' : Nonzero (cw dE) := fun a i => ofReal_ne_zero.2 (hE a i).ne'
  have hH' : Nonzero (cw dH) := fun a i => ofReal_ne_zero.2 (hH a i).ne'
  have p0 := parts2 0 1 (by decide) (cw dE) (cw dH) hE' hH' (cw dE) (H 2) (fun y => (starRingEnd ℂ) (H 0 y))
  have p1 := parts2 1 0 (by decide) (cw dE) (cw dH) hE' hH' (cw dE) (H 2) (fun y => (starRingEnd ℂ) (H 1 y))
  simp only [conj_gradForward] at p0 p1
  -- the cross terms
  have key : ∑ x, ((areaE dE dH 0 x : ℂ) * (gradBack (some (cw dH)) (H 2) 1 x * (starRingEnd ℂ) (I * β * H 1 x))
        + (areaE dE dH 1 x : ℂ) * (gradBack (some (cw dH)) (H 2) 0 x * (starRingEnd ℂ) (I * β * H 0 x)))
      = ((β ^ 2 * ∑ x, areaH dE dH 2 x * normSq (H 2 x) : ℝ) : ℂ) := by
    have e : ∑ x, ((areaE dE dH 0 x : ℂ) * (gradBack (some (cw dH)) (H 2) 1 x * (starRingEnd ℂ) (I * β * H 1 x))
        + (areaE dE dH 1 x : ℂ) * (gradBack (some (cw dH)) (H 2) 0 x * (starRingEnd ℂ) (I * β * H 0 x)))
        = (-I * β) * (∑ x, cw dH 1 (x 1) * cw dE 0 (x 0) * ((starRingEnd ℂ) (H 1 x) * gradBack (some (cw dH)) (H 2) 1 x))
          + (-I * β) * ∑ x, cw dH 0 (x 0) * cw dE 1 (x 1) * ((starRingEnd ℂ) (H 0 x) * gradBack (some (cw dH)) (H 2) 0 x) := by
      rw [Finset.mul_sum, Finset.mul_sum, ← Finset.sum_add_distrib]
      refine Finset.sum_congr rfl fun x _ => ?_
      simp only [areaE_0, areaE_1, cw, map_mul, conj_I, conj_ofReal]; push_cast; ring
    rw [e, p0, p1, mul_neg, mul_neg, ← neg_add, Finset.mul_sum, Finset.mul_sum, ← Finset.sum_add_distrib, ← Finset.sum_neg_distrib, ofReal_mul, ofReal_sum, Finset.mul_sum]
    refine Finset.sum_congr rfl fun x _ => ?_
    have hd := congrArg (starRingEnd ℂ) (hdiv x)
    simp only [map_add, map_mul, conj_I, conj_ofReal] at hd
    rw [areaH_2]
    push_cast
    rw [← mul_conj]
    simp only [cw]
    linear_combination (I * β * H 2 x * dE 0 (x 0) * dE 1 (x 1)) * hd + (-(β : ℂ) ^ 2 * H 2 x * dE 0 (x 0) * dE 1 (x 1) * (starRingEnd ℂ) (H 2 x)) * I_sq
  have key' := congrArg Complex.re key
  rw [ofReal_re, re_sum] at key'
  simp only [add_re, re_ofReal_mul] at key'
  have aE : ∀ c x, 0 < areaE dE dH c x := fun c x => Finset.prod_pos fun a _ => by split <;> simp [hE, hH]
  have aH : ∀ c x, 0 < areaH dE dH c x := fun c x => Finset.prod_pos fun a _ => by split <;> simp [hE, hH]
  have hz : 0 ≤ ∑ x, areaH dE dH 2 x * normSq (H 2 x) := Finset.sum_nonneg fun x _ => mul_nonneg (aH 2 x).le (normSq_nonneg _)
  have hb : normSq (I * (β : ℂ)) = β ^ 2 := by rw [normSq_mul, normSq_I, normSq_ofReal]; ring
  have step : ∀ x, β ^ 2 * (areaH dE dH 0 x * normSq (H 0 x)) + β ^ 2 * (areaH dE dH 1 x * normSq (H 1 x))
      + 2 * (areaE dE dH 0 x * (gradBack (some (cw dH)) (H 2) 1 x * (starRingEnd ℂ) (I * β * H 1 x)).re
        + areaE dE dH 1 x * (gradBack (some (cw dH)) (H 2) 0 x * (starRingEnd ℂ) (I * β * H 0 x)).re)
      ≤ areaE dE dH 0 x * normSq (gradBack (some (cw dH)) (H 2) 1 x - (-I * β) * H 1 x)
        + areaE dE dH 1 x * normSq ((-I * β) * H 0 x - gradBack (some (cw dH)) (H 2) 0 x)
        + areaE dE dH 2 x * normSq (gradBack (some (cw dH)) (H 1) 0 x - gradBack (some (cw dH)) (H 0) 1 x) := by
    intro x
    have r1 : gradBack (some (cw dH)) (H 2) 1 x - (-I * β) * H 1 x = gradBack (some (cw dH)) (H 2) 1 x + I * β * H 1 x := by ring
    have r2 : (-I * β) * H 0 x - gradBack (some (cw dH)) (H 2) 0 x = -(gradBack (some (cw dH)) (H 2) 0 x + I * β * H 0 x) := by ring
    rw [r1, r2, normSq_neg, normSq_add, normSq_add, normSq_mul (I * β), normSq_mul (I * β), hb]
    have a0 : areaH dE dH 0 x = areaE dE dH 1 x := by rw [areaH_0, areaE_1]
    have a1 : areaH dE dH 1 x = areaE dE dH 0 x := by rw [areaH_1, areaE_0]
    rw [a0, a1]
    have n1 := mul_nonneg (aE 0 x).le (normSq_nonneg (gradBack (some (cw dH)) (H 2) 1 x))
    have n2 := mul_nonneg (aE 1 x).le (normSq_nonneg (gradBack (some (cw dH)) (H 2) 0 x))
    have n3 := mul_nonneg (aE 2 x).le (normSq_nonneg (gradBack (some (cw dH)) (H 1) 0 x - gradBack (some (cw dH)) (H 0) 1 x))
    linarith
  have tot := Finset.sum_le_sum fun x (_ : x ∈ Finset.univ) => step x
  rw [Finset.sum_add_distrib, Finset.sum_add_distrib, ← Finset.mul_sum, ← Finset.mul_sum, ← Finset.mul_sum, key'] at tot
  rw [Fin.sum_univ_three]
  nlinarith [mul_nonneg (sq_nonneg β) hz]

/-- C98: the effective index of a mode never exceeds the highest index of the cross-section: `β² ≤ ω² μ max ε`, on every real grid. -/
theorem index_bound {β ω : ℝ} (hω : ω ≠ 0) {dE dH : DxList sh ℝ} (hE : ∀ a i, 0 < dE a i) (hH : ∀ a i, 0 < dH a i) {eps mu E H : Fin 3 → Arr sh ℂ}
    (m : IsMode β ω (cw dE) (cw dH) eps mu E H) {m₀ emax : ℝ} (hm₀ : 0 < m₀) (hmu : ∀ c x, mu c x = m₀) (heps : ∀ c x, (eps c x).im = 0)
    (hpos : ∀ c x, 0 ≤ (eps c x).re) (hmax : ∀ c x, (eps c x).re ≤ emax) (hne : ∃ c x, H c x ≠ 0) : β ^ 2 ≤ ω ^ 2 * (m₀ * emax) := by
  have aE : ∀ c x, 0 < areaE dE dH c x := fun c x => Finset.prod_pos fun a _ => by split <;> simp [hE, hH]
  have aH : ∀ c x, 0 < areaH dE dH c x := fun c x => Finset.prod_pos fun a _ => by split <;> simp [hE, hH]
  have hS : 0 < ∑ c, ∑ x, areaH dE dH c x * normSq (H c x) := by
    obtain ⟨c, x, hc⟩ := hne
    refine Finset.sum_pos' (fun c _ => Finset.sum_nonneg fun x _ => mul_nonneg (aH c x).le (normSq_nonneg _)) ⟨c, Finset.mem_univ _, ?_⟩
    exact Finset.sum_pos' (fun x _ => mul_nonneg (aH c x).le (normSq_nonneg _)) ⟨x, Finset.mem_univ _, mul_pos (aH c x) (normSq_pos.2 hc)⟩
  have h1 := curl_energy hE hH (mode_div_H (ofReal_ne_zero.2 hω) (ofReal_ne_zero.2 hm₀.ne') hmu m)
  simp only [m.ampereX, m.ampereY, m.ampereZ] at h1
  have h2 := C96_equipartition hω (fun a i => (hE a i).ne') (fun a i => (hH a i).ne') m (ofReal_im β)
  simp only [hmu, ofReal_re, ← Finset.sum_mul] at h2
  have hterm : ∀ c x, areaE dE dH c x * normSq (I * ω * eps c x * E c x) ≤ ω ^ 2 * emax * (areaE dE dH c x * normSq (E c x) * (eps c x).re) := by
    intro c x
    have he : normSq (eps c x) = (eps c x).re * (eps c x).re := by rw [normSq_apply, heps]; ring
    rw [normSq_mul, normSq_mul, normSq_mul, normSq_I, normSq_ofReal, he]
    have := mul_le_mul_of_nonneg_left (hmax c x) (mul_nonneg (mul_nonneg (mul_nonneg (aE c x).le (normSq_nonneg (E c x))) (hpos c x)) (sq_nonneg ω))
    linarith
  have h3 : ∑ x, (areaE dE dH 0 x * normSq (I * ω * eps 0 x * E 0 x) + areaE dE dH 1 x * normSq (I * ω * eps 1 x * E 1 x)
      + areaE dE dH 2 x * normSq (I * ω * eps 2 x * E 2 x)) ≤ ω ^ 2 * emax * ∑ c, ∑ x, areaE dE dH c x * normSq (E c x) * (eps c x).re := by
    rw [Fin.sum_univ_three, ← Finset.sum_add_distrib, ← Finset.sum_add_distrib, Finset.mul_sum]
    exact Finset.sum_le_sum fun x _ => by nlinarith [hterm 0 x, hterm 1 x, hterm 2 x]
  have h4 := h1.trans h3
  rw [h2] at h4
  refine le_of_mul_le_mul_right ?_ hS
  linarith

/-- C98: for the eigenpairs of `operator_e`. -/
theorem C98_index_bound {β ω : ℝ} (hβ : β ≠ 0) (hω : ω ≠ 0) {dE dH : DxList sh ℝ} (hE : ∀ a i, 0 < dE a i) (hH : ∀ a i, 0 < dH a i) (eps : V 3 sh)
    (mu : Option (V 3 sh)) {m₀ emax : ℝ} (hm₀ : 0 < m₀) (hmu : ∀ p, mu.getD 1 p = m₀) (heps : ∀ p, (eps p).im = 0 ∧ 0 < (eps p).re ∧ (eps p).re ≤ emax)
    (v : V 2 sh) (hv : v ≠ 0) (heig : operatorE ω (cw dE, cw dH) eps mu *ᵥ v = (β : ℂ) ^ 2 • v) : β ^ 2 ≤ ω ^ 2 * (m₀ * emax) := by
  have hepsn : ∀ p, eps p ≠ 0 := fun p h0 => by have := (heps p).2.1; rw [h0] at this; simp at this
  have hmun : ∀ p, mu.getD 1 p ≠ 0 := fun p => by rw [hmu]; exact ofReal_ne_zero.2 hm₀.ne'
  have m := C39_is_mode (β : ℂ) (ω : ℂ) (ofReal_ne_zero.2 hβ) (ofReal_ne_zero.2 hω) (cw dE, cw dH) eps mu hepsn hmun v heig
  refine index_bound hω hE hH m hm₀ (fun c x => hmu (c, x)) (fun c x => (heps (c, x)).1) (fun c x => (heps (c, x)).2.1.le) (fun c x => (heps (c, x)).2.2) ?_
  obtain ⟨p, hp⟩ := Function.ne_iff.1 hv
  have he : exy2e (β : ℂ) (cw dE, cw dH) eps *ᵥ v ≠ 0 := by
    intro h0
    obtain ⟨c, x⟩ := p
    fin_cases c
    · exact hp ((exy2e_0 _ _ _ _ x).symm.trans (congrFun h0 (0, x)))
    · exact hp ((exy2e_1 _ _ _ _ x).symm.trans (congrFun h0 (1, x)))
  obtain ⟨q, hq⟩ := Function.ne_iff.1 (mode_ne_zero _ _ (ofReal_ne_zero.2 hω) _ eps mu hepsn hmun _ _ m (Or.inl he)).2
  exact ⟨q.1, q.2, hq⟩

/-! ### The normalised fields of the library -/

/-- On a grid whose E and H widths agree, `inner_product(e, h, conj_h=True)` is half the power. -/
theorem inner_product_power (d : DxList sh ℝ) (e h : V 3 sh) :
    innerProduct e h (cw d, cw d) 0 true false = .ok (1 / 2 * modePower d d (fld e) (fld h)) := by
  rw [C43_inner_product_value]
  refine congrArg Except.ok ?_
  rw [overlapSum, modePower]
  refine congrArg _ (Finset.sum_congr rfl fun x _ => ?_)
  rw [areaE_0, areaE_1]
  simp only [ipW, cw, Fin.prod_univ_two, ofReal_re, if_true, show ¬ ((1 : Fin 2) = 0) by decide, show ¬ ((0 : Fin 2) = 1) by decide, if_false, mul_zero, zero_div,
    Complex.exp_zero, mul_one, fld]
  push_cast; ring

theorem normalized_mode {β ω : ℂ} (hβ : β ≠ 0) (hω : ω ≠ 0) (d : DxList sh ℝ) (eps : V 3 sh) (mu : Option (V 3 sh)) (heps : ∀ p, eps p ≠ 0)
    (hmu : ∀ p, mu.getD 1 p ≠ 0) (v : V 2 sh) (heig : operatorE ω (cw d, cw d) eps mu *ᵥ v = β ^ 2 • v) {e h : V 3 sh}
    (hr : normalizedFieldsE v β ω (cw d, cw d) eps mu 0 = .ok (e, h)) :
    (∃ c : ℂ, c ≠ 0 ∧ e = exy2e β (cw d, cw d) eps *ᵥ (c • v) ∧ h = exy2h β ω (cw d, cw d) eps mu *ᵥ (c • v) ∧
      operatorE ω (cw d, cw d) eps mu *ᵥ (c • v) = β ^ 2 • (c • v)) ∧
    IsMode β ω (cw d) (cw d) (fld eps) (fld (mu.getD 1)) (fld e) (fld h) ∧ (modePower d d (fld e) (fld h)).re = 2 := by
  obtain ⟨⟨c, hc, he, hh⟩, ⟨s, hs, hs1⟩, -⟩ := C42_normalized_fields_e v β ω (cw d, cw d) eps mu 0 hr
  rw [inner_product_power, Except.ok.injEq] at hs
  have hec : operatorE ω (cw d, cw d) eps mu *ᵥ (c • v) = β ^ 2 • (c • v) := by rw [mulVec_smul, heig, smul_comm]
  have m := C39_is_mode β ω hβ hω (cw d, cw d) eps mu heps hmu _ hec
  rw [mulVec_smul, mulVec_smul, ← he, ← hh] at m
  refine ⟨⟨c, hc, by rw [mulVec_smul, he], by rw [mulVec_smul, hh], hec⟩, m, ?_⟩
  rw [← hs] at hs1
  have h2 : (1 / 2 * modePower d d (fld e) (fld h)).re = 1 / 2 * (modePower d d (fld e) (fld h)).re := by
    have : (1 / 2 : ℂ) = ((1 / 2 : ℝ) : ℂ) := by push_cast; ring
    rw [this, re_ofReal_mul]
  linarith

/-- C96 for `normalized_fields_e`: `Im β` is a quarter of the power absorbed by the normalised fields per unit length. -/
theorem C96_normalized_fields {β : ℂ} {ω : ℝ} (hβ : β ≠ 0) (hω : ω ≠ 0) {d : DxList sh ℝ} (hd : Nonzero d) (eps : V 3 sh) (mu : Option (V 3 sh))
    (heps : ∀ p, eps p ≠ 0) (hmu : ∀ p, mu.getD 1 p ≠ 0) (v : V 2 sh) (heig : operatorE ω (cw d, cw d) eps mu *ᵥ v = β ^ 2 • v) {e h : V 3 sh}
    (hr : normalizedFieldsE v β ω (cw d, cw d) eps mu 0 = .ok (e, h)) :
    4 * β.im = ω * ∑ c, ∑ x, (areaE d d c x * normSq (e (c, x)) * (eps (c, x)).im + areaH d d c x * normSq (h (c, x)) * (mu.getD 1 (c, x)).im) := by
  obtain ⟨-, m, hp⟩ := normalized_mode hβ (ofReal_ne_zero.2 hω) d eps mu heps hmu v heig hr
  have := C96_attenuation hd hd m
  rw [hp] at this
  simp only [fld] at this
  linarith

/-- C97 for `normalized_fields_e`: `dβ/dω` is a quarter of the energy integral of the normalised fields. -/
theorem C97_normalized_fields {ω₀ : ℝ} (hω₀ : ω₀ ≠ 0) {d : DxList sh ℝ} (hd : Nonzero d) (eps : V 3 sh) (mu : Option (V 3 sh))
    (heps : ∀ p, eps p ≠ 0) (hepsr : ∀ p, (eps p).im = 0) (hmu : ∀ p, mu.getD 1 p ≠ 0) (hmur : ∀ p, (mu.getD 1 p).im = 0)
    (β : ℝ → ℂ) (v : ℝ → V 2 sh) (hv : ContinuousAt v ω₀) (hβc : ContinuousAt β ω₀) (hβ : β ω₀ ≠ 0)
    (hmode : ∀ᶠ ω : ℝ in nhds ω₀, operatorE ω (cw d, cw d) eps mu *ᵥ v ω = β ω ^ 2 • v ω) {e h : V 3 sh}
    (hr : normalizedFieldsE (v ω₀) (β ω₀) ω₀ (cw d, cw d) eps mu 0 = .ok (e, h)) :
    HasDerivAt β (((∑ c, ∑ x, (areaE d d c x * normSq (e (c, x)) * (eps (c, x)).re + areaH d d c x * normSq (h (c, x)) * (mu.getD 1 (c, x)).re)) / 4 : ℝ) : ℂ) ω₀ := by
  obtain ⟨⟨c, hc, he, hh, -⟩, -, hp⟩ := normalized_mode hβ (ofReal_ne_zero.2 hω₀) d eps mu heps hmu (v ω₀) hmode.self_of_nhds hr
  have hmode' : ∀ᶠ ω : ℝ in nhds ω₀, operatorE ω (cw d, cw d) eps mu *ᵥ (c • v ω) = β ω ^ 2 • (c • v ω) := by
    filter_upwards [hmode] with ω h1
    rw [mulVec_smul, h1, smul_comm]
  have := C97_group_velocity hω₀ hd hd eps mu heps hepsr hmu hmur β (fun ω => c • v ω) (hv.const_smul c) hβc hβ hmode'
    (by rw [← he, ← hh, hp]; norm_num)
  simp only at this
  rw [← he, ← hh, hp] at this
  simpa only [fld, show (2 : ℝ) * 2 = 4 by norm_num] using this

/-! ### The hypotheses are met -/

/-- The widths of the non-uniform grid `exDx`. -/
noncomputable def exE : DxList (fun _ : Fin 2 => 2) ℝ := fun a i => if a = 0 then (if i = 0 then 1 else 4) else 1
noncomputable def exH : DxList (fun _ : Fin 2 => 2) ℝ := fun a _ => if a = 0 then 5 / 2 else 1

theorem exDx_cw : exDx = (cw exE, cw exH) := by
  refine Prod.ext ?_ ?_ <;> funext a i <;> simp only [exDx, cw, exE, exH] <;> split_ifs <;> simp

theorem exE_pos (a : Fin 2) (i : Fin 2) : 0 < exE a i := by simp only [exE]; split_ifs <;> norm_num
theorem exH_pos (a : Fin 2) (i : Fin 2) : 0 < exH a i := by simp only [exH]; split_ifs <;> norm_num

theorem exPower (β s c : ℂ) {ω : ℝ} (hω : 0 < ω) (hβ : 0 < β.re) :
    0 < (modePower exE exH (fld (exy2e β exDx (exEps c) *ᵥ exV s)) (fld (exy2h β ω exDx (exEps c) none *ᵥ exV s))).re := by
  have hsum : modePower exE exH (fld (exy2e β exDx (exEps c) *ᵥ exV s)) (fld (exy2h β ω exDx (exEps c) none *ᵥ exV s))
      = ((∑ x, areaE exE exH 1 x * normSq (exV s (1, x)) / ω : ℝ) : ℂ) * (starRingEnd ℂ) β := by
    rw [modePower, ofReal_sum, Finset.sum_mul]
    refine Finset.sum_congr rfl fun x _ => ?_
    simp only [fld, exy2e_0, exy2e_1, exHx]
    have h0 : exV s (0, x) = 0 := by simp [exV]
    have hω' : (ω : ℂ) ≠ 0 := ofReal_ne_zero.2 hω.ne'
    have hI := I_ne_zero
    rw [h0]
    simp only [map_div₀, map_mul, map_neg, conj_I, conj_ofReal]
    push_cast
    rw [← mul_conj]
    field_simp
    ring
  rw [hsum, re_ofReal_mul, conj_re]
  refine mul_pos (Finset.sum_pos' (fun x _ => ?_) ⟨fun _ => 0, Finset.mem_univ _, ?_⟩) hβ
  · refine div_nonneg (mul_nonneg ?_ (normSq_nonneg _)) hω.le
    rw [areaE_1]; exact (mul_pos (exH_pos _ _) (exE_pos _ _)).le
  · refine div_pos (mul_pos ?_ (normSq_pos.2 ?_)) hω
    · rw [areaE_1]; exact mul_pos (exH_pos _ _) (exE_pos _ _)
    · simp [exV]

/-- The hypotheses of C96 (attenuation, passive) are met: a mode of an absorbing medium on a non-uniform grid, `β = 1 - i/2` at `ω = 1`. -/
example : ∃ (eps E H : Fin 3 → Arr (fun _ : Fin 2 => 2) ℂ), IsMode (1 - I / 2) ((1 : ℝ) : ℂ) (cw exE) (cw exH) eps (fld 1) E H ∧ Nonzero exE ∧ Nonzero exH ∧
    (∀ c x, (eps c x).im ≤ 0) ∧ 0 < (modePower exE exH E H).re ∧ ∃ c x, (eps c x).im < 0 ∧ E c x ≠ 0 := by
  have hI := I_sq
  have hβ : (1 - I / 2 : ℂ) ≠ 0 := fun h => by have := congrArg Complex.re h; simp at this
  set c : ℂ := 3 / 4 - I - (-15 + 8 * I) / 34 with hc
  have hcim : c.im = -21 / 17 := by
    have : c = ((81 / 68 : ℝ) : ℂ) + ((-21 / 17 : ℝ) : ℂ) * I := by rw [hc]; push_cast; ring
    rw [this]; simp
  have hcne : c ≠ 0 := fun h => by rw [h] at hcim; norm_num at hcim
  have hm := exMode ((-15 + 8 * I) / 17) c 1 ((1 - I / 2) ^ 2) (by rw [hc]; linear_combination (-1 / 4 : ℂ) * hI)
    (by linear_combination (15 / 34 - 2 / 17 * I : ℂ) * hI)
  rw [← ofReal_one] at hm
  have m := C39_is_mode (1 - I / 2) ((1 : ℝ) : ℂ) hβ (by simp) exDx (exEps c) none (exEps_ne hcne) (by simp) _ hm
  rw [exDx_cw] at m
  refine ⟨_, _, _, m, fun a i => (exE_pos a i).ne', fun a i => (exH_pos a i).ne', fun k x => ?_, ?_, 1, fun _ => 0, ?_, ?_⟩
  · simp only [fld, exEps]; split_ifs
    · rw [hcim]; norm_num
    · simp
  · rw [← exDx_cw]; exact exPower _ _ _ one_pos (by simp)
  · simp only [fld, exEps]; simp [hcim]; norm_num
  · simp only [fld, exy2e_1]; simp [exV]

/-- The hypotheses of `C97_group_velocity` and `C98_index_bound` are met on a non-uniform grid by the branch `β = √(ω² - 1)` at `ω₀ = 5/4`. -/
example : ∃ (β : ℝ → ℂ) (v : ℝ → V 2 (fun _ => 2)), ContinuousAt v (5 / 4) ∧ ContinuousAt β (5 / 4) ∧ β (5 / 4) = (3 / 4 : ℝ) ∧ v (5 / 4) ≠ 0 ∧
    (∀ᶠ ω : ℝ in nhds (5 / 4), operatorE ω (cw exE, cw exH) (exEps 1) none *ᵥ v ω = β ω ^ 2 • v ω) ∧
    (modePower exE exH (fld (exy2e (β (5 / 4)) (cw exE, cw exH) (exEps 1) *ᵥ v (5 / 4)))
      (fld (exy2h (β (5 / 4)) (5 / 4 : ℝ) (cw exE, cw exH) (exEps 1) none *ᵥ v (5 / 4)))).re ≠ 0 ∧
    ∀ p, exEps 1 p ≠ 0 ∧ (exEps 1 p).im = 0 ∧ 0 < (exEps 1 p).re ∧ (exEps 1 p).re ≤ 1 := by
  have h34 : √((5 / 4 : ℝ) ^ 2 - 1) = 3 / 4 := by
    rw [show ((5 / 4 : ℝ) ^ 2 - 1) = (3 / 4) ^ 2 by norm_num]; exact Real.sqrt_sq (by norm_num)
  have hone : ∀ p, exEps 1 p = 1 := fun p => by simp [exEps]
  refine ⟨fun ω => ((√(ω ^ 2 - 1) : ℝ) : ℂ), fun _ => exV (-2), continuousAt_const, ?_, by simp only [h34], ?_, ?_, ?_, fun p => by simp [hone]⟩
  · exact (continuous_ofReal.comp (Real.continuous_sqrt.comp ((continuous_id.pow 2).sub continuous_const))).continuousAt
  · intro h; have := congrFun h (1, fun _ => 0); simp [exV] at this
  · filter_upwards [eventually_gt_nhds (show (1 : ℝ) < 5 / 4 by norm_num)] with ω hω
    have hs : ((√(ω ^ 2 - 1) : ℝ) : ℂ) ^ 2 = ((ω ^ 2 - 1 : ℝ) : ℂ) := by rw [← ofReal_pow, Real.sq_sqrt (by nlinarith)]
    rw [← exDx_cw, hs]
    exact exMode _ _ _ _ (by push_cast; ring) (by push_cast; ring)
  · rw [← exDx_cw]
    exact (exPower _ _ _ (by norm_num) (by rw [ofReal_re, h34]; norm_num)).ne'

/-- The hypotheses of `C96_normalized_fields` and `C97_normalized_fields` are met: a plane wave in vacuum, `β = ω`. -/
example : ∃ (v : V 2 (fun _ => 2)) (e h : V 3 (fun _ => 2)),
    (∀ ω : ℝ, operatorE ω (cw fun _ _ => 1, cw fun _ _ => 1) 1 none *ᵥ v = (ω : ℂ) ^ 2 • v) ∧
    normalizedFieldsE v ((1 : ℝ) : ℂ) ((1 : ℝ) : ℂ) (cw fun _ _ => 1, cw fun _ _ => 1) 1 none 0 = .ok (e, h) := by
  have hcw : ((cw fun _ _ => 1, cw fun _ _ => 1) : Dx2 (fun _ => 2)) = (fun _ _ => 1, fun _ _ => 1) := by
    refine Prod.ext ?_ ?_ <;> funext a i <;> simp [cw]
  have hz : ∀ (a : Fin 2) (c : ℂ) (x : Idx (fun _ : Fin 2 => 2)), fw (fun _ _ => 1, fun _ _ => 1) a (fun _ => c) x = 0 ∧ bw (fun _ _ => 1, fun _ _ => 1) a (fun _ => c) x = 0 := by
    intro a c x
    constructor
    · rw [fw, derivForward_eq]; simp
    · rw [bw, derivBack_eq]; simp
  obtain ⟨e, h, hr⟩ := plane_normalized (sh := fun _ => 2) (fun _ => two_pos) one_pos
  obtain ⟨v, hv⟩ : ∃ v : V 2 (fun _ => 2), v = fun p => if p.1 = 0 then 1 else 0 := ⟨_, rfl⟩
  have hv0 : ∀ y, v (0, y) = 1 := fun y => by simp [hv]
  have hv1 : ∀ y, v (1, y) = 0 := fun y => by simp [hv]
  have h0 : part v 0 = fun _ => 1 := by funext y; simp [part, hv]
  have h1 : part v 1 = fun _ => 0 := by funext y; simp [part, hv]
  have he : exy2e ((1 : ℝ) : ℂ) (fun _ _ => 1, fun _ _ => 1) 1 *ᵥ v = fun p => if p.1 = 0 then 1 else 0 := by
    funext p
    obtain ⟨c, x⟩ := p
    match c with
    | 0 => rw [exy2e_0]; simp [hv]
    | 1 => rw [exy2e_1]; simp [hv]
    | 2 => rw [exy2e_2]; simp [hv, hz]
  refine ⟨v, e, h, fun ω => ?_, ?_⟩
  · rw [hcw]
    funext p
    obtain ⟨c, x⟩ := p
    fin_cases c
    · refine (operatorE_0 _ _ _ _ _ x).trans ?_
      simp [h0, h1, hz, hv0, hv1]
    · refine (operatorE_1 _ _ _ _ _ x).trans ?_
      simp [h0, h1, hz, hv0, hv1]
  · rw [hcw, normalizedFieldsE, exy2h, ← mulVec_mulVec, he]
    convert hr using 2
    funext p
    obtain ⟨c, x⟩ := p
    have q0 : ∀ k : Fin 3, part (fun p : Fin 3 × Idx (fun _ : Fin 2 => 2) => if p.1 = 0 then (1 : ℂ) else 0) k = fun _ => if k = 0 then 1 else 0 := fun k => by
      funext y; simp [part]
    rw [e2h_mulVec]
    match c with
    | 0 => rw [curlE_0, q0]; simp [hz]
    | 1 => rw [curlE_1, q0]; simp [hz]
    | 2 => rw [curlE_2, q0, q0]; simp [hz]

end Meanas.Props
