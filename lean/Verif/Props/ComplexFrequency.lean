/-
C168: complex frequencies, for `e_full` and `e2h` (meanas/fdfd/operators.py:40-96 and 253-282).
-/
import Verif.Props.Driven
import Verif.Props.Conditioning
import Mathlib.Analysis.SpecialFunctions.ImproperIntegrals
import Mathlib.MeasureTheory.Measure.Haar.NormedSpace

namespace Meanas.Props

open Matrix Complex Fdfd Spec Solvers

variable {sh : Fin 3 → ℕ}

section
variable (d : DxList sh ℝ × DxList sh ℝ) (hd : PosGrid d) (mu : Option (Pos sh → ℝ)) (pec pmc : Option (Pos sh → Bool))

theorem curlEnergy_e2h_complex (ω : ℂ) (hω : ω ≠ 0) (hmu : ∀ p, 0 < muR mu p) (E : Vec sh) :
    curlEnergy d mu pmc E = normSq ω * ∑ p : Pos sh, volH d.1 d.2 p.1 p.2 * muR mu p * normSq ((Fdfd.e2h ω (cDx d) (realMu mu) pmc *ᵥ E) p) := by
  rw [curlEnergy, Finset.mul_sum]
  refine Finset.sum_congr rfl fun p _ => ?_
  have hm := (hmu p).ne'
  have hn := (normSq_pos.2 hω).ne'
  rw [e2h_mulVec_masks, muV_realMu, normSq_mul, normSq_div, normSq_div, normSq_mul, normSq_neg, normSq_I, normSq_ofReal, normSq_ofReal]
  rcases openAt_cases pmc p with h | h <;> rw [h]
  · simp
  · field_simp

include hd in
/-- **C168.** Power at complex frequencies. With the time dependence `e^{iωt}` the fields grow like `e^{-t Im ω}`, so the current has to deliver the growth of the stored energy, `-Im ω` times
`∫ μ |H|²` for the magnetic part; the electric part and the absorption together are `-∫ Im(ω ε) |E|²`. -/
theorem C168_power (ω : ℂ) (hω : ω ≠ 0) (eps : Vec sh) (hmu : ∀ p, 0 < muR mu p) {J E : Vec sh} (h : IsDriven ω (cDx d) eps (realMu mu) pec pmc J E) :
    -(coupling d J E).re = -ω.im * ∑ p : Pos sh, volH d.1 d.2 p.1 p.2 * muR mu p * normSq ((Fdfd.e2h ω (cDx d) (realMu mu) pmc *ᵥ E) p)
      + ∑ p : Pos sh, volE d.1 d.2 p.1 p.2 * (-(ω * eps p).im * normSq (E p)) := by
  have hE' := (offPec_iff pec E).1 h.off
  have hq := quad_form_eq ω d hd eps mu pec pmc E
  rw [funext hE'] at hq
  have hC : (∑ p : Pos sh, volH d.1 d.2 p.1 p.2 * openAt pmc p * (muV (realMu mu) p)⁻¹.re * normSq (cE (cDx d) (fun p => E p) p)) = curlEnergy d mu pmc E := by
    rw [curlEnergy]
    refine Finset.sum_congr rfl fun p _ => ?_
    rw [muV_realMu, ← ofReal_inv, ofReal_re]
  rw [hC, h.eqn, curlEnergy_e2h_complex d mu pmc ω hω hmu] at hq
  generalize (∑ p : Pos sh, volH d.1 d.2 p.1 p.2 * muR mu p * normSq ((Fdfd.e2h ω (cDx d) (realMu mu) pmc *ᵥ E) p)) = M at hq ⊢
  have h1 : ∑ p : Pos sh, ((volE d.1 d.2 p.1 p.2 : ℝ) : ℂ) * ((starRingEnd ℂ) (E p) * (((-I * ω) • J) p)) = ω * (-I * coupling d E J) := by
    rw [coupling, Finset.mul_sum, Finset.mul_sum]
    exact Finset.sum_congr rfl fun p _ => by rw [Pi.smul_apply, smul_eq_mul]; ring
  have h2 : ∑ p : Pos sh, ω ^ 2 * eps p * ((volE d.1 d.2 p.1 p.2 * normSq (openAt pec p * E p) : ℝ) : ℂ)
      = ω * ∑ p : Pos sh, ((volE d.1 d.2 p.1 p.2 * normSq (E p) : ℝ) : ℂ) * (ω * eps p) := by
    rw [Finset.mul_sum]
    exact Finset.sum_congr rfl fun p _ => by rw [hE' p]; ring
  have h3 : ((normSq ω * M : ℝ) : ℂ) = ω * ((M : ℂ) * (starRingEnd ℂ) ω) := by rw [ofReal_mul, ← mul_conj]; ring
  rw [h1, h2, h3, ← mul_sub] at hq
  have h4 := congrArg im (mul_left_cancel₀ hω hq)
  rw [sub_im, im_sum, im_ofReal_mul, conj_im] at h4
  simp only [im_ofReal_mul, neg_mul, neg_im, I_mul_im] at h4
  rw [← coupling_conj, conj_re] at h4
  rw [h4, show -ω.im * M = M * -ω.im by ring, sub_eq_add_neg, ← Finset.sum_neg_distrib]
  congr 1
  exact Finset.sum_congr rfl fun p _ => by ring

include hd in
/-- **C168.** Passive structures take power at every growing frequency: if `Re ε > 0` and `Im ε ≤ 0` (lossless or absorbing), then for `Im ω < 0 ≤ Re ω` the current delivers at least `|Im ω|` times the
energy `∫ Re ε |E|² + μ |H|²`. -/
theorem C168_passive (ω : ℂ) (him : ω.im < 0) (hre : 0 ≤ ω.re) (eps : Vec sh) (hloss : ∀ p, (eps p).im ≤ 0) (hmu : ∀ p, 0 < muR mu p) {J E : Vec sh}
    (h : IsDriven ω (cDx d) eps (realMu mu) pec pmc J E) :
    |ω.im| * (∑ p : Pos sh, volE d.1 d.2 p.1 p.2 * (eps p).re * normSq (E p)
      + ∑ p : Pos sh, volH d.1 d.2 p.1 p.2 * muR mu p * normSq ((Fdfd.e2h ω (cDx d) (realMu mu) pmc *ᵥ E) p)) ≤ -(coupling d J E).re := by
  have hω : ω ≠ 0 := fun h => by rw [h] at him; simp at him
  rw [C168_power d hd mu pec pmc ω hω eps hmu h, abs_of_neg him, mul_add, add_comm, Finset.mul_sum (f := fun p : Pos sh => volE d.1 d.2 p.1 p.2 * (eps p).re * normSq (E p))]
  refine add_le_add le_rfl (Finset.sum_le_sum fun p _ => ?_)
  have hv := hd.vol p.1 p.2
  have hn := normSq_nonneg (E p)
  have : 0 ≤ volE d.1 d.2 p.1 p.2 * normSq (E p) * (ω.re * -(eps p).im) := mul_nonneg (mul_nonneg hv.le hn) (mul_nonneg hre (neg_nonneg.2 (hloss p)))
  rw [mul_im]
  nlinarith

include hd in
/-- **C168.** So such a structure has no resonance there: every current drives exactly one field. -/
theorem C168_solvable (ω : ℂ) (him : ω.im < 0) (hre : 0 ≤ ω.re) (eps : Vec sh) (hpos : ∀ p, 0 < (eps p).re) (hloss : ∀ p, (eps p).im ≤ 0) (hmu : ∀ p, 0 < muR mu p) (J : Vec sh) (hJ : OffPec pec J) :
    ∃! E, OffPec pec E ∧ eFull ω (cDx d) eps (realMu mu) pec pmc *ᵥ E = (-I * ω) • J := by
  refine C124_solvable ω _ _ _ _ _ (fun ⟨E, h0, hE⟩ => ?_) J hJ
  have h1 := C168_passive d hd mu pec pmc ω him hre eps hloss hmu (J := 0) ⟨hE.off, by rw [hE.free, smul_zero]⟩
  have h2 : coupling d 0 E = 0 := by simp [coupling]
  rw [h2, zero_re, neg_zero] at h1
  have h3 := eps_energy_pos d (fun p => (eps p).re) hd hpos h0
  have h4 : 0 ≤ ∑ p : Pos sh, volH d.1 d.2 p.1 p.2 * muR mu p * normSq ((Fdfd.e2h ω (cDx d) (realMu mu) pmc *ᵥ E) p) :=
    Finset.sum_nonneg fun p _ => mul_nonneg (mul_pos (hd.volH p.1 p.2) (hmu p)).le (normSq_nonneg _)
  have h5 : 0 < |ω.im| := abs_pos.2 him.ne
  nlinarith

theorem coupling_le (hd : PosGrid d) {w : Pos sh → ℝ} (hw : ∀ p, 0 < w p) (J E : Vec sh) : ‖coupling d J E‖ ≤ wNorm d (fun p => (w p)⁻¹) J * wNorm d w E := by
  have hv : ∀ p : Pos sh, 0 < volE d.1 d.2 p.1 p.2 := fun p => hd.vol p.1 p.2
  have e1 : ‖coupling d J E‖ ≤ ∑ p : Pos sh, (Real.sqrt (volE d.1 d.2 p.1 p.2 * (w p)⁻¹) * ‖J p‖) * (Real.sqrt (volE d.1 d.2 p.1 p.2 * w p) * ‖E p‖) := by
    refine (norm_sum_le _ _).trans (Finset.sum_le_sum fun p _ => ?_)
    rw [norm_mul, norm_mul, RCLike.norm_conj, norm_real, Real.norm_of_nonneg (hv p).le,
      show Real.sqrt (volE d.1 d.2 p.1 p.2 * (w p)⁻¹) * ‖J p‖ * (Real.sqrt (volE d.1 d.2 p.1 p.2 * w p) * ‖E p‖)
        = (Real.sqrt (volE d.1 d.2 p.1 p.2 * (w p)⁻¹) * Real.sqrt (volE d.1 d.2 p.1 p.2 * w p)) * (‖J p‖ * ‖E p‖) by ring,
      ← Real.sqrt_mul (mul_pos (hv p) (inv_pos.2 (hw p))).le,
      show volE d.1 d.2 p.1 p.2 * (w p)⁻¹ * (volE d.1 d.2 p.1 p.2 * w p) = volE d.1 d.2 p.1 p.2 * volE d.1 d.2 p.1 p.2 by have := (hw p).ne'; field_simp,
      Real.sqrt_mul_self (hv p).le]
  have e2 := Finset.sum_mul_sq_le_sq_mul_sq Finset.univ (fun p => Real.sqrt (volE d.1 d.2 p.1 p.2 * (w p)⁻¹) * ‖J p‖) (fun p => Real.sqrt (volE d.1 d.2 p.1 p.2 * w p) * ‖E p‖)
  have e3 : ∀ (u : Pos sh → ℝ) (_ : ∀ p, 0 < u p) (G : Vec sh), ∑ p : Pos sh, (Real.sqrt (volE d.1 d.2 p.1 p.2 * u p) * ‖G p‖) ^ 2 = wNorm d u G ^ 2 := fun u hu G => by
    rw [wNorm, Real.sq_sqrt (Finset.sum_nonneg fun p _ => mul_nonneg (mul_pos (hv p) (hu p)).le (sq_nonneg _))]
    exact Finset.sum_congr rfl fun p _ => by rw [mul_pow, Real.sq_sqrt (mul_pos (hv p) (hu p)).le]
  rw [e3 _ (fun p => inv_pos.2 (hw p)), e3 _ hw, ← mul_pow] at e2
  exact e1.trans (abs_le_of_sq_le_sq' e2 (mul_nonneg (Real.sqrt_nonneg _) (Real.sqrt_nonneg _))).2

include hd in
/-- **C168.** The field is at most `1/|Im ω|` times as large as the current, whatever the structure. -/
theorem C168_bound (ω : ℂ) (him : ω.im < 0) (hre : 0 ≤ ω.re) (eps : Vec sh) (hpos : ∀ p, 0 < (eps p).re) (hloss : ∀ p, (eps p).im ≤ 0) (hmu : ∀ p, 0 < muR mu p) {J E : Vec sh}
    (h : IsDriven ω (cDx d) eps (realMu mu) pec pmc J E) : |ω.im| * wNorm d (fun p => (eps p).re) E ≤ wNorm d (fun p => (eps p).re⁻¹) J := by
  have h1 := C168_passive d hd mu pec pmc ω him hre eps hloss hmu h
  have h4 : 0 ≤ ∑ p : Pos sh, volH d.1 d.2 p.1 p.2 * muR mu p * normSq ((Fdfd.e2h ω (cDx d) (realMu mu) pmc *ᵥ E) p) :=
    Finset.sum_nonneg fun p _ => mul_nonneg (mul_pos (hd.volH p.1 p.2) (hmu p)).le (normSq_nonneg _)
  have h5 : 0 < |ω.im| := abs_pos.2 him.ne
  have h6 : ∑ p : Pos sh, volE d.1 d.2 p.1 p.2 * (eps p).re * normSq (E p) = wNorm d (fun p => (eps p).re) E ^ 2 := by
    rw [wNorm, Real.sq_sqrt (Finset.sum_nonneg fun p _ => mul_nonneg (mul_pos (hd.vol p.1 p.2) (hpos p)).le (sq_nonneg _))]
    exact Finset.sum_congr rfl fun p _ => by rw [normSq_eq_norm_sq]
  have h7 : -(coupling d J E).re ≤ wNorm d (fun p => (eps p).re⁻¹) J * wNorm d (fun p => (eps p).re) E :=
    ((neg_le_abs _).trans (abs_re_le_norm _)).trans (coupling_le d hd hpos J E)
  rw [h6] at h1
  have h8 : |ω.im| * wNorm d (fun p => (eps p).re) E * wNorm d (fun p => (eps p).re) E ≤ wNorm d (fun p => (eps p).re⁻¹) J * wNorm d (fun p => (eps p).re) E := by
    nlinarith
  rcases (show 0 ≤ wNorm d (fun p => (eps p).re) E from Real.sqrt_nonneg _).eq_or_lt with h0 | h0
  · rw [← h0, mul_zero]; exact Real.sqrt_nonneg _
  · exact le_of_mul_le_mul_right h8 h0

end

section
variable (d : DxList sh ℝ × DxList sh ℝ) (hd : PosGrid d) (eps : Pos sh → ℝ) (mu : Option (Pos sh → ℝ)) (pec pmc : Option (Pos sh → Bool))

/-- A Lorentzian of half width `γ` around `w`. -/
noncomputable def lorentzian (γ w a : ℝ) : ℝ := γ / ((a - w) ^ 2 + γ ^ 2)

include hd in
/-- **C168.** Without loss, the power taken at the frequency `a - iγ` is the sum of Lorentzians of half width `γ` around the resonances (and their negatives), weighted with the squares of the couplings of
the current: there are finitely many resonant fields, the same for all currents and frequencies, with this property. -/
theorem C168_lorentzians (heps : ∀ p, 0 < eps p) (hmu : ∀ p, 0 < muR mu p) :
    ∃ (ι : Type) (_ : Fintype ι) (F : ι → Vec sh) (w : ι → ℝ), IsResonantBasis d eps mu pec pmc F w ∧
      ∀ (a γ : ℝ), 0 < γ → ∀ J E, IsDriven (a - γ * I) (cDx d) (rEps eps) (realMu mu) pec pmc J E →
        -(coupling d J E).re = ∑ j, normSq (coupling d (F j) J) / 2 * (lorentzian γ (w j) a + lorentzian γ (-w j) a) := by
  obtain ⟨ι, hι, F, w, hB, -⟩ := C142_expansion d hd eps mu pec pmc heps hmu
  refine ⟨ι, hι, F, w, hB, fun a γ hγ J E h => ?_⟩
  conv_lhs => rw [hB.expand E h.off, coupling_sum, re_sum, ← Finset.sum_neg_distrib]
  refine Finset.sum_congr rfl fun j _ => ?_
  have ha := C142_amplitude d hd eps mu pec pmc heps _ (w j) (hB.res j) h
  have d1 : 0 < (a - w j) ^ 2 + γ ^ 2 := by positivity
  have d2 : 0 < (a + w j) ^ 2 + γ ^ 2 := by positivity
  have n1 : ((w j : ℂ) - (a - γ * I)) ≠ 0 := fun h => by have := congrArg im h; simp at this; linarith
  have n2 : ((w j : ℂ) + (a - γ * I)) ≠ 0 := fun h => by have := congrArg im h; simp at this; linarith
  have i1 : ((w j : ℂ) - (a - γ * I))⁻¹ = ((w j - a : ℝ) - γ * I) / (((a - w j) ^ 2 + γ ^ 2 : ℝ) : ℂ) := by
    rw [eq_div_iff (ofReal_ne_zero.2 d1.ne'), inv_mul_eq_iff_eq_mul₀ n1]
    push_cast
    linear_combination (γ : ℂ) ^ 2 * I_sq
  have i2 : ((w j : ℂ) + (a - γ * I))⁻¹ = ((w j + a : ℝ) + γ * I) / (((a + w j) ^ 2 + γ ^ 2 : ℝ) : ℂ) := by
    rw [eq_div_iff (ofReal_ne_zero.2 d2.ne'), inv_mul_eq_iff_eq_mul₀ n2]
    push_cast
    linear_combination (γ : ℂ) ^ 2 * I_sq
  have hov : epsOverlap d eps (F j) E = -I / 2 * (((w j : ℂ) - (a - γ * I))⁻¹ - ((w j : ℂ) + (a - γ * I))⁻¹) * coupling d (F j) J := by
    have hz : ((w j : ℂ) ^ 2 - (a - γ * I) ^ 2) ≠ 0 := by rw [sq_sub_sq]; exact mul_ne_zero n2 n1
    refine mul_left_cancel₀ hz (ha.trans ?_)
    have m1 := mul_inv_cancel₀ n1
    have m2 := mul_inv_cancel₀ n2
    linear_combination -(-I / 2 * coupling d (F j) J) * (((w j : ℂ) + (a - γ * I)) * m1 - ((w j : ℂ) - (a - γ * I)) * m2)
  have hns : epsOverlap d eps (F j) E * coupling d J (F j) = ((normSq (coupling d (F j) J) : ℝ) : ℂ) * (-I / 2 * (((w j : ℂ) - (a - γ * I))⁻¹ - ((w j : ℂ) + (a - γ * I))⁻¹)) := by
    rw [hov, ← coupling_conj d (F j) J, ← mul_conj]; ring
  rw [hns, re_ofReal_mul, i1, i2, lorentzian, lorentzian]
  have e : (-I / 2 * (((w j - a : ℝ) - γ * I) / (((a - w j) ^ 2 + γ ^ 2 : ℝ) : ℂ) - ((w j + a : ℝ) + γ * I) / (((a + w j) ^ 2 + γ ^ 2 : ℝ) : ℂ)))
      = ((-(1 / 2) * (γ / ((a - w j) ^ 2 + γ ^ 2) + γ / ((a + w j) ^ 2 + γ ^ 2)) : ℝ) : ℂ)
        + ((-(1 / 2) * ((w j - a) / ((a - w j) ^ 2 + γ ^ 2) - (w j + a) / ((a + w j) ^ 2 + γ ^ 2)) : ℝ) : ℂ) * I := by
    push_cast
    have z1 : ((a : ℂ) - w j) ^ 2 + γ ^ 2 ≠ 0 := by exact_mod_cast d1.ne'
    have z2 : ((a : ℂ) + w j) ^ 2 + γ ^ 2 ≠ 0 := by exact_mod_cast d2.ne'
    field_simp
    linear_combination (γ : ℂ) * ((((a : ℂ) + w j) ^ 2 + γ ^ 2) + (((a : ℂ) - w j) ^ 2 + γ ^ 2)) * I_sq
  rw [e, add_re, ofReal_re, re_ofReal_mul, I_re, sub_neg_eq_add]
  ring

theorem lorentzian_integral {γ : ℝ} (hγ : 0 < γ) (w : ℝ) : MeasureTheory.Integrable (lorentzian γ w) ∧ ∫ a : ℝ, lorentzian γ w a = Real.pi := by
  have e : lorentzian γ w = fun a => γ⁻¹ * (fun u : ℝ => (1 + (u / γ) ^ 2)⁻¹) (a - w) := by
    funext a
    have : (a - w) ^ 2 + γ ^ 2 ≠ 0 := by positivity
    have : 1 + ((a - w) / γ) ^ 2 ≠ 0 := by positivity
    rw [lorentzian]
    field_simp
    ring
  have hi := integrable_inv_one_add_sq.comp_div hγ.ne'
  rw [e]
  constructor
  · exact (hi.comp_sub_right w).const_mul _
  · rw [MeasureTheory.integral_const_mul, MeasureTheory.integral_sub_right_eq_self (fun u : ℝ => (1 + (u / γ) ^ 2)⁻¹), MeasureTheory.Measure.integral_comp_div (fun u : ℝ => (1 + u ^ 2)⁻¹),
      integral_univ_inv_one_add_sq, abs_of_pos hγ, smul_eq_mul, inv_mul_cancel_left₀ hγ.ne']

include hd in
/-- **C168.** Sum rule: integrated over all frequencies, the power taken by a current does not depend on the structure around it, nor on `γ`: it is `π ∫ |J|²/ε dV`. -/
theorem C168_sum_rule (heps : ∀ p, 0 < eps p) (hmu : ∀ p, 0 < muR mu p) {γ : ℝ} (hγ : 0 < γ) {J : Vec sh} (hJ : OffPec pec J) (E : ℝ → Vec sh)
    (hE : ∀ a : ℝ, IsDriven (a - γ * I) (cDx d) (rEps eps) (realMu mu) pec pmc J (E a)) :
    MeasureTheory.Integrable (fun a => -(coupling d J (E a)).re) ∧
      ∫ a : ℝ, -(coupling d J (E a)).re = Real.pi * ∑ p : Pos sh, volE d.1 d.2 p.1 p.2 * normSq (J p) / eps p := by
  obtain ⟨ι, hι, F, w, hB, h⟩ := C168_lorentzians d hd eps mu pec pmc heps hmu
  have e : (fun a => -(coupling d J (E a)).re) = fun a => ∑ j, normSq (coupling d (F j) J) / 2 * (lorentzian γ (w j) a + lorentzian γ (-w j) a) := funext fun a => h a γ hγ J (E a) (hE a)
  have hint : ∀ j, MeasureTheory.Integrable fun a => normSq (coupling d (F j) J) / 2 * (lorentzian γ (w j) a + lorentzian γ (-w j) a) := fun j =>
    ((lorentzian_integral hγ (w j)).1.add (lorentzian_integral hγ (-w j)).1).const_mul _
  have hJe : OffPec pec fun p => J p / eps p := fun m hm p hp => by simp only [hJ m hm p hp, zero_div]
  have hc : ∀ j, epsOverlap d eps (F j) (fun p => J p / eps p) = coupling d (F j) J := fun j => by
    rw [epsOverlap, coupling]
    refine Finset.sum_congr rfl fun p _ => ?_
    have := ofReal_ne_zero.2 (heps p).ne'
    push_cast
    field_simp
  have hP := driven_energy d eps mu pec pmc hB hJe
  simp only [hc] at hP
  rw [e]
  refine ⟨MeasureTheory.integrable_finsetSum _ fun j _ => hint j, ?_⟩
  rw [MeasureTheory.integral_finsetSum _ fun j _ => hint j]
  have hj : ∀ j, ∫ a : ℝ, normSq (coupling d (F j) J) / 2 * (lorentzian γ (w j) a + lorentzian γ (-w j) a) = Real.pi * normSq (coupling d (F j) J) := fun j => by
    rw [MeasureTheory.integral_const_mul, MeasureTheory.integral_add (lorentzian_integral hγ (w j)).1 (lorentzian_integral hγ (-w j)).1, (lorentzian_integral hγ (w j)).2, (lorentzian_integral hγ (-w j)).2]
    ring
  simp only [hj]
  rw [← Finset.mul_sum, ← hP]
  congr 1
  refine Finset.sum_congr rfl fun p _ => ?_
  have := (heps p).ne'
  rw [normSq_div, normSq_ofReal]
  field_simp

include hd in
/-- **C168.** A point source: at all frequencies `a - iγ` there is exactly one field, and the power taken, integrated over `a`, depends on nothing but the cell volume and the permittivity at the source. -/
theorem C168_point_source (heps : ∀ p, 0 < eps p) (hmu : ∀ p, 0 < muR mu p) {γ : ℝ} (hγ : 0 < γ) (p₀ : Pos sh) (hp : ∀ m, pec = some m → m p₀ = false) (A : ℂ) :
    ∃ E : ℝ → Vec sh, (∀ (a : ℝ) E', IsDriven (a - γ * I) (cDx d) (rEps eps) (realMu mu) pec pmc (Pi.single p₀ A) E' ↔ E' = E a) ∧
      ∫ a : ℝ, -((volE d.1 d.2 p₀.1 p₀.2 : ℝ) * ((starRingEnd ℂ) A * E a p₀)).re = Real.pi * (volE d.1 d.2 p₀.1 p₀.2 * normSq A / eps p₀) := by
  classical
  have hJ : OffPec pec (Pi.single p₀ A : Vec sh) := fun m hm p hmp => by
    refine Pi.single_eq_of_ne (fun h => ?_) _
    rw [h, hp m hm] at hmp
    exact Bool.false_ne_true hmp
  have hs : ∀ a : ℝ, ∃! E, OffPec pec E ∧ eFull (a - γ * I) (cDx d) (rEps eps) (realMu mu) pec pmc *ᵥ E = (-I * (a - γ * I)) • (Pi.single p₀ A : Vec sh) := fun a =>
    C124_solvable _ _ _ _ _ _ (fun h => by
      have := C124_real d hd eps mu pec pmc heps hmu _ h
      simp at this
      exact hγ.ne' this) _ hJ
  choose E hE hu using hs
  refine ⟨E, fun a E' => ⟨fun h => hu a E' ⟨h.off, h.eqn⟩, fun h => h ▸ ⟨(hE a).1, (hE a).2⟩⟩, ?_⟩
  have h := (C168_sum_rule d hd eps mu pec pmc heps hmu hγ hJ E fun a => ⟨(hE a).1, (hE a).2⟩).2
  have e1 : ∀ a, coupling d (Pi.single p₀ A) (E a) = ((volE d.1 d.2 p₀.1 p₀.2 : ℝ) : ℂ) * ((starRingEnd ℂ) A * E a p₀) := fun a => by
    rw [coupling, Finset.sum_eq_single p₀ (fun p _ hne => by rw [Pi.single_eq_of_ne hne]; simp) (fun h => absurd (Finset.mem_univ _) h), Pi.single_eq_same]
  have e2 : ∑ p : Pos sh, volE d.1 d.2 p.1 p.2 * normSq ((Pi.single p₀ A : Vec sh) p) / eps p = volE d.1 d.2 p₀.1 p₀.2 * normSq A / eps p₀ := by
    rw [Finset.sum_eq_single p₀ (fun p _ hne => by rw [Pi.single_eq_of_ne hne]; simp) (fun h => absurd (Finset.mem_univ _) h), Pi.single_eq_same]
  simp only [e1, e2] at h
  exact h

end

/-- An absorbing medium on a grid of any size at the frequency `1 - i`: the hypotheses of `C168_passive`, `C168_solvable` and `C168_bound` hold. -/
example (J : Vec sh) : ∃ E, IsDriven (1 - I) (cDx (sh := sh) (fun _ _ => 1, fun _ _ => 2)) (fun _ => 2 - I) (realMu none) none none J E ∧
    wNorm (fun _ _ => 1, fun _ _ => 2) (fun _ => 2) E ≤ wNorm (fun _ _ => 1, fun _ _ => 2) (fun _ => 2⁻¹) J := by
  have hd : PosGrid (sh := sh) (fun _ _ => 1, fun _ _ => 2) := ⟨fun _ _ => one_pos, fun _ _ => two_pos⟩
  obtain ⟨E, hE, -⟩ := C168_solvable _ hd none none none (1 - I) (by simp) (by simp) (fun _ => 2 - I) (by simp) (by simp) (fun p => by simp [muR]) J (fun m hm => by simp at hm)
  have h : IsDriven (1 - I) (cDx (sh := sh) (fun _ _ => 1, fun _ _ => 2)) (fun _ => 2 - I) (realMu none) none none J E := ⟨hE.1, hE.2⟩
  have hb := C168_bound _ hd none none none (1 - I) (by simp) (by simp) (fun _ => 2 - I) (by simp) (by simp) (fun p => by simp [muR]) h
  refine ⟨E, h, ?_⟩
  simpa using hb

end Meanas.Props
