/-
C135: shifts of resonance frequencies under changes of the media, and decay of resonances in lossy media (meanas/fdfd/operators.py:40-135).
-/
import Verif.Props.Resonances
import Verif.Props.FdfdConjugate
import Mathlib.Analysis.Calculus.Deriv.Slope

namespace Meanas.Props

open Matrix Complex Fdfd Spec Solvers

variable {sh : Fin 3 → ℕ}

/-- `∫ w E·E' dV` over the cells of E. -/
noncomputable def eInt (dxes : Dx sh) (w E E' : Vec sh) : ℂ := ∑ c, ∑ x, volE dxes.1 dxes.2 c x * (w (c, x) * (E (c, x) * E' (c, x)))

/-- `∫ w H·H' dV` over the cells of H. -/
noncomputable def hInt (dxes : Dx sh) (w H H' : Vec sh) : ℂ := ∑ c, ∑ x, volH dxes.1 dxes.2 c x * (w (c, x) * (H (c, x) * H' (c, x)))

theorem offPec_notMask {pec : Option (Pos sh → Bool)} {E : Vec sh} (h : OffPec pec E) : notMask pec *ᵥ E = E := by
  rw [notMask_openAt]
  funext p
  rw [mulVec_diagonal]
  exact (offPec_iff pec E).1 h p

/-- The equation of a resonant field, tested with another field. -/
theorem resonant_form {ω : ℂ} {dxes : Dx sh} (hg : GridNz dxes) {eps : Vec sh} {mu : Option (Vec sh)} {pec pmc : Option (Pos sh → Bool)} {L E : Vec sh}
    (hL : OffPec pec L) (hE : IsResonant ω dxes eps mu pec pmc E) :
    ∑ c, ∑ x, volH dxes.1 dxes.2 c x * (openAt pmc (c, x) * (muV mu (c, x))⁻¹ * (cE dxes L (c, x) * cE dxes E (c, x))) = ω ^ 2 * eInt dxes eps L E := by
  have h0 : L ⬝ᵥ (((diagonal (pSquared dxes) : Mat sh) * eFull ω dxes eps mu pec pmc) *ᵥ E) = 0 := by
    rw [← mulVec_mulVec, hE.free, mulVec_zero, dotProduct_zero]
  have hpe := notMask_openAt pec
  rw [vol_eFull ω dxes hg eps mu pec pmc _ _ hpe (notMask_openAt pmc), ← mulVec_mulVec, ← mulVec_mulVec, ← hpe, offPec_notMask hE.off, sub_mulVec, hpe,
    dotProduct_mulVec, ← mulVec_transpose, diagonal_transpose, ← hpe, offPec_notMask hL, dotProduct_sub, smul_mulVec, dotProduct_smul, ← mulVec_mulVec,
    ← mulVec_mulVec, dotProduct_mulVec, vecMul_transpose, curlForward_mulVec, curlForward_mulVec, sub_eq_zero] at h0
  simp only [dotProduct, mulVec_diagonal, smul_eq_mul, Fintype.sum_prod_type, pSquared_eq] at h0
  rw [eInt]
  calc _ = _ := Finset.sum_congr rfl fun c _ => Finset.sum_congr rfl fun x _ => by ring
    _ = _ := h0
    _ = _ := by congr 1; exact Finset.sum_congr rfl fun c _ => Finset.sum_congr rfl fun x _ => by ring

/-- The magnetic integrals of two resonant fields, from the electric ones. -/
theorem resonant_hInt {ω₀ ω₁ : ℂ} (hω₀ : ω₀ ≠ 0) (hω₁ : ω₁ ≠ 0) {dxes : Dx sh} (hg : GridNz dxes) {eps₁ : Vec sh} {mu₀ mu₁ : Option (Vec sh)}
    (hmu₀ : ∀ p, muV mu₀ p ≠ 0) {pec pmc : Option (Pos sh → Bool)} {E₀ E₁ : Vec sh}
    (h₀ : OffPec pec E₀) (h₁ : IsResonant ω₁ dxes eps₁ mu₁ pec pmc E₁) :
    ω₀ * hInt dxes (muV mu₀) (Fdfd.e2h ω₀ dxes mu₀ pmc *ᵥ E₀) (Fdfd.e2h ω₁ dxes mu₁ pmc *ᵥ E₁) = -ω₁ * eInt dxes eps₁ E₀ E₁ := by
  have hf := resonant_form hg h₀ h₁
  refine mul_left_cancel₀ hω₁ ?_
  rw [show ω₁ * (-ω₁ * eInt dxes eps₁ E₀ E₁) = -(ω₁ ^ 2 * eInt dxes eps₁ E₀ E₁) by ring, ← hf, hInt, Finset.mul_sum, Finset.mul_sum, ← Finset.sum_neg_distrib]
  refine Finset.sum_congr rfl fun c _ => ?_
  rw [Finset.mul_sum, Finset.mul_sum, ← Finset.sum_neg_distrib]
  refine Finset.sum_congr rfl fun x _ => ?_
  rw [e2h_mulVec_masks, e2h_mulVec_masks]
  have ho : (openAt pmc (c, x) : ℂ) * openAt pmc (c, x) = openAt pmc (c, x) := by
    rcases openAt_cases pmc (c, x) with h | h <;> simp [h]
  have hm := hmu₀ (c, x)
  have hI := I_ne_zero
  rw [show ω₁ * (ω₀ * (volH dxes.1 dxes.2 c x * (muV mu₀ (c, x) * (openAt pmc (c, x) * (cE dxes E₀ (c, x) / (-I * ω₀) / muV mu₀ (c, x))
      * (openAt pmc (c, x) * (cE dxes E₁ (c, x) / (-I * ω₁) / muV mu₁ (c, x)))))))
      = ((openAt pmc (c, x) : ℂ) * openAt pmc (c, x)) * (ω₁ * (ω₀ * (volH dxes.1 dxes.2 c x * (muV mu₀ (c, x) * ((cE dxes E₀ (c, x) / (-I * ω₀) / muV mu₀ (c, x))
      * ((cE dxes E₁ (c, x) / (-I * ω₁) / muV mu₁ (c, x)))))))) by ring, ho]
  rw [show ∀ a b u v w m : ℂ, a * (ω₁ * (ω₀ * (b * (m * (u / (-I * ω₀) / m * (v / (-I * ω₁) / w)))))) = (ω₁ * ω₁⁻¹) * (ω₀ * ω₀⁻¹) * (m * m⁻¹) * (I⁻¹ * I⁻¹) * (b * (a * w⁻¹ * (u * v)))
    by intros; simp only [div_eq_mul_inv, mul_inv, inv_neg]; ring]
  rw [mul_inv_cancel₀ hω₁, mul_inv_cancel₀ hω₀, mul_inv_cancel₀ hm, inv_I, neg_mul_neg, I_mul_I]
  ring

/-- **C135.** Two cavities on the same grid (complex widths allowed) with the same conductors and any two media, lossy or not; `E₀` resonant at `ω₀` in the
first, `E₁` at `ω₁` in the second. The shift of the frequency is given exactly by the overlaps of the two fields with the change of the media. -/
theorem C135_exact {ω₀ ω₁ : ℂ} (hω₀ : ω₀ ≠ 0) (hω₁ : ω₁ ≠ 0) {dxes : Dx sh} (hg : GridNz dxes) {eps₀ eps₁ : Vec sh} {mu₀ mu₁ : Option (Vec sh)}
    (hmu₀ : ∀ p, muV mu₀ p ≠ 0) (hmu₁ : ∀ p, muV mu₁ p ≠ 0) {pec pmc : Option (Pos sh → Bool)} {E₀ E₁ : Vec sh}
    (h₀ : IsResonant ω₀ dxes eps₀ mu₀ pec pmc E₀) (h₁ : IsResonant ω₁ dxes eps₁ mu₁ pec pmc E₁) :
    let H₀ := Fdfd.e2h ω₀ dxes mu₀ pmc *ᵥ E₀
    let H₁ := Fdfd.e2h ω₁ dxes mu₁ pmc *ᵥ E₁
    (ω₁ - ω₀) * (eInt dxes eps₀ E₀ E₁ - hInt dxes (muV mu₀) H₀ H₁)
      = -ω₁ * (eInt dxes (eps₁ - eps₀) E₀ E₁ - hInt dxes (muV mu₁ - muV mu₀) H₀ H₁) := by
  intro H₀ H₁
  have a := resonant_hInt hω₀ hω₁ hg hmu₀ h₀.off h₁
  have b := resonant_hInt hω₁ hω₀ hg hmu₁ h₁.off h₀
  have c1 : eInt dxes eps₀ E₁ E₀ = eInt dxes eps₀ E₀ E₁ := by simp only [eInt, mul_comm (E₁ _)]
  have c2 : hInt dxes (muV mu₁) (Fdfd.e2h ω₁ dxes mu₁ pmc *ᵥ E₁) (Fdfd.e2h ω₀ dxes mu₀ pmc *ᵥ E₀) = hInt dxes (muV mu₁) H₀ H₁ := by
    simp only [hInt, H₀, H₁, mul_comm ((Fdfd.e2h ω₁ dxes mu₁ pmc *ᵥ E₁) _)]
  have e1 : eInt dxes (eps₁ - eps₀) E₀ E₁ = eInt dxes eps₁ E₀ E₁ - eInt dxes eps₀ E₀ E₁ := by
    simp only [eInt, ← Finset.sum_sub_distrib, Pi.sub_apply, sub_mul, mul_sub]
  have e2 : hInt dxes (muV mu₁ - muV mu₀) H₀ H₁ = hInt dxes (muV mu₁) H₀ H₁ - hInt dxes (muV mu₀) H₀ H₁ := by
    simp only [hInt, ← Finset.sum_sub_distrib, Pi.sub_apply, sub_mul, mul_sub]
  rw [c1, c2] at b
  rw [e1, e2]
  change ω₀ * hInt dxes (muV mu₀) H₀ H₁ = _ at a
  linear_combination a - b

/-- **C135.** At a resonance the electric and the magnetic integral of any two of its fields are opposite. -/
theorem C135_balance {ω : ℂ} (hω : ω ≠ 0) {dxes : Dx sh} (hg : GridNz dxes) {eps : Vec sh} {mu : Option (Vec sh)} (hmu : ∀ p, muV mu p ≠ 0)
    {pec pmc : Option (Pos sh → Bool)} {E E' : Vec sh} (h : IsResonant ω dxes eps mu pec pmc E) (h' : IsResonant ω dxes eps mu pec pmc E') :
    hInt dxes (muV mu) (Fdfd.e2h ω dxes mu pmc *ᵥ E) (Fdfd.e2h ω dxes mu pmc *ᵥ E') = -eInt dxes eps E E' := by
  have a := resonant_hInt hω hω hg hmu h.off h'
  refine mul_left_cancel₀ hω ?_
  linear_combination a

/-- **C135.** First-order perturbation theory of resonances, for any (complex) media and widths: along any continuous branch of resonances of media that
depend differentiably on a parameter, the frequency is differentiable, with derivative `-ω/2 (∫ dε L·E dV - ∫ dμ H_L·H dV) / ∫ ε L·E dV`. Here `L` is
any resonant field of the unperturbed frequency, in particular `E` itself. -/
theorem C135_shift {dxes : Dx sh} (hg : GridNz dxes) {pec pmc : Option (Pos sh → Bool)} (eps mu : ℝ → Vec sh) (dε dμ : Vec sh)
    (heps : ∀ p, HasDerivAt (fun t => eps t p) (dε p) 0) (hmu : ∀ p, HasDerivAt (fun t => mu t p) (dμ p) 0) (hmu0 : ∀ p, mu 0 p ≠ 0)
    (ω : ℝ → ℂ) (E : ℝ → Vec sh) (hωc : ContinuousAt ω 0) (hEc : ContinuousAt E 0) (hω : ω 0 ≠ 0)
    (hE : ∀ᶠ t in nhds 0, IsResonant (ω t) dxes (eps t) (some (mu t)) pec pmc (E t))
    (L : Vec sh) (hL : IsResonant (ω 0) dxes (eps 0) (some (mu 0)) pec pmc L) (hN : eInt dxes (eps 0) L (E 0) ≠ 0) :
    let H := Fdfd.e2h (ω 0) dxes (some (mu 0)) pmc *ᵥ E 0
    let HL := Fdfd.e2h (ω 0) dxes (some (mu 0)) pmc *ᵥ L
    HasDerivAt ω (-(ω 0) / 2 * ((eInt dxes dε L (E 0) - hInt dxes dμ HL H) / eInt dxes (eps 0) L (E 0))) 0 := by
  intro H HL
  have hE0 := hE.self_of_nhds
  have hEp : ∀ p, ContinuousAt (fun t => E t p) 0 := fun p => continuousAt_pi.1 hEc p
  have hmuc : ∀ p, ContinuousAt (fun t => mu t p) 0 := fun p => (hmu p).continuousAt
  let Ht : ℝ → Vec sh := fun t => Fdfd.e2h (ω t) dxes (some (mu t)) pmc *ᵥ E t
  have hcE : ∀ p, ContinuousAt (fun t => cE dxes (E t) p) 0 := by
    intro p
    have : (fun t => cE dxes (E t) p) = fun t => (OperatorsS.curlForward dxes.1 *ᵥ E t) p := by funext t; rw [curlForward_mulVec]
    rw [this]
    simp only [mulVec, dotProduct]
    exact tendsto_finsetSum _ fun q _ => (continuousAt_const.mul (hEp q))
  have hHc : ∀ p, ContinuousAt (fun t => Ht t p) 0 := by
    intro p
    simp only [Ht, e2h_mulVec_masks, muV_some]
    exact continuousAt_const.mul (((hcE p).div₀ (continuousAt_const.mul hωc) (mul_ne_zero (neg_ne_zero.2 I_ne_zero) hω)).div₀ (hmuc p) (hmu0 p))
  let D : ℝ → ℂ := fun t => eInt dxes (eps 0) L (E t) - hInt dxes (mu 0) HL (Ht t)
  let N : ℝ → ℂ := fun t => eInt dxes (fun p => slope (fun s => eps s p) 0 t) L (E t) - hInt dxes (fun p => slope (fun s => mu s p) 0 t) HL (Ht t)
  have hD0 : D 0 = 2 * eInt dxes (eps 0) L (E 0) := by
    have := C135_balance hω hg (by simpa using hmu0) hL hE0
    rw [muV_some] at this
    simp only [D, Ht, HL, this]; ring
  have hDc : Filter.Tendsto D (nhds 0) (nhds (D 0)) := by
    refine Filter.Tendsto.sub ?_ ?_
    · exact tendsto_finsetSum _ fun c _ => tendsto_finsetSum _ fun x _ => (continuousAt_const.mul (continuousAt_const.mul (continuousAt_const.mul (hEp _))))
    · exact tendsto_finsetSum _ fun c _ => tendsto_finsetSum _ fun x _ => (continuousAt_const.mul (continuousAt_const.mul (continuousAt_const.mul (hHc _))))
  have hNc : Filter.Tendsto N (nhdsWithin 0 {0}ᶜ) (nhds (eInt dxes dε L (E 0) - hInt dxes dμ HL H)) := by
    refine Filter.Tendsto.sub ?_ ?_
    · refine tendsto_finsetSum _ fun c _ => tendsto_finsetSum _ fun x _ => Filter.Tendsto.const_mul _ (Filter.Tendsto.mul ?_ (Filter.Tendsto.const_mul _ ?_))
      · exact hasDerivAt_iff_tendsto_slope.1 (heps _)
      · exact (hEp _).tendsto.mono_left nhdsWithin_le_nhds
    · refine tendsto_finsetSum _ fun c _ => tendsto_finsetSum _ fun x _ => Filter.Tendsto.const_mul _ (Filter.Tendsto.mul ?_ (Filter.Tendsto.const_mul _ ?_))
      · exact hasDerivAt_iff_tendsto_slope.1 (hmu _)
      · exact (hHc _).tendsto.mono_left nhdsWithin_le_nhds
  have hDne : D 0 ≠ 0 := by rw [hD0]; exact mul_ne_zero two_ne_zero hN
  rw [hasDerivAt_iff_tendsto_slope]
  have hlim : Filter.Tendsto (fun t => -ω t * (N t / D t)) (nhdsWithin 0 {0}ᶜ)
      (nhds (-(ω 0) * ((eInt dxes dε L (E 0) - hInt dxes dμ HL H) / D 0))) :=
    ((hωc.tendsto.mono_left nhdsWithin_le_nhds).neg).mul (hNc.div (hDc.mono_left nhdsWithin_le_nhds) hDne)
  rw [hD0] at hlim
  rw [show -(ω 0) / 2 * ((eInt dxes dε L (E 0) - hInt dxes dμ HL H) / eInt dxes (eps 0) L (E 0))
    = -(ω 0) * ((eInt dxes dε L (E 0) - hInt dxes dμ HL H) / (2 * eInt dxes (eps 0) L (E 0))) by field_simp]
  refine hlim.congr' ?_
  have hmut : ∀ᶠ t in nhds (0 : ℝ), ∀ p, mu t p ≠ 0 := Filter.eventually_all.2 fun p => (hmuc p).eventually_ne (hmu0 p)
  filter_upwards [nhdsWithin_le_nhds hE, nhdsWithin_le_nhds (hωc.eventually_ne hω), nhdsWithin_le_nhds (hDc.eventually_ne hDne),
    nhdsWithin_le_nhds hmut, self_mem_nhdsWithin] with t h1 h2 h3 h4 h5
  have h5 : (t : ℝ) ≠ 0 := h5
  have key := C135_exact hω h2 hg (mu₀ := some (mu 0)) (mu₁ := some (mu t)) (by simpa using hmu0) (by simpa using h4) hL h1
  simp only [muV_some] at key
  have k1 : eInt dxes (eps t - eps 0) L (E t) = t * eInt dxes (fun p => slope (fun s => eps s p) 0 t) L (E t) := by
    simp only [eInt, Finset.mul_sum]
    refine Finset.sum_congr rfl fun c _ => Finset.sum_congr rfl fun x _ => ?_
    have : ((eps t - eps 0) (c, x)) = (t : ℂ) * slope (fun s => eps s (c, x)) 0 t := by
      rw [slope_def_module, sub_zero, real_smul, ← mul_assoc, ofReal_inv, mul_inv_cancel₀ (ofReal_ne_zero.2 h5), one_mul]; rfl
    rw [this]; ring
  have k2 : hInt dxes (mu t - mu 0) HL (Ht t) = t * hInt dxes (fun p => slope (fun s => mu s p) 0 t) HL (Ht t) := by
    simp only [hInt, Finset.mul_sum]
    refine Finset.sum_congr rfl fun c _ => Finset.sum_congr rfl fun x _ => ?_
    have : ((mu t - mu 0) (c, x)) = (t : ℂ) * slope (fun s => mu s (c, x)) 0 t := by
      rw [slope_def_module, sub_zero, real_smul, ← mul_assoc, ofReal_inv, mul_inv_cancel₀ (ofReal_ne_zero.2 h5), one_mul]; rfl
    rw [this]; ring
  have key' : (ω t - ω 0) * D t = -ω t * (t * N t) := by
    refine key.trans ?_
    rw [k1]
    change -ω t * (_ - hInt dxes (mu t - mu 0) HL (Ht t)) = _
    rw [k2]; simp only [N]; ring
  rw [slope_def_module, sub_zero, real_smul, ofReal_inv, ← div_eq_inv_mul, eq_div_iff (ofReal_ne_zero.2 h5), ← mul_div_assoc, div_mul_eq_mul_div, div_eq_iff h3]
  rw [key']; ring

/-- **C135.** The same for a lossless cavity with conjugates, which never fails for lack of a norm: the media (which may become lossy with the parameter) shift
the frequency by `-ω/2 (∫ dε |E|² dV + ∫ dμ |H|² dV) / ∫ ε |E|² dV`. -/
theorem C135_lossless {d : DxList sh ℝ × DxList sh ℝ} (hd : PosGrid d) {pec pmc : Option (Pos sh → Bool)} (eps mu : ℝ → Vec sh) (eps0 mu0 : Pos sh → ℝ)
    (he0 : eps 0 = fun p => (eps0 p : ℂ)) (hm0 : mu 0 = fun p => (mu0 p : ℂ)) (hpos : ∀ p, 0 < eps0 p) (hmpos : ∀ p, mu0 p ≠ 0) (dε dμ : Vec sh)
    (heps : ∀ p, HasDerivAt (fun t => eps t p) (dε p) 0) (hmu : ∀ p, HasDerivAt (fun t => mu t p) (dμ p) 0)
    (ω : ℝ → ℂ) (E : ℝ → Vec sh) (hωc : ContinuousAt ω 0) (hEc : ContinuousAt E 0) {w : ℝ} (hw : ω 0 = w) (hw0 : w ≠ 0) (hE0 : E 0 ≠ 0)
    (hE : ∀ᶠ t in nhds 0, IsResonant (ω t) (cDx d) (eps t) (some (mu t)) pec pmc (E t)) :
    let H := Fdfd.e2h w (cDx d) (some fun p => (mu0 p : ℂ)) pmc *ᵥ E 0
    HasDerivAt ω (-(w : ℂ) / 2 * ((∑ c, ∑ x, volE d.1 d.2 c x * (dε (c, x) * normSq (E 0 (c, x))) + ∑ c, ∑ x, volH d.1 d.2 c x * (dμ (c, x) * normSq (H (c, x))))
      / ((∑ c, ∑ x, volE d.1 d.2 c x * (eps0 (c, x) * normSq (E 0 (c, x))) : ℝ) : ℂ))) 0 := by
  intro H
  have hn : GridNz (cDx d) := ⟨fun a i => ofReal_ne_zero.2 (hd.1 a i).ne', fun a i => ofReal_ne_zero.2 (hd.2 a i).ne'⟩
  have hr := hE.self_of_nhds
  rw [hw, he0, hm0] at hr
  have htr := C108_time_reversal w d eps0 (some mu0) pec pmc (E 0) 0 (by rw [smul_zero]; exact hr.free)
  have hcv : ∀ p : Pos sh, conjVec (E 0) p * E 0 p = normSq (E 0 p) := fun p => (normSq_eq_conj_mul_self).symm
  have hL : IsResonant (ω 0) (cDx d) (eps 0) (some (mu 0)) pec pmc (conjVec (E 0)) := by
    rw [hw, he0, hm0]
    refine ⟨fun m hm p hp => ?_, ?_⟩
    · show (starRingEnd ℂ) (E 0 p) = 0
      rw [hr.off m hm p hp, map_zero]
    · have := htr.1
      rw [show -conjVec (0 : Vec sh) = 0 by funext p; simp [conjVec], smul_zero] at this
      exact this
  have hS : eInt (cDx d) (eps 0) (conjVec (E 0)) (E 0) = ((∑ c, ∑ x, volE d.1 d.2 c x * (eps0 (c, x) * normSq (E 0 (c, x))) : ℝ) : ℂ) := by
    simp only [eInt, he0, hcv, volE_cDx]; push_cast; rfl
  have hSpos : 0 < ∑ c, ∑ x, volE d.1 d.2 c x * (eps0 (c, x) * normSq (E 0 (c, x))) := by
    have := eps_energy_pos d eps0 hd hpos hE0
    rw [Fintype.sum_prod_type] at this
    simpa only [mul_assoc] using this
  have key := C135_shift hn eps mu dε dμ heps hmu (by intro p; rw [hm0]; exact ofReal_ne_zero.2 (hmpos p)) ω E hωc hEc (by rw [hw]; exact ofReal_ne_zero.2 hw0) hE
    (conjVec (E 0)) hL (by rw [hS]; exact ofReal_ne_zero.2 hSpos.ne')
  simp only at key
  rw [hS, hw, hm0] at key
  have h2 : Fdfd.e2h w (cDx d) (some fun p => (mu0 p : ℂ)) pmc *ᵥ conjVec (E 0) = -conjVec H := htr.2
  rw [h2] at key
  have e1 : eInt (cDx d) dε (conjVec (E 0)) (E 0) = ∑ c, ∑ x, volE d.1 d.2 c x * (dε (c, x) * normSq (E 0 (c, x))) := by
    simp only [eInt, hcv, volE_cDx]
  have e2 : hInt (cDx d) dμ (-conjVec H) H = -∑ c, ∑ x, volH d.1 d.2 c x * (dμ (c, x) * normSq (H (c, x))) := by
    simp only [hInt, volH_cDx, ← Finset.sum_neg_distrib]
    refine Finset.sum_congr rfl fun c _ => Finset.sum_congr rfl fun x _ => ?_
    rw [normSq_eq_conj_mul_self, Pi.neg_apply, conjVec]; ring
  rw [e1] at key
  change HasDerivAt ω (-(w : ℂ) / 2 * ((_ - hInt (cDx d) dμ (-conjVec H) H) / _)) 0 at key
  rw [e2, sub_neg_eq_add] at key
  exact key

/-- The square of a resonance frequency times the electric integral is the magnetic energy. -/
theorem resonant_energy {d : DxList sh ℝ × DxList sh ℝ} (hd : PosGrid d) (eps : Vec sh) (mu : Option (Pos sh → ℝ)) (pec pmc : Option (Pos sh → Bool)) {ω : ℂ}
    {E : Vec sh} (h : IsResonant ω (cDx d) eps (realMu mu) pec pmc E) :
    ω ^ 2 * ∑ p : Pos sh, ((volE d.1 d.2 p.1 p.2 : ℝ) : ℂ) * (eps p * normSq (E p)) = curlEnergy d mu pmc E := by
  have hq := quad_form_eq ω d hd eps mu pec pmc E
  rw [h.free] at hq
  simp only [Pi.zero_apply, mul_zero, Finset.sum_const_zero] at hq
  have hE' := (offPec_iff pec E).1 h.off
  rw [funext hE', eq_comm, sub_eq_zero] at hq
  have h1 : curlEnergy d mu pmc E = ∑ p : Pos sh, volH d.1 d.2 p.1 p.2 * openAt pmc p * (muV (realMu mu) p)⁻¹.re * normSq (cE (cDx d) E p) := by
    rw [curlEnergy]
    refine Finset.sum_congr rfl fun p _ => ?_
    rw [muV_realMu, ← ofReal_inv, ofReal_re]
  rw [h1, hq, Finset.mul_sum]
  refine Finset.sum_congr rfl fun p _ => ?_
  rw [hE' p]; push_cast; ring

/-- **C135.** Decay in lossy media (real grid, real permeability, any complex permittivity): the phase of `ω²` is opposite to the phase of `∫ ε |E|² dV`. -/
theorem C135_decay {d : DxList sh ℝ × DxList sh ℝ} (hd : PosGrid d) (eps : Vec sh) (mu : Option (Pos sh → ℝ)) (pec pmc : Option (Pos sh → Bool)) {ω : ℂ} {E : Vec sh}
    (h : IsResonant ω (cDx d) eps (realMu mu) pec pmc E) :
    2 * (ω.re * ω.im) * ∑ p : Pos sh, volE d.1 d.2 p.1 p.2 * ((eps p).re * normSq (E p))
      = (ω.re ^ 2 - ω.im ^ 2) * ∑ p : Pos sh, volE d.1 d.2 p.1 p.2 * (-(eps p).im * normSq (E p)) := by
  have hS := resonant_energy hd eps mu pec pmc h
  have him := congrArg im hS
  have hSre : (∑ p : Pos sh, ((volE d.1 d.2 p.1 p.2 : ℝ) : ℂ) * (eps p * normSq (E p))).re = ∑ p : Pos sh, volE d.1 d.2 p.1 p.2 * ((eps p).re * normSq (E p)) := by
    simp [re_sum]
  have hSim : (∑ p : Pos sh, ((volE d.1 d.2 p.1 p.2 : ℝ) : ℂ) * (eps p * normSq (E p))).im = -∑ p : Pos sh, volE d.1 d.2 p.1 p.2 * (-(eps p).im * normSq (E p)) := by
    simp [im_sum]
  rw [mul_im, hSre, hSim, ofReal_im, sq, mul_re, mul_im] at him
  linear_combination him

/-- **C135.** With losses (`Im ε ≤ 0`, negative somewhere in the field; the convention of the library is `exp(iωt)`) every resonance of positive frequency decays
and every resonance of negative frequency, its mirror image, does too: `ω` lies in the first or third quadrant. -/
theorem C135_damped {d : DxList sh ℝ × DxList sh ℝ} (hd : PosGrid d) (eps : Vec sh) (mu : Option (Pos sh → ℝ)) (hmu : ∀ p, 0 < muR mu p)
    (pec pmc : Option (Pos sh → Bool)) {ω : ℂ} (hω : ω ≠ 0) {E : Vec sh} (hloss : ∀ p, (eps p).im ≤ 0) (hp : ∃ p, (eps p).im < 0 ∧ E p ≠ 0)
    (h : IsResonant ω (cDx d) eps (realMu mu) pec pmc E) : 0 < ω.re * ω.im := by
  have hS := resonant_energy hd eps mu pec pmc h
  have hSim : (∑ p : Pos sh, ((volE d.1 d.2 p.1 p.2 : ℝ) : ℂ) * (eps p * normSq (E p))).im < 0 := by
    obtain ⟨p, h1, h2⟩ := hp
    have : (∑ p : Pos sh, ((volE d.1 d.2 p.1 p.2 : ℝ) : ℂ) * (eps p * normSq (E p))).im = ∑ p : Pos sh, volE d.1 d.2 p.1 p.2 * ((eps p).im * normSq (E p)) := by
      simp [im_sum]
    rw [this]
    refine Finset.sum_neg' (fun p _ => ?_) ⟨p, Finset.mem_univ p, ?_⟩
    · exact mul_nonpos_of_nonneg_of_nonpos (hd.vol p.1 p.2).le (mul_nonpos_of_nonpos_of_nonneg (hloss p) (normSq_nonneg _))
    · exact mul_neg_of_pos_of_neg (hd.vol p.1 p.2) (mul_neg_of_neg_of_pos h1 (normSq_pos.2 h2))
  have ha := curlEnergy_nonneg d hd mu pmc hmu E
  generalize (∑ p : Pos sh, ((volE d.1 d.2 p.1 p.2 : ℝ) : ℂ) * (eps p * normSq (E p))) = S at hS hSim
  have hS0 : S ≠ 0 := fun hc => by rw [hc] at hSim; simp at hSim
  have ha0 : curlEnergy d mu pmc E ≠ 0 := fun hc => by
    rw [hc, ofReal_zero] at hS
    exact (mul_ne_zero (pow_ne_zero 2 hω) hS0) hS
  have hapos := lt_of_le_of_ne ha (Ne.symm ha0)
  have hw : ω ^ 2 = curlEnergy d mu pmc E / S := by rw [eq_div_iff hS0, hS]
  have him := congrArg im hw
  rw [div_im, ofReal_im, ofReal_re, zero_mul, zero_div, zero_sub, sq, mul_im] at him
  have : 0 < -(curlEnergy d mu pmc E * S.im / normSq S) := by
    rw [neg_pos]
    exact div_neg_of_neg_of_pos (mul_neg_of_pos_of_neg hapos hSim) (normSq_pos.2 hS0)
  linarith

/-- The hypotheses of `C135_lossless` (hence those of `C135_shift`) are met by any resonance of a lossless cavity whose permittivity is scaled as a whole. -/
example {d : DxList sh ℝ × DxList sh ℝ} {pec pmc : Option (Pos sh → Bool)} (eps0 mu0 : Pos sh → ℝ) {w : ℝ} (E : Vec sh)
    (h : IsResonant w (cDx d) (fun p => (eps0 p : ℂ)) (some fun p => (mu0 p : ℂ)) pec pmc E) :
    ∃ ω : ℝ → ℂ, ω 0 = w ∧ ContinuousAt ω 0 ∧ (∀ p, HasDerivAt (fun t : ℝ => ((1 + t : ℝ) : ℂ) * eps0 p) (eps0 p) 0)
      ∧ ∀ᶠ t : ℝ in nhds 0, IsResonant (ω t) (cDx d) (fun p => ((1 + t : ℝ) : ℂ) * eps0 p) (some fun p => (mu0 p : ℂ)) pec pmc E := by
  refine ⟨fun t => ((w / Real.sqrt (1 + t) : ℝ) : ℂ), by simp, ?_, fun p => ?_, ?_⟩
  · refine continuous_ofReal.continuousAt.comp' (ContinuousAt.div₀ continuousAt_const ?_ (by simp))
    exact Real.continuous_sqrt.continuousAt.comp' (by fun_prop)
  · have h1 : HasDerivAt (fun t : ℝ => ((1 + t : ℝ) : ℂ)) 1 0 := by
      have := ((hasDerivAt_id (0 : ℝ)).const_add 1).ofReal_comp
      simpa using this
    simpa using h1.mul_const (eps0 p : ℂ)
  · filter_upwards [lt_mem_nhds (show (-1 : ℝ) < 0 by norm_num)] with t ht
    refine ⟨h.off, ?_⟩
    have h1 := (mem_resonances_iff _ _ _ _ _ _ _ h.off).1 h.free
    refine (mem_resonances_iff _ _ _ _ _ _ _ h.off).2 fun p => ?_
    rw [eFull_zero_eps _ _ (fun p => (eps0 p : ℂ)), h1 p]
    have h2 : (0 : ℝ) < 1 + t := by linarith
    have h3 : (((w / Real.sqrt (1 + t) : ℝ) : ℂ)) ^ 2 * ((1 + t : ℝ) : ℂ) = (w : ℂ) ^ 2 := by
      rw [← ofReal_pow, ← ofReal_mul, div_pow, Real.sq_sqrt h2.le, div_mul_cancel₀ _ h2.ne', ofReal_pow]
    rw [← h3]; ring

/-- Lossy resonances as in `C135_damped`: any resonance of a lossless cavity, filled with the material `(1 - i) ε`. -/
example {d : DxList sh ℝ × DxList sh ℝ} {pec pmc : Option (Pos sh → Bool)} (eps0 : Pos sh → ℝ) (hpos : ∀ p, 0 < eps0 p) (mu : Option (Pos sh → ℝ)) {w : ℝ}
    (hw : w ≠ 0) (E : Vec sh) (hE : E ≠ 0) (h : IsResonant w (cDx d) (rEps eps0) (realMu mu) pec pmc E) :
    ∃ ω : ℂ, ω ≠ 0 ∧ (∀ p, ((1 - I) * (eps0 p : ℂ)).im ≤ 0) ∧ (∃ p, ((1 - I) * (eps0 p : ℂ)).im < 0 ∧ E p ≠ 0)
      ∧ IsResonant ω (cDx d) (fun p => (1 - I) * (eps0 p : ℂ)) (realMu mu) pec pmc E := by
  have h1 : (1 - I : ℂ) ≠ 0 := fun hc => by have := congrArg re hc; simp at this
  have hsq : (((w : ℂ) ^ 2 / (1 - I)) ^ ((2 : ℕ)⁻¹ : ℂ)) ^ 2 = (w : ℂ) ^ 2 / (1 - I) := cpow_nat_inv_pow _ two_ne_zero
  have him : ∀ p, ((1 - I) * (eps0 p : ℂ)).im = -eps0 p := fun p => by simp
  obtain ⟨p, hp⟩ := Function.ne_iff.1 hE
  refine ⟨((w : ℂ) ^ 2 / (1 - I)) ^ ((2 : ℕ)⁻¹ : ℂ), fun hc => ?_, fun p => ?_, ⟨p, ?_, hp⟩, h.off, ?_⟩
  · rw [hc, zero_pow two_ne_zero] at hsq
    exact div_ne_zero (pow_ne_zero 2 (ofReal_ne_zero.2 hw)) h1 hsq.symm
  · rw [him]; linarith [hpos p]
  · rw [him]; linarith [hpos p]
  · have h2 := (mem_resonances_iff _ _ _ _ _ _ _ h.off).1 h.free
    refine (mem_resonances_iff _ _ _ _ _ _ _ h.off).2 fun p => ?_
    rw [eFull_zero_eps _ _ (rEps eps0), h2 p, hsq, rEps]
    field_simp

end Meanas.Props
