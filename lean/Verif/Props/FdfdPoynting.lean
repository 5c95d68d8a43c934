/-
C100 (power balance of any closed surface in the frequency domain).
-/
import Verif.Props.FdfdWaves

namespace Meanas.Props

open Matrix Complex Fdfd Spec Fdtd

variable {sh : Fin 3 → ℕ}

/-- Flux of `S` (stored on the + faces of the cells) out of a set of cells: what leaves through the faces between the set and the rest. -/
noncomputable def surfaceFlux (S : VField sh ℂ) (R : Finset (Idx sh)) : ℂ :=
  ∑ a, ((∑ x with x ∈ R ∧ shiftIdx a 1 x ∉ R, S a x) - ∑ x with x ∉ R ∧ shiftIdx a 1 x ∈ R, S a x)

/-- The fluxes through inner faces cancel. -/
theorem sum_flux (S : VField sh ℂ) (R : Finset (Idx sh)) : ∑ x ∈ R, flux S x = surfaceFlux S R := by
  unfold flux surfaceFlux
  rw [Finset.sum_comm]
  refine Finset.sum_congr rfl fun a _ => ?_
  have hR : ∀ f : Idx sh → ℂ, ∑ x ∈ R, f x = ∑ x, if x ∈ R then f x else 0 := fun f => by rw [Finset.sum_ite_mem, Finset.univ_inter]
  have h1 : ∑ x ∈ R, S a (shiftIdx a (-1) x) = ∑ x, if shiftIdx a 1 x ∈ R then S a x else 0 := by
    rw [hR, ← sum_shiftIdx a 1]
    exact Finset.sum_congr rfl fun x _ => by simp
  rw [Finset.sum_sub_distrib, h1, hR, Finset.sum_filter, Finset.sum_filter, ← Finset.sum_sub_distrib, ← Finset.sum_sub_distrib]
  refine Finset.sum_congr rfl fun x _ => ?_
  by_cases h2 : x ∈ R <;> by_cases h3 : shiftIdx a 1 x ∈ R <;> simp [h2, h3]

/-- Complex power delivered by the sources and turned into heat or stored energy in a cell. -/
noncomputable def cellPower (ω : ℂ) (d : DxList sh ℝ × DxList sh ℝ) (eps mu : VField sh ℂ) (E H J M : VField sh ℂ) (x : Idx sh) : ℂ :=
  ∑ c, (volE d.1 d.2 c x * ((starRingEnd ℂ) (I * ω * eps c x) * normSq (E c x) + E c x * (starRingEnd ℂ) (J c x))
    + volH d.1 d.2 c x * (I * ω * mu c x * normSq (H c x) + (starRingEnd ℂ) (H c x) * M c x))

/-- The Poynting theorem from Maxwell's equations. -/
theorem poynting_balance {ω : ℂ} {d : DxList sh ℝ × DxList sh ℝ} (hd : Nonzero d.1 ∧ Nonzero d.2) {eps mu E H J M : VField sh ℂ}
    (hcE : ∀ c y, Functional.curlForward (some (cDx d).1) E c y = -I * ω * (mu c y * H c y) - M c y)
    (hcH : ∀ c y, Functional.curlBack (some (cDx d).2) H c y = J c y + I * ω * (eps c y * E c y)) (x : Idx sh) :
    flux (FdfdF.poyntingECrossH (cDx d) E fun c y => (starRingEnd ℂ) (H c y)) x = -cellPower ω d eps mu E H J M x := by
  have hn : Nonzero (cDx d).1 ∧ Nonzero (cDx d).2 :=
    ⟨fun a i => ofReal_ne_zero.2 (hd.1 a i), fun a i => ofReal_ne_zero.2 (hd.2 a i)⟩
  have key := poynting_local (some (cDx d)) hn.1 hn.2 E (fun c y => (starRingEnd ℂ) (H c y)) x
  have hcc : ∀ c y, Functional.curlBack (some (cDx d).2) (fun c y => (starRingEnd ℂ) (H c y)) c y
      = (starRingEnd ℂ) (J c y + I * ω * (eps c y * E c y)) := by
    intro c y
    rw [← hcH]
    exact conj_curlBack d.2 H c y
  have hflux : flux (FdfdF.poyntingECrossH (cDx d) E fun c y => (starRingEnd ℂ) (H c y)) x
      = divS (poynting E (fun c y => (starRingEnd ℂ) (H c y)) (some (cDx d))) x := rfl
  simp only [dxesOrOnes, Option.map_some, hcc, hcE, volE_cDx, volH_cDx] at key
  rw [hflux, ← neg_inj, neg_neg, ← key, ← Finset.sum_sub_distrib, cellPower]
  refine Finset.sum_congr rfl fun c _ => ?_
  simp only [← mul_conj, map_add, map_mul]
  ring

/-- **C100.** Complex Poynting theorem in every cell, for complex frequency and media: `e_full` with `e2h`. -/
theorem C100_cell (ω : ℂ) (hω : ω ≠ 0) (d : DxList sh ℝ × DxList sh ℝ) (hd : Nonzero d.1 ∧ Nonzero d.2)
    (eps : VField sh ℂ) (mu : Option (VField sh ℂ)) (hmu : ∀ m, mu = some m → ∀ c x, m c x ≠ 0) (E J H : VField sh ℂ)
    (hE : eFull ω (cDx d) (vecS eps) (mu.map vecS) none none *ᵥ vecS E = (-I * ω) • vecS J)
    (hH : vecS H = Fdfd.e2h ω (cDx d) (mu.map vecS) none *ᵥ vecS E) (x : Idx sh) :
    flux (FdfdF.poyntingECrossH (cDx d) E fun c y => (starRingEnd ℂ) (H c y)) x
      = -cellPower ω d eps (mu.getD 1) E H J 0 x := by
  have hI : (I : ℂ) ≠ 0 := I_ne_zero
  have hmuv : ∀ c y, muV (mu.map vecS) (c, y) = mu.getD 1 c y := by
    intro c y; cases mu <;> rfl
  have hne : ∀ c y, mu.getD 1 c y ≠ 0 := by
    intro c y
    cases hm : mu with
    | none => exact one_ne_zero
    | some m => exact hmu m hm c y
  have hcE : ∀ c y, Functional.curlForward (some (cDx d).1) E c y = -I * ω * (mu.getD 1 c y * H c y) := by
    intro c y
    have := congrFun hH (c, y)
    rw [vecS_apply, e2h_mulVec, hmuv] at this
    rw [this]; have := hne c y
    have h5 : cE (cDx d) (vecS E) (c, y) = Functional.curlForward (some (cDx d).1) E c y := rfl
    rw [h5]; field_simp
  have hcH : ∀ c y, Functional.curlBack (some (cDx d).2) H c y = J c y + I * ω * (eps c y * E c y) := by
    intro c y
    have h1 := congrFun hE (c, y)
    rw [eFull_mulVec, Pi.smul_apply, smul_eq_mul, vecS_apply, vecS_apply, vecS_apply] at h1
    have h2 : (unS fun q => cE (cDx d) (vecS E) q / muV (mu.map vecS) q) = fun c y => (-I * ω) * H c y := by
      funext c y
      show Functional.curlForward (some (cDx d).1) (unS (vecS E)) c y / muV (mu.map vecS) (c, y) = _
      rw [unS_vecS, hcE, hmuv]; have := hne c y; field_simp
    have h3 : cH (cDx d) (fun q => cE (cDx d) (vecS E) q / muV (mu.map vecS) q) (c, y)
        = -I * ω * Functional.curlBack (some (cDx d).2) H c y := by
      show Functional.curlBack (some (cDx d).2) (unS fun q => cE (cDx d) (vecS E) q / muV (mu.map vecS) q) c y = _
      rw [h2, Meanas.curlBack_smul]
    rw [h3] at h1
    have hII : (I : ℂ) ^ 2 = -1 := I_sq
    rw [← mul_right_inj' (mul_ne_zero (neg_ne_zero.2 hI) hω)]
    linear_combination h1 + ω ^ 2 * eps c y * E c y * hII
  exact poynting_balance hd (fun c y => by rw [hcE]; simp) hcH x

/-- **C100.** Complex Poynting theorem for any closed surface: what leaves a set of cells through its surface is what the sources inside deliver, less
what the media inside take. -/
theorem C100_surface (ω : ℂ) (hω : ω ≠ 0) (d : DxList sh ℝ × DxList sh ℝ) (hd : Nonzero d.1 ∧ Nonzero d.2)
    (eps : VField sh ℂ) (mu : Option (VField sh ℂ)) (hmu : ∀ m, mu = some m → ∀ c x, m c x ≠ 0) (E J H : VField sh ℂ)
    (hE : eFull ω (cDx d) (vecS eps) (mu.map vecS) none none *ᵥ vecS E = (-I * ω) • vecS J)
    (hH : vecS H = Fdfd.e2h ω (cDx d) (mu.map vecS) none *ᵥ vecS E) (R : Finset (Idx sh)) :
    surfaceFlux (FdfdF.poyntingECrossH (cDx d) E fun c y => (starRingEnd ℂ) (H c y)) R
      = -∑ x ∈ R, cellPower ω d eps (mu.getD 1) E H J 0 x := by
  rw [← sum_flux, ← Finset.sum_neg_distrib]
  exact Finset.sum_congr rfl fun x _ => C100_cell ω hω d hd eps mu hmu E J H hE hH x

/-- **C100.** The same for `eh_full` with electric and magnetic currents, given to it as `(J, -M)`. -/
theorem C100_magnetic_current (ω : ℂ) (d : DxList sh ℝ × DxList sh ℝ) (hd : Nonzero d.1 ∧ Nonzero d.2) (eps mu E H J M : VField sh ℂ)
    (A : Matrix (Pos sh ⊕ Pos sh) (Pos sh ⊕ Pos sh) ℂ) (hA : Fdfd.ehFull ω (cDx d) (vecS eps) (some (vecS mu)) none none = .ok A)
    (h : A *ᵥ Sum.elim (vecS E) (vecS H) = Sum.elim (vecS J) (-vecS M)) (R : Finset (Idx sh)) :
    surfaceFlux (FdfdF.poyntingECrossH (cDx d) E fun c y => (starRingEnd ℂ) (H c y)) R = -∑ x ∈ R, cellPower ω d eps mu E H J M x := by
  rw [ehFull_mulVec hA] at h
  have h1 : ∀ c y, cH (cDx d) (vecS H) (c, y) - I * ω * (eps c y * E c y) = J c y := fun c y => congrFun h (Sum.inl (c, y))
  have h2 : ∀ c y, cE (cDx d) (vecS E) (c, y) + I * ω * (mu c y * H c y) = -M c y := fun c y => congrFun h (Sum.inr (c, y))
  rw [← sum_flux, ← Finset.sum_neg_distrib]
  refine Finset.sum_congr rfl fun x _ => poynting_balance hd (fun c y => ?_) (fun c y => ?_) x
  · exact (eq_sub_of_add_eq (h2 c y)).trans (by ring)
  · exact (eq_add_of_sub_eq (h1 c y))

/-- Real part at a real frequency: power delivered and heat. -/
theorem cellPower_re (ω : ℝ) (d : DxList sh ℝ × DxList sh ℝ) (eps mu E H J : VField sh ℂ) (x : Idx sh) :
    (cellPower ω d eps mu E H J 0 x).re
      = ∑ c, volE d.1 d.2 c x * (E c x * (starRingEnd ℂ) (J c x)).re
        - ω * ∑ c, (volE d.1 d.2 c x * ((eps c x).im * normSq (E c x)) + volH d.1 d.2 c x * ((mu c x).im * normSq (H c x))) := by
  rw [cellPower, re_sum, Finset.mul_sum, ← Finset.sum_sub_distrib]
  refine Finset.sum_congr rfl fun c _ => ?_
  simp only [add_re, map_mul, conj_I, conj_ofReal, mul_re, mul_im, ofReal_re, ofReal_im, neg_re, neg_im, I_re, I_im, conj_re, conj_im,
    Pi.zero_apply, zero_re, zero_im]
  ring

/-- **C100.** Time-averaged power at a real frequency: what leaves any set of cells is what the currents inside deliver (`-E·J*`) plus `ω` times the
integral of `Im ε |E|² + Im μ |H|²`, negative for passive media in this sign convention. -/
theorem C100_average_power (ω : ℝ) (hω : ω ≠ 0) (d : DxList sh ℝ × DxList sh ℝ) (hd : Nonzero d.1 ∧ Nonzero d.2)
    (eps : VField sh ℂ) (mu : Option (VField sh ℂ)) (hmu : ∀ m, mu = some m → ∀ c x, m c x ≠ 0) (E J H : VField sh ℂ)
    (hE : eFull ω (cDx d) (vecS eps) (mu.map vecS) none none *ᵥ vecS E = (-I * ω) • vecS J)
    (hH : vecS H = Fdfd.e2h ω (cDx d) (mu.map vecS) none *ᵥ vecS E) (R : Finset (Idx sh)) :
    (surfaceFlux (FdfdF.poyntingECrossH (cDx d) E fun c y => (starRingEnd ℂ) (H c y)) R).re
      = -∑ x ∈ R, ∑ c, volE d.1 d.2 c x * (E c x * (starRingEnd ℂ) (J c x)).re
        + ω * ∑ x ∈ R, ∑ c, (volE d.1 d.2 c x * ((eps c x).im * normSq (E c x))
          + volH d.1 d.2 c x * ((mu.getD 1 c x).im * normSq (H c x))) := by
  rw [C100_surface ω (ofReal_ne_zero.2 hω) d hd eps mu hmu E J H hE hH R, neg_re, re_sum]
  simp only [cellPower_re]
  rw [Finset.sum_sub_distrib, ← Finset.mul_sum]
  ring

/-- **C100.** Corollary: in a region without currents and losses the same power leaves and enters; two surfaces around the same sources measure the same
power. -/
theorem C100_same_power (ω : ℝ) (hω : ω ≠ 0) (d : DxList sh ℝ × DxList sh ℝ) (hd : Nonzero d.1 ∧ Nonzero d.2)
    (eps : VField sh ℂ) (mu : Option (VField sh ℂ)) (hmu : ∀ m, mu = some m → ∀ c x, m c x ≠ 0) (E J H : VField sh ℂ)
    (hE : eFull ω (cDx d) (vecS eps) (mu.map vecS) none none *ᵥ vecS E = (-I * ω) • vecS J)
    (hH : vecS H = Fdfd.e2h ω (cDx d) (mu.map vecS) none *ᵥ vecS E) {R R' : Finset (Idx sh)} (hR : R ⊆ R')
    (hfree : ∀ x ∈ R' \ R, ∀ c, J c x = 0 ∧ (eps c x).im = 0 ∧ (mu.getD 1 c x).im = 0) :
    (surfaceFlux (FdfdF.poyntingECrossH (cDx d) E fun c y => (starRingEnd ℂ) (H c y)) R').re
      = (surfaceFlux (FdfdF.poyntingECrossH (cDx d) E fun c y => (starRingEnd ℂ) (H c y)) R).re := by
  rw [C100_average_power ω hω d hd eps mu hmu E J H hE hH, C100_average_power ω hω d hd eps mu hmu E J H hE hH]
  rw [← Finset.sum_sdiff hR, ← Finset.sum_sdiff hR]
  have z1 : ∑ x ∈ R' \ R, ∑ c, volE d.1 d.2 c x * (E c x * (starRingEnd ℂ) (J c x)).re = 0 :=
    Finset.sum_eq_zero fun x hx => Finset.sum_eq_zero fun c _ => by rw [(hfree x hx c).1]; simp
  have z2 : ∑ x ∈ R' \ R, ∑ c, (volE d.1 d.2 c x * ((eps c x).im * normSq (E c x))
      + volH d.1 d.2 c x * ((mu.getD 1 c x).im * normSq (H c x))) = 0 :=
    Finset.sum_eq_zero fun x hx => Finset.sum_eq_zero fun c _ => by rw [(hfree x hx c).2.1, (hfree x hx c).2.2]; simp
  rw [z1, z2, zero_add, zero_add]

/-- Every field, lossy medium and grid gives a case: the currents are those that the field needs. -/
example (ω : ℂ) (hω : ω ≠ 0) (d : DxList sh ℝ × DxList sh ℝ) (eps E : VField sh ℂ) (mu : Option (VField sh ℂ)) :
    ∃ J H : VField sh ℂ, eFull ω (cDx d) (vecS eps) (mu.map vecS) none none *ᵥ vecS E = (-I * ω) • vecS J
      ∧ vecS H = Fdfd.e2h ω (cDx d) (mu.map vecS) none *ᵥ vecS E := by
  refine ⟨unS ((-I * ω)⁻¹ • (eFull ω (cDx d) (vecS eps) (mu.map vecS) none none *ᵥ vecS E)),
    unS (Fdfd.e2h ω (cDx d) (mu.map vecS) none *ᵥ vecS E), ?_, vecS_unS _⟩
  rw [vecS_unS, smul_smul, mul_inv_cancel₀ (mul_ne_zero (neg_ne_zero.2 I_ne_zero) hω), one_smul]

/-- A set of cells with a surface: one cell of a grid with two cells along x. -/
example : ∃ S : VField (fun _ => 2) ℂ, surfaceFlux S {fun _ => 0} ≠ 0 := by
  refine ⟨fun a x => if a = 0 ∧ x = (fun _ => 0) then 1 else 0, ?_⟩
  rw [← sum_flux, Finset.sum_singleton, flux, Fin.sum_univ_three]
  have h : shiftIdx 0 (-1) (fun _ => 0 : Idx (fun _ : Fin 3 => 2)) ≠ fun _ => 0 := by decide
  simp [h]

end Meanas.Props
