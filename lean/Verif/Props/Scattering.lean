/-
C145 (scattered fields: equivalent currents in frequency and time domain, optical theorem).
-/
import Verif.Props.FdfdPoynting
import Verif.Props.FdtdTransform
import Verif.Props.Resonances
import Verif.Props.FdfdConvergence

namespace Meanas.Props

open Matrix Complex Fdfd Spec Fdtd

variable {sh : Fin 3 → ℕ}

theorem curlF_diff {K : Type*} [Field K] (dx : Option (DxList sh K)) (f g : VField sh K) (c : Fin 3) (x : Idx sh) :
    Functional.curlForward dx (fun c x => f c x - g c x) c x = Functional.curlForward dx f c x - Functional.curlForward dx g c x := by
  revert c
  refine forall_fin3 ?_ ?_ ?_ <;> simp only [curlForward_0, curlForward_1, curlForward_2, derivForward_eq] <;> ring

theorem curlB_diff {K : Type*} [Field K] (dx : Option (DxList sh K)) (f g : VField sh K) (c : Fin 3) (x : Idx sh) :
    Functional.curlBack dx (fun c x => f c x - g c x) c x = Functional.curlBack dx f c x - Functional.curlBack dx g c x := by
  revert c
  refine forall_fin3 ?_ ?_ ?_ <;> simp only [curlBack_0, curlBack_1, curlBack_2, derivBack_eq] <;> ring

/-- Permittivity enters `e_full` additively. -/
theorem eFull_eps_diff (ω : ℂ) (dxes : Dx sh) (eps eps₀ : Vec sh) (mu : Option (Vec sh)) (pec pmc : Option (Pos sh → Bool)) {E : Vec sh} (hE : OffPec pec E) :
    eFull ω dxes eps mu pec pmc *ᵥ E = eFull ω dxes eps₀ mu pec pmc *ᵥ E - (-I * ω) • fun p => I * ω * ((eps p - eps₀ p) * E p) := by
  funext p
  rw [Pi.sub_apply, eFull_off ω dxes eps mu pec pmc hE, eFull_off ω dxes eps₀ mu pec pmc hE, eFull_zero_eps dxes eps eps₀, Pi.smul_apply, smul_eq_mul]
  linear_combination (-(ω ^ 2 * ((eps p - eps₀ p) * E p))) * I_mul_I

/-- C145: scattered field, driven in the structure. If `E₀` is the field of `J` without the scatterer, then `E` is the field of `J` with the scatterer if
and only if `E - E₀` is, in the same structure, the field of the current `iω(ε - ε₀)E₀`, which flows only in the scatterer. -/
theorem C145_scattered (ω : ℂ) (dxes : Dx sh) (eps eps₀ : Vec sh) (mu : Option (Vec sh)) (pec pmc : Option (Pos sh → Bool)) (E₀ E J : Vec sh) (h0 : OffPec pec E₀)
    (hE₀ : eFull ω dxes eps₀ mu pec pmc *ᵥ E₀ = (-I * ω) • J) :
    eFull ω dxes eps mu pec pmc *ᵥ E = (-I * ω) • J ↔
      eFull ω dxes eps mu pec pmc *ᵥ (E - E₀) = (-I * ω) • fun p => I * ω * ((eps p - eps₀ p) * E₀ p) := by
  rw [mulVec_sub, eFull_eps_diff ω dxes eps eps₀ mu pec pmc h0, hE₀]
  constructor
  · intro h; rw [h]; abel
  · intro h
    rw [sub_eq_iff_eq_add] at h
    rw [h]; abel

/-- C145: the same field, driven in the background. It is the field of the polarisation current `iω(ε - ε₀)E` of the total field, radiating without the
scatterer. -/
theorem C145_polarisation (ω : ℂ) (dxes : Dx sh) (eps eps₀ : Vec sh) (mu : Option (Vec sh)) (pec pmc : Option (Pos sh → Bool)) (E₀ E J : Vec sh) (h : OffPec pec E)
    (hE₀ : eFull ω dxes eps₀ mu pec pmc *ᵥ E₀ = (-I * ω) • J) :
    eFull ω dxes eps mu pec pmc *ᵥ E = (-I * ω) • J ↔
      eFull ω dxes eps₀ mu pec pmc *ᵥ (E - E₀) = (-I * ω) • fun p => I * ω * ((eps p - eps₀ p) * E p) := by
  rw [mulVec_sub, eFull_eps_diff ω dxes eps eps₀ mu pec pmc h, hE₀]
  constructor
  · intro h; rw [← h]; abel
  · intro h; rw [← h]; abel

/-- C145: magnetic scatterers. A change of the permeability is the magnetic current `iω(μ - μ₀)H₀`, converted by `operators.m2j`. -/
theorem C145_magnetic (ω : ℂ) (hω : ω ≠ 0) (dxes : Dx sh) (eps eps₀ : Vec sh) (mu mu₀ : Option (Vec sh)) (hmu : ∀ p, (mu.getD 1) p ≠ 0) (hmu₀ : ∀ p, (mu₀.getD 1) p ≠ 0)
    (E₀ E J : Vec sh) (hE₀ : eFull ω dxes eps₀ mu₀ none none *ᵥ E₀ = (-I * ω) • J) :
    eFull ω dxes eps mu none none *ᵥ E = (-I * ω) • J ↔
      eFull ω dxes eps mu none none *ᵥ (E - E₀) = (-I * ω) • ((fun p => I * ω * ((eps p - eps₀ p) * E₀ p))
        + m2j ω dxes mu *ᵥ fun p => I * ω * (((mu.getD 1) p - (mu₀.getD 1) p) * (e2h ω dxes mu₀ none *ᵥ E₀) p)) := by
  have hV : ∀ m : Option (Vec sh), muV m = m.getD 1 := fun m => by cases m <;> rfl
  have hI : (I : ℂ) ≠ 0 := I_ne_zero
  have key : eFull ω dxes eps mu none none *ᵥ E₀ = eFull ω dxes eps₀ mu₀ none none *ᵥ E₀ - (-I * ω) • ((fun p => I * ω * ((eps p - eps₀ p) * E₀ p))
        + m2j ω dxes mu *ᵥ fun p => I * ω * (((mu.getD 1) p - (mu₀.getD 1) p) * (e2h ω dxes mu₀ none *ᵥ E₀) p)) := by
    funext p
    rw [Pi.sub_apply, eFull_mulVec, eFull_mulVec, Pi.smul_apply, Pi.add_apply, m2j_mulVec, smul_eq_mul]
    simp only [e2h_mulVec, hV]
    have e1 : (fun q => I * ω * (((mu.getD 1) q - (mu₀.getD 1) q) * (cE dxes E₀ q / (-I * ω) / (mu₀.getD 1) q)) / (mu.getD 1) q)
        = fun q => cE dxes E₀ q / (mu.getD 1) q + (-1) * (cE dxes E₀ q / (mu₀.getD 1) q) := by
      funext q
      have := hmu q; have := hmu₀ q
      field_simp
      ring
    rw [e1, cH_add, cH_smul]
    field_simp
    linear_combination (-(ω ^ 2 * ((eps p - eps₀ p) * E₀ p))) * I_mul_I
  rw [mulVec_sub, key, hE₀]
  constructor
  · intro h; rw [h]; abel
  · intro h
    rw [sub_eq_iff_eq_add] at h
    rw [h]; abel

/-- C145: optical theorem. In any set of cells without sources and with lossless background, the power carried away by the scattered field plus the power
absorbed (what the total field brings in) is the extinction: the work of the incident field on the polarisation current. -/
theorem C145_optical (ω : ℝ) (hω : ω ≠ 0) (d : DxList sh ℝ × DxList sh ℝ) (hd : Nonzero d.1 ∧ Nonzero d.2) (eps eps₀ : VField sh ℂ) (mu : Option (VField sh ℂ))
    (hmu : ∀ m, mu = some m → ∀ c x, m c x ≠ 0) (E₀ E J H₀ H : VField sh ℂ)
    (hE₀ : eFull ω (cDx d) (vecS eps₀) (mu.map vecS) none none *ᵥ vecS E₀ = (-I * ω) • vecS J)
    (hE : eFull ω (cDx d) (vecS eps) (mu.map vecS) none none *ᵥ vecS E = (-I * ω) • vecS J)
    (hH₀ : vecS H₀ = Fdfd.e2h ω (cDx d) (mu.map vecS) none *ᵥ vecS E₀) (hH : vecS H = Fdfd.e2h ω (cDx d) (mu.map vecS) none *ᵥ vecS E)
    (R : Finset (Idx sh)) (hJ : ∀ x ∈ R, ∀ c, J c x = 0) (hl : ∀ x ∈ R, ∀ c, (eps₀ c x).im = 0 ∧ (mu.getD 1 c x).im = 0) :
    (surfaceFlux (FdfdF.poyntingECrossH (cDx d) (fun c x => E c x - E₀ c x) fun c y => (starRingEnd ℂ) (H c y - H₀ c y)) R).re
        + -(surfaceFlux (FdfdF.poyntingECrossH (cDx d) E fun c y => (starRingEnd ℂ) (H c y)) R).re
      = ∑ x ∈ R, ∑ c, volE d.1 d.2 c x * (E₀ c x * (starRingEnd ℂ) (I * ω * ((eps c x - eps₀ c x) * E c x))).re ∧
    -(surfaceFlux (FdfdF.poyntingECrossH (cDx d) E fun c y => (starRingEnd ℂ) (H c y)) R).re
      = ω * ∑ x ∈ R, ∑ c, volE d.1 d.2 c x * (-(eps c x).im * normSq (E c x)) := by
  have hs := (C145_polarisation (ω : ℂ) (cDx d) (vecS eps) (vecS eps₀) (mu.map vecS) none none (vecS E₀) (vecS E) (vecS J) (by intro m h; cases h) hE₀).1 hE
  have hs' : eFull ω (cDx d) (vecS eps₀) (mu.map vecS) none none *ᵥ vecS (fun c x => E c x - E₀ c x)
      = (-I * ω) • vecS (fun c x => I * ω * ((eps c x - eps₀ c x) * E c x)) := hs
  have hHs : vecS (fun c x => H c x - H₀ c x) = Fdfd.e2h ω (cDx d) (mu.map vecS) none *ᵥ vecS (fun c x => E c x - E₀ c x) := by
    have e1 : vecS (fun c x => H c x - H₀ c x) = vecS H - vecS H₀ := rfl
    have e2 : vecS (fun c x => E c x - E₀ c x) = vecS E - vecS E₀ := rfl
    rw [e1, e2, mulVec_sub, hH, hH₀]
  have p1 := C100_average_power ω hω d hd eps₀ mu hmu _ _ _ hs' hHs R
  have p2 := C100_average_power ω hω d hd eps mu hmu E J H hE hH R
  have z1 : ∑ x ∈ R, ∑ c, (volE d.1 d.2 c x * ((eps₀ c x).im * normSq (E c x - E₀ c x)) + volH d.1 d.2 c x * ((mu.getD 1 c x).im * normSq (H c x - H₀ c x))) = 0 :=
    Finset.sum_eq_zero fun x hx => Finset.sum_eq_zero fun c _ => by rw [(hl x hx c).1, (hl x hx c).2]; simp
  have z2 : ∑ x ∈ R, ∑ c, volE d.1 d.2 c x * (E c x * (starRingEnd ℂ) (J c x)).re = 0 :=
    Finset.sum_eq_zero fun x hx => Finset.sum_eq_zero fun c _ => by rw [hJ x hx c]; simp
  have z3 : ∑ x ∈ R, ∑ c, (volE d.1 d.2 c x * ((eps c x).im * normSq (E c x)) + volH d.1 d.2 c x * ((mu.getD 1 c x).im * normSq (H c x)))
      = ∑ x ∈ R, ∑ c, volE d.1 d.2 c x * ((eps c x).im * normSq (E c x)) :=
    Finset.sum_congr rfl fun x hx => Finset.sum_congr rfl fun c _ => by rw [(hl x hx c).2]; simp
  rw [z1, mul_zero, add_zero] at p1
  rw [z2, neg_zero, zero_add, z3] at p2
  refine ⟨?_, ?_⟩
  · rw [p1, p2, Finset.mul_sum, ← sub_eq_add_neg, ← Finset.sum_neg_distrib, ← Finset.sum_sub_distrib]
    refine Finset.sum_congr rfl fun x hx => ?_
    rw [Finset.mul_sum, ← Finset.sum_neg_distrib, ← Finset.sum_sub_distrib]
    refine Finset.sum_congr rfl fun c _ => ?_
    have h0 := (hl x hx c).1
    simp only [map_mul, conj_I, conj_ofReal, map_sub, mul_re, mul_im, sub_re, sub_im, ofReal_re, ofReal_im, neg_re, neg_im, I_re, I_im, conj_re, conj_im, normSq_apply, h0]
    ring
  · rw [p2, ← mul_neg, ← Finset.sum_neg_distrib]
    congr 1
    refine Finset.sum_congr rfl fun x _ => ?_
    rw [← Finset.sum_neg_distrib]
    exact Finset.sum_congr rfl fun c _ => by ring

/-- What leaves a set enters the rest. -/
theorem surfaceFlux_compl (S : VField sh ℂ) (R : Finset (Idx sh)) : surfaceFlux S R = -surfaceFlux S Rᶜ := by
  unfold surfaceFlux
  rw [← Finset.sum_neg_distrib]
  refine Finset.sum_congr rfl fun a _ => ?_
  simp only [Finset.mem_compl, not_not]
  ring

/-- C145: with the scatterer inside the set and passive media in the background, the scattered field carries power away. -/
theorem C145_passive (ω : ℝ) (hω : 0 < ω) (d : DxList sh ℝ × DxList sh ℝ) (hd : PosGrid d) (eps eps₀ : VField sh ℂ) (mu : Option (VField sh ℂ))
    (hmu : ∀ m, mu = some m → ∀ c x, m c x ≠ 0) (E₀ E J H₀ H : VField sh ℂ)
    (hE₀ : eFull ω (cDx d) (vecS eps₀) (mu.map vecS) none none *ᵥ vecS E₀ = (-I * ω) • vecS J)
    (hE : eFull ω (cDx d) (vecS eps) (mu.map vecS) none none *ᵥ vecS E = (-I * ω) • vecS J)
    (hH₀ : vecS H₀ = Fdfd.e2h ω (cDx d) (mu.map vecS) none *ᵥ vecS E₀) (hH : vecS H = Fdfd.e2h ω (cDx d) (mu.map vecS) none *ᵥ vecS E)
    (R : Finset (Idx sh)) (hsc : ∀ x ∉ R, ∀ c, eps c x = eps₀ c x) (hp : ∀ c x, (eps₀ c x).im ≤ 0 ∧ (mu.getD 1 c x).im ≤ 0) :
    0 ≤ (surfaceFlux (FdfdF.poyntingECrossH (cDx d) (fun c x => E c x - E₀ c x) fun c y => (starRingEnd ℂ) (H c y - H₀ c y)) R).re := by
  have hs := (C145_polarisation (ω : ℂ) (cDx d) (vecS eps) (vecS eps₀) (mu.map vecS) none none (vecS E₀) (vecS E) (vecS J) (by intro m h; cases h) hE₀).1 hE
  have hs' : eFull ω (cDx d) (vecS eps₀) (mu.map vecS) none none *ᵥ vecS (fun c x => E c x - E₀ c x)
      = (-I * ω) • vecS (fun c x => I * ω * ((eps c x - eps₀ c x) * E c x)) := hs
  have hHs : vecS (fun c x => H c x - H₀ c x) = Fdfd.e2h ω (cDx d) (mu.map vecS) none *ᵥ vecS (fun c x => E c x - E₀ c x) := by
    have e1 : vecS (fun c x => H c x - H₀ c x) = vecS H - vecS H₀ := rfl
    have e2 : vecS (fun c x => E c x - E₀ c x) = vecS E - vecS E₀ := rfl
    rw [e1, e2, mulVec_sub, hH, hH₀]
  have p1 := C100_average_power ω hω.ne' d ⟨fun a i => (hd.1 a i).ne', fun a i => (hd.2 a i).ne'⟩ eps₀ mu hmu _ _ _ hs' hHs Rᶜ
  have z1 : ∑ x ∈ Rᶜ, ∑ c, volE d.1 d.2 c x * ((E c x - E₀ c x) * (starRingEnd ℂ) (I * ω * ((eps c x - eps₀ c x) * E c x))).re = 0 :=
    Finset.sum_eq_zero fun x hx => Finset.sum_eq_zero fun c _ => by rw [hsc x (Finset.mem_compl.1 hx) c]; simp
  rw [z1, neg_zero, zero_add] at p1
  have p2 : ∑ x ∈ Rᶜ, ∑ c, (volE d.1 d.2 c x * ((eps₀ c x).im * normSq (E c x - E₀ c x)) + volH d.1 d.2 c x * ((mu.getD 1 c x).im * normSq (H c x - H₀ c x))) ≤ 0 :=
    Finset.sum_nonpos fun x _ => Finset.sum_nonpos fun c _ => by
      have h1 := (hd.vol c x).le
      have h2 := (hd.volH c x).le
      have h3 := mul_nonneg h1 (mul_nonneg (neg_nonneg.2 (hp c x).1) (normSq_nonneg (E c x - E₀ c x)))
      have h4 := mul_nonneg h2 (mul_nonneg (neg_nonneg.2 (hp c x).2) (normSq_nonneg (H c x - H₀ c x)))
      linarith
  have p3 := surfaceFlux_compl (FdfdF.poyntingECrossH (cDx d) (fun c x => E c x - E₀ c x) fun c y => (starRingEnd ℂ) (H c y - H₀ c y)) R
  have p4 := congrArg Complex.re p3
  rw [neg_re] at p4
  rw [p4, p1]
  have := mul_nonneg hω.le (neg_nonneg.2 p2)
  linarith

/-- C145: the extinction of a passive scatterer is not negative, and it vanishes only if nothing is scattered and nothing absorbed. -/
theorem C145_extinction (ω : ℝ) (hω : 0 < ω) (d : DxList sh ℝ × DxList sh ℝ) (hd : PosGrid d) (eps eps₀ : VField sh ℂ) (mu : Option (VField sh ℂ))
    (hmu : ∀ m, mu = some m → ∀ c x, m c x ≠ 0) (E₀ E J H₀ H : VField sh ℂ)
    (hE₀ : eFull ω (cDx d) (vecS eps₀) (mu.map vecS) none none *ᵥ vecS E₀ = (-I * ω) • vecS J)
    (hE : eFull ω (cDx d) (vecS eps) (mu.map vecS) none none *ᵥ vecS E = (-I * ω) • vecS J)
    (hH₀ : vecS H₀ = Fdfd.e2h ω (cDx d) (mu.map vecS) none *ᵥ vecS E₀) (hH : vecS H = Fdfd.e2h ω (cDx d) (mu.map vecS) none *ᵥ vecS E)
    (R : Finset (Idx sh)) (hJ : ∀ x ∈ R, ∀ c, J c x = 0) (hl : ∀ x ∈ R, ∀ c, (eps₀ c x).im = 0 ∧ (mu.getD 1 c x).im = 0)
    (hsc : ∀ x ∉ R, ∀ c, eps c x = eps₀ c x) (hp : ∀ c x, (eps c x).im ≤ 0 ∧ (eps₀ c x).im ≤ 0 ∧ (mu.getD 1 c x).im ≤ 0) :
    let ext := ∑ x ∈ R, ∑ c, volE d.1 d.2 c x * (E₀ c x * (starRingEnd ℂ) (I * ω * ((eps c x - eps₀ c x) * E c x))).re
    0 ≤ ext ∧ (ext = 0 →
      (surfaceFlux (FdfdF.poyntingECrossH (cDx d) (fun c x => E c x - E₀ c x) fun c y => (starRingEnd ℂ) (H c y - H₀ c y)) R).re = 0 ∧
      ∀ x ∈ R, ∀ c, (eps c x).im * normSq (E c x) = 0) := by
  intro ext
  obtain ⟨o1, o2⟩ := C145_optical ω hω.ne' d ⟨fun a i => (hd.1 a i).ne', fun a i => (hd.2 a i).ne'⟩ eps eps₀ mu hmu E₀ E J H₀ H hE₀ hE hH₀ hH R hJ hl
  have o3 := C145_passive ω hω d hd eps eps₀ mu hmu E₀ E J H₀ H hE₀ hE hH₀ hH R hsc fun c x => (hp c x).2
  have t : ∀ x ∈ R, ∀ c, 0 ≤ volE d.1 d.2 c x * (-(eps c x).im * normSq (E c x)) := fun x _ c =>
    mul_nonneg (hd.vol c x).le (mul_nonneg (neg_nonneg.2 (hp c x).1) (normSq_nonneg _))
  have o4 : 0 ≤ ∑ x ∈ R, ∑ c, volE d.1 d.2 c x * (-(eps c x).im * normSq (E c x)) := Finset.sum_nonneg fun x hx => Finset.sum_nonneg fun c _ => t x hx c
  have o5 := mul_nonneg hω.le o4
  rw [o2] at o1
  refine ⟨by simp only [ext]; rw [← o1]; exact add_nonneg o3 o5, fun h0 => ?_⟩
  simp only [ext] at h0
  rw [h0] at o1
  refine ⟨by linarith, fun x hx c => ?_⟩
  have o6 : ∑ x ∈ R, ∑ c, volE d.1 d.2 c x * (-(eps c x).im * normSq (E c x)) = 0 := by
    have : ω * ∑ x ∈ R, ∑ c, volE d.1 d.2 c x * (-(eps c x).im * normSq (E c x)) = 0 := by linarith
    exact (mul_eq_zero.1 this).resolve_left hω.ne'
  have o7 := (Finset.sum_eq_zero_iff_of_nonneg fun x hx => Finset.sum_nonneg fun c _ => t x hx c).1 o6 x hx
  have o8 := (Finset.sum_eq_zero_iff_of_nonneg fun c _ => t x hx c).1 o7 c (Finset.mem_univ _)
  have := (mul_eq_zero.1 o8).resolve_left (hd.vol c x).ne'
  linarith

/-- The hypotheses are met: every pair of fields without zeros, `E₀` real, is such a pair for suitable media, on every grid. -/
example (ω : ℝ) (hω : 0 < ω) (d : DxList sh ℝ × DxList sh ℝ) (E₀ : VField sh ℝ) (E : VField sh ℂ) (h0 : ∀ c x, E₀ c x ≠ 0) (h1 : ∀ c x, E c x ≠ 0) :
    ∃ (eps₀ : VField sh ℝ) (eps : VField sh ℂ),
      eFull ω (cDx d) (vecS fun c x => (eps₀ c x : ℂ)) none none none *ᵥ vecS (fun c x => (E₀ c x : ℂ)) = (-I * ω) • vecS (0 : VField sh ℂ) ∧
      eFull ω (cDx d) (vecS eps) none none none *ᵥ vecS E = (-I * ω) • vecS (0 : VField sh ℂ) := by
  have hω' : (ω : ℂ) ≠ 0 := ofReal_ne_zero.2 hω.ne'
  have hr : ∀ c x, ∃ r : ℝ, cH (cDx d) (fun q => cE (cDx d) (vecS fun c x => (E₀ c x : ℂ)) q / muV none q) (c, x) = r := by
    intro c x
    have e : (fun q => cE (cDx d) (vecS fun c x => (E₀ c x : ℂ)) q / muV none q) = vecS fun c x => ((Functional.curlForward (some d.1) E₀ c x : ℝ) : ℂ) := by
      funext ⟨c, x⟩
      show Functional.curlForward (some (cDx d).1) (fun c x => (E₀ c x : ℂ)) c x / 1 = ((Functional.curlForward (some d.1) E₀ c x : ℝ) : ℂ)
      rw [div_one]
      exact curlForward_ofReal (some d) E₀ c x
    exact ⟨Functional.curlBack (some d.2) (Functional.curlForward (some d.1) E₀) c x, by rw [e]; exact curlBack_ofReal (some d) _ c x⟩
  choose r hr using hr
  refine ⟨fun c x => r c x / (ω ^ 2 * E₀ c x), fun c x => cH (cDx d) (fun q => cE (cDx d) (vecS E) q / muV none q) (c, x) / (ω ^ 2 * E c x), ?_, ?_⟩
  · funext ⟨c, x⟩
    rw [eFull_mulVec, hr]
    have : ((E₀ c x : ℝ) : ℂ) ≠ 0 := ofReal_ne_zero.2 (h0 c x)
    simp only [vecS_apply, Pi.smul_apply, Pi.zero_apply, smul_zero]
    push_cast
    field_simp
    ring
  · funext ⟨c, x⟩
    rw [eFull_mulVec]
    have := h1 c x
    simp only [vecS_apply, Pi.smul_apply, Pi.zero_apply, smul_zero]
    field_simp
    ring

/-- C145: scattered field in the time domain. The difference of a run with the scatterer and a run without it is a run with the scatterer whose currents are
`(ε - ε₀) ∂E₀/∂t` and `(μ - μ₀) ∂H₀/∂t`, with the differences of consecutive samples as derivatives. -/
theorem C145_fdtd {K : Type*} [Field K] (S S₀ : Sys sh K) (d : Dxes sh K) (hS : S.dxes = some d) (hS₀ : S₀.dxes = some d) (hdt' : S₀.dt = S.dt) (hdt : S.dt ≠ 0)
    (heps : ∀ c x, S.eps c x ≠ 0) (heps₀ : ∀ c x, S₀.eps c x ≠ 0) (hmu : ∀ c x, muOr S.mu c x ≠ 0) (hmu₀ : ∀ c x, muOr S₀.mu c x ≠ 0) (s s₀ : State sh K)
    (J M : ℕ → VField sh K) (n : ℕ) :
    let st : ℕ → State sh K := fun n => run S s (sourced S.dt J M n)
    let st₀ : ℕ → State sh K := fun n => run S₀ s₀ (sourced S.dt J M n)
    let Js : ℕ → VField sh K := fun n c x => (S.eps c x - S₀.eps c x) * ((st₀ (n + 1)).e c x - (st₀ n).e c x) / S.dt
    let Ms : ℕ → VField sh K := fun n c x => (muOr S.mu c x - muOr S₀.mu c x) * ((st₀ (n + 1)).h c x - (st₀ n).h c x) / S.dt
    let sc := run S ⟨fun c x => s.e c x - s₀.e c x, fun c x => s.h c x - s₀.h c x⟩ (sourced S.dt Js Ms n)
    ∀ c x, sc.e c x = (st n).e c x - (st₀ n).e c x ∧ sc.h c x = (st n).h c x - (st₀ n).h c x := by
  intro st st₀ Js Ms
  induction n with
  | zero => intro sc c x; exact ⟨rfl, rfl⟩
  | succ n ih =>
    intro sc
    have hst := sourced_step S d hS s J M n
    have hst₀ := sourced_step S₀ d hS₀ s₀ J M n
    have hsc := sourced_step S d hS ⟨fun c x => s.e c x - s₀.e c x, fun c x => s.h c x - s₀.h c x⟩ Js Ms n
    rw [hdt'] at hst₀
    have ie : (run S ⟨fun c x => s.e c x - s₀.e c x, fun c x => s.h c x - s₀.h c x⟩ (sourced S.dt Js Ms n)).e = fun c x => (st n).e c x - (st₀ n).e c x :=
      funext fun c => funext fun x => (ih c x).1
    have hH : ∀ c x, sc.h c x = (st (n + 1)).h c x - (st₀ (n + 1)).h c x := by
      intro c x
      refine (hsc c x).1.trans ?_
      rw [(ih c x).2, ie]
      have e0 : Functional.curlForward (some d.1) (fun c x => (st n).e c x - (st₀ n).e c x) c x
          = Functional.curlForward (some d.1) (st n).e c x - Functional.curlForward (some d.1) (st₀ n).e c x := curlF_diff ..
      have e1 : (st (n + 1)).h c x = _ := (hst c x).1
      have e2 : (st₀ (n + 1)).h c x = _ := (hst₀ c x).1
      have h1 := hmu c x; have h2 := hmu₀ c x
      simp only [Ms]
      rw [e0, e1, e2]
      show _ = (st n).h c x - S.dt * _ / _ - ((st₀ n).h c x - S.dt * _ / _)
      have := hdt
      field_simp
      ring
    have iH : sc.h = fun c x => (st (n + 1)).h c x - (st₀ (n + 1)).h c x := funext fun c => funext fun x => hH c x
    intro c x
    refine ⟨?_, hH c x⟩
    refine (hsc c x).2.trans ?_
    rw [(ih c x).1]
    have e0 : Functional.curlBack (some d.2) sc.h c x
        = Functional.curlBack (some d.2) (st (n + 1)).h c x - Functional.curlBack (some d.2) (st₀ (n + 1)).h c x := by rw [iH]; exact curlB_diff ..
    have e1 : (st (n + 1)).e c x = _ := (hst c x).2
    have e2 : (st₀ (n + 1)).e c x = _ := (hst₀ c x).2
    have h1 := heps c x; have h2 := heps₀ c x
    simp only [Js]
    show (st n).e c x - (st₀ n).e c x + S.dt * (Functional.curlBack (some d.2) sc.h c x - _) / _ = _
    rw [e0, e1, e2]
    show _ = (st n).e c x + S.dt * (Functional.curlBack (some d.2) (st (n + 1)).h c x - _) / _ - ((st₀ n).e c x + S.dt * (Functional.curlBack (some d.2) (st₀ (n + 1)).h c x - _) / _)
    have := hdt
    field_simp
    ring

end Meanas.Props
