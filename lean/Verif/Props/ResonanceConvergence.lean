/-
C129: the resonances of the wave operator of meanas/fdfd/operators.py:40-96 (`e_full`) converge with second order to those of Maxwell's equations.
-/
import Verif.Props.Ringing
import Verif.Lemmas.Sampling
import Mathlib.Analysis.SpecialFunctions.Trigonometric.Bounds
import Mathlib.Analysis.Real.Pi.Bounds

namespace Meanas.Props

open Matrix Complex Fdfd Spec Fdtd

variable {sh : Fin 3 → ℕ}

/-- The fields spanned by those resonant at a frequency within `η` of `ω`. -/
def nearSpan (dxes : Dx sh) (eps : Vec sh) (mu : Option (Vec sh)) (ω η : ℝ) : Submodule ℂ (Vec sh) :=
  Submodule.span ℂ {F | ∃ w : ℝ, 0 ≤ w ∧ |w - ω| < η ∧ IsResonant w dxes eps mu none none F}

theorem stiff_apply (d : DxList sh ℝ × DxList sh ℝ) (eps mu : Pos sh → ℝ) (E : Vec sh) (p : Pos sh) :
    (stiff d eps (some mu) none none *ᵥ E) p = ((volE d.1 d.2 p.1 p.2 : ℝ) : ℂ) * cH (cDx d) (fun q => cE (cDx d) E q / (mu q : ℂ)) p := by
  rw [stiff, ← mulVec_mulVec, mulVec_diagonal, pSquared_real, eFull_mulVec]
  simp only [zero_pow two_ne_zero, zero_mul, sub_zero]
  rfl

theorem sqH_eq (d : DxList sh ℝ × DxList sh ℝ) (mu : Pos sh → ℝ) (E : Vec sh) : sqH d mu (cE (cDx d) E) = curlEnergy d (some mu) none E := by
  rw [sqH, curlEnergy]
  exact Finset.sum_congr rfl fun p _ => by
    simp only [openAt, muR, normSq_eq_norm_sq]; rw [div_eq_mul_inv, mul_one]

/-- C129: fields that solve the source-free equations up to residuals `r₁` (of Faraday's law) and `r₂` (of Ampere's law) are close to resonant fields:
outside the resonances within `η` they have a part of size at most `‖residual‖ / η`. -/
theorem C129_residual (d : DxList sh ℝ × DxList sh ℝ) (hd : PosGrid d) (eps mu : Pos sh → ℝ) (heps : ∀ p, 0 < eps p) (hmu : ∀ p, 0 < mu p)
    (ω : ℝ) (hω : 0 < ω) (E H r₁ r₂ : Vec sh) (h₁ : ∀ p, cE (cDx d) E p = -I * ω * (mu p * H p) + r₁ p)
    (h₂ : ∀ p, cH (cDx d) H p = I * ω * (eps p * E p) + r₂ p) (η : ℝ) (hη : 0 < η) :
    ∃ G ∈ nearSpan (cDx d) (rEps eps) (realMu (some mu)) ω η,
      η ^ 2 * ∑ p : Pos sh, volE d.1 d.2 p.1 p.2 * eps p * ‖E p - G p‖ ^ 2
        ≤ ∑ p : Pos sh, volE d.1 d.2 p.1 p.2 / eps p * ‖r₂ p‖ ^ 2 + ∑ p : Pos sh, volH d.1 d.2 p.1 p.2 / mu p * ‖r₁ p‖ ^ 2 := by
  classical
  have hmu' : ∀ p, 0 < muR (some mu) p := hmu
  have wH : ∀ p : Pos sh, 0 ≤ Spec.volH d.1 d.2 p.1 p.2 / mu p := fun p => div_nonneg (hd.volH p.1 p.2).le (hmu p).le
  set K := stiff d eps (some mu) none none with hK
  set e := mass d eps with he
  have hKh : K.IsHermitian := stiff_hermitian d hd eps (some mu) none none
  obtain ⟨F, l, f1, f2⟩ := Pencil.exists_diag hKh (mass_pos d eps hd heps)
  rw [← he] at f1 f2
  have f3 : Fᴴ * K = Pencil.dg l * (Fᴴ * Pencil.dg e) := by
    have := congrArg conjTranspose f2
    rwa [conjTranspose_mul, hKh.eq, conjTranspose_mul, conjTranspose_mul, Pencil.dg_conj, Pencil.dg_conj] at this
  have hoff : ∀ E : Vec sh, OffPec none E := fun E m hm => by cases hm
  have coef : ∀ x : Vec sh, (Fᴴ * Pencil.dg e) *ᵥ (F *ᵥ x) = x := fun x => by rw [mulVec_mulVec, f1, one_mulVec]
  have formK : ∀ x : Vec sh, sqH d mu (cE (cDx d) (F *ᵥ x)) = ∑ j, l j * normSq (x j) := fun x => by
    rw [sqH_eq, ← stiff_form d hd eps (some mu) none none (hoff _), ← hK, Pencil.form_K f1 f2, coef]
  have hcol : ∀ j, F *ᵥ (Pi.single j 1) = F.col j := fun j => mulVec_single_one F j
  have hl : ∀ j, 0 ≤ l j := by
    intro j
    have := formK (Pi.single j 1)
    rw [sqH_eq] at this
    have h0 := curlEnergy_nonneg d hd (some mu) none hmu' (F *ᵥ Pi.single j 1)
    rw [this, Finset.sum_eq_single j (fun b _ hb => by rw [Pi.single_eq_of_ne hb]; simp) (fun h => absurd (Finset.mem_univ j) h)] at h0
    simpa using h0
  set w : Pos sh → ℝ := fun j => √(l j) with hw
  have hw2 : ∀ j, w j ^ 2 = l j := fun j => Real.sq_sqrt (hl j)
  have hw0 : ∀ j, 0 ≤ w j := fun j => Real.sqrt_nonneg _
  have hres : ∀ j, IsResonant (w j : ℝ) (cDx d) (rEps eps) (realMu (some mu)) none none (F.col j) := fun j =>
    ⟨hoff _, (resonant_iff d hd eps (some mu) none none _ (hoff _)).2 (by
      funext p
      have := congrFun (congrFun f2 p) j
      rw [Pencil.mul_dg] at this
      rw [Pi.smul_apply, smul_eq_mul, mul_comm, ← ofReal_pow, hw2]
      exact this)⟩
  -- the right hand sides
  set y₁ : Vec sh := fun p => ((volE d.1 d.2 p.1 p.2 : ℝ) : ℂ) * cH (cDx d) (fun q => r₁ q / (mu q : ℂ)) p with hy₁
  set y₂ : Vec sh := fun p => ((volE d.1 d.2 p.1 p.2 : ℝ) : ℂ) * r₂ p with hy₂
  set c := (Fᴴ * Pencil.dg e) *ᵥ E with hc
  set a := Fᴴ *ᵥ y₂ with ha
  set B := Fᴴ *ᵥ y₁ with hB
  have hKE : K *ᵥ E = (ω ^ 2 : ℂ) • (Pencil.dg e *ᵥ E) - (I * ω) • y₂ + y₁ := by
    funext p
    rw [hK, stiff_apply]
    simp only [Pi.add_apply, Pi.sub_apply, Pi.smul_apply, smul_eq_mul, Pencil.dg_mulVec, he, mass, hy₁, hy₂]
    have s1 : (fun q => cE (cDx d) E q / (mu q : ℂ)) = fun q => (-I * ω) * H q + r₁ q / (mu q : ℂ) := by
      funext q
      have : (mu q : ℂ) ≠ 0 := ofReal_ne_zero.2 (hmu q).ne'
      rw [h₁]; field_simp
    rw [s1, cH_add _ (fun q => (-I * ω) * H q) (fun q => r₁ q / (mu q : ℂ)), cH_smul, h₂]
    push_cast
    linear_combination (-((volE d.1 d.2 p.1 p.2 : ℝ) : ℂ) * ω ^ 2 * (eps p * E p)) * I_sq
  have hmode : ∀ j, ((w j ^ 2 - ω ^ 2 : ℝ) : ℂ) * c j = -(I * ω) * a j + B j := by
    intro j
    have h := congrFun (congrArg (fun v => Fᴴ *ᵥ v) hKE) j
    simp only [mulVec_add, mulVec_sub, mulVec_smul, mulVec_mulVec, f3] at h
    rw [← mulVec_mulVec, Pencil.dg_mulVec, ← hw2 j] at h
    simp only [Pi.add_apply, Pi.sub_apply, Pi.smul_apply, smul_eq_mul] at h
    rw [← hc, ← ha, ← hB] at h
    push_cast at h ⊢
    linear_combination h
  -- sizes of the right hand sides
  have hA : ∑ j, normSq (a j) = ∑ p : Pos sh, volE d.1 d.2 p.1 p.2 / eps p * ‖r₂ p‖ ^ 2 := by
    have h := Pencil.form_e f1 (fun p => r₂ p / (eps p : ℂ))
    have : (Fᴴ * Pencil.dg e) *ᵥ (fun p => r₂ p / (eps p : ℂ)) = a := by
      rw [← mulVec_mulVec, ha]
      congr 1
      funext p
      have : (eps p : ℂ) ≠ 0 := ofReal_ne_zero.2 (heps p).ne'
      rw [Pencil.dg_mulVec, he, mass, hy₂]; push_cast; field_simp
    rw [this] at h
    rw [← h]
    refine Finset.sum_congr rfl fun p _ => ?_
    have h0 := (heps p).ne'
    rw [he, mass, normSq_div, normSq_ofReal, normSq_eq_norm_sq]; field_simp
  have pair : ∀ x : Vec sh, ∑ j, (starRingEnd ℂ) (x j) * B j
      = ∑ p : Pos sh, ((Spec.volH d.1 d.2 p.1 p.2 / mu p : ℝ) : ℂ) * ((starRingEnd ℂ) (cE (cDx d) (F *ᵥ x) p) * r₁ p) := by
    intro x
    rw [← pair_curl d hd mu (F *ᵥ x) r₁]
    have h : star (F *ᵥ x) ⬝ᵥ y₁ = star x ⬝ᵥ B := by rw [star_mulVec, ← dotProduct_mulVec]
    simp only [dotProduct, Pi.star_apply, RCLike.star_def] at h
    rw [← h]
    exact Finset.sum_congr rfl fun p _ => by rw [hy₁]; ring
  have cs : ∀ x : Vec sh, ‖∑ j, (starRingEnd ℂ) (x j) * B j‖ ≤ √(∑ j, l j * normSq (x j)) * √(sqH d mu r₁) := by
    intro x
    rw [pair, ← formK]
    exact weighted_cs _ wH _ _
  have hB0 : ∀ j, l j = 0 → B j = 0 := by
    intro j hj
    have h := cs (Pi.single j 1)
    rw [Finset.sum_eq_single j (fun b _ hb => by rw [Pi.single_eq_of_ne hb]; simp) (fun h => absurd (Finset.mem_univ j) h),
      Finset.sum_eq_single j (fun b _ hb => by rw [Pi.single_eq_of_ne hb]; simp) (fun h => absurd (Finset.mem_univ j) h), hj] at h
    simpa using h
  set T := ∑ j, normSq (B j) / l j with hT
  have T0 : 0 ≤ T := Finset.sum_nonneg fun j _ => div_nonneg (normSq_nonneg _) (hl j)
  have hTle : T ≤ sqH d mu r₁ := by
    have h := cs fun j => B j / (l j : ℂ)
    have e1 : ∑ j, (starRingEnd ℂ) (B j / (l j : ℂ)) * B j = (T : ℂ) := by
      rw [hT]; push_cast
      refine Finset.sum_congr rfl fun j _ => ?_
      rw [map_div₀, conj_ofReal, ← mul_conj]; ring
    have e2 : ∑ j, l j * normSq (B j / (l j : ℂ)) = T := by
      rw [hT]
      refine Finset.sum_congr rfl fun j _ => ?_
      rw [normSq_div, normSq_ofReal]
      by_cases h0 : l j = 0
      · rw [h0]; simp
      · field_simp
    rw [e1, e2, norm_real, Real.norm_eq_abs, abs_of_nonneg T0] at h
    have R0 : 0 ≤ sqH d mu r₁ := Finset.sum_nonneg fun p _ => mul_nonneg (wH p) (sq_nonneg _)
    rcases T0.eq_or_lt with hz | hz
    · rw [← hz]; exact R0
    · have hs : 0 < √T := Real.sqrt_pos.2 hz
      have h2 : √T * √T ≤ √T * √(sqH d mu r₁) := by rwa [Real.mul_self_sqrt T0]
      exact (Real.sqrt_le_sqrt_iff R0).1 (le_of_mul_le_mul_left h2 hs)
  -- the far components
  have far : ∀ j, η ≤ |w j - ω| → η ^ 2 * normSq (c j) ≤ normSq (a j) + normSq (B j) / l j := by
    intro j hj
    have hs : 0 < w j + ω := add_pos_of_nonneg_of_pos (hw0 j) hω
    set b := ‖B j‖ / w j with hb
    have hbw : ‖B j‖ = w j * b := by
      by_cases h0 : w j = 0
      · have : l j = 0 := by rw [← hw2, h0]; ring
        rw [h0, hB0 j this]; simp
      · rw [hb]; field_simp
    have hb2 : b ^ 2 = normSq (B j) / l j := by rw [hb, div_pow, hw2, normSq_eq_norm_sq]
    have h1 : |w j - ω| * (w j + ω) * ‖c j‖ ≤ ω * ‖a j‖ + w j * b := by
      have := congrArg norm (hmode j)
      rw [norm_mul, norm_real, Real.norm_eq_abs, show w j ^ 2 - ω ^ 2 = (w j - ω) * (w j + ω) by ring, abs_mul, abs_of_pos hs] at this
      rw [this, ← hbw]
      refine (norm_add_le _ _).trans (le_of_eq ?_)
      rw [norm_mul, norm_neg, norm_mul, norm_I, one_mul, norm_real, Real.norm_eq_abs, abs_of_pos hω]
    have h2 : η * ‖c j‖ * (w j + ω) ≤ ω * ‖a j‖ + w j * b := by
      refine le_trans ?_ h1
      have := mul_le_mul_of_nonneg_right hj (mul_nonneg hs.le (norm_nonneg (c j)))
      nlinarith
    rw [← hb2, normSq_eq_norm_sq, normSq_eq_norm_sq]
    have h3 : (η * ‖c j‖ * (w j + ω)) ^ 2 ≤ (‖a j‖ ^ 2 + b ^ 2) * (w j + ω) ^ 2 := by
      refine (pow_le_pow_left₀ (by positivity) h2 2).trans ?_
      have hbn : 0 ≤ b := div_nonneg (norm_nonneg _) (hw0 j)
      nlinarith [sq_nonneg (ω * b - w j * ‖a j‖), mul_nonneg (mul_nonneg (hw0 j) hω.le) (sq_nonneg ‖a j‖), mul_nonneg (mul_nonneg (hw0 j) hω.le) (sq_nonneg b)]
    have h4 : (η ^ 2 * ‖c j‖ ^ 2) * (w j + ω) ^ 2 ≤ (‖a j‖ ^ 2 + b ^ 2) * (w j + ω) ^ 2 := by
      rw [← mul_pow, ← mul_pow]; exact h3
    exact le_of_mul_le_mul_right h4 (pow_pos hs 2)
  set x : Vec sh := fun j => if |w j - ω| < η then c j else 0 with hx
  refine ⟨F *ᵥ x, ?_, ?_⟩
  · have : F *ᵥ x = ∑ j, x j • F.col j := by
      funext i
      rw [Finset.sum_apply, mulVec, dotProduct]
      exact Finset.sum_congr rfl fun j _ => by rw [Pi.smul_apply, smul_eq_mul, mul_comm]; rfl
    rw [this]
    refine Submodule.sum_mem _ fun j _ => ?_
    by_cases hj : |w j - ω| < η
    · exact Submodule.smul_mem _ _ (Submodule.subset_span ⟨w j, hw0 j, hj, hres j⟩)
    · rw [hx]; simp only [if_neg hj, zero_smul]; exact Submodule.zero_mem _
  · have h := Pencil.form_e f1 (fun p => E p - (F *ᵥ x) p)
    have h2 : (Fᴴ * Pencil.dg e) *ᵥ (fun p => E p - (F *ᵥ x) p) = c - x := by
      rw [show (fun p => E p - (F *ᵥ x) p) = E - F *ᵥ x from rfl, mulVec_sub, coef]
    rw [h2] at h
    have h3 : ∑ p : Pos sh, volE d.1 d.2 p.1 p.2 * eps p * ‖E p - (F *ᵥ x) p‖ ^ 2 = ∑ j, normSq ((c - x) j) := by
      rw [← h]; exact Finset.sum_congr rfl fun p _ => by rw [normSq_eq_norm_sq, he, mass]
    rw [h3, ← hA, Finset.mul_sum]
    refine le_trans (Finset.sum_le_sum fun j _ => ?_) (le_trans (le_of_eq (Finset.sum_add_distrib (f := fun j => normSq (a j)) (g := fun j => normSq (B j) / l j)))
      (add_le_add_right hTle _))
    by_cases hj : |w j - ω| < η
    · rw [Pi.sub_apply, hx]; simp only [if_pos hj, sub_self, map_zero, mul_zero]
      exact add_nonneg (normSq_nonneg _) (div_nonneg (normSq_nonneg _) (hl j))
    · rw [Pi.sub_apply, hx]; simp only [if_neg hj, sub_zero]
      exact far j (not_lt.1 hj)


theorem line_periodic {L : Pt} {f : Pt → ℂ} (hf : Spec.Periodic L f) (a : Fin 3) (r : Pt) : Function.Periodic (line f a r) (L a) := by
  intro s
  have := hf a (Function.update r a s)
  rwa [Function.update_self, Function.update_idem] at this

theorem periodic_zmul {L : Pt} {f : Pt → ℂ} (hf : Spec.Periodic L f) (k : Fin 3 → ℤ) (r : Pt) : f (fun a => r a + k a * L a) = f r := by
  have one : ∀ (a : Fin 3) (r : Pt), f (Function.update r a (r a + k a * L a)) = f r := by
    intro a r
    have := (line_periodic hf a r).int_mul (k a) (r a)
    simpa [line] using this
  have e : (fun a => r a + k a * L a)
      = Function.update (Function.update (Function.update r 0 (r 0 + k 0 * L 0)) 1 (r 1 + k 1 * L 1)) 2 (r 2 + k 2 * L 2) := by
    funext a; fin_cases a <;> simp
  have h0 := one 0 r
  have h1 := one 1 (Function.update r 0 (r 0 + k 0 * L 0))
  have h2 := one 2 (Function.update (Function.update r 0 (r 0 + k 0 * L 0)) 1 (r 1 + k 1 * L 1))
  rw [Function.update_of_ne (by decide : (1 : Fin 3) ≠ 0)] at h1
  rw [Function.update_of_ne (by decide : (2 : Fin 3) ≠ 1), Function.update_of_ne (by decide : (2 : Fin 3) ≠ 0)] at h2
  rw [e, h2, h1, h0]

/-- A periodic function with a bounded third derivative is Lipschitz. -/
theorem lipschitz_line {M L : ℝ} (hL : 0 < L) {f : ℝ → ℂ} (hf : Smooth3 M f) (hp : Function.Periodic f L) (s t : ℝ) :
    ‖f s - f t‖ ≤ M * L ^ 2 / 6 * |s - t| := by
  have hd : ∀ m, ‖deriv f m‖ ≤ M * L ^ 2 / 6 := by
    intro m
    have h := central_diff hf m L hL.le
    have e : f (m + L) - f (m - L) = 0 := by
      rw [hp m, hp.sub_eq, sub_self]
    rw [e, zero_sub, norm_neg, norm_smul, Real.norm_eq_abs, abs_of_pos (by linarith)] at h
    have : 2 * L * ‖deriv f m‖ ≤ 2 * L * (M * L ^ 2 / 6) := by nlinarith
    exact le_of_mul_le_mul_left this (by linarith)
  have hdiff : ∀ x, DifferentiableAt ℝ f x := fun x => (hf.1.differentiable (by norm_num)) x
  have := Convex.norm_image_sub_le_of_norm_deriv_le (𝕜 := ℝ) (s := Set.univ) (fun x _ => hdiff x) (fun x _ => hd x) convex_univ (Set.mem_univ t) (Set.mem_univ s)
  simpa [Real.norm_eq_abs] using this

theorem lipschitz_pt {M : ℝ} {L : Pt} (hL : ∀ a, 0 < L a) {f : Pt → ℂ} (hf : ∀ a r, Smooth3 M (line f a r)) (hp : Spec.Periodic L f) (r r' : Pt) :
    ‖f r - f r'‖ ≤ ∑ a, M * L a ^ 2 / 6 * |r a - r' a| := by
  have one : ∀ (a : Fin 3) (r : Pt) (s : ℝ), ‖f r - f (Function.update r a s)‖ ≤ M * L a ^ 2 / 6 * |r a - s| := by
    intro a r s
    have := lipschitz_line (hL a) (hf a r) (line_periodic hp a r) (r a) s
    simpa [line] using this
  set r1 := Function.update r 0 (r' 0) with h1
  set r2 := Function.update r1 1 (r' 1) with h2
  have e : r' = Function.update r2 2 (r' 2) := by
    funext a; fin_cases a <;> simp [h1, h2]
  have k0 := one 0 r (r' 0)
  have k1 := one 1 r1 (r' 1)
  have k2 := one 2 r2 (r' 2)
  rw [← h1] at k0
  rw [← h2, show r1 1 = r 1 by simp [h1]] at k1
  rw [← e, show r2 2 = r 2 by simp [h1, h2]] at k2
  rw [Fin.sum_univ_three]
  calc ‖f r - f r'‖ = ‖(f r - f r1) + (f r1 - f r2) + (f r2 - f r')‖ := by congr 1; ring
    _ ≤ ‖f r - f r1‖ + ‖f r1 - f r2‖ + ‖f r2 - f r'‖ := norm_add₃_le
    _ ≤ _ := by linarith

/-- The samples of a field that does not vanish keep a positive norm on fine grids. -/
theorem sample_lower {M : ℝ} {L : Pt} (hL : ∀ a, 0 < L a) {f : Pt → ℂ} (hf : ∀ a r, Smooth3 M (line f a r)) (hp : Spec.Periodic L f) {r₀ : Pt}
    (h0 : f r₀ ≠ 0) : ∃ m > 0, ∃ h₀ > 0, ∀ (sh : Fin 3 → ℕ) (h o : Pt), (∀ a, L a = sh a * h a) → (∀ a, 0 < h a) → (∀ a, h a ≤ h₀) →
      m ≤ ∑ x : Idx sh, (∏ a, h a) * ‖f (latticePt h o x)‖ ^ 2 := by
  have M0 : 0 ≤ M := (norm_nonneg _).trans ((hf 0 0).2 0)
  refine Sampling.lower hL (periodic_zmul hp) (D := ∑ a, M * L a ^ 2 / 6) (fun r r' ρ h => ?_) h0
  refine (lipschitz_pt hL hf hp r r').trans ?_
  rw [Finset.sum_mul]
  exact Finset.sum_le_sum fun a _ => mul_le_mul_of_nonneg_left (h a) (by positivity)

/-- C129: explicit constants. Let `A = √(6 V / κ) M / 24` with the volume `V` of the box. On a uniform grid, the samples of a smooth source-free solution at
frequency `ω` are within `A Σ h² / η` of the fields resonant within `η` of `ω`. -/
theorem C129_samples {L h : Pt} (hL : ∀ a, L a = sh a * h a) (hh : ∀ a, 0 < h a) {ω : ℝ} (hω : 0 < ω) {ε μ : Fin 3 → Pt → ℝ} {κ : ℝ} (hκ : 0 < κ)
    (hε : ∀ c r, κ ≤ ε c r) (hμ : ∀ c r, κ ≤ μ c r) {E H : Fin 3 → Pt → ℂ} {M : ℝ}
    (hsol : HarmonicSolution L ω (fun c r => (ε c r : ℂ)) μ (fun _ _ => 0) E H M) (η : ℝ) (hη : 0 < η) :
    ∃ G ∈ nearSpan (cDx (uniformGrid sh h)) (vecE sh h fun c r => (ε c r : ℂ)) (realMu (some fun p => sampleH h μ p.1 p.2)) ω η,
      η ^ 2 * ∑ p : Pos sh, (∏ a, h a) * sampleE h ε p.1 p.2 * ‖vecE sh h E p - G p‖ ^ 2 ≤ 6 * (∏ a, L a) / κ * (M * (∑ a, h a ^ 2) / 24) ^ 2 := by
  set d := uniformGrid sh h with hd
  set mu : Pos sh → ℝ := fun p => sampleH h μ p.1 p.2 with hmu
  set eps : Pos sh → ℝ := fun p => sampleE h ε p.1 p.2 with heps
  have hpos : PosGrid d := ⟨fun a _ => hh a, fun a _ => hh a⟩
  have hmup : ∀ p, 0 < mu p := fun p => lt_of_lt_of_le hκ (hμ _ _)
  have hepsp : ∀ p, 0 < eps p := fun p => lt_of_lt_of_le hκ (hε _ _)
  have M0 : 0 ≤ M := (norm_nonneg _).trans ((hsol.spaceE 0 0 0).2 0)
  have vE : ∀ c x, volE d.1 d.2 c x = ∏ a, h a := fun c x => by simp only [volE, hd, uniformGrid, ite_self]
  have vH : ∀ c x, Spec.volH d.1 d.2 c x = ∏ a, h a := fun c x => by simp only [Spec.volH, hd, uniformGrid, ite_self]
  have hP : 0 < ∏ a, h a := Finset.prod_pos fun a _ => hh a
  set S := M * (∑ a, h a ^ 2) / 24 with hS
  have pairs : ∀ c : Fin 3, h (c + 1) ^ 2 + h (c + 2) ^ 2 ≤ ∑ a, h a ^ 2 := by
    intro c
    rw [Fin.sum_univ_three]
    fin_cases c <;> simp <;> nlinarith [sq_nonneg (h 0), sq_nonneg (h 1), sq_nonneg (h 2)]
  set r1 : Vec sh := fun p => cE (cDx d) (vecE sh h E) p - -I * ω * (mu p * vecH sh h H p) with hr1
  set r2 : Vec sh := fun p => cH (cDx d) (vecH sh h H) p - I * ω * (eps p * vecE sh h E p) with hr2
  have b1 : ∀ p, ‖r1 p‖ ≤ S := by
    rintro ⟨c, x⟩
    have := C104_curl_forward (sh := sh) hL hh E hsol.periodicE hsol.spaceE c x
    have e : sampleH h (curl E) c x = -I * ω * (mu (c, x) * vecH sh h H (c, x)) := hsol.faraday c _
    rw [e] at this
    refine (this : ‖r1 (c, x)‖ ≤ _).trans ?_
    have := mul_le_mul_of_nonneg_left (pairs c) M0
    simp only [S]; linarith
  have b2 : ∀ p, ‖r2 p‖ ≤ S := by
    rintro ⟨c, x⟩
    have := C104_curl_back (sh := sh) hL hh H hsol.periodicH hsol.spaceH c x
    have e : sampleE h (curl H) c x = I * ω * (eps (c, x) * vecE sh h E (c, x)) := (hsol.ampere c _).trans (add_zero _)
    rw [e] at this
    refine (this : ‖r2 (c, x)‖ ≤ _).trans ?_
    have := mul_le_mul_of_nonneg_left (pairs c) M0
    simp only [S]; linarith
  obtain ⟨G, hG, hle⟩ := C129_residual d hpos eps mu hepsp hmup ω hω (vecE sh h E) (vecH sh h H) r1 r2 (fun p => by rw [hr1]; ring) (fun p => by rw [hr2]; ring) η hη
  refine ⟨G, hG, ?_⟩
  have cells : (∑ _p : Pos sh, ∏ a, h a) = 3 * ∏ a, L a := by
    rw [Finset.sum_const, Finset.card_univ, Fintype.card_prod, Fintype.card_fin, Fintype.card_pi, nsmul_eq_mul]
    push_cast
    simp only [Fintype.card_fin, hL, Finset.prod_mul_distrib]
    ring
  have q : ∀ (k : Pos sh → ℝ) (r : Vec sh), (∀ p, κ ≤ k p) → (∀ p, ‖r p‖ ≤ S) → ∑ p : Pos sh, (∏ a, h a) / k p * ‖r p‖ ^ 2 ≤ 3 * (∏ a, L a) / κ * S ^ 2 := by
    intro k r hk hr
    rw [← cells, Finset.sum_div, Finset.sum_mul]
    exact Finset.sum_le_sum fun p _ => mul_le_mul (div_le_div_of_nonneg_left hP.le hκ (hk p)) (pow_le_pow_left₀ (norm_nonneg _) (hr p) 2) (sq_nonneg _) (by positivity)
  simp only [vE, vH] at hle
  have k1 := q mu r1 (fun p => hμ _ _) b1
  have k2 := q eps r2 (fun p => hε _ _) b2
  refine hle.trans ?_
  have : 6 * (∏ a, L a) / κ * S ^ 2 = 3 * (∏ a, L a) / κ * S ^ 2 + 3 * (∏ a, L a) / κ * S ^ 2 := by ring
  rw [this]; exact add_le_add k2 k1

/-- C129: second order. A smooth resonant field of a periodic box (any smooth enough lossless medium) with frequency `ω > 0` has a `C` such that on every fine
enough uniform grid `e_full` has a resonance `0 < w` with `|w - ω| ≤ C Σ h²`, and the samples of the field are within `C Σ h² / η` of the fields
resonant within `η` of `ω`, for every `η`. -/
theorem C129_second_order {L : Pt} (hLp : ∀ a, 0 < L a) {ω : ℝ} (hω : 0 < ω) {ε μ : Fin 3 → Pt → ℝ} {κ : ℝ} (hκ : 0 < κ)
    (hε : ∀ c r, κ ≤ ε c r) (hμ : ∀ c r, κ ≤ μ c r) {E H : Fin 3 → Pt → ℂ} {M : ℝ}
    (hsol : HarmonicSolution L ω (fun c r => (ε c r : ℂ)) μ (fun _ _ => 0) E H M) (hE : ∃ c r, E c r ≠ 0) :
    ∃ C : ℝ, ∃ h₀ > 0, ∀ (sh : Fin 3 → ℕ) (h : Pt), (∀ a, L a = sh a * h a) → (∀ a, 0 < h a) → (∀ a, h a ≤ h₀) →
      let dxes := cDx (uniformGrid sh h)
      let eps := vecE sh h fun c r => (ε c r : ℂ)
      let mu := realMu (some fun p : Pos sh => sampleH h μ p.1 p.2)
      (∃ w : ℝ, 0 < w ∧ |w - ω| ≤ C * ∑ a, h a ^ 2 ∧ w ≤ 2 * ω ∧ (w : ℂ) ∈ resonances dxes eps mu none none) ∧
      ∀ η > 0, ∃ G ∈ nearSpan dxes eps mu ω η,
        √(∑ p : Pos sh, (∏ a, h a) * sampleE h ε p.1 p.2 * ‖vecE sh h E p - G p‖ ^ 2) ≤ C / η * ∑ a, h a ^ 2 := by
  obtain ⟨c₀, r₀, hE⟩ := hE
  obtain ⟨m, m0, h₁, h₁0, hm⟩ := sample_lower hLp (hsol.spaceE c₀) (hsol.periodicE c₀) hE
  have M0 : 0 ≤ M := (norm_nonneg _).trans ((hsol.spaceE 0 0 0).2 0)
  have V0 : 0 < ∏ a, L a := Finset.prod_pos fun a _ => hLp a
  obtain ⟨A, hA⟩ : ∃ A, A = √(6 * (∏ a, L a) / κ) * (M / 24) := ⟨_, rfl⟩
  have A0 : 0 ≤ A := by rw [hA]; positivity
  have hA2 : A ^ 2 = 6 * (∏ a, L a) / κ * (M / 24) ^ 2 := by rw [hA, mul_pow, Real.sq_sqrt (by positivity)]
  have hs : 0 < √(κ * m) := Real.sqrt_pos.2 (mul_pos hκ m0)
  obtain ⟨C, hC⟩ : ∃ C, C = A + (A + 1) / √(κ * m) := ⟨_, rfl⟩
  have hC1 : A ≤ C := by rw [hC]; exact le_add_of_nonneg_right (by positivity)
  have hC2 : (A + 1) / √(κ * m) ≤ C := by rw [hC]; exact le_add_of_nonneg_left A0
  have C0 : 0 < C := lt_of_lt_of_le (by positivity) hC2
  refine ⟨C, min h₁ (min 1 (ω / (3 * C))), lt_min h₁0 (lt_min one_pos (by positivity)), ?_⟩
  intro sh h hL hh hle dxes eps mu
  obtain ⟨s2, hs2⟩ : ∃ s, s = ∑ a, h a ^ 2 := ⟨_, rfl⟩
  have s20 : 0 < s2 := by rw [hs2]; exact Finset.sum_pos (fun a _ => pow_pos (hh a) 2) Finset.univ_nonempty
  have key : ∀ η > 0, ∃ G ∈ nearSpan dxes eps mu ω η,
      η ^ 2 * ∑ p : Pos sh, (∏ a, h a) * sampleE h ε p.1 p.2 * ‖vecE sh h E p - G p‖ ^ 2 ≤ (A * s2) ^ 2 := by
    intro η hη
    obtain ⟨G, hG, hle⟩ := C129_samples hL hh hω hκ hε hμ hsol η hη
    refine ⟨G, hG, hle.trans (le_of_eq ?_)⟩
    rw [mul_pow, hA2, ← hs2]; ring
  rw [← hs2]
  have hP : 0 < ∏ a, h a := Finset.prod_pos fun a _ => hh a
  refine ⟨?_, ?_⟩
  · have hη : 0 < C * s2 := mul_pos C0 s20
    obtain ⟨G, hG, hG2⟩ := key (C * s2) hη
    have low : κ * m ≤ ∑ p : Pos sh, (∏ a, h a) * sampleE h ε p.1 p.2 * ‖vecE sh h E p‖ ^ 2 := by
      have h1 := hm sh h (offE c₀) hL hh fun a => (hle a).trans (min_le_left _ _)
      rw [Fintype.sum_prod_type]
      refine (mul_le_mul_of_nonneg_left h1 hκ.le).trans ?_
      refine le_trans ?_ (Finset.single_le_sum (f := fun c => ∑ x : Idx sh, (∏ a, h a) * sampleE h ε c x * ‖vecE sh h E (c, x)‖ ^ 2) (fun c _ => Finset.sum_nonneg fun x _ =>
        mul_nonneg (mul_nonneg hP.le (hκ.le.trans (hε _ _))) (sq_nonneg _)) (Finset.mem_univ c₀))
      rw [Finset.mul_sum]
      refine Finset.sum_le_sum fun x _ => ?_
      have k1 : κ ≤ sampleE h ε c₀ x := hε _ _
      have k2 : 0 ≤ (∏ a, h a) * ‖E c₀ (latticePt h (offE c₀) x)‖ ^ 2 := mul_nonneg hP.le (sq_nonneg _)
      have := mul_le_mul_of_nonneg_right k1 k2
      calc _ ≤ _ := this
        _ = _ := by simp only [vecE, sampleE]; ring
    have hne : G ≠ 0 := by
      rintro rfl
      simp only [Pi.zero_apply, sub_zero] at hG2
      have h1 : (C * s2) ^ 2 * (κ * m) ≤ (A * s2) ^ 2 := (mul_le_mul_of_nonneg_left low (sq_nonneg _)).trans hG2
      have h2 : A + 1 ≤ C * √(κ * m) := by rwa [div_le_iff₀ hs] at hC2
      have h3 : ((A + 1) * s2) ^ 2 ≤ (C * s2) ^ 2 * (κ * m) := by
        calc ((A + 1) * s2) ^ 2 ≤ (C * √(κ * m) * s2) ^ 2 := pow_le_pow_left₀ (by positivity) (mul_le_mul_of_nonneg_right h2 s20.le) 2
          _ = _ := by rw [mul_pow, mul_pow, Real.sq_sqrt (mul_pos hκ m0).le]; ring
      have h4 := h3.trans h1
      rw [mul_pow, mul_pow] at h4
      have := le_of_mul_le_mul_right h4 (pow_pos s20 2)
      nlinarith
    obtain ⟨F, ⟨w, hw0, hw1, hF⟩, hF0⟩ : ∃ F ∈ {F | ∃ w : ℝ, 0 ≤ w ∧ |w - ω| < C * s2 ∧ IsResonant w dxes eps mu none none F}, F ≠ 0 := by
      by_contra hcon
      push Not at hcon
      have : nearSpan dxes eps mu ω (C * s2) = ⊥ := Submodule.span_eq_bot.2 hcon
      rw [this] at hG
      exact hne ((Submodule.mem_bot ℂ).1 hG)
    have small : C * s2 ≤ ω := by
      have h1 : ∀ a, h a ^ 2 ≤ ω / (3 * C) := fun a => by
        have k1 : h a ≤ 1 := (hle a).trans ((min_le_right _ _).trans (min_le_left _ _))
        have k2 : h a ≤ ω / (3 * C) := (hle a).trans ((min_le_right _ _).trans (min_le_right _ _))
        have := hh a
        nlinarith
      have h2 : s2 ≤ 3 * (ω / (3 * C)) := by
        rw [hs2, Fin.sum_univ_three]; have := h1 0; have := h1 1; have := h1 2; linarith
      calc C * s2 ≤ C * (3 * (ω / (3 * C))) := mul_le_mul_of_nonneg_left h2 C0.le
        _ = ω := by field_simp
    have hlt := abs_lt.1 (hw1.trans_le small)
    exact ⟨w, by linarith [hlt.1], hw1.le, by linarith [hlt.2], F, hF0, hF⟩
  · intro η hη
    obtain ⟨G, hG, hG2⟩ := key η hη
    refine ⟨G, hG, ?_⟩
    rw [Real.sqrt_le_iff]
    refine ⟨by positivity, ?_⟩
    have h1 : (A * s2) ^ 2 ≤ (C * s2) ^ 2 := pow_le_pow_left₀ (by positivity) (mul_le_mul_of_nonneg_right hC1 s20.le) 2
    rw [div_mul_eq_mul_div, div_pow, le_div_iff₀ (by positivity), mul_comm]
    exact hG2.trans h1

section ring
variable {S : Sys sh ℝ} {d : DxList sh ℝ × DxList sh ℝ}

theorem conj_resonant {eps : Pos sh → ℝ} {mu : Option (Pos sh → ℝ)} {w : ℝ} {F : Vec sh}
    (hF : eFull w (cDx d) (rEps eps) (realMu mu) none none *ᵥ F = 0) : eFull w (cDx d) (rEps eps) (realMu mu) none none *ᵥ star F = 0 := by
  funext p
  have h := congrArg (starRingEnd ℂ) (congrFun hF p)
  rw [eFull_mulVec] at h ⊢
  have hc : ∀ q, cE (cDx d) (star F) q = (starRingEnd ℂ) (cE (cDx d) F q) := fun q => conj_curlForward d.1 (unS F) q.1 q.2
  have hb : ∀ u : Vec sh, cH (cDx d) (fun q => (starRingEnd ℂ) (u q)) p = (starRingEnd ℂ) (cH (cDx d) u p) := fun u => conj_curlBack d.2 (unS u) p.1 p.2
  have e : (fun q => cE (cDx d) (star F) q / muV (realMu mu) q) = fun q => (starRingEnd ℂ) (cE (cDx d) F q / muV (realMu mu) q) := by
    funext q
    rw [hc, map_div₀, muV_realMu, conj_ofReal]
  rw [e, hb]
  rw [map_sub, map_mul, map_mul, ← ofReal_pow, conj_ofReal, Pi.zero_apply, map_zero, rEps, conj_ofReal] at h
  rw [← ofReal_pow, Pi.zero_apply, ← h]
  rfl

/-- C129: every resonance rings. Below the time step bound, for each resonance `w ≥ 0` of `e_full` on the grid of a simulation there is an initial state whose run
(E update, H update, …) oscillates harmonically, `E_n = cos(w' n dt) E_0` with `w' = 2 asin(w dt / 2) / dt`. -/
theorem C129_rings {m : Fin 3 → ℝ} {εm μm : ℝ} (hC : Courant S m εm μm) (hS : S.dxes = some d) (hdt : 0 < S.dt) (w : ℝ) (hw : 0 ≤ w)
    (h : (w : ℂ) ∈ resonances (cDx d) (rEps (epsOf S)) (realMu (muOf S)) none none) :
    ∃ s : State sh ℝ, s.e ≠ 0 ∧ ∀ (n : ℕ) c x, (run S s (leapfrog n)).e c x = Real.cos (ringFreq S.dt w * (n * S.dt)) * s.e c x := by
  have hd := hC.posGrid hS
  have heps : ∀ p, 0 < epsOf S p := fun p => hC.eps_pos.trans_le (hC.epsOf_ge p)
  have hw2 : w * S.dt < 2 := by
    have := (C125_highest hC hS _ h).2
    rw [ofReal_re] at this
    exact (le_abs_self _).trans_lt this
  obtain ⟨F, hF0, -, hF⟩ := h
  -- a real resonant field
  obtain ⟨G, hG0, hGs, hG⟩ : ∃ G : Vec sh, G ≠ 0 ∧ (∀ p, (starRingEnd ℂ) (G p) = G p) ∧
      eFull w (cDx d) (rEps (epsOf S)) (realMu (muOf S)) none none *ᵥ G = 0 := by
    by_cases h0 : F + star F = 0
    · refine ⟨I • F, fun h => hF0 ?_, fun p => ?_, by rw [mulVec_smul, hF, smul_zero]⟩
      · exact (smul_eq_zero.1 h).resolve_left I_ne_zero
      · have := congrFun h0 p
        have e : (starRingEnd ℂ) (F p) = -F p := by
          rw [Pi.add_apply, Pi.zero_apply, Pi.star_apply, RCLike.star_def] at this
          exact eq_neg_of_add_eq_zero_right this
        rw [Pi.smul_apply, smul_eq_mul, map_mul, conj_I, e]; ring
    · exact ⟨F + star F, h0, fun p => by simp [add_comm], by rw [mulVec_add, hF, conj_resonant hF, add_zero]⟩
  have hre : ∀ p, (((G p).re : ℝ) : ℂ) = G p := fun p => conj_eq_iff_re.1 (hGs p)
  have hoff : ∀ E : Vec sh, OffPec none E := fun E m hm => by cases hm
  have hK := (resonant_iff d hd (epsOf S) (muOf S) none none (w : ℂ) (hoff G)).1 hG
  set e₀ : VField sh ℝ := fun c x => (G (c, x)).re with he₀
  set h₀ : VField sh ℝ := fun c x => -(S.dt / 2) * (Functional.curlForward (some d.1) e₀ c x / muR (muOf S) (c, x)) with hh₀
  have hE0 : fieldE S ⟨e₀, h₀⟩ 0 = G := by funext p; exact hre p
  have hH0 : fieldH S ⟨e₀, h₀⟩ 0 = fun p => (-(S.dt / 2 : ℝ) : ℂ) * (cE (cDx d) G p / muV (realMu (muOf S)) p) := by
    funext p
    have h1 := curlForward_ofReal (some d) e₀ p.1 p.2
    have h2 : cE (cDx d) G p = (Functional.curlForward (some d.1) e₀ p.1 p.2 : ℝ) := by
      rw [← hE0]; exact h1
    rw [h2, muV_realMu]
    show ((h₀ p.1 p.2 : ℝ) : ℂ) = _
    rw [hh₀]; push_cast; rfl
  set θ := ringFreq S.dt w * S.dt with hθ
  obtain ⟨-, -, hcos, -⟩ := ringFreq_spec hdt hw hw2
  rw [← hθ] at hcos
  have hGrow : ∀ p, cH (cDx d) (fun q => cE (cDx d) G q / muV (realMu (muOf S)) q) p = w ^ 2 * (rEps (epsOf S) p * G p) := by
    intro p
    have := congrFun hG p
    rw [eFull_mulVec, Pi.zero_apply, sub_eq_zero] at this
    exact this
  have all : ∀ n : ℕ, fieldE S ⟨e₀, h₀⟩ n = (Real.cos (n * θ) : ℂ) • G ∧ fieldE S ⟨e₀, h₀⟩ (n + 1) = (Real.cos ((n + 1 : ℕ) * θ) : ℂ) • G := by
    intro n
    induction n with
    | zero =>
      refine ⟨by rw [hE0]; simp, ?_⟩
      funext p
      have h1 := fieldE_succ S d hS heps ⟨e₀, h₀⟩ 0 p
      rw [hE0, hH0, cH_smul, hGrow] at h1
      have hε : rEps (epsOf S) p ≠ 0 := ofReal_ne_zero.2 (heps p).ne'
      have hc : (Real.cos θ : ℂ) = 1 - S.dt ^ 2 * w ^ 2 / 2 := by
        have : Real.cos θ = 1 - S.dt ^ 2 * w ^ 2 / 2 := by linarith
        rw [this]; push_cast; ring
      rw [Pi.smul_apply, smul_eq_mul, zero_add, Nat.cast_one, one_mul, hc]
      refine mul_left_cancel₀ hε ?_
      push_cast at h1
      linear_combination h1
    | succ n ih =>
      refine ⟨ih.2, ?_⟩
      have h1 := fieldE_wave S d hS heps ⟨e₀, h₀⟩ n
      rw [ih.1, ih.2, mulVec_smul, hK] at h1
      funext p
      have h2 := congrFun h1 p
      simp only [Pi.smul_apply, smul_eq_mul, Pencil.dg_mulVec, Pi.add_apply, Pi.sub_apply] at h2
      have hm : ((mass d (epsOf S) p : ℝ) : ℂ) ≠ 0 := ofReal_ne_zero.2 (mass_pos d (epsOf S) hd heps p).ne'
      have hrec : (Real.cos ((n + 1 + 1 : ℕ) * θ) : ℂ) = (2 - S.dt ^ 2 * w ^ 2) * (Real.cos ((n + 1 : ℕ) * θ) : ℂ) - (Real.cos (n * θ) : ℂ) := by
        have : Real.cos ((n + 1 + 1 : ℕ) * θ) = (2 - S.dt ^ 2 * w ^ 2) * Real.cos ((n + 1 : ℕ) * θ) - Real.cos (n * θ) := by
          rw [← hcos]
          have e1 : ((n + 1 + 1 : ℕ) : ℝ) * θ = ((n + 1 : ℕ) : ℝ) * θ + θ := by push_cast; ring
          have e2 : (n : ℝ) * θ = ((n + 1 : ℕ) : ℝ) * θ - θ := by push_cast; ring
          rw [e1, e2, Real.cos_add, Real.cos_sub]; ring
        rw [this]; push_cast; ring
      rw [Pi.smul_apply, smul_eq_mul, hrec]
      refine mul_left_cancel₀ hm ?_
      linear_combination h2
  refine ⟨⟨e₀, h₀⟩, fun h => hG0 ?_, fun n c x => ?_⟩
  · funext p
    have : e₀ p.1 p.2 = 0 := congrFun (congrFun h p.1) p.2
    rw [← hre p, Pi.zero_apply]
    exact ofReal_eq_zero.2 this
  · have h1 := congrFun (all n).1 (c, x)
    rw [Pi.smul_apply, smul_eq_mul, ← hre (c, x)] at h1
    have h2 : (run S ⟨e₀, h₀⟩ (leapfrog n)).e c x = Real.cos (n * θ) * (G (c, x)).re := by
      apply ofReal_injective
      rw [ofReal_mul]; exact h1
    rw [h2, hθ]
    congr 2; ring

end ring

/-- The ringing frequency exceeds the resonance by at most `w³ dt² / 6`. -/
theorem ringFreq_close {dt w : ℝ} (hdt : 0 < dt) (hw : 0 ≤ w) (h2 : w * dt < 2) : |ringFreq dt w - w| ≤ w ^ 3 * dt ^ 2 / 6 := by
  have hx0 : 0 ≤ w * dt / 2 := by positivity
  have hx1 : w * dt / 2 ≤ 1 := by linarith
  set θ := Real.arcsin (w * dt / 2) with hθ
  have hs : Real.sin θ = w * dt / 2 := Real.sin_arcsin (by linarith) hx1
  have t0 : 0 ≤ θ := Real.arcsin_nonneg.2 hx0
  have t1 : θ ≤ Real.pi / 2 := Real.arcsin_le_pi_div_two _
  have e : ringFreq dt w - w = 2 / dt * (θ - Real.sin θ) := by rw [ringFreq, hs, ← hθ]; field_simp
  have k1 : 0 ≤ θ - Real.sin θ := sub_nonneg.2 (Real.sin_le t0)
  have k2 : θ - Real.sin θ ≤ θ ^ 3 / 6 := by linarith [Real.sin_ge_sub_cube t0]
  have k3 : θ ≤ 63 / 40 * Real.sin θ := by
    have h1 := Real.mul_le_sin t0 t1
    have h2 := Real.pi_lt_d2
    rw [div_mul_eq_mul_div, div_le_iff₀ Real.pi_pos] at h1
    have h3 : 0 ≤ Real.sin θ := by rw [hs]; exact hx0
    nlinarith
  have k4 : θ - Real.sin θ ≤ 2 / 3 * (w * dt / 2) ^ 3 := by
    have h1 := pow_le_pow_left₀ t0 k3 3
    rw [hs] at h1 k2
    rw [hs]
    have : 0 ≤ (w * dt / 2) ^ 3 := by positivity
    nlinarith
  rw [e, abs_of_nonneg (mul_nonneg (by positivity) k1)]
  calc 2 / dt * (θ - Real.sin θ) ≤ 2 / dt * (2 / 3 * (w * dt / 2) ^ 3) := mul_le_mul_of_nonneg_left k4 (by positivity)
    _ = w ^ 3 * dt ^ 2 / 6 := by field_simp; ring

/-- C129: FDTD. For the same field there is a `C` such that on every fine enough uniform grid and for every stable time step some initial state of the simulation
oscillates harmonically, `E_n = cos(w' n dt) E_0`, with `|w' - ω| ≤ C Σ h²`. -/
theorem C129_fdtd {L : Pt} (hLp : ∀ a, 0 < L a) {ω : ℝ} (hω : 0 < ω) {ε μ : Fin 3 → Pt → ℝ} {κ : ℝ} (hκ : 0 < κ)
    (hε : ∀ c r, κ ≤ ε c r) (hμ : ∀ c r, κ ≤ μ c r) {E H : Fin 3 → Pt → ℂ} {M : ℝ}
    (hsol : HarmonicSolution L ω (fun c r => (ε c r : ℂ)) μ (fun _ _ => 0) E H M) (hE : ∃ c r, E c r ≠ 0) :
    ∃ C : ℝ, ∃ h₀ > 0, ∀ (sh : Fin 3 → ℕ) (h : Pt) (dt : ℝ), (∀ a, L a = sh a * h a) → (∀ a, 0 < h a) → (∀ a, h a ≤ h₀) → 0 < dt →
      dt ^ 2 * (∑ a, 1 / h a ^ 2) < κ * κ →
      ∃ w' : ℝ, |w' - ω| ≤ C * ∑ a, h a ^ 2 ∧ ∃ s : State sh ℝ, s.e ≠ 0 ∧
        ∀ (n : ℕ) c x, (run (uniformSys sh dt h ε μ) s (leapfrog n)).e c x = Real.cos (w' * (n * dt)) * s.e c x := by
  obtain ⟨C, h₀, hh₀, hmain⟩ := C129_second_order hLp hω hκ hε hμ hsol hE
  refine ⟨C + (2 * ω) ^ 3 * κ ^ 2, h₀, hh₀, fun sh h dt hL hh hle hdt hcfl => ?_⟩
  obtain ⟨⟨w, w0, hw, hw2, hres⟩, -⟩ := hmain sh h hL hh hle
  have hC : Courant (uniformSys sh dt h ε μ) h κ κ :=
    ⟨hh, fun a i => le_refl _, fun a i => le_refl _, hκ, hκ, fun c x => hε c _, fun c x => hμ c _, hcfl⟩
  have hlt : w * dt < 2 := by
    have := (C125_highest hC (d := uniformGrid sh h) rfl _ hres).2
    rw [ofReal_re] at this
    exact (le_abs_self _).trans_lt this
  obtain ⟨s, s0, hs⟩ := C129_rings hC (d := uniformGrid sh h) rfl hdt w w0.le hres
  refine ⟨ringFreq dt w, ?_, s, s0, hs⟩
  have h1 := ringFreq_close hdt w0.le hlt
  have h2 : dt ^ 2 ≤ κ ^ 2 * ∑ a, h a ^ 2 := by
    have k1 : dt ^ 2 * (1 / h 0 ^ 2) ≤ dt ^ 2 * ∑ a, 1 / h a ^ 2 :=
      mul_le_mul_of_nonneg_left (Finset.single_le_sum (f := fun a => 1 / h a ^ 2) (fun a _ => by positivity) (Finset.mem_univ 0)) (sq_nonneg _)
    have k2 : dt ^ 2 * (1 / h 0 ^ 2) ≤ κ ^ 2 := by nlinarith
    rw [mul_one_div, div_le_iff₀ (pow_pos (hh 0) 2)] at k2
    refine k2.trans (mul_le_mul_of_nonneg_left ?_ (sq_nonneg _))
    exact Finset.single_le_sum (f := fun a => h a ^ 2) (fun a _ => sq_nonneg _) (Finset.mem_univ 0)
  have h3 : w ^ 3 * dt ^ 2 ≤ (2 * ω) ^ 3 * (κ ^ 2 * ∑ a, h a ^ 2) :=
    mul_le_mul (pow_le_pow_left₀ w0.le hw2 3) h2 (sq_nonneg _) (by positivity)
  have h4 : |ringFreq dt w - ω| ≤ |ringFreq dt w - w| + |w - ω| := abs_sub_le _ _ _
  have h5 : (C + (2 * ω) ^ 3 * κ ^ 2) * ∑ a, h a ^ 2 = C * ∑ a, h a ^ 2 + (2 * ω) ^ 3 * (κ ^ 2 * ∑ a, h a ^ 2) := by ring
  have h6 : 0 ≤ w ^ 3 * dt ^ 2 := by positivity
  rw [h5]
  linarith

/-- A standing wave in vacuum. -/
theorem standing_wave : HarmonicSolution (fun _ => 2 * Real.pi) 1 (fun _ _ => ((1 : ℝ) : ℂ)) (fun _ _ => 1)
    (fun _ _ => 0) (fun c r => if c = 0 then (Real.cos (r 2) : ℂ) else 0)
    (fun c r => if c = 1 then -I * (Real.sin (r 2) : ℂ) else 0) 1 := by
  have dc : deriv (fun s => (Real.cos s : ℂ)) = fun s => -(Real.sin s : ℂ) := by
    funext s; simpa using (Real.hasDerivAt_cos s).ofReal_comp.deriv
  have ds : deriv (fun s => (Real.sin s : ℂ)) = fun s => (Real.cos s : ℂ) := by
    funext s; exact (Real.hasDerivAt_sin s).ofReal_comp.deriv
  have smc : Smooth3 1 (fun s => (Real.cos s : ℂ)) := by
    refine ⟨ofRealCLM.contDiff.comp Real.contDiff_cos, fun s => ?_⟩
    have : iteratedDeriv 3 (fun s => (Real.cos s : ℂ)) = fun s => (Real.sin s : ℂ) := by
      rw [iteratedDeriv_succ', iteratedDeriv_succ', iteratedDeriv_succ', iteratedDeriv_zero, dc]
      have d2 : deriv (fun s => -(Real.sin s : ℂ)) = fun s => -(Real.cos s : ℂ) := by funext s; rw [deriv.fun_neg, ds]
      rw [d2]; funext s; rw [deriv.fun_neg, dc]; simp
    rw [this, norm_real, Real.norm_eq_abs]; exact Real.abs_sin_le_one _
  have dms : deriv (fun s => -I * (Real.sin s : ℂ)) = fun s => -I * (Real.cos s : ℂ) := by
    funext s; exact ((Real.hasDerivAt_sin s).ofReal_comp.const_mul (-I)).deriv
  have dmc : deriv (fun s => -I * (Real.cos s : ℂ)) = fun s => -I * -(Real.sin s : ℂ) := by
    funext s; simpa using ((Real.hasDerivAt_cos s).ofReal_comp.const_mul (-I)).deriv
  have sms : Smooth3 1 (fun s => -I * (Real.sin s : ℂ)) := by
    refine ⟨contDiff_const.mul (ofRealCLM.contDiff.comp Real.contDiff_sin), fun s => ?_⟩
    have : iteratedDeriv 3 (fun s => -I * (Real.sin s : ℂ)) = fun s => I * (Real.cos s : ℂ) := by
      rw [iteratedDeriv_succ', iteratedDeriv_succ', iteratedDeriv_succ', iteratedDeriv_zero, dms, dmc]
      funext s
      have := ((Real.hasDerivAt_sin s).ofReal_comp.const_mul I).deriv
      simpa using this
    rw [this, norm_mul, norm_I, one_mul, norm_real, Real.norm_eq_abs]; exact Real.abs_cos_le_one _
  have const : ∀ k : ℂ, Smooth3 1 (fun _ : ℝ => k) := fun k => by
    refine ⟨contDiff_const, fun s => ?_⟩
    rw [iteratedDeriv_succ', iteratedDeriv_succ', iteratedDeriv_succ', iteratedDeriv_zero]; simp
  have lines : ∀ (g : ℝ → ℂ) (c' c a : Fin 3) (r : Pt), line (fun r : Pt => if c = c' then g (r 2) else 0) a r
      = if c = c' then if a = 2 then g else fun _ => g (r 2) else fun _ => 0 := by
    intro g c' c a r
    funext s
    by_cases hc : c = c'
    · by_cases ha : a = 2
      · subst ha; simp [line, hc]
      · simp [line, hc, ha, Function.update_of_ne (Ne.symm ha)]
    · simp [line, hc]
  have per : ∀ (g : ℝ → ℂ) (c' c : Fin 3), (∀ s, g (s + 2 * Real.pi) = g s) → Periodic (fun _ => 2 * Real.pi) (fun r : Pt => if c = c' then g (r 2) else 0) := by
    intro g c' c hg a r
    by_cases hc : c = c'
    · by_cases ha : a = 2
      · subst ha; simp only [hc, if_true, Function.update_self, hg]
      · simp [Function.update_of_ne (Ne.symm ha)]
    · simp [hc]
  have lE := lines (fun s => (Real.cos s : ℂ)) 0
  have lH := lines (fun s => -I * (Real.sin s : ℂ)) 1
  constructor
  · intro c r
    simp only [curl, pd, lE]
    fin_cases c <;> simp [dc, ← mul_assoc, -ofReal_cos, -ofReal_sin]
  · intro c r
    simp only [curl, pd, lH]
    fin_cases c <;> simp [ds, -ofReal_cos, -ofReal_sin]
  · exact fun c => per (fun s => (Real.cos s : ℂ)) 0 c fun s => by rw [Real.cos_add_two_pi]
  · exact fun c => per (fun s => -I * (Real.sin s : ℂ)) 1 c fun s => by rw [Real.sin_add_two_pi]
  · intro c a r; rw [lE]; split_ifs
    exacts [smc, const _, const 0]
  · intro c a r; rw [lH]; split_ifs
    exacts [sms, const _, const 0]


-- Non-vacuous: the standing wave is a resonant field with frequency 1, so fine grids have a resonance near 1.
example : ∃ C : ℝ, ∃ h₀ > 0, ∀ (sh : Fin 3 → ℕ) (h : Pt), (∀ a, 2 * Real.pi = sh a * h a) → (∀ a, 0 < h a) → (∀ a, h a ≤ h₀) →
    ∃ w : ℝ, |w - 1| ≤ C * ∑ a, h a ^ 2 ∧
      (w : ℂ) ∈ resonances (cDx (uniformGrid sh h)) (vecE sh h fun _ _ => ((1 : ℝ) : ℂ)) (realMu (some fun _ => 1)) none none := by
  obtain ⟨C, h₀, h0, hm⟩ := C129_second_order (fun _ => by positivity) one_pos one_pos (fun _ _ => le_refl _) (fun _ _ => le_refl _) standing_wave
    ⟨0, 0, by simp⟩
  refine ⟨C, h₀, h0, fun sh h hL hh hle => ?_⟩
  obtain ⟨⟨w, -, hw, -, hr⟩, -⟩ := hm sh h hL hh hle
  exact ⟨w, hw, hr⟩

-- Such grids exist: `n` cells in each direction, for every `n` large enough.
example (h₀ : ℝ) (h : 0 < h₀) : ∃ (sh : Fin 3 → ℕ) (g : Pt), (∀ a, 2 * Real.pi = sh a * g a) ∧ (∀ a, 0 < g a) ∧ ∀ a, g a ≤ h₀ := by
  obtain ⟨n, hn⟩ := exists_nat_gt (2 * Real.pi / h₀)
  have hp : 0 < 2 * Real.pi / h₀ := by positivity
  have n0 : (0 : ℝ) < n := hp.trans hn
  refine ⟨fun _ => n, fun _ => 2 * Real.pi / n, fun _ => by field_simp, fun _ => by positivity, fun _ => ?_⟩
  rw [div_lt_iff₀ h] at hn
  rw [div_le_iff₀ n0]; linarith

end Meanas.Props
