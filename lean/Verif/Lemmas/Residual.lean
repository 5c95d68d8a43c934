/-
Residual bounds for discrete Maxwell problems: fields that solve both curl equations up to residuals are close to eigenfields.
-/
import Verif.Lemmas.Pencil

namespace Meanas.Residual

open Matrix Complex

variable {n m : Type*} [Fintype n] [DecidableEq n] [Fintype m] [DecidableEq m]

theorem weighted_cs {ι : Type*} [Fintype ι] (w : ι → ℝ) (hw : ∀ i, 0 ≤ w i) (f g : ι → ℂ) :
    ‖∑ i, (w i : ℂ) * ((starRingEnd ℂ) (f i) * g i)‖ ≤ √(∑ i, w i * ‖f i‖ ^ 2) * √(∑ i, w i * ‖g i‖ ^ 2) := by
  have h1 : ‖∑ i, (w i : ℂ) * ((starRingEnd ℂ) (f i) * g i)‖ ≤ ∑ i, (√(w i) * ‖f i‖) * (√(w i) * ‖g i‖) := by
    refine (norm_sum_le _ _).trans (Finset.sum_le_sum fun i _ => ?_)
    rw [norm_mul, norm_mul, RCLike.norm_conj, norm_real, Real.norm_eq_abs, abs_of_nonneg (hw i)]
    refine le_of_eq ?_
    rw [mul_mul_mul_comm, Real.mul_self_sqrt (hw i)]
  refine h1.trans ((Real.sum_mul_le_sqrt_mul_sqrt _ _ _).trans (le_of_eq ?_))
  congr 2 <;> exact Finset.sum_congr rfl fun i _ => by rw [mul_pow, Real.sq_sqrt (hw i)]

/-- Two curls `CE`, `CH` that are adjoint for the cell sizes `a` and `b`, media `eps` and `mu`. Fields with `CE E = -iωμH + r₁` and
`CH H = iωεE + r₂` are, up to `‖residual‖ / η`, sums of fields with `CH μ⁻¹ CE F = w² ε F`, `|w - ω| < η`. -/
theorem residual (CE : Matrix m n ℂ) (CH : Matrix n m ℂ) (a eps : n → ℝ) (b mu : m → ℝ) (ha : ∀ p, 0 < a p) (heps : ∀ p, 0 < eps p)
    (hb : ∀ p, 0 < b p) (hmu : ∀ p, 0 < mu p)
    (adj : ∀ u v, ∑ p, (a p : ℂ) * ((starRingEnd ℂ) (u p) * (CH *ᵥ v) p) = ∑ q, (b q : ℂ) * ((starRingEnd ℂ) ((CE *ᵥ u) q) * v q))
    (ω : ℝ) (hω : 0 < ω) (E : n → ℂ) (H : m → ℂ) (r₁ : m → ℂ) (r₂ : n → ℂ) (h₁ : ∀ p, (CE *ᵥ E) p = -I * ω * (mu p * H p) + r₁ p)
    (h₂ : ∀ p, (CH *ᵥ H) p = I * ω * (eps p * E p) + r₂ p) (η : ℝ) (hη : 0 < η) :
    ∃ G ∈ Submodule.span ℂ {F : n → ℂ | ∃ w : ℝ, 0 ≤ w ∧ |w - ω| < η ∧ ∀ p, (CH *ᵥ fun q => (CE *ᵥ F) q / (mu q : ℂ)) p = w ^ 2 * (eps p * F p)},
      η ^ 2 * ∑ p, a p * eps p * ‖E p - G p‖ ^ 2 ≤ ∑ p, a p / eps p * ‖r₂ p‖ ^ 2 + ∑ p, b p / mu p * ‖r₁ p‖ ^ 2 := by
  have wH : ∀ p, 0 ≤ b p / mu p := fun p => div_nonneg (hb p).le (hmu p).le
  set K : Matrix n n ℂ := Pencil.dg a * (CH * (Pencil.dg (fun q => (mu q)⁻¹) * CE)) with hK
  have hKv : ∀ v p, (K *ᵥ v) p = a p * (CH *ᵥ fun q => (CE *ᵥ v) q / (mu q : ℂ)) p := by
    intro v p
    rw [hK, ← mulVec_mulVec, ← mulVec_mulVec, ← mulVec_mulVec, Pencil.dg_mulVec]
    congr 3
    funext q
    rw [Pencil.dg_mulVec, div_eq_inv_mul]; push_cast; rfl
  have pairK : ∀ u v, star u ⬝ᵥ (K *ᵥ v) = ∑ q, ((b q / mu q : ℝ) : ℂ) * ((starRingEnd ℂ) ((CE *ᵥ u) q) * (CE *ᵥ v) q) := by
    intro u v
    have h := adj u fun q => (CE *ᵥ v) q / (mu q : ℂ)
    rw [dotProduct]
    refine Eq.trans (Finset.sum_congr rfl fun p _ => ?_) (h.trans (Finset.sum_congr rfl fun q _ => ?_))
    · rw [hKv, Pi.star_apply, RCLike.star_def]; ring
    · push_cast; ring
  set e : n → ℝ := fun p => a p * eps p with he
  have hKh : K.IsHermitian := by
    ext i j
    have h1 := pairK (Pi.single i 1) (Pi.single j 1)
    have h2 := pairK (Pi.single j 1) (Pi.single i 1)
    have e1 : ∀ i j : n, star (Pi.single i 1 : n → ℂ) ⬝ᵥ (K *ᵥ Pi.single j 1) = K i j := by
      intro i j
      rw [mulVec_single_one, ← Pi.single_star, star_one, single_dotProduct, one_mul]; rfl
    rw [e1] at h1 h2
    rw [conjTranspose_apply, h1, h2, star_sum]
    refine Finset.sum_congr rfl fun q _ => ?_
    rw [RCLike.star_def, map_mul, map_mul, conj_ofReal, Complex.conj_conj]; ring
  obtain ⟨F, l, f1, f2⟩ := Pencil.exists_diag hKh (e := e) (fun p => mul_pos (ha p) (heps p))
  have f3 : Fᴴ * K = Pencil.dg l * (Fᴴ * Pencil.dg e) := by
    have := congrArg conjTranspose f2
    rwa [conjTranspose_mul, hKh.eq, conjTranspose_mul, conjTranspose_mul, Pencil.dg_conj, Pencil.dg_conj] at this
  have coef : ∀ x : n → ℂ, (Fᴴ * Pencil.dg e) *ᵥ (F *ᵥ x) = x := fun x => by rw [mulVec_mulVec, f1, one_mulVec]
  obtain ⟨sqH, hsqH⟩ : ∃ sqH : (m → ℂ) → ℝ, ∀ v, sqH v = ∑ p, b p / mu p * ‖v p‖ ^ 2 := ⟨_, fun _ => rfl⟩
  have formK : ∀ x : n → ℂ, sqH (CE *ᵥ (F *ᵥ x)) = ∑ j, l j * normSq (x j) := fun x => by
    have h := Pencil.form_K f1 f2 (F *ᵥ x)
    rw [coef, pairK] at h
    rw [← h, hsqH, Complex.re_sum]
    refine Finset.sum_congr rfl fun q _ => ?_
    rw [mul_comm ((starRingEnd ℂ) _), mul_conj, ← ofReal_mul, ofReal_re, normSq_eq_norm_sq]
  have hl : ∀ j, 0 ≤ l j := by
    intro j
    have := formK (Pi.single j 1)
    have h0 : 0 ≤ sqH (CE *ᵥ (F *ᵥ Pi.single j 1)) := by rw [hsqH]; exact Finset.sum_nonneg fun p _ => mul_nonneg (wH p) (sq_nonneg _)
    rw [this, Finset.sum_eq_single j (fun b _ hb => by rw [Pi.single_eq_of_ne hb]; simp) (fun h => absurd (Finset.mem_univ j) h)] at h0
    simpa using h0
  set w : n → ℝ := fun j => √(l j) with hw
  have hw2 : ∀ j, w j ^ 2 = l j := fun j => Real.sq_sqrt (hl j)
  have hw0 : ∀ j, 0 ≤ w j := fun j => Real.sqrt_nonneg _
  have hres : ∀ j p, (CH *ᵥ fun q => (CE *ᵥ F.col j) q / (mu q : ℂ)) p = (w j : ℂ) ^ 2 * (eps p * F.col j p) := by
    intro j p
    have h1 := congrFun (congrFun f2 p) j
    have h2 := hKv (F.col j) p
    have h3 : (K *ᵥ F.col j) p = (K * F) p j := rfl
    rw [h3, h1, Pencil.mul_dg, ← hw2] at h2
    have h4 : (Pencil.dg e * F) p j = e p * F p j := by rw [Pencil.dg, diagonal_mul]
    rw [h4, he] at h2
    have hA : (a p : ℂ) ≠ 0 := ofReal_ne_zero.2 (ha p).ne'
    refine mul_left_cancel₀ hA ?_
    rw [← h2]; push_cast; simp only [col_apply]; ring
  -- the right hand sides
  set y₁ : n → ℂ := fun p => (a p : ℂ) * (CH *ᵥ fun q => r₁ q / (mu q : ℂ)) p with hy₁
  set y₂ : n → ℂ := fun p => (a p : ℂ) * r₂ p with hy₂
  set c := (Fᴴ * Pencil.dg e) *ᵥ E with hc
  set A := Fᴴ *ᵥ y₂ with hA
  set B := Fᴴ *ᵥ y₁ with hB
  have hKE : K *ᵥ E = (ω ^ 2 : ℂ) • (Pencil.dg e *ᵥ E) - (I * ω) • y₂ + y₁ := by
    funext p
    rw [hKv]
    simp only [Pi.add_apply, Pi.sub_apply, Pi.smul_apply, smul_eq_mul, Pencil.dg_mulVec, he, hy₁, hy₂]
    have s1 : (fun q => (CE *ᵥ E) q / (mu q : ℂ)) = (-I * ω) • H + fun q => r₁ q / (mu q : ℂ) := by
      funext q
      have : (mu q : ℂ) ≠ 0 := ofReal_ne_zero.2 (hmu q).ne'
      rw [h₁, Pi.add_apply, Pi.smul_apply, smul_eq_mul]; field_simp
    rw [s1, mulVec_add, mulVec_smul, Pi.add_apply, Pi.smul_apply, smul_eq_mul, h₂]
    push_cast
    linear_combination (-(a p : ℂ) * ω ^ 2 * (eps p * E p)) * I_sq
  have hmode : ∀ j, ((w j ^ 2 - ω ^ 2 : ℝ) : ℂ) * c j = -(I * ω) * A j + B j := by
    intro j
    have h := congrFun (congrArg (fun v => Fᴴ *ᵥ v) hKE) j
    simp only [mulVec_add, mulVec_sub, mulVec_smul, mulVec_mulVec, f3] at h
    rw [← mulVec_mulVec, Pencil.dg_mulVec, ← hw2 j] at h
    simp only [Pi.add_apply, Pi.sub_apply, Pi.smul_apply, smul_eq_mul] at h
    rw [← hc, ← hA, ← hB] at h
    push_cast at h ⊢
    linear_combination h
  -- sizes of the right hand sides
  have hAA : ∑ j, normSq (A j) = ∑ p, a p / eps p * ‖r₂ p‖ ^ 2 := by
    have h := Pencil.form_e f1 (fun p => r₂ p / (eps p : ℂ))
    have : (Fᴴ * Pencil.dg e) *ᵥ (fun p => r₂ p / (eps p : ℂ)) = A := by
      rw [← mulVec_mulVec, hA]
      congr 1
      funext p
      have : (eps p : ℂ) ≠ 0 := ofReal_ne_zero.2 (heps p).ne'
      rw [Pencil.dg_mulVec, he, hy₂]; push_cast; field_simp
    rw [this] at h
    rw [← h]
    refine Finset.sum_congr rfl fun p _ => ?_
    have h0 := (heps p).ne'
    rw [he, normSq_div, normSq_ofReal, normSq_eq_norm_sq]; field_simp
  have pair : ∀ x : n → ℂ, ∑ j, (starRingEnd ℂ) (x j) * B j
      = ∑ p, ((b p / mu p : ℝ) : ℂ) * ((starRingEnd ℂ) ((CE *ᵥ (F *ᵥ x)) p) * r₁ p) := by
    intro x
    have h0 := adj (F *ᵥ x) fun q => r₁ q / (mu q : ℂ)
    have h1 : ∑ q, (b q : ℂ) * ((starRingEnd ℂ) ((CE *ᵥ (F *ᵥ x)) q) * (r₁ q / (mu q : ℂ)))
        = ∑ p, ((b p / mu p : ℝ) : ℂ) * ((starRingEnd ℂ) ((CE *ᵥ (F *ᵥ x)) p) * r₁ p) :=
      Finset.sum_congr rfl fun q _ => by push_cast; ring
    rw [← h1, ← h0]
    have h : star (F *ᵥ x) ⬝ᵥ y₁ = star x ⬝ᵥ B := by rw [star_mulVec, ← dotProduct_mulVec]
    simp only [dotProduct, Pi.star_apply, RCLike.star_def] at h
    rw [← h]
    exact Finset.sum_congr rfl fun p _ => by rw [hy₁]; ring
  have cs : ∀ x : n → ℂ, ‖∑ j, (starRingEnd ℂ) (x j) * B j‖ ≤ √(∑ j, l j * normSq (x j)) * √(sqH r₁) := by
    intro x
    rw [pair, ← formK, hsqH, hsqH]
    exact weighted_cs _ wH _ _
  have hB0 : ∀ j, l j = 0 → B j = 0 := by
    intro j hj
    have h := cs (Pi.single j 1)
    rw [Finset.sum_eq_single j (fun b _ hb => by rw [Pi.single_eq_of_ne hb]; simp) (fun h => absurd (Finset.mem_univ j) h),
      Finset.sum_eq_single j (fun b _ hb => by rw [Pi.single_eq_of_ne hb]; simp) (fun h => absurd (Finset.mem_univ j) h), hj] at h
    simpa using h
  set T := ∑ j, normSq (B j) / l j with hT
  have T0 : 0 ≤ T := Finset.sum_nonneg fun j _ => div_nonneg (normSq_nonneg _) (hl j)
  have hTle : T ≤ sqH r₁ := by
    have h := cs fun j => B j / (l j : ℂ)
    have e1 : ∑ j, (starRingEnd ℂ) (B j / (l j : ℂ)) * B j = (T : ℂ) := by
      rw [hT]; push_cast
      refine Finset.sum_congr rfl fun j _ => ?_
      rw [map_div₀, conj_ofReal, ← mul_conj]; ring
    have e2 : ∑ j, l j * normSq (B j / (l j : ℂ)) = T := by
      rw [hT]
      refine Finset.sum_congr rfl fun j _ => ?_
      rw [normSq_div, normSq_ofReal]
      by_cases h0 : l j = 0
      · rw [h0]; simp
      · field_simp
    rw [e1, e2, norm_real, Real.norm_eq_abs, abs_of_nonneg T0] at h
    have R0 : 0 ≤ sqH r₁ := by rw [hsqH]; exact Finset.sum_nonneg fun p _ => mul_nonneg (wH p) (sq_nonneg _)
    rcases T0.eq_or_lt with hz | hz
    · rw [← hz]; exact R0
    · have hs : 0 < √T := Real.sqrt_pos.2 hz
      have h2 : √T * √T ≤ √T * √(sqH r₁) := by rwa [Real.mul_self_sqrt T0]
      exact (Real.sqrt_le_sqrt_iff R0).1 (le_of_mul_le_mul_left h2 hs)
  -- the far components
  have far : ∀ j, η ≤ |w j - ω| → η ^ 2 * normSq (c j) ≤ normSq (A j) + normSq (B j) / l j := by
    intro j hj
    have hs : 0 < w j + ω := add_pos_of_nonneg_of_pos (hw0 j) hω
    set b := ‖B j‖ / w j with hb
    have hbw : ‖B j‖ = w j * b := by
      by_cases h0 : w j = 0
      · have : l j = 0 := by rw [← hw2, h0]; ring
        rw [h0, hB0 j this]; simp
      · rw [hb]; field_simp
    have hb2 : b ^ 2 = normSq (B j) / l j := by rw [hb, div_pow, hw2, normSq_eq_norm_sq]
    have h1 : |w j - ω| * (w j + ω) * ‖c j‖ ≤ ω * ‖A j‖ + w j * b := by
      have := congrArg norm (hmode j)
      rw [norm_mul, norm_real, Real.norm_eq_abs, show w j ^ 2 - ω ^ 2 = (w j - ω) * (w j + ω) by ring, abs_mul, abs_of_pos hs] at this
      rw [this, ← hbw]
      refine (norm_add_le _ _).trans (le_of_eq ?_)
      rw [norm_mul, norm_neg, norm_mul, norm_I, one_mul, norm_real, Real.norm_eq_abs, abs_of_pos hω]
    have h2 : η * ‖c j‖ * (w j + ω) ≤ ω * ‖A j‖ + w j * b := by
      refine le_trans ?_ h1
      have := mul_le_mul_of_nonneg_right hj (mul_nonneg hs.le (norm_nonneg (c j)))
      nlinarith
    rw [← hb2, normSq_eq_norm_sq, normSq_eq_norm_sq]
    have h3 : (η * ‖c j‖ * (w j + ω)) ^ 2 ≤ (‖A j‖ ^ 2 + b ^ 2) * (w j + ω) ^ 2 := by
      refine (pow_le_pow_left₀ (by positivity) h2 2).trans ?_
      have hbn : 0 ≤ b := div_nonneg (norm_nonneg _) (hw0 j)
      nlinarith [sq_nonneg (ω * b - w j * ‖A j‖), mul_nonneg (mul_nonneg (hw0 j) hω.le) (sq_nonneg ‖A j‖), mul_nonneg (mul_nonneg (hw0 j) hω.le) (sq_nonneg b)]
    have h4 : (η ^ 2 * ‖c j‖ ^ 2) * (w j + ω) ^ 2 ≤ (‖A j‖ ^ 2 + b ^ 2) * (w j + ω) ^ 2 := by
      rw [← mul_pow, ← mul_pow]; exact h3
    exact le_of_mul_le_mul_right h4 (pow_pos hs 2)
  set x : n → ℂ := fun j => if |w j - ω| < η then c j else 0 with hx
  refine ⟨F *ᵥ x, ?_, ?_⟩
  · have : F *ᵥ x = ∑ j, x j • F.col j := by
      funext i
      rw [Finset.sum_apply, mulVec, dotProduct]
      exact Finset.sum_congr rfl fun j _ => by rw [Pi.smul_apply, smul_eq_mul, mul_comm]; rfl
    rw [this]
    refine Submodule.sum_mem _ fun j _ => ?_
    by_cases hj : |w j - ω| < η
    · exact Submodule.smul_mem _ _ (Submodule.subset_span ⟨w j, hw0 j, hj, hres j⟩)
    · rw [hx]; simp only [if_neg hj, zero_smul]; exact Submodule.zero_mem _
  · have h := Pencil.form_e f1 (fun p => E p - (F *ᵥ x) p)
    have h2 : (Fᴴ * Pencil.dg e) *ᵥ (fun p => E p - (F *ᵥ x) p) = c - x := by
      rw [show (fun p => E p - (F *ᵥ x) p) = E - F *ᵥ x from rfl, mulVec_sub, coef]
    rw [h2] at h
    have h3 : ∑ p, a p * eps p * ‖E p - (F *ᵥ x) p‖ ^ 2 = ∑ j, normSq ((c - x) j) := by
      rw [← h]; exact Finset.sum_congr rfl fun p _ => by rw [normSq_eq_norm_sq, he]
    rw [h3, ← hAA, Finset.mul_sum, ← hsqH]
    refine le_trans (Finset.sum_le_sum fun j _ => ?_) (le_trans (le_of_eq (Finset.sum_add_distrib (f := fun j => normSq (A j)) (g := fun j => normSq (B j) / l j)))
      (add_le_add_right hTle _))
    by_cases hj : |w j - ω| < η
    · rw [Pi.sub_apply, hx]; simp only [if_pos hj, sub_self, map_zero, mul_zero]
      exact add_nonneg (normSq_nonneg _) (div_nonneg (normSq_nonneg _) (hl j))
    · rw [Pi.sub_apply, hx]; simp only [if_neg hj, sub_zero]
      exact far j (not_lt.1 hj)


end Meanas.Residual
