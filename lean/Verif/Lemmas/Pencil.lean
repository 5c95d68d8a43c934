/-
Hermitian pencils `K v = λ E v` with a positive diagonal `E` (not in Mathlib): simultaneous diagonalisation, and comparison of the number of
eigenvalues below a bound for two pencils.
-/
import Mathlib.Analysis.Matrix.Spectrum
import Mathlib.LinearAlgebra.FiniteDimensional.Lemmas
import Mathlib.LinearAlgebra.Matrix.NonsingularInverse

namespace Meanas.Pencil

open Matrix Complex

variable {n : Type*} [Fintype n] [DecidableEq n]

/-- The diagonal matrix of real entries. -/
noncomputable def dg (e : n → ℝ) : Matrix n n ℂ := diagonal fun p => (e p : ℂ)

theorem dg_mulVec (e : n → ℝ) (v : n → ℂ) (p : n) : (dg e *ᵥ v) p = e p * v p := by rw [dg, mulVec_diagonal]

omit [Fintype n] in
theorem dg_conj (e : n → ℝ) : (dg e)ᴴ = dg e := by
  rw [dg, diagonal_conjTranspose]; congr 1; funext p; simp [Pi.star_apply]

theorem dg_mul (e f : n → ℝ) : dg e * dg f = dg fun p => e p * f p := by
  rw [dg, dg, diagonal_mul_diagonal, dg]; congr 1; funext p; push_cast; rfl

omit [Fintype n] in
theorem dg_one : dg (fun _ : n => (1 : ℝ)) = 1 := by
  rw [dg, ← diagonal_one]; simp only [ofReal_one]

theorem mul_dg (M : Matrix n n ℂ) (f : n → ℝ) (i j : n) : (M * dg f) i j = M i j * f j := by rw [dg, mul_diagonal]

/-- Simultaneous diagonalisation of a Hermitian matrix and a positive diagonal. -/
theorem exists_diag {K : Matrix n n ℂ} (hK : K.IsHermitian) {e : n → ℝ} (he : ∀ p, 0 < e p) :
    ∃ (F : Matrix n n ℂ) (l : n → ℝ), Fᴴ * dg e * F = 1 ∧ K * F = dg e * F * dg l := by
  set s : n → ℝ := fun p => Real.sqrt (e p) with hs
  set r : n → ℝ := fun p => (Real.sqrt (e p))⁻¹ with hr
  have h0 : ∀ p, Real.sqrt (e p) ≠ 0 := fun p => (Real.sqrt_pos.2 (he p)).ne'
  have hsr : dg s * dg r = 1 := by
    rw [dg_mul, ← dg_one]; congr 1; funext p; exact mul_inv_cancel₀ (h0 p)
  have hss : dg s * dg s = dg e := by
    rw [dg_mul]; congr 1; funext p; exact Real.mul_self_sqrt (he p).le
  have her : dg e * dg r = dg s := by rw [← hss, Matrix.mul_assoc, hsr, Matrix.mul_one]
  have hrer : dg r * dg e * dg r = 1 := by
    rw [Matrix.mul_assoc, her, dg_mul, ← dg_one]; congr 1; funext p; exact inv_mul_cancel₀ (h0 p)
  have hB : (dg r * K * dg r).IsHermitian := by
    rw [IsHermitian, conjTranspose_mul, conjTranspose_mul, dg_conj, hK.eq, Matrix.mul_assoc]
  set U : Matrix n n ℂ := (hB.eigenvectorUnitary : Matrix n n ℂ) with hU
  have hUU : Uᴴ * U = 1 := Unitary.coe_star_mul_self hB.eigenvectorUnitary
  have hBU : dg r * K * dg r * U = U * dg hB.eigenvalues := by
    ext i j
    have h := congrFun (hB.mulVec_eigenvectorBasis j) i
    have h1 : (dg r * K * dg r * U) i j = ((dg r * K * dg r) *ᵥ ⇑(hB.eigenvectorBasis j)) i := rfl
    rw [h1, h, mul_dg]
    simp only [Pi.smul_apply, real_smul]
    rw [mul_comm]; rfl
  refine ⟨dg r * U, hB.eigenvalues, ?_, ?_⟩
  · calc (dg r * U)ᴴ * dg e * (dg r * U) = Uᴴ * (dg r * dg e * dg r) * U := by
          rw [conjTranspose_mul, dg_conj]; simp only [Matrix.mul_assoc]
      _ = 1 := by rw [hrer, Matrix.mul_one, hUU]
  · calc K * (dg r * U) = dg s * dg r * K * (dg r * U) := by rw [hsr, Matrix.one_mul]
      _ = dg s * (dg r * K * dg r * U) := by simp only [Matrix.mul_assoc]
      _ = dg s * (U * dg hB.eigenvalues) := by rw [hBU]
      _ = dg e * (dg r * U) * dg hB.eigenvalues := by rw [← her]; simp only [Matrix.mul_assoc]

/-- The fields spanned by the eigenvectors of the pencil with eigenvalue at most `w`. -/
def modes (K : Matrix n n ℂ) (e : n → ℝ) (w : ℝ) : Submodule ℂ (n → ℂ) :=
  Submodule.span ℂ {v | ∃ l : ℝ, l ≤ w ∧ K *ᵥ v = (l : ℂ) • (dg e *ᵥ v)}

variable {K : Matrix n n ℂ} {e : n → ℝ} {F : Matrix n n ℂ} {l : n → ℝ}

theorem right_inv (h1 : Fᴴ * dg e * F = 1) : F * (Fᴴ * dg e) = 1 := mul_eq_one_comm.1 h1

theorem expand (h1 : Fᴴ * dg e * F = 1) (v : n → ℂ) : F *ᵥ ((Fᴴ * dg e) *ᵥ v) = v := by
  rw [mulVec_mulVec, right_inv h1, one_mulVec]

theorem coef_zero (hK : K.IsHermitian) (h2 : K * F = dg e * F * dg l) {w : ℝ} {v : n → ℂ} (hv : v ∈ modes K e w) {j : n} (hj : w < l j) :
    ((Fᴴ * dg e) *ᵥ v) j = 0 := by
  have h3 : Fᴴ * K = dg l * (Fᴴ * dg e) := by
    have := congrArg conjTranspose h2
    rwa [conjTranspose_mul, hK.eq, conjTranspose_mul, conjTranspose_mul, dg_conj, dg_conj] at this
  refine Submodule.span_induction (p := fun v _ => ((Fᴴ * dg e) *ᵥ v) j = 0) ?_ ?_ ?_ ?_ hv
  · rintro v ⟨k, hk, hkv⟩
    have h4 := congrFun (congrArg (fun x => Fᴴ *ᵥ x) hkv) j
    simp only [mulVec_smul, mulVec_mulVec, h3, Pi.smul_apply, smul_eq_mul] at h4
    rw [← mulVec_mulVec, dg_mulVec] at h4
    have h5 : ((l j : ℂ) - k) * ((Fᴴ * dg e) *ᵥ v) j = 0 := by rw [sub_mul, h4, sub_self]
    refine (mul_eq_zero.1 h5).resolve_left ?_
    rw [← ofReal_sub]
    exact ofReal_ne_zero.2 (by linarith)
  · simp
  · intro x y _ _ hx hy; rw [mulVec_add, Pi.add_apply, hx, hy, add_zero]
  · intro a x _ hx; rw [mulVec_smul, Pi.smul_apply, hx, smul_zero]

theorem form_e (h1 : Fᴴ * dg e * F = 1) (v : n → ℂ) : ∑ p, e p * normSq (v p) = ∑ j, normSq (((Fᴴ * dg e) *ᵥ v) j) := by
  set c := (Fᴴ * dg e) *ᵥ v with hc
  have hv := expand h1 v
  have h : star v ⬝ᵥ (dg e *ᵥ v) = star c ⬝ᵥ c := by
    calc star v ⬝ᵥ (dg e *ᵥ v) = star (F *ᵥ c) ⬝ᵥ (dg e *ᵥ v) := by rw [hv]
      _ = star c ⬝ᵥ c := by rw [star_mulVec, ← dotProduct_mulVec, mulVec_mulVec]
  apply ofReal_injective
  simp only [ofReal_sum]
  simp only [dotProduct, dg_mulVec] at h
  calc _ = ∑ p, star v p * (e p * v p) := Finset.sum_congr rfl fun p _ => by
          rw [Pi.star_apply, RCLike.star_def]; push_cast; rw [← mul_conj]; ring
    _ = _ := h
    _ = _ := Finset.sum_congr rfl fun p _ => by rw [Pi.star_apply, RCLike.star_def, ← mul_conj, mul_comm]

theorem form_K (h1 : Fᴴ * dg e * F = 1) (h2 : K * F = dg e * F * dg l) (v : n → ℂ) :
    (star v ⬝ᵥ (K *ᵥ v)).re = ∑ j, l j * normSq (((Fᴴ * dg e) *ᵥ v) j) := by
  set c := (Fᴴ * dg e) *ᵥ v with hc
  have hv := expand h1 v
  have h : star v ⬝ᵥ (K *ᵥ v) = star c ⬝ᵥ (dg l *ᵥ c) := by
    calc star v ⬝ᵥ (K *ᵥ v) = star (F *ᵥ c) ⬝ᵥ (K *ᵥ (F *ᵥ c)) := by rw [hv]
      _ = star c ⬝ᵥ ((Fᴴ * (K * F)) *ᵥ c) := by rw [star_mulVec, ← dotProduct_mulVec, mulVec_mulVec, mulVec_mulVec, Matrix.mul_assoc]
      _ = star c ⬝ᵥ (dg l *ᵥ c) := by rw [h2, ← Matrix.mul_assoc, ← Matrix.mul_assoc, h1, Matrix.one_mul]
  rw [h]
  simp only [dotProduct, dg_mulVec, re_sum]
  refine Finset.sum_congr rfl fun p _ => ?_
  have : star c p * (l p * c p) = ((l p * normSq (c p) : ℝ) : ℂ) := by
    rw [Pi.star_apply, RCLike.star_def]; push_cast; rw [← mul_conj]; ring
  rw [this, ofReal_re]

/-- On the span of the eigenvectors up to `w` the form of `K` is at most `w` times the one of `E`. -/
theorem form_le (hK : K.IsHermitian) (he : ∀ p, 0 < e p) {w : ℝ} {v : n → ℂ} (hv : v ∈ modes K e w) :
    (star v ⬝ᵥ (K *ᵥ v)).re ≤ w * ∑ p, e p * normSq (v p) := by
  obtain ⟨F, l, h1, h2⟩ := exists_diag hK he
  rw [form_K h1 h2, form_e h1, Finset.mul_sum]
  refine Finset.sum_le_sum fun j _ => ?_
  rcases lt_or_ge w (l j) with h | h
  · rw [coef_zero hK h2 hv h]; simp
  · exact mul_le_mul_of_nonneg_right h (normSq_nonneg _)

/-- If the form of `K'` is at most the one of `K` and `w E ≤ w' E'`, the second pencil has at least as many eigenvalues up to `w'` as the first has up to `w`. -/
theorem finrank_modes_le {K' : Matrix n n ℂ} {e' : n → ℝ} (hK : K.IsHermitian) (hK' : K'.IsHermitian) (he : ∀ p, 0 < e p) (he' : ∀ p, 0 < e' p)
    {w w' : ℝ} (hform : ∀ v ∈ modes K e w, (star v ⬝ᵥ (K' *ᵥ v)).re ≤ (star v ⬝ᵥ (K *ᵥ v)).re) (hw : ∀ p, w * e p ≤ w' * e' p) :
    Module.finrank ℂ (modes K e w) ≤ Module.finrank ℂ (modes K' e' w') := by
  classical
  obtain ⟨F, l, h1, h2⟩ := exists_diag hK' he'
  let P : Matrix n n ℂ := dg fun j => if l j ≤ w' then 1 else 0
  have hmem : ∀ v, (F * P * (Fᴴ * dg e')) *ᵥ v ∈ modes K' e' w' := by
    intro v
    rw [← mulVec_mulVec, ← mulVec_mulVec]
    set c := (Fᴴ * dg e') *ᵥ v
    have : F *ᵥ (P *ᵥ c) = ∑ j, (P *ᵥ c) j • fun i => F i j := by
      funext i
      rw [Finset.sum_apply, mulVec, dotProduct]
      exact Finset.sum_congr rfl fun j _ => by rw [Pi.smul_apply, smul_eq_mul, mul_comm]
    rw [this]
    refine Submodule.sum_mem _ fun j _ => ?_
    by_cases hj : l j ≤ w'
    · refine Submodule.smul_mem _ _ (Submodule.subset_span ⟨l j, hj, ?_⟩)
      funext i
      have := congrFun (congrFun h2 i) j
      rw [mul_dg] at this
      rw [Pi.smul_apply, smul_eq_mul, mul_comm]
      exact this
    · have : (P *ᵥ c) j = 0 := by rw [dg_mulVec, if_neg hj]; simp
      rw [this, zero_smul]; exact Submodule.zero_mem _
  let A : modes K e w →ₗ[ℂ] modes K' e' w' :=
    LinearMap.codRestrict _ ((mulVecLin (F * P * (Fᴴ * dg e'))).comp (modes K e w).subtype) fun v => hmem v
  refine LinearMap.finrank_le_finrank_of_injective (f := A) ?_
  rw [injective_iff_map_eq_zero]
  rintro ⟨v, hv⟩ h
  have h3 : (F * P * (Fᴴ * dg e')) *ᵥ v = 0 := congrArg Subtype.val h
  set c := (Fᴴ * dg e') *ᵥ v with hc
  have h4 : P *ᵥ c = 0 := by
    have := congrArg (fun x => (Fᴴ * dg e') *ᵥ x) h3
    simpa only [mulVec_mulVec, ← Matrix.mul_assoc, h1, Matrix.one_mul, mulVec_zero, hc] using this
  have h5 : ∀ j, l j ≤ w' → c j = 0 := fun j hj => by
    have := congrFun h4 j
    rw [dg_mulVec, if_pos hj] at this
    simpa using this
  have h6 : ∑ j, (l j - w') * normSq (c j) ≤ 0 := by
    have e1 := form_K h1 h2 v
    have e2 := form_e h1 v
    have e3 := form_le hK he hv
    have e4 := hform v hv
    have e5 : w * ∑ p, e p * normSq (v p) ≤ w' * ∑ p, e' p * normSq (v p) := by
      rw [Finset.mul_sum, Finset.mul_sum]
      refine Finset.sum_le_sum fun p _ => ?_
      rw [← mul_assoc, ← mul_assoc]
      exact mul_le_mul_of_nonneg_right (hw p) (normSq_nonneg _)
    simp only [sub_mul, Finset.sum_sub_distrib, ← Finset.mul_sum]
    rw [e2] at e5
    linarith
  have h7 : ∀ j ∈ Finset.univ, 0 ≤ (l j - w') * normSq (c j) := fun j _ => by
    rcases le_or_gt (l j) w' with hj | hj
    · rw [h5 j hj]; simp
    · exact mul_nonneg (by linarith) (normSq_nonneg _)
  have h8 := (Finset.sum_eq_zero_iff_of_nonneg h7).1 (le_antisymm h6 (Finset.sum_nonneg h7))
  have h9 : c = 0 := by
    funext j
    rcases le_or_gt (l j) w' with hj | hj
    · exact h5 j hj
    · exact normSq_eq_zero.1 ((mul_eq_zero.1 (h8 j (Finset.mem_univ j))).resolve_left (by linarith))
  have h10 := expand h1 v
  rw [← hc, h9, mulVec_zero] at h10
  exact Subtype.ext h10.symm

end Meanas.Pencil
