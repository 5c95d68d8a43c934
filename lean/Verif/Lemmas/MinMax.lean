/-
Min-max comparison of the sorted eigenvalues of two self-adjoint operators (not in Mathlib).
-/
import Mathlib.Analysis.InnerProductSpace.Spectrum
import Mathlib.LinearAlgebra.FiniteDimensional.Lemmas
import Mathlib.Analysis.Matrix.Spectrum
import Mathlib.LinearAlgebra.Matrix.Charpoly.Basic

namespace Meanas.MinMax

open Complex

variable {E F : Type*} [NormedAddCommGroup E] [InnerProductSpace ℂ E] [FiniteDimensional ℂ E]
  [NormedAddCommGroup F] [InnerProductSpace ℂ F] [FiniteDimensional ℂ F]

local notation "⟪" x ", " y "⟫" => inner ℂ x y

omit [FiniteDimensional ℂ E] in
theorem norm_sq_eq_sum {n : ℕ} (b : OrthonormalBasis (Fin n) ℂ E) (x : E) : ‖x‖ ^ 2 = ∑ i, ‖b.repr x i‖ ^ 2 := by
  rw [← b.repr.norm_map x, EuclideanSpace.norm_sq_eq]

theorem re_inner_eq_sum {T : E →ₗ[ℂ] E} (hT : T.IsSymmetric) {n : ℕ} (hn : Module.finrank ℂ E = n) (x : E) :
    (⟪x, T x⟫).re = ∑ i, hT.eigenvalues hn i * ‖(hT.eigenvectorBasis hn).repr x i‖ ^ 2 := by
  rw [← (hT.eigenvectorBasis hn).repr.inner_map_map x (T x), PiLp.inner_apply, re_sum]
  refine Finset.sum_congr rfl fun i _ => ?_
  rw [hT.eigenvectorBasis_apply_self_apply hn, RCLike.inner_apply, ← Complex.normSq_eq_norm_sq]
  have : (hT.eigenvalues hn i : ℂ) * (hT.eigenvectorBasis hn).repr x i * (starRingEnd ℂ) ((hT.eigenvectorBasis hn).repr x i)
      = ((hT.eigenvalues hn i * normSq ((hT.eigenvectorBasis hn).repr x i) : ℝ) : ℂ) := by
    push_cast
    rw [mul_assoc, mul_conj]
  exact (congrArg re this).trans (ofReal_re _)

/-- Comparison of sorted (descending) eigenvalues. `J` embeds `F` in `E` isometrically; if the form of `T` on `F` is at most `t` times the one of `S`, then
`λ_i(T) ≤ t λ_l(S)` as soon as `i` counts at least as many eigenvalues from the top, relative to the dimensions, as `l`. -/
theorem eigenvalues_le {T : E →ₗ[ℂ] E} (hT : T.IsSymmetric) {S : F →ₗ[ℂ] F} (hS : S.IsSymmetric) {n m : ℕ}
    (hn : Module.finrank ℂ E = n) (hm : Module.finrank ℂ F = m) (J : F →ₗ[ℂ] E) (hJ : ∀ y, ‖J y‖ = ‖y‖) {t : ℝ} (ht : 0 ≤ t)
    (hle : ∀ y, (⟪J y, T (J y)⟫).re ≤ t * (⟪y, S y⟫).re) (i : Fin n) (l : Fin m) (hil : (l : ℕ) + n ≤ i + m) :
    hT.eigenvalues hn i ≤ t * hS.eigenvalues hm l := by
  classical
  let b := hT.eigenvectorBasis hn
  let c := hS.eigenvectorBasis hm
  let L : F →ₗ[ℂ] (({k : Fin m // k < l} → ℂ) × ({k : Fin n // i < k} → ℂ)) :=
    { toFun := fun y => (fun k => c.repr y k, fun k => b.repr (J y) k)
      map_add' := fun x y => by ext <;> simp
      map_smul' := fun r y => by ext <;> simp }
  have hdim : Module.finrank ℂ (({k : Fin m // k < l} → ℂ) × ({k : Fin n // i < k} → ℂ)) < Module.finrank ℂ F := by
    rw [hm, Module.finrank_prod, Module.finrank_fintype_fun_eq_card, Module.finrank_fintype_fun_eq_card, Fintype.card_subtype, Fintype.card_subtype]
    have h1 : (Finset.univ.filter fun k : Fin m => k < l) = Finset.Iio l := by ext; simp
    have h2 : (Finset.univ.filter fun k : Fin n => i < k) = Finset.Ioi i := by ext; simp
    rw [h1, h2, Fin.card_Iio, Fin.card_Ioi]
    have := i.2
    have := l.2
    omega
  obtain ⟨y, hy, hy0⟩ := (Submodule.ne_bot_iff _).1 (LinearMap.ker_ne_bot_of_finrank_lt (f := L) hdim)
  rw [LinearMap.mem_ker] at hy
  have hc : ∀ k, k < l → c.repr y k = 0 := fun k hk => congrFun (congrArg Prod.fst hy) ⟨k, hk⟩
  have hb : ∀ k, i < k → b.repr (J y) k = 0 := fun k hk => congrFun (congrArg Prod.snd hy) ⟨k, hk⟩
  have hpos : 0 < ‖y‖ ^ 2 := pow_pos (norm_pos_iff.2 hy0) 2
  have e1 : hT.eigenvalues hn i * ‖y‖ ^ 2 ≤ (⟪J y, T (J y)⟫).re := by
    rw [re_inner_eq_sum hT hn, ← hJ y, norm_sq_eq_sum b, Finset.mul_sum]
    refine Finset.sum_le_sum fun k _ => ?_
    rcases le_or_gt k i with h | h
    · exact mul_le_mul_of_nonneg_right (hT.eigenvalues_antitone hn h) (sq_nonneg _)
    · have := hb k h
      simp only [b] at this
      rw [this]; simp
  have e2 : (⟪y, S y⟫).re ≤ hS.eigenvalues hm l * ‖y‖ ^ 2 := by
    rw [re_inner_eq_sum hS hm, norm_sq_eq_sum c, Finset.mul_sum]
    refine Finset.sum_le_sum fun k _ => ?_
    rcases lt_or_ge k l with h | h
    · have := hc k h
      simp only [c] at this
      rw [this]; simp
    · exact mul_le_mul_of_nonneg_right (hS.eigenvalues_antitone hm h) (sq_nonneg _)
  have e3 := hle y
  have : hT.eigenvalues hn i * ‖y‖ ^ 2 ≤ t * hS.eigenvalues hm l * ‖y‖ ^ 2 := by
    calc _ ≤ _ := e1
      _ ≤ _ := e3
      _ ≤ t * (hS.eigenvalues hm l * ‖y‖ ^ 2) := mul_le_mul_of_nonneg_left e2 ht
      _ = _ := by ring
  exact le_of_mul_le_mul_right this hpos

/-! ### Matrices -/

open Matrix

variable {n m : Type*} [Fintype n] [DecidableEq n] [Fintype m] [DecidableEq m]

omit [DecidableEq n] in
theorem norm_sq_ofLp (z : EuclideanSpace ℂ n) : ((‖z‖ ^ 2 : ℝ) : ℂ) = star z.ofLp ⬝ᵥ z.ofLp := by
  rw [EuclideanSpace.norm_sq_eq, dotProduct, ofReal_sum]
  refine Finset.sum_congr rfl fun i _ => ?_
  rw [Pi.star_apply, star_def, ← Complex.normSq_eq_norm_sq, normSq_eq_conj_mul_self]

theorem inner_ofLp (C : Matrix n n ℂ) (z : EuclideanSpace ℂ n) : inner ℂ z (Matrix.toEuclideanLin C z) = star z.ofLp ⬝ᵥ (C *ᵥ z.ofLp) := by
  rw [PiLp.inner_apply, dotProduct]
  refine Finset.sum_congr rfl fun i _ => ?_
  rw [RCLike.inner_apply, mul_comm]
  rfl

/-- The comparison for Hermitian matrices and a matrix `Y` with orthonormal columns. -/
theorem eigenvalues₀_le {A : Matrix n n ℂ} (hA : A.IsHermitian) {B : Matrix m m ℂ} (hB : B.IsHermitian) {Y : Matrix n m ℂ} (hY : Yᴴ * Y = 1)
    {t : ℝ} (ht : 0 ≤ t) (hle : ∀ v : m → ℂ, (star (Y *ᵥ v) ⬝ᵥ (A *ᵥ (Y *ᵥ v))).re ≤ t * (star v ⬝ᵥ (B *ᵥ v)).re)
    (i : Fin (Fintype.card n)) (l : Fin (Fintype.card m)) (hil : (l : ℕ) + Fintype.card n ≤ i + Fintype.card m) :
    hA.eigenvalues₀ i ≤ t * hB.eigenvalues₀ l := by
  refine eigenvalues_le _ _ _ _ (Matrix.toLpLin 2 2 Y) (fun y => ?_) ht (fun y => ?_) i l hil
  · rw [← sq_eq_sq₀ (norm_nonneg _) (norm_nonneg _)]
    have h2 : ((‖Matrix.toLpLin 2 2 Y y‖ ^ 2 : ℝ) : ℂ) = ((‖y‖ ^ 2 : ℝ) : ℂ) := by
      rw [norm_sq_ofLp, norm_sq_ofLp]
      show star (Y *ᵥ y.ofLp) ⬝ᵥ (Y *ᵥ y.ofLp) = _
      rw [star_mulVec, dotProduct_mulVec, vecMul_vecMul, hY, vecMul_one]
    exact_mod_cast h2
  · rw [inner_ofLp, inner_ofLp]
    exact hle y.ofLp

/-- The sorted eigenvalues of a Hermitian matrix that is diagonalised by an invertible matrix, with the diagonal in descending order. -/
theorem eigenvalues₀_diagonalised {M : ℕ} {B V : Matrix (Fin M) (Fin M) ℂ} (hB : B.IsHermitian) (hV : V.det ≠ 0) {d : Fin M → ℝ} (hd : Antitone d)
    (h : B * V = V * diagonal fun j => (d j : ℂ)) (l : Fin (Fintype.card (Fin M))) :
    hB.eigenvalues₀ l = d (Fin.cast (Fintype.card_fin M) l) := by
  have hu : IsUnit V.det := isUnit_iff_ne_zero.2 hV
  have hBV : B = V * (diagonal fun j => (d j : ℂ)) * V⁻¹ := by rw [← h, mul_nonsing_inv_cancel_right _ _ hu]
  have hc : B.charpoly = (diagonal fun j => (d j : ℂ)).charpoly := by
    rw [hBV]
    have := Matrix.charpoly_units_conj ((Matrix.isUnit_iff_isUnit_det V).2 hu).unit (diagonal fun j => (d j : ℂ))
    rw [← this]
    simp
  have hr : B.charpoly.roots = Finset.univ.val.map fun j => (d j : ℂ) := by
    rw [hc, charpoly_diagonal]
    have e : ∏ i, (Polynomial.X - Polynomial.C (d i : ℂ))
        = (Multiset.map (fun a => Polynomial.X - Polynomial.C a) (Finset.univ.val.map fun j => (d j : ℂ))).prod := by
      rw [Multiset.map_map]; rfl
    rw [e, Polynomial.roots_multiset_prod_X_sub_C]
  have hs := hB.sort_roots_charpoly_eq_eigenvalues₀
  rw [hr, Multiset.map_map] at hs
  have h1 : (Multiset.map (RCLike.re ∘ fun j => (d j : ℂ)) Finset.univ.val).sort (· ≥ ·) = List.ofFn d := by
    have : (RCLike.re ∘ fun j => (d j : ℂ)) = d := by funext j; simp
    rw [this, Fin.univ_val_map, Multiset.coe_sort]
    apply List.mergeSort_of_pairwise
    simp_rw [decide_eq_true_eq, ← List.sortedGE_iff_pairwise]
    exact hd.sortedGE_ofFn
  rw [h1] at hs
  have h2 := List.getElem_of_eq hs.symm (i := (l : ℕ)) (by rw [List.length_ofFn]; exact l.2)
  rw [List.getElem_ofFn, List.getElem_ofFn] at h2
  exact h2

end Meanas.MinMax
