/-
Eigenvalues crossing zero along a continuous path of Hermitian matrices (not in Mathlib).
-/
import Verif.Lemmas.MinMax
import Mathlib.Topology.Order.IntermediateValue
import Mathlib.Topology.Instances.Matrix

namespace Meanas.MinMax

open Complex

variable {E : Type*} [NormedAddCommGroup E] [InnerProductSpace ℂ E] [FiniteDimensional ℂ E]

/-- Sorted eigenvalues move by at most the change of the form. -/
theorem eigenvalues_le_add {T S : E →ₗ[ℂ] E} (hT : T.IsSymmetric) (hS : S.IsSymmetric) {n : ℕ} (hn : Module.finrank ℂ E = n) {δ : ℝ}
    (hle : ∀ y, (inner ℂ y (T y)).re ≤ (inner ℂ y (S y)).re + δ * ‖y‖ ^ 2) (i : Fin n) :
    hT.eigenvalues hn i ≤ hS.eigenvalues hn i + δ := by
  classical
  let b := hT.eigenvectorBasis hn
  let c := hS.eigenvectorBasis hn
  let L : E →ₗ[ℂ] (({k : Fin n // k < i} → ℂ) × ({k : Fin n // i < k} → ℂ)) :=
    { toFun := fun y => (fun k => c.repr y k, fun k => b.repr y k)
      map_add' := fun x y => by ext <;> simp
      map_smul' := fun r y => by ext <;> simp }
  have hdim : Module.finrank ℂ (({k : Fin n // k < i} → ℂ) × ({k : Fin n // i < k} → ℂ)) < Module.finrank ℂ E := by
    rw [hn, Module.finrank_prod, Module.finrank_fintype_fun_eq_card, Module.finrank_fintype_fun_eq_card, Fintype.card_subtype, Fintype.card_subtype]
    have h1 : (Finset.univ.filter fun k : Fin n => k < i) = Finset.Iio i := by ext; simp
    have h2 : (Finset.univ.filter fun k : Fin n => i < k) = Finset.Ioi i := by ext; simp
    rw [h1, h2, Fin.card_Iio, Fin.card_Ioi]
    have := i.2
    omega
  obtain ⟨y, hy, hy0⟩ := (Submodule.ne_bot_iff _).1 (LinearMap.ker_ne_bot_of_finrank_lt (f := L) hdim)
  rw [LinearMap.mem_ker] at hy
  have hc : ∀ k, k < i → c.repr y k = 0 := fun k hk => congrFun (congrArg Prod.fst hy) ⟨k, hk⟩
  have hb : ∀ k, i < k → b.repr y k = 0 := fun k hk => congrFun (congrArg Prod.snd hy) ⟨k, hk⟩
  have hpos : 0 < ‖y‖ ^ 2 := pow_pos (norm_pos_iff.2 hy0) 2
  have e1 : hT.eigenvalues hn i * ‖y‖ ^ 2 ≤ (inner ℂ y (T y)).re := by
    rw [re_inner_eq_sum hT hn, norm_sq_eq_sum b, Finset.mul_sum]
    refine Finset.sum_le_sum fun k _ => ?_
    rcases le_or_gt k i with h | h
    · exact mul_le_mul_of_nonneg_right (hT.eigenvalues_antitone hn h) (sq_nonneg _)
    · have := hb k h
      simp only [b] at this
      rw [this]; simp
  have e2 : (inner ℂ y (S y)).re ≤ hS.eigenvalues hn i * ‖y‖ ^ 2 := by
    rw [re_inner_eq_sum hS hn, norm_sq_eq_sum c, Finset.mul_sum]
    refine Finset.sum_le_sum fun k _ => ?_
    rcases lt_or_ge k i with h | h
    · have := hc k h
      simp only [c] at this
      rw [this]; simp
    · exact mul_le_mul_of_nonneg_right (hS.eigenvalues_antitone hn h) (sq_nonneg _)
  refine le_of_mul_le_mul_right ?_ hpos
  linarith [hle y]

/-- A `k`-dimensional space on which the form is negative makes the last `k` eigenvalues negative. -/
theorem eigenvalues_neg {T : E →ₗ[ℂ] E} (hT : T.IsSymmetric) {n : ℕ} (hn : Module.finrank ℂ E = n) (W : Submodule ℂ E)
    (hW : ∀ y ∈ W, y ≠ 0 → (inner ℂ y (T y)).re < 0) (i : Fin n) (hi : n ≤ i + Module.finrank ℂ W) : hT.eigenvalues hn i < 0 := by
  classical
  let b := hT.eigenvectorBasis hn
  let L : W →ₗ[ℂ] ({k : Fin n // i < k} → ℂ) :=
    { toFun := fun y => (fun k => b.repr (y : E) k)
      map_add' := fun x y => by ext; simp
      map_smul' := fun r y => by ext; simp }
  have hdim : Module.finrank ℂ ({k : Fin n // i < k} → ℂ) < Module.finrank ℂ W := by
    rw [Module.finrank_fintype_fun_eq_card, Fintype.card_subtype]
    have h2 : (Finset.univ.filter fun k : Fin n => i < k) = Finset.Ioi i := by ext; simp
    rw [h2, Fin.card_Ioi]
    have := i.2
    omega
  obtain ⟨y, hy, hy0⟩ := (Submodule.ne_bot_iff _).1 (LinearMap.ker_ne_bot_of_finrank_lt (f := L) hdim)
  rw [LinearMap.mem_ker] at hy
  have hb : ∀ k, i < k → b.repr (y : E) k = 0 := fun k hk => congrFun hy ⟨k, hk⟩
  have hy1 : (y : E) ≠ 0 := fun h => hy0 (Subtype.ext h)
  have hpos : 0 < ‖(y : E)‖ ^ 2 := pow_pos (norm_pos_iff.2 hy1) 2
  have e1 : hT.eigenvalues hn i * ‖(y : E)‖ ^ 2 ≤ (inner ℂ (y : E) (T y)).re := by
    rw [re_inner_eq_sum hT hn, norm_sq_eq_sum b, Finset.mul_sum]
    refine Finset.sum_le_sum fun k _ => ?_
    rcases le_or_gt k i with h | h
    · exact mul_le_mul_of_nonneg_right (hT.eigenvalues_antitone hn h) (sq_nonneg _)
    · have := hb k h
      simp only [b] at this
      rw [this]; simp
  have := hW y y.2 hy1
  by_contra hcon
  exact absurd (mul_nonneg (not_lt.1 hcon) hpos.le) (not_le.2 (e1.trans_lt this))

theorem eigenvalues_pos {T : E →ₗ[ℂ] E} (hT : T.IsSymmetric) {n : ℕ} (hn : Module.finrank ℂ E = n)
    (hpos : ∀ y, y ≠ 0 → 0 < (inner ℂ y (T y)).re) (i : Fin n) : 0 < hT.eigenvalues hn i := by
  have hb := (hT.eigenvectorBasis hn).orthonormal.1 i
  have h0 : hT.eigenvectorBasis hn i ≠ 0 := fun h => by rw [h, norm_zero] at hb; exact one_ne_zero hb.symm
  have := hpos _ h0
  rw [hT.apply_eigenvectorBasis hn, inner_smul_right, inner_self_eq_norm_sq_to_K, hb] at this
  simpa using this

theorem card_null_le {T : E →ₗ[ℂ] E} (hT : T.IsSymmetric) {n : ℕ} (hn : Module.finrank ℂ E = n) :
    (Finset.univ.filter fun i : Fin n => hT.eigenvalues hn i = 0).card ≤ Module.finrank ℂ (LinearMap.ker T) := by
  classical
  let N := {i : Fin n // hT.eigenvalues hn i = 0}
  have hmem : ∀ i : N, hT.eigenvectorBasis hn i ∈ LinearMap.ker T := fun i => by
    rw [LinearMap.mem_ker, hT.apply_eigenvectorBasis hn, i.2]; simp
  have li : LinearIndependent ℂ fun i : N => (⟨hT.eigenvectorBasis hn i, hmem i⟩ : LinearMap.ker T) := by
    refine LinearIndependent.of_comp (LinearMap.ker T).subtype ?_
    exact (hT.eigenvectorBasis hn).orthonormal.linearIndependent.comp _ Subtype.val_injective
  have := li.fintype_card_le_finrank
  rwa [Fintype.card_subtype] at this

/-- Along a continuous path that starts positive definite, a `k`-dimensional space of negative form at the end makes kernels of total dimension at least `k` on the way. -/
theorem flow {T : ℝ → E →ₗ[ℂ] E} (hT : ∀ s, (T s).IsSymmetric) {s₀ : ℝ} (hs₀ : 0 ≤ s₀)
    (hc : ∀ s, ∀ δ > 0, ∃ r > 0, ∀ t, |t - s| < r → ∀ y, |(inner ℂ y (T t y)).re - (inner ℂ y (T s y)).re| ≤ δ * ‖y‖ ^ 2)
    (hpos : ∀ y, y ≠ 0 → 0 < (inner ℂ y (T 0 y)).re) (W : Submodule ℂ E) (hW : ∀ y ∈ W, y ≠ 0 → (inner ℂ y (T s₀ y)).re < 0) :
    ∃ S : Finset ℝ, (∀ s ∈ S, 0 < s ∧ s < s₀) ∧ Module.finrank ℂ W ≤ ∑ s ∈ S, Module.finrank ℂ (LinearMap.ker (T s)) := by
  classical
  obtain ⟨n, hn⟩ : ∃ n, Module.finrank ℂ E = n := ⟨_, rfl⟩
  have hcont : ∀ i, Continuous fun s => (hT s).eigenvalues hn i := by
    intro i
    rw [Metric.continuous_iff]
    intro s ε hε
    obtain ⟨r, hr, h⟩ := hc s (ε / 2) (by positivity)
    refine ⟨r, hr, fun t ht => ?_⟩
    rw [Real.dist_eq] at ht ⊢
    have h1 := eigenvalues_le_add (hT t) (hT s) hn (δ := ε / 2) (fun y => by linarith [(abs_le.1 (h t ht y)).2]) i
    have h2 := eigenvalues_le_add (hT s) (hT t) hn (δ := ε / 2) (fun y => by linarith [(abs_le.1 (h t ht y)).1]) i
    exact lt_of_le_of_lt (abs_le.2 ⟨by linarith, by linarith⟩) (half_lt_self hε)
  have hk : Module.finrank ℂ W ≤ n := hn ▸ Submodule.finrank_le W
  set k := Module.finrank ℂ W with hkd
  let J : Finset (Fin n) := Finset.univ.filter fun i => n ≤ i + k
  have hJ : J.card = k := by
    have : J.card = (Finset.range k).card := by
      refine Finset.card_bij (fun i _ => n - 1 - i) (fun i hi => ?_) (fun i hi j hj h => ?_) (fun m hm => ?_)
      · have := (Finset.mem_filter.1 hi).2
        have := i.2
        rw [Finset.mem_range]; omega
      · have := i.2
        have := j.2
        exact Fin.ext (by omega)
      · rw [Finset.mem_range] at hm
        exact ⟨⟨n - 1 - m, by omega⟩, Finset.mem_filter.2 ⟨Finset.mem_univ _, by show n ≤ n - 1 - m + k; omega⟩, by show n - 1 - (n - 1 - m) = m; omega⟩
    rw [this, Finset.card_range]
  have hcross : ∀ i : Fin n, i ∈ J → ∃ s, (0 < s ∧ s < s₀) ∧ (hT s).eigenvalues hn i = 0 := by
    intro i hi
    have h0 := eigenvalues_pos (hT 0) hn hpos i
    have h1 := eigenvalues_neg (hT s₀) hn W hW i (Finset.mem_filter.1 hi).2
    obtain ⟨s, hs, he⟩ := intermediate_value_Icc' hs₀ (hcont i).continuousOn ⟨h1.le, h0.le⟩
    refine ⟨s, ⟨lt_of_le_of_ne hs.1 ?_, lt_of_le_of_ne hs.2 ?_⟩, he⟩
    · rintro rfl; exact h0.ne' he
    · rintro rfl; exact h1.ne he
  choose! σ hσ1 hσ2 using hcross
  refine ⟨J.image σ, fun s hs => ?_, ?_⟩
  · obtain ⟨i, hi, rfl⟩ := Finset.mem_image.1 hs
    exact hσ1 i hi
  · rw [← hJ, Finset.card_eq_sum_card_image σ J]
    refine Finset.sum_le_sum fun s hs => le_trans (Finset.card_le_card fun i hi => ?_) (card_null_le (hT s) hn)
    obtain ⟨hm, rfl⟩ := Finset.mem_filter.1 hi
    exact Finset.mem_filter.2 ⟨Finset.mem_univ _, hσ2 i hm⟩

open Matrix

variable {n : Type*} [Fintype n] [DecidableEq n]

omit [DecidableEq n] in
theorem form_bound (M : Matrix n n ℂ) (z : EuclideanSpace ℂ n) : |(star z.ofLp ⬝ᵥ (M *ᵥ z.ofLp)).re| ≤ (∑ i, ∑ j, ‖M i j‖) * ‖z‖ ^ 2 := by
  refine (abs_re_le_norm _).trans ?_
  rw [dotProduct, Finset.sum_mul]
  refine (norm_sum_le _ _).trans (Finset.sum_le_sum fun i _ => ?_)
  rw [mulVec, dotProduct, Finset.mul_sum, Finset.sum_mul]
  refine (norm_sum_le _ _).trans (Finset.sum_le_sum fun j _ => ?_)
  have hz : ∀ i, ‖z.ofLp i‖ ≤ ‖z‖ := fun i => by
    rw [← sq_le_sq₀ (norm_nonneg _) (norm_nonneg _), EuclideanSpace.norm_sq_eq]
    exact Finset.single_le_sum (f := fun i => ‖z.ofLp i‖ ^ 2) (fun i _ => sq_nonneg _) (Finset.mem_univ i)
  rw [norm_mul, norm_mul, Pi.star_apply, norm_star]
  calc ‖z.ofLp i‖ * (‖M i j‖ * ‖z.ofLp j‖) = ‖M i j‖ * (‖z.ofLp i‖ * ‖z.ofLp j‖) := by ring
    _ ≤ ‖M i j‖ * (‖z‖ * ‖z‖) := mul_le_mul_of_nonneg_left (mul_le_mul (hz i) (hz j) (norm_nonneg _) (norm_nonneg _)) (norm_nonneg _)
    _ = _ := by ring

/-- The statement for matrices: entries continuous, positive definite at `0`, negative on `W` at `s₀`. -/
theorem matrix_flow {Q : ℝ → Matrix n n ℂ} (hQ : ∀ s, (Q s).IsHermitian) (hc : ∀ i j, Continuous fun s => Q s i j) {s₀ : ℝ} (hs₀ : 0 ≤ s₀)
    (hpos : ∀ v : n → ℂ, v ≠ 0 → 0 < (star v ⬝ᵥ (Q 0 *ᵥ v)).re) (W : Submodule ℂ (n → ℂ)) (hW : ∀ v ∈ W, v ≠ 0 → (star v ⬝ᵥ (Q s₀ *ᵥ v)).re < 0) :
    ∃ S : Finset ℝ, (∀ s ∈ S, 0 < s ∧ s < s₀) ∧ Module.finrank ℂ W ≤ ∑ s ∈ S, Module.finrank ℂ (LinearMap.ker (Q s).mulVecLin) := by
  let e : EuclideanSpace ℂ n ≃ₗ[ℂ] (n → ℂ) := WithLp.linearEquiv 2 ℂ (n → ℂ)
  have hT : ∀ s, (Matrix.toEuclideanLin (Q s)).IsSymmetric := fun s => Matrix.isSymmetric_toEuclideanLin_iff.2 (hQ s)
  obtain ⟨S, h1, h2⟩ := flow (T := fun s => Matrix.toEuclideanLin (Q s)) hT hs₀ (fun s δ hδ => by
    have hcs : Continuous fun t => ∑ i, ∑ j, ‖Q t i j - Q s i j‖ :=
      continuous_finsetSum _ fun i _ => continuous_finsetSum _ fun j _ => ((hc i j).sub continuous_const).norm
    obtain ⟨r, hr, h⟩ := (Metric.continuous_iff.1 hcs) s δ hδ
    refine ⟨r, hr, fun t ht y => ?_⟩
    have h3 := h t (by rwa [Real.dist_eq])
    rw [Real.dist_eq] at h3
    simp only [sub_self, norm_zero, Finset.sum_const_zero, sub_zero] at h3
    rw [inner_ofLp, inner_ofLp, ← sub_re, ← dotProduct_sub, ← Matrix.sub_mulVec]
    refine (form_bound _ y).trans (mul_le_mul_of_nonneg_right ?_ (sq_nonneg _))
    exact (le_abs_self _).trans h3.le) (fun y hy => by
    rw [inner_ofLp]
    exact hpos _ fun h => hy (e.injective (by simpa using h))) (W.comap e.toLinearMap) (fun y hy h0 => by
    rw [inner_ofLp]
    exact hW _ hy fun h => h0 (e.injective (by simpa using h)))
  refine ⟨S, h1, ?_⟩
  have hf : Module.finrank ℂ (W.comap e.toLinearMap) = Module.finrank ℂ W :=
    LinearEquiv.finrank_eq (e.ofSubmodule' W)
  rw [← hf]
  refine h2.trans (le_of_eq (Finset.sum_congr rfl fun s _ => ?_))
  have : LinearMap.ker (Matrix.toEuclideanLin (Q s)) = (LinearMap.ker (Q s).mulVecLin).comap e.toLinearMap := by
    ext y
    rw [LinearMap.mem_ker, Submodule.mem_comap, LinearMap.mem_ker]
    constructor
    · intro h
      have := congrArg e h
      rw [map_zero] at this
      exact this
    · intro h
      exact e.injective (by rw [map_zero]; exact h)
  rw [this]
  exact LinearEquiv.finrank_eq (e.ofSubmodule' _)

end Meanas.MinMax
