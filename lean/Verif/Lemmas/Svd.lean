/-
The singular value decomposition and the pseudo-inverse of complex matrices exist: the contracts assumed of numpy.linalg in the theorems about
eme.py can be met.
-/
import Mathlib.Analysis.Matrix.Spectrum
import Mathlib.Analysis.Matrix.PosDef
import Mathlib.Analysis.InnerProductSpace.PiL2
import Mathlib.Data.Fin.Tuple.Sort
import Verif.Model.Eme

namespace Meanas.Eme

open Matrix Complex
open scoped ComplexOrder

variable {r c : ℕ}

/-- The promise of `numpy.linalg.svd`: unitary factors, non-negative singular values in descending order, and their product is the matrix. -/
structure IsSvd (A : Matrix (Fin r) (Fin c) ℂ) (d : Svd r c) : Prop where
  unitaryU : d.Uᴴ * d.U = 1
  unitaryV : d.Vᴴ * d.V = 1
  nonneg : ∀ k, 0 ≤ d.s k
  sorted : Antitone d.s
  factors : ∀ i j, A i j = ∑ k : Fin (min r c), d.U i (Fin.castLE (min_le_left _ _) k) * d.s k * d.V (Fin.castLE (min_le_right _ _) k) j

/-- The promise of `numpy.linalg.pinv`: the Moore-Penrose conditions. -/
structure IsPinv (A : Matrix (Fin r) (Fin c) ℂ) (P : Matrix (Fin c) (Fin r) ℂ) : Prop where
  apa : A * P * A = A
  pap : P * A * P = P
  hap : (A * P)ᴴ = A * P
  hpa : (P * A)ᴴ = P * A

/-- The promise of `numpy.linalg.lstsq`: the normal equations hold and the solution has no component in the null space. -/
structure IsLstsq {k : ℕ} (A : Matrix (Fin r) (Fin c) ℂ) (B : Matrix (Fin r) (Fin k) ℂ) (X : Matrix (Fin c) (Fin k) ℂ) : Prop where
  normal : Aᴴ * A * X = Aᴴ * B
  minimal : ∃ Y, X = Aᴴ * Y

/-- numpy.linalg keeps its promises. -/
structure LibOk (L : Lib) : Prop where
  svd : ∀ {r c : ℕ} (A : Matrix (Fin r) (Fin c) ℂ), IsSvd A (L.svd A)
  pinv : ∀ {r c : ℕ} (A : Matrix (Fin r) (Fin c) ℂ), IsPinv A (L.pinv A)
  lstsq : ∀ {r c k : ℕ} (A : Matrix (Fin r) (Fin c) ℂ) (B : Matrix (Fin r) (Fin k) ℂ), IsLstsq A B (L.lstsq A B)

/-- An orthonormal eigenbasis of `Aᴴ A`, eigenvalues descending. -/
theorem exists_basis (A : Matrix (Fin r) (Fin c) ℂ) : ∃ (lam : Fin c → ℝ) (v : Fin c → Fin c → ℂ), Antitone lam ∧ (∀ k, 0 ≤ lam k) ∧
    (∀ k l, star (v k) ⬝ᵥ v l = if k = l then 1 else 0) ∧ ∀ k, (Aᴴ * A) *ᵥ v k = (lam k : ℂ) • v k := by
  have hH := isHermitian_conjTranspose_mul_self A
  set π := Tuple.sort fun i => -hH.eigenvalues i
  have hπ := Tuple.monotone_sort fun i => -hH.eigenvalues i
  refine ⟨fun k => hH.eigenvalues (π k), fun k => hH.eigenvectorBasis (π k), fun i j h => ?_, fun k => ?_, fun k l => ?_, fun k => ?_⟩
  · have := hπ h
    simp only [Function.comp] at this
    linarith
  · exact (posSemidef_conjTranspose_mul_self A).eigenvalues_nonneg _
  · have := (orthonormal_iff_ite.1 hH.eigenvectorBasis.orthonormal) (π k) (π l)
    rw [EuclideanSpace.inner_eq_star_dotProduct, dotProduct_comm] at this
    rw [this]
    simp [π.injective.eq_iff]
  · have := hH.mulVec_eigenvectorBasis (π k)
    rw [this]; rfl

theorem dot_mulVec_conj (A : Matrix (Fin r) (Fin c) ℂ) (x y : Fin c → ℂ) : star (A *ᵥ x) ⬝ᵥ (A *ᵥ y) = star x ⬝ᵥ ((Aᴴ * A) *ᵥ y) := by
  rw [star_mulVec, ← dotProduct_mulVec, mulVec_mulVec]

/-- Orthonormal vectors in `ℂ^r`, given on a subset of the positions, extend to a unitary matrix with these columns. -/
theorem exists_unitary (s : Set (Fin r)) (w : Fin r → Fin r → ℂ) (hw : ∀ k ∈ s, ∀ l ∈ s, star (w k) ⬝ᵥ w l = if k = l then 1 else 0) :
    ∃ U : Matrix (Fin r) (Fin r) ℂ, Uᴴ * U = 1 ∧ ∀ k ∈ s, ∀ i, U i k = w k i := by
  have ho : Orthonormal ℂ (s.domRestrict fun k => (WithLp.toLp 2 (w k) : EuclideanSpace ℂ (Fin r))) := by
    rw [orthonormal_iff_ite]
    rintro ⟨k, hk⟩ ⟨l, hl⟩
    rw [EuclideanSpace.inner_eq_star_dotProduct, dotProduct_comm, Set.domRestrict_apply, Set.domRestrict_apply, hw k hk l hl]
    simp only [Subtype.mk.injEq]
  obtain ⟨b, hb⟩ := ho.exists_orthonormalBasis_extension_of_card_eq (by simp)
  refine ⟨of fun i k => b k i, ?_, fun k hk i => by rw [of_apply, hb k hk]⟩
  ext k l
  have := (orthonormal_iff_ite.1 b.orthonormal) k l
  rw [EuclideanSpace.inner_eq_star_dotProduct, dotProduct_comm] at this
  rw [mul_apply, one_apply, ← this]
  rfl

/-- There are at most `r` orthonormal vectors in `ℂ^r`. -/
theorem orthonormal_card {n : ℕ} (w : Fin n → Fin r → ℂ) (hw : ∀ k l, star (w k) ⬝ᵥ w l = if k = l then 1 else 0) : n ≤ r := by
  have ho : Orthonormal ℂ (fun k => (WithLp.toLp 2 (w k) : EuclideanSpace ℂ (Fin r))) := by
    rw [orthonormal_iff_ite]
    intro k l
    rw [EuclideanSpace.inner_eq_star_dotProduct, dotProduct_comm, hw k l]
  have := ho.linearIndependent.fintype_card_le_finrank
  simpa using this

theorem svd_exists (A : Matrix (Fin r) (Fin c) ℂ) : ∃ d, IsSvd A d := by
  obtain ⟨lam, v, hanti, hnn, hv, hlam⟩ := exists_basis A
  have hAA : ∀ k l, star (A *ᵥ v k) ⬝ᵥ (A *ᵥ v l) = if k = l then (lam k : ℂ) else 0 := by
    intro k l
    rw [dot_mulVec_conj, hlam, dotProduct_smul, hv]
    split_ifs with h
    · rw [h]; simp
    · simp
  have hA0 : ∀ k, lam k = 0 → A *ᵥ v k = 0 := by
    intro k h
    have := hAA k k
    rw [if_pos rfl, h, ofReal_zero] at this
    exact dotProduct_star_self_eq_zero.1 this
  have hsq : ∀ k, 0 < lam k → ((Real.sqrt (lam k) : ℝ) : ℂ) ≠ 0 := fun k h => by exact_mod_cast (Real.sqrt_pos.2 h).ne'
  have hsq2 : ∀ k, ((Real.sqrt (lam k) : ℝ) : ℂ) * ((Real.sqrt (lam k) : ℝ) : ℂ) = (lam k : ℂ) := fun k => by
    rw [← ofReal_mul, Real.mul_self_sqrt (hnn k)]
  have hon : ∀ k l, 0 < lam k → 0 < lam l → star ((1 / ((Real.sqrt (lam k) : ℝ) : ℂ)) • (A *ᵥ v k)) ⬝ᵥ ((1 / ((Real.sqrt (lam l) : ℝ) : ℂ)) • (A *ᵥ v l))
      = if k = l then 1 else 0 := by
    intro k l hk hl
    rw [star_smul, smul_dotProduct, dotProduct_smul, hAA]
    split_ifs with h
    · subst h
      have := hsq k hk
      rw [star_def, map_div₀, map_one, conj_ofReal, smul_eq_mul, smul_eq_mul, ← hsq2 k]
      field_simp
    · simp
  have hp : ∀ k : Fin c, r ≤ k → lam k = 0 := by
    intro k hk
    by_contra h0
    have hpos : ∀ i : Fin (k + 1), 0 < lam (Fin.castLE k.2 i) := fun i =>
      lt_of_lt_of_le (lt_of_le_of_ne (hnn k) (Ne.symm h0)) (hanti (by rw [Fin.le_def]; simp; omega))
    have := orthonormal_card (fun i : Fin (k + 1) => (1 / ((Real.sqrt (lam (Fin.castLE k.2 i)) : ℝ) : ℂ)) • (A *ᵥ v (Fin.castLE k.2 i))) fun i j => by
      rw [hon _ _ (hpos i) (hpos j)]
      simp
    omega
  obtain ⟨U, hU, hUw⟩ := exists_unitary {i : Fin r | ∃ h : (i : ℕ) < c, 0 < lam ⟨i, h⟩}
    (fun i => if h : (i : ℕ) < c then (1 / ((Real.sqrt (lam ⟨i, h⟩) : ℝ) : ℂ)) • (A *ᵥ v ⟨i, h⟩) else 0) (by
      rintro k ⟨hk, hk'⟩ l ⟨hl, hl'⟩
      simp only [hk, hl, dif_pos]
      rw [hon _ _ hk' hl']
      simp [Fin.ext_iff])
  refine ⟨⟨U, fun k => Real.sqrt (lam (Fin.castLE (min_le_right _ _) k)), fun k j => star (v k j)⟩, hU, ?_, fun k => Real.sqrt_nonneg _,
    fun i j h => Real.sqrt_le_sqrt (hanti (by simpa using h)), ?_⟩
  · rw [mul_eq_one_comm]
    ext k l
    rw [mul_apply, one_apply, ← hv k l]
    refine Finset.sum_congr rfl fun x _ => ?_
    rw [conjTranspose_apply]
    show star (v k x) * star (star (v l x)) = star (v k x) * v l x
    rw [star_star]
  · intro i j
    have hAv : ∀ k : Fin c, ∀ i, (A *ᵥ v k) i = if h : (k : ℕ) < r then U i ⟨k, h⟩ * (Real.sqrt (lam k) : ℝ) else 0 := by
      intro k i
      split_ifs with h
      · by_cases hk : lam k = 0
        · rw [hA0 k hk, hk]; simp
        · have hk' := lt_of_le_of_ne (hnn k) (Ne.symm hk)
          rw [hUw ⟨k, h⟩ ⟨k.2, hk'⟩ i, dif_pos k.2]
          have := hsq k hk'
          simp only [Fin.eta, Pi.smul_apply, smul_eq_mul]
          field_simp
      · rw [hA0 k (hp k (by omega))]; rfl
    have hVV : (of fun j k : Fin c => v k j) * (of fun k j : Fin c => star (v k j)) = 1 := by
      rw [mul_eq_one_comm]
      ext k l
      rw [mul_apply, one_apply, ← hv k l]
      rfl
    have h1 : A i j = ∑ k, (A *ᵥ v k) i * star (v k j) := by
      calc A i j = (A * ((of fun j k : Fin c => v k j) * (of fun k j : Fin c => star (v k j)))) i j := by rw [hVV, Matrix.mul_one]
        _ = _ := by rw [← Matrix.mul_assoc, mul_apply]; rfl
    rw [h1]
    simp only [hAv]
    symm
    refine Finset.sum_of_injOn (Fin.castLE (min_le_right _ _)) (Function.Injective.injOn (Fin.castLE_injective _)) (fun _ _ => by simp) ?_ ?_
    · intro k _ hk
      rw [dif_neg, zero_mul]
      intro h
      exact hk ⟨⟨k, by omega⟩, by simp, by ext; rfl⟩
    · intro k _
      rw [dif_pos (show ((Fin.castLE (min_le_right r c) k : Fin c) : ℕ) < r by simp; omega)]
      rfl

/-- The rectangular diagonal matrix of the singular values. -/
noncomputable def sigma (s : Fin (min r c) → ℝ) : Matrix (Fin r) (Fin c) ℂ := fun i j => if h : (i : ℕ) = j then (s ⟨i, by omega⟩ : ℂ) else 0

theorem IsSvd.eq_sigma {A : Matrix (Fin r) (Fin c) ℂ} {d : Svd r c} (h : IsSvd A d) : A = d.U * sigma d.s * d.V := by
  ext i j
  rw [h.factors, mul_apply]
  symm
  symm
  refine Finset.sum_of_injOn (Fin.castLE (min_le_right _ _)) (Function.Injective.injOn (Fin.castLE_injective _)) (fun _ _ => by simp) ?_ ?_
  · intro k _ hk
    rw [mul_apply, Finset.sum_eq_zero, zero_mul]
    intro l _
    rw [sigma, dif_neg, mul_zero]
    intro h
    exact hk ⟨⟨k, by omega⟩, by simp, by ext; rfl⟩
  · intro k _
    congr 1
    rw [mul_apply, Finset.sum_eq_single (Fin.castLE (min_le_left _ _) k)]
    · rw [sigma, dif_pos (by simp)]; rfl
    · intro l _ hl
      rw [sigma, dif_neg, mul_zero]
      intro h
      exact hl (by ext; simpa using h)
    · simp

theorem pinv_exists (A : Matrix (Fin r) (Fin c) ℂ) : ∃ P, IsPinv A P := by
  obtain ⟨d, hd⟩ := svd_exists A
  have hA := hd.eq_sigma
  set S := sigma d.s (r := r) (c := c)
  have hS : ∀ (i : Fin r) (j : Fin c), (i : ℕ) ≠ j → S i j = 0 := fun i j h => by simp only [S, sigma]; rw [dif_neg h]
  have hreal : ∀ (i : Fin r) (j : Fin c), star (S i j) = S i j := fun i j => by
    simp only [S, sigma]; split_ifs <;> simp
  set T : Matrix (Fin c) (Fin r) ℂ := of fun j i => (S i j)⁻¹
  have hST : S * T = diagonal fun i => ∑ j, S i j * (S i j)⁻¹ := by
    ext i i'
    rw [mul_apply, diagonal_apply]
    split_ifs with h
    · subst h; rfl
    · refine Finset.sum_eq_zero fun j _ => ?_
      by_cases hj : (i : ℕ) = j
      · rw [show T j i' = (S i' j)⁻¹ from rfl, hS i' j fun h' => h (Fin.ext (hj.trans h'.symm)), _root_.inv_zero, mul_zero]
      · rw [hS i j hj, zero_mul]
  have hTS : T * S = diagonal fun j => ∑ i, (S i j)⁻¹ * S i j := by
    ext j j'
    rw [mul_apply, diagonal_apply]
    split_ifs with h
    · subst h; rfl
    · refine Finset.sum_eq_zero fun i _ => ?_
      by_cases hj : (i : ℕ) = j
      · rw [hS i j' fun h' => h (Fin.ext (hj.symm.trans h')), mul_zero]
      · rw [show T j i = (S i j)⁻¹ from rfl, hS i j hj, _root_.inv_zero, zero_mul]
  have hz : ∀ z : ℂ, z * z⁻¹ * z = z := fun z => by
    by_cases h : z = 0
    · simp [h]
    · rw [mul_inv_cancel₀ h, one_mul]
  have hsum : ∀ (i : Fin r) (j : Fin c), (∑ j', S i j' * (S i j')⁻¹) * S i j = S i j := fun i j => by
    by_cases hj : (i : ℕ) = j
    · rw [Finset.sum_eq_single j, hz]
      · intro j' _ h'
        rw [hS i j' fun h => h' (Fin.ext (h.symm.trans hj)), zero_mul]
      · simp
    · rw [hS i j hj, mul_zero]
  have hsum' : ∀ (i : Fin r) (j : Fin c), (∑ i', (S i' j)⁻¹ * S i' j) * (S i j)⁻¹ = (S i j)⁻¹ := fun i j => by
    by_cases hj : (i : ℕ) = j
    · rw [Finset.sum_eq_single i]
      · have := hz (S i j)⁻¹
        rwa [inv_inv] at this
      · intro i' _ h'
        rw [hS i' j fun h => h' (Fin.ext (h.trans hj.symm)), mul_zero]
      · simp
    · rw [hS i j hj, _root_.inv_zero, mul_zero]
  have t1 : S * T * S = S := by
    rw [hST]; ext i j; rw [diagonal_mul, hsum]
  have t2 : T * S * T = T := by
    rw [hTS]; ext j i; rw [diagonal_mul]; exact hsum' i j
  have t3 : (S * T)ᴴ = S * T := by
    rw [hST, diagonal_conjTranspose]
    congr 1; funext i
    simp only [Pi.star_apply, star_sum, star_mul', star_inv₀, hreal]
  have t4 : (T * S)ᴴ = T * S := by
    rw [hTS, diagonal_conjTranspose]
    congr 1; funext i
    simp only [Pi.star_apply, star_sum, star_mul', star_inv₀, hreal]
  have hU := hd.unitaryU
  have hV := mul_eq_one_comm.1 hd.unitaryV
  have e1 : A * (d.Vᴴ * T * d.Uᴴ) = d.U * (S * T) * d.Uᴴ := by
    rw [hA]
    calc _ = d.U * S * (d.V * d.Vᴴ) * T * d.Uᴴ := by simp only [Matrix.mul_assoc]
      _ = _ := by rw [hV, Matrix.mul_one]; simp only [Matrix.mul_assoc]
  have e2 : (d.Vᴴ * T * d.Uᴴ) * A = d.Vᴴ * (T * S) * d.V := by
    rw [hA]
    calc _ = d.Vᴴ * T * (d.Uᴴ * d.U) * S * d.V := by simp only [Matrix.mul_assoc]
      _ = _ := by rw [hU, Matrix.mul_one]; simp only [Matrix.mul_assoc]
  refine ⟨d.Vᴴ * T * d.Uᴴ, ?_, ?_, ?_, ?_⟩
  · rw [e1]
    calc _ = d.U * (S * T) * d.Uᴴ * (d.U * S * d.V) := by rw [← hA]
      _ = d.U * (S * T) * (d.Uᴴ * d.U) * S * d.V := by simp only [Matrix.mul_assoc]
      _ = d.U * (S * T * S) * d.V := by rw [hU, Matrix.mul_one]; simp only [Matrix.mul_assoc]
      _ = A := by rw [t1, ← hA]
  · rw [e2]
    calc _ = d.Vᴴ * (T * S) * (d.V * d.Vᴴ) * T * d.Uᴴ := by simp only [Matrix.mul_assoc]
      _ = d.Vᴴ * (T * S * T) * d.Uᴴ := by rw [hV, Matrix.mul_one]; simp only [Matrix.mul_assoc]
      _ = _ := by rw [t2]
  · rw [e1, conjTranspose_mul, conjTranspose_mul, conjTranspose_conjTranspose, t3]; simp only [Matrix.mul_assoc]
  · rw [e2, conjTranspose_mul, conjTranspose_mul, conjTranspose_conjTranspose, t4]; simp only [Matrix.mul_assoc]

/-- The pseudo-inverse solves least squares problems. -/
theorem IsPinv.lstsq {k : ℕ} {A : Matrix (Fin r) (Fin c) ℂ} {P : Matrix (Fin c) (Fin r) ℂ} (h : IsPinv A P) (B : Matrix (Fin r) (Fin k) ℂ) :
    IsLstsq A B (P * B) := by
  constructor
  · calc Aᴴ * A * (P * B) = Aᴴ * (A * P)ᴴ * B := by rw [h.hap]; simp only [Matrix.mul_assoc]
      _ = (A * P * A)ᴴ * B := by rw [← conjTranspose_mul]
      _ = Aᴴ * B := by rw [h.apa]
  · refine ⟨Pᴴ * P * B, ?_⟩
    calc P * B = P * A * P * B := by rw [h.pap]
      _ = (P * A)ᴴ * P * B := by rw [h.hpa]
      _ = _ := by rw [conjTranspose_mul]; simp only [Matrix.mul_assoc]

/-- The contracts can be met for all matrices. -/
theorem libOk_exists : ∃ L : Lib, LibOk L := by
  refine ⟨⟨fun A B => Classical.choose (pinv_exists A) * B, fun A => Classical.choose (svd_exists A), fun A => Classical.choose (pinv_exists A)⟩,
    fun A => Classical.choose_spec (svd_exists A), fun A => Classical.choose_spec (pinv_exists A), fun A B => ?_⟩
  exact (Classical.choose_spec (pinv_exists A)).lstsq B

end Meanas.Eme
