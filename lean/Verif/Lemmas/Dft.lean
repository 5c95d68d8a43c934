/-
The discrete Fourier transforms of Model/Bloch.lean: inversion and adjoints.
-/
import Verif.Model.Bloch
import Mathlib.RingTheory.RootsOfUnity.Complex
import Mathlib.Algebra.BigOperators.Ring.Finset
import Mathlib.Algebra.BigOperators.Field

namespace Meanas.Bloch

open Complex

variable {d : ℕ} {sh : Fin d → ℕ}

theorem chi_ne_zero (k x : Idx sh) : chi k x ≠ 0 := Finset.prod_ne_zero_iff.2 fun _ _ => exp_ne_zero _

theorem chi_comm (k x : Idx sh) : chi k x = chi x k :=
  Finset.prod_congr rfl fun a _ => by congr 1; ring

theorem conj_chi (k x : Idx sh) : (starRingEnd ℂ) (chi k x) = (chi k x)⁻¹ := by
  unfold chi
  rw [map_prod, ← Finset.prod_inv_distrib]
  refine Finset.prod_congr rfl fun a _ => ?_
  rw [← exp_conj, ← exp_neg]
  congr 1
  simp only [map_mul, map_div₀, map_natCast, map_ofNat, conj_ofReal, conj_I]
  ring

/-- Characters of one axis are orthogonal. -/
theorem sum_exp (n : ℕ) (i j : Fin n) :
    ∑ k : Fin n, exp (2 * Real.pi * I * (k : ℕ) * (i : ℕ) / (n : ℕ)) * (exp (2 * Real.pi * I * (k : ℕ) * (j : ℕ) / (n : ℕ)))⁻¹
      = if i = j then (n : ℂ) else 0 := by
  have hn : n ≠ 0 := fun h => by subst h; exact i.elim0
  have hn' : (n : ℂ) ≠ 0 := Nat.cast_ne_zero.2 hn
  split_ifs with h
  · subst h
    simp
  · have hz := Complex.isPrimitiveRoot_exp n hn
    set z := exp (2 * Real.pi * I / n) with hzd
    have hk : ∀ k : Fin n, exp (2 * Real.pi * I * (k : ℕ) * (i : ℕ) / (n : ℕ)) * (exp (2 * Real.pi * I * (k : ℕ) * (j : ℕ) / (n : ℕ)))⁻¹
        = (z ^ (i : ℕ) * (z ^ (j : ℕ))⁻¹) ^ (k : ℕ) := by
      intro k
      rw [hzd, ← exp_nat_mul, ← exp_nat_mul, ← exp_neg, ← exp_neg, ← exp_add, ← exp_add, ← exp_nat_mul]
      congr 1
      field_simp
    simp_rw [hk]
    have hne : z ^ (i : ℕ) * (z ^ (j : ℕ))⁻¹ ≠ 1 := by
      intro hc
      rw [mul_inv_eq_one₀ (pow_ne_zero _ (exp_ne_zero _))] at hc
      exact h (Fin.ext (hz.pow_inj i.2 j.2 hc))
    rw [Fin.sum_univ_eq_sum_range (fun k => (z ^ (i : ℕ) * (z ^ (j : ℕ))⁻¹) ^ k) n, geom_sum_eq hne, mul_pow, inv_pow, ← pow_mul,
      ← pow_mul, mul_comm (i : ℕ), mul_comm (j : ℕ), pow_mul, pow_mul, hz.pow_eq_one]
    simp

/-- Characters of the grid are orthogonal. -/
theorem sum_chi (x y : Idx sh) :
    ∑ k : Idx sh, chi k x * (chi k y)⁻¹ = if x = y then (Fintype.card (Idx sh) : ℂ) else 0 := by
  have h : ∀ k : Idx sh, chi k x * (chi k y)⁻¹ = ∏ a, (exp (2 * Real.pi * I * (k a : ℕ) * (x a : ℕ) / (sh a : ℕ))
      * (exp (2 * Real.pi * I * (k a : ℕ) * (y a : ℕ) / (sh a : ℕ)))⁻¹) := by
    intro k
    rw [chi, chi, Finset.prod_mul_distrib, Finset.prod_inv_distrib]
  simp_rw [h]
  have hp := Finset.prod_univ_sum (fun a : Fin d => (Finset.univ : Finset (Fin (sh a))))
    (fun a k => exp (2 * Real.pi * I * (k : ℕ) * (x a : ℕ) / (sh a : ℕ)) * (exp (2 * Real.pi * I * (k : ℕ) * (y a : ℕ) / (sh a : ℕ)))⁻¹)
  rw [Fintype.piFinset_univ] at hp
  rw [← hp]
  simp_rw [sum_exp]
  by_cases hxy : x = y
  · subst hxy
    have : Fintype.card (Idx sh) = ∏ a, sh a := by simp [Idx]
    simp [this]
  · obtain ⟨a, ha⟩ := Function.ne_iff.1 hxy
    rw [if_neg hxy]
    exact Finset.prod_eq_zero (Finset.mem_univ a) (by simp [ha])

theorem card_ne_zero (x : Idx sh) : (Fintype.card (Idx sh) : ℂ) ≠ 0 :=
  Nat.cast_ne_zero.2 (Fintype.card_ne_zero_iff_nonempty x)
where
  Fintype.card_ne_zero_iff_nonempty (x : Idx sh) : Fintype.card (Idx sh) ≠ 0 := (Fintype.card_pos_iff.2 ⟨x⟩).ne'

theorem fftn_ifftn (f : Arr sh ℂ) : fftn (ifftn f) = f := by
  funext k
  have hN := card_ne_zero k
  generalize hM : (Fintype.card (Idx sh) : ℂ) = M at hN
  unfold fftn ifftn
  have : ∀ x : Idx sh, (chi k x)⁻¹ * ((∑ l, chi l x * f l) / M) = ∑ l, (chi x l * (chi x k)⁻¹) * (f l / M) := by
    intro x
    rw [Finset.sum_div, Finset.mul_sum]
    refine Finset.sum_congr rfl fun l _ => ?_
    rw [chi_comm l x, chi_comm k x]; ring
  simp_rw [hM, this]
  rw [Finset.sum_comm]
  simp_rw [← Finset.sum_mul, sum_chi, hM]
  simp only [ite_mul, zero_mul, Finset.sum_ite_eq', Finset.mem_univ, if_true]
  field_simp

theorem ifftn_fftn (f : Arr sh ℂ) : ifftn (fftn f) = f := by
  funext x
  have hN := card_ne_zero x
  generalize hM : (Fintype.card (Idx sh) : ℂ) = M at hN
  unfold fftn ifftn
  have : ∀ k : Idx sh, chi k x * ∑ y, (chi k y)⁻¹ * f y = ∑ y, (chi k x * (chi k y)⁻¹) * f y := by
    intro k
    rw [Finset.mul_sum]
    exact Finset.sum_congr rfl fun y _ => by ring
  simp_rw [hM, this]
  rw [Finset.sum_comm]
  simp_rw [← Finset.sum_mul, sum_chi, hM]
  simp only [ite_mul, zero_mul, Finset.sum_ite_eq, Finset.mem_univ, if_true]
  field_simp

theorem fftn_smul (c : ℂ) (f : Arr sh ℂ) : fftn (fun x => c * f x) = fun k => c * fftn f k := by
  funext k
  unfold fftn
  rw [Finset.mul_sum]
  exact Finset.sum_congr rfl fun y _ => by ring

/-- The adjoint of `fftn` is `ifftn` times the number of cells. -/
theorem sum_conj_fftn (f g : Arr sh ℂ) :
    ∑ k, (starRingEnd ℂ) (f k) * fftn g k = (Fintype.card (Idx sh) : ℂ) * ∑ x, (starRingEnd ℂ) (ifftn f x) * g x := by
  by_cases hN : (Fintype.card (Idx sh) : ℂ) = 0
  · have : IsEmpty (Idx sh) := by
      rw [← Fintype.card_eq_zero_iff]
      exact_mod_cast hN
    simp
  · unfold fftn ifftn
    simp_rw [map_div₀, map_sum, map_mul, conj_chi, map_natCast, Finset.mul_sum, Finset.sum_div, Finset.sum_mul]
    rw [Finset.sum_comm]
    refine Finset.sum_congr rfl fun x _ => ?_
    rw [Finset.mul_sum]
    refine Finset.sum_congr rfl fun k _ => ?_
    field_simp

end Meanas.Bloch
