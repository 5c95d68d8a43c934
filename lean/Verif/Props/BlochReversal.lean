/-
C109 (time reversal of Bloch modes).
-/
import Verif.Props.Bloch
import Verif.Lemmas.Functional

namespace Meanas.Props

open Complex Matrix Meanas.Bloch

section
variable {d : ℕ} {sh : Fin d → ℕ}

/-- The cell that stores the opposite plane wave: `(-i) % n` on every axis. -/
def negIdx (x : Idx sh) : Idx sh := fun a => ⟨(sh a - (x a : ℕ)) % sh a, Nat.mod_lt _ (Nat.zero_lt_of_lt (x a).2)⟩

theorem negIdx_val (x : Idx sh) (a : Fin d) : (negIdx x a : ℕ) = if (x a : ℕ) = 0 then 0 else sh a - (x a : ℕ) := by
  have h := (x a).2
  simp only [negIdx]
  split_ifs with h0
  · rw [h0]; simp
  · exact Nat.mod_eq_of_lt (by omega)

theorem negIdx_negIdx (x : Idx sh) : negIdx (negIdx x) = x := by
  funext a
  apply Fin.ext
  have h := (x a).2
  rw [negIdx_val, negIdx_val]
  split_ifs <;> omega

theorem sum_negIdx {M : Type*} [AddCommMonoid M] (f : Idx sh → M) : ∑ x, f (negIdx x) = ∑ x, f x :=
  Equiv.sum_comp ⟨negIdx, negIdx, negIdx_negIdx, negIdx_negIdx⟩ f

theorem chi_negIdx (k x : Idx sh) : chi (negIdx k) x = (chi k x)⁻¹ := by
  unfold chi
  rw [← Finset.prod_inv_distrib]
  refine Finset.prod_congr rfl fun a _ => ?_
  have h := (k a).2
  have hn : ((sh a : ℕ) : ℂ) ≠ 0 := Nat.cast_ne_zero.2 (by omega)
  rw [← exp_neg, negIdx_val]
  split_ifs with h0
  · rw [h0]; simp
  · rw [exp_eq_exp_iff_exists_int]
    refine ⟨(x a : ℕ), ?_⟩
    rw [Nat.cast_sub h.le]
    push_cast
    field_simp
    ring

/-- The transform of a conjugated array is the conjugated and reversed transform. -/
theorem ifftn_conj (f : Arr sh ℂ) : ifftn (fun k => (starRingEnd ℂ) (f (negIdx k))) = fun x => (starRingEnd ℂ) (ifftn f x) := by
  funext x
  unfold ifftn
  rw [map_div₀, map_natCast, map_sum, ← sum_negIdx]
  congr 1
  refine Finset.sum_congr rfl fun k _ => ?_
  simp only [map_mul, conj_chi, chi_negIdx, negIdx_negIdx]

theorem fftn_conj (g : Arr sh ℂ) (k : Idx sh) : fftn (fun x => (starRingEnd ℂ) (g x)) k = (starRingEnd ℂ) (fftn g (negIdx k)) := by
  unfold fftn
  rw [map_sum]
  refine Finset.sum_congr rfl fun x _ => ?_
  rw [map_mul, chi_negIdx, inv_inv, ← conj_chi]
end

theorem fftfreq_neg {n : ℕ} (hodd : n % 2 = 1) (i j : Fin n) (hj : (j : ℕ) = if (i : ℕ) = 0 then 0 else n - (i : ℕ)) :
    fftfreq n j = -fftfreq n i := by
  have := i.2
  unfold fftfreq
  split_ifs at hj ⊢ <;> omega

variable {sh : Fin 3 → ℕ}

theorem kxyz_neg (hodd : ∀ a, sh a % 2 = 1) (k0 : Fin 3 → ℝ) (G : Matrix (Fin 3) (Fin 3) ℝ) (x : Idx sh) :
    kxyz (-k0) G x = -kxyz k0 G (negIdx x) := by
  unfold kxyz
  rw [← mulVec_neg]
  congr 1
  funext a
  have := fftfreq_neg (hodd a) (x a) (negIdx x a) (negIdx_val x a)
  simp only [Pi.neg_apply, this]
  push_cast
  ring

theorem norm3_neg (a : Fin 3 → ℝ) : norm3 (-a) = norm3 a := by
  unfold norm3; simp

theorem cross_neg_left (a b : Fin 3 → ℝ) : cross (-a) b = -cross a b := by
  funext c; revert c
  refine forall_fin3 ?_ ?_ ?_ <;> simp only [cross, Pi.neg_apply] <;> ring

theorem cross_neg_right (a b : Fin 3 → ℝ) : cross a (-b) = -cross a b := by
  funext c; revert c
  refine forall_fin3 ?_ ?_ ?_ <;> simp only [cross, Pi.neg_apply] <;> ring

open Classical in
/-- Sign that the m component takes in `reversed`. -/
noncomputable def sgn0 (k : Fin 3 → ℝ) : ℝ := if k 0 ≠ 0 then 1 else -1

open Classical in
/-- Sign that the n component takes in `reversed`. -/
noncomputable def sgn1 (k : Fin 3 → ℝ) : ℝ := if k 0 = 0 ∧ k ≠ 0 then 1 else -1

theorem sgn0_mul (k : Fin 3 → ℝ) : sgn0 k * sgn0 k = 1 := by unfold sgn0; split_ifs <;> norm_num
theorem sgn1_mul (k : Fin 3 → ℝ) : sgn1 k * sgn1 k = 1 := by unfold sgn1; split_ifs <;> norm_num
theorem sgn0_neg (k : Fin 3 → ℝ) : sgn0 (-k) = sgn0 k := by unfold sgn0; simp
theorem sgn1_neg (k : Fin 3 → ℝ) : sgn1 (-k) = sgn1 k := by unfold sgn1; simp

/-- The time-reversed mode in the basis of the opposite Bloch vector. -/
noncomputable def reversed (k0 : Fin 3 → ℝ) (G : Matrix (Fin 3) (Fin 3) ℝ) (h : Hmn sh) : Hmn sh := fun i x =>
  (if i = 0 then sgn0 (kxyz k0 G (negIdx x)) else sgn1 (kxyz k0 G (negIdx x)) : ℝ) * (starRingEnd ℂ) (h i (negIdx x))

section
variable (hodd : ∀ a, sh a % 2 = 1) (k0 : Fin 3 → ℝ) (G : Matrix (Fin 3) (Fin 3) ℝ)
include hodd

theorem mVec_rev (x : Idx sh) : mVec (-k0) G x = -sgn0 (kxyz k0 G (negIdx x)) • mVec k0 G (negIdx x) := by
  by_cases h : kxyz k0 G (negIdx x) 0 = 0
  · rw [mVec_neg _ _ h, mVec_neg _ _ (by rw [kxyz_neg hodd, Pi.neg_apply, h, neg_zero])]
    simp [sgn0, h]
  · have h' : kxyz (-k0) G x 0 ≠ 0 := by rw [kxyz_neg hodd, Pi.neg_apply]; exact neg_ne_zero.2 h
    unfold mVec
    simp only [h, h', ne_eq, not_false_eq_true, if_true]
    rw [kxyz_neg hodd, cross_neg_left, norm3_neg]
    funext c
    simp only [sgn0, h, ne_eq, not_false_eq_true, if_true, Pi.smul_apply, Pi.neg_apply, smul_eq_mul]
    ring

theorem nVec_rev (x : Idx sh) :
    nVec (-k0) G x = (nVec k0 G (negIdx x)).map fun n => -sgn1 (kxyz k0 G (negIdx x)) • n := by
  set k := kxyz k0 G (negIdx x) with hk
  have hk' : kxyz (-k0) G x = -k := kxyz_neg hodd k0 G x
  by_cases h0 : k = 0
  · have e1 : ¬∃ c, k c ≠ 0 := by rw [h0]; simp
    have e2 : ¬∃ c, (-k) c ≠ 0 := by rw [h0]; simp
    unfold nVec
    simp only [hk', ← hk]
    rw [if_neg e1, if_neg e2]
    simp [sgn1, h0]
  · have e1 : ∃ c, k c ≠ 0 := Function.ne_iff.1 h0
    have e2 : ∃ c, (-k) c ≠ 0 := by obtain ⟨c, hc⟩ := e1; exact ⟨c, neg_ne_zero.2 hc⟩
    have hs : sgn1 k = -sgn0 k := by
      unfold sgn1 sgn0
      by_cases hc : k 0 = 0 <;> simp [hc, h0]
    have hv : cross (-k) (mVec (-k0) G x) = sgn0 k • cross k (mVec k0 G (negIdx x)) := by
      rw [mVec_rev hodd, ← hk]
      funext c; revert c
      refine forall_fin3 ?_ ?_ ?_ <;> simp only [cross, Pi.neg_apply, Pi.smul_apply, smul_eq_mul] <;> ring
    have hnorm : norm3 (sgn0 k • cross k (mVec k0 G (negIdx x))) = norm3 (cross k (mVec k0 G (negIdx x))) := by
      unfold norm3
      congr 1
      refine Finset.sum_congr rfl fun c _ => ?_
      rw [Pi.smul_apply, smul_eq_mul, mul_pow, pow_two (sgn0 k), sgn0_mul, one_mul]
    unfold nVec
    simp only [hk', ← hk]
    rw [if_pos e1, if_pos e2, hv, hnorm]
    split_ifs
    · rfl
    · rw [Option.map_some, hs, neg_neg]
      congr 1
      funext c
      simp only [Pi.smul_apply, smul_eq_mul, mul_div_assoc]

theorem kMag_rev (x : Idx sh) : kMag (-k0) G x = kMag k0 G (negIdx x) := by
  unfold kMag; rw [kxyz_neg hodd, norm3_neg]

theorem nAll_rev : nAll (-k0) G sh = (nAll k0 G sh).map fun n x => -sgn1 (kxyz k0 G (negIdx x)) • n (negIdx x) := by
  have hiff : (∃ x : Idx sh, nVec (-k0) G x = none) ↔ ∃ x : Idx sh, nVec k0 G x = none := by
    constructor
    · rintro ⟨x, hx⟩
      rw [nVec_rev hodd, Option.map_eq_none_iff] at hx
      exact ⟨_, hx⟩
    · rintro ⟨x, hx⟩
      refine ⟨negIdx x, ?_⟩
      rw [nVec_rev hodd, negIdx_negIdx, hx]; rfl
  unfold nAll
  by_cases h : ∃ x : Idx sh, nVec k0 G x = none
  · rw [if_pos h, if_pos (hiff.2 h)]; rfl
  · rw [if_neg h, if_neg (fun hc => h (hiff.1 hc)), Option.map_some]
    congr 1
    funext x
    rw [nVec_rev hodd]
    cases hn : nVec k0 G (negIdx x) with
    | none => exact absurd ⟨_, hn⟩ h
    | some n => simp only [hn, Option.map_some, Option.getD_some]

theorem dXyz_rev (n : Idx sh → Fin 3 → ℝ) (h : Hmn sh) (c : Fin 3) :
    dXyz (-k0) G (fun x => -sgn1 (kxyz k0 G (negIdx x)) • n (negIdx x)) (reversed k0 G h) c
      = fun x => (starRingEnd ℂ) (dXyz k0 G n h c (negIdx x)) := by
  funext x
  unfold dXyz
  rw [kMag_rev hodd, mVec_rev hodd]
  by_cases hk : kxyz k0 G (negIdx x) = 0
  · have : kMag k0 G (negIdx x) = 0 := by unfold kMag; rw [hk, norm3_eq_zero]
    rw [this]; simp
  · have hs : sgn1 (kxyz k0 G (negIdx x)) = -sgn0 (kxyz k0 G (negIdx x)) := by
      unfold sgn1 sgn0
      by_cases hc : kxyz k0 G (negIdx x) 0 = 0 <;> simp [hc, hk]
    have h2 : ((sgn0 (kxyz k0 G (negIdx x)) : ℝ) : ℂ) * sgn0 (kxyz k0 G (negIdx x)) = 1 := by rw [← ofReal_mul, sgn0_mul, ofReal_one]
    simp only [reversed, hs, if_true, one_ne_zero, if_false, Pi.smul_apply, smul_eq_mul, map_mul, map_sub, conj_ofReal]
    push_cast
    linear_combination (↑(n (negIdx x) c) * (starRingEnd ℂ) (h 0 (negIdx x)) - ↑(mVec k0 G (negIdx x) c) * (starRingEnd ℂ) (h 1 (negIdx x)))
      * ↑(kMag k0 G (negIdx x)) * h2

/-- **C109.** On a grid with an odd number of cells along every axis, the operator of the opposite Bloch vector in conjugate media acts on the reversed
mode as the operator acts on the mode; both are NaN or neither. -/
theorem C109_operator_partial (eps : VField sh ℂ) (h : Hmn sh) :
    maxwellOperator (-k0) G (fun c x => (starRingEnd ℂ) (eps c x)) (reversed k0 G h)
      = (maxwellOperator k0 G eps h).map (reversed k0 G) := by
  unfold maxwellOperator
  have hz : (∃ c x, (starRingEnd ℂ) (eps c x) = 0) ↔ ∃ c x, eps c x = 0 := by simp
  simp only [hz]
  split_ifs with h0
  · rfl
  · rw [nAll_rev hodd, Option.map_map, Option.map_map]
    congr 1
    funext n
    simp only [Function.comp_apply]
    funext i x
    have he : ∀ c, fftn (fun y => ifftn (dXyz (-k0) G (fun x => -sgn1 (kxyz k0 G (negIdx x)) • n (negIdx x)) (reversed k0 G h) c) y
          / (starRingEnd ℂ) (eps c y)) x
        = (starRingEnd ℂ) (fftn (fun y => ifftn (dXyz k0 G n h c) y / eps c y) (negIdx x)) := by
      intro c
      rw [dXyz_rev hodd, ifftn_conj, ← fftn_conj]
      simp only [map_div₀]
    simp only [he, kMag_rev hodd, mVec_rev hodd, reversed]
    by_cases hk : kxyz k0 G (negIdx x) = 0
    · have : kMag k0 G (negIdx x) = 0 := by unfold kMag; rw [hk, norm3_eq_zero]
      simp [this]
    · have hs : sgn1 (kxyz k0 G (negIdx x)) = -sgn0 (kxyz k0 G (negIdx x)) := by
        unfold sgn1 sgn0
        by_cases hc : kxyz k0 G (negIdx x) 0 = 0 <;> simp [hc, hk]
      rw [hs]
      split_ifs <;>
      simp only [Pi.smul_apply, smul_eq_mul, map_mul, map_neg, conj_ofReal, Fin.sum_univ_three, map_add] <;> push_cast <;> ring

/-- **C109.** The fields of the reversed mode: the conjugate electric and minus the conjugate magnetic field. -/
theorem C109_fields_partial (eps : VField sh ℂ) (h : Hmn sh) :
    hmn2exyz (-k0) G (fun c x => (starRingEnd ℂ) (eps c x)) (reversed k0 G h)
        = (hmn2exyz k0 G eps h).map (fun e c x => (starRingEnd ℂ) (e c x)) ∧
    hmn2hxyz (-k0) G (reversed k0 G h) = (hmn2hxyz k0 G h).map (fun e c x => -(starRingEnd ℂ) (e c x)) := by
  constructor
  · unfold hmn2exyz
    have hz : (∃ c x, (starRingEnd ℂ) (eps c x) = 0) ↔ ∃ c x, eps c x = 0 := by simp
    simp only [hz]
    split_ifs with h0
    · rfl
    · rw [nAll_rev hodd, Option.map_map, Option.map_map]
      congr 1
      funext n
      simp only [Function.comp_apply]
      funext c x
      rw [dXyz_rev hodd, ifftn_conj, map_div₀]
  · unfold hmn2hxyz
    rw [nAll_rev hodd, Option.map_map, Option.map_map]
    congr 1
    funext n
    simp only [Function.comp_apply]
    funext c x
    have hf : (fun x => (mVec (-k0) G x c : ℂ) * reversed k0 G h 0 x
          + ((-sgn1 (kxyz k0 G (negIdx x)) • n (negIdx x)) c : ℝ) * reversed k0 G h 1 x)
        = fun x => (starRingEnd ℂ) ((fun x => -(mVec k0 G x c * h 0 x + n x c * h 1 x)) (negIdx x)) := by
      funext x
      have h2 : ((sgn0 (kxyz k0 G (negIdx x)) : ℝ) : ℂ) * sgn0 (kxyz k0 G (negIdx x)) = 1 := by rw [← ofReal_mul, sgn0_mul, ofReal_one]
      have h3 : ((sgn1 (kxyz k0 G (negIdx x)) : ℝ) : ℂ) * sgn1 (kxyz k0 G (negIdx x)) = 1 := by rw [← ofReal_mul, sgn1_mul, ofReal_one]
      rw [mVec_rev hodd]
      simp only [reversed, if_true, one_ne_zero, if_false, Pi.smul_apply, smul_eq_mul, map_mul, map_neg, map_add, conj_ofReal]
      push_cast
      linear_combination (-(mVec k0 G (negIdx x) c : ℂ) * (starRingEnd ℂ) (h 0 (negIdx x))) * h2
        - (n (negIdx x) c : ℂ) * (starRingEnd ℂ) (h 1 (negIdx x)) * h3
    have hc := congrFun (ifftn_conj fun x => -((mVec k0 G x c : ℂ) * h 0 x + n x c * h 1 x)) x
    rw [hf]
    refine hc.trans ?_
    have hneg : ifftn (fun x => -((mVec k0 G x c : ℂ) * h 0 x + n x c * h 1 x)) x
        = -ifftn (fun x => (mVec k0 G x c : ℂ) * h 0 x + n x c * h 1 x) x := by
      unfold ifftn
      rw [← neg_div, ← Finset.sum_neg_distrib]
      simp only [mul_neg]
    rw [hneg, map_neg]

omit hodd in
/-- Reversing back. -/
theorem reversed_reversed (hodd : ∀ a, sh a % 2 = 1) (h : Hmn sh) : reversed (-k0) G (reversed k0 G h) = h := by
  funext i x
  have e : kxyz (-k0) G (negIdx x) = -kxyz k0 G x := by rw [kxyz_neg hodd, negIdx_negIdx]
  have h2 : ∀ k, ((sgn0 k : ℝ) : ℂ) * sgn0 k = 1 := fun k => by rw [← ofReal_mul, sgn0_mul, ofReal_one]
  have h3 : ∀ k, ((sgn1 k : ℝ) : ℂ) * sgn1 k = 1 := fun k => by rw [← ofReal_mul, sgn1_mul, ofReal_one]
  simp only [reversed, e, negIdx_negIdx, sgn0_neg, sgn1_neg, map_mul, conj_ofReal, conj_conj]
  split_ifs
  · rw [← mul_assoc, h2, one_mul]
  · rw [← mul_assoc, h3, one_mul]

/-- **C109.** In lossless media the bands are symmetric: a number is an eigenvalue at `-k0` exactly if its conjugate is one at `k0` (eigenvalues are
real, C59), so `ω(-k) = ω(k)`. -/
theorem C109_bands_partial (eps : VField sh ℂ) (hreal : ∀ c x, (starRingEnd ℂ) (eps c x) = eps c x) (lam : ℂ) :
    (∃ h : Hmn sh, h ≠ 0 ∧ maxwellOperator k0 G eps h = some fun i x => lam * h i x) ↔
    ∃ h : Hmn sh, h ≠ 0 ∧ maxwellOperator (-k0) G eps h = some fun i x => (starRingEnd ℂ) lam * h i x := by
  have key : ∀ (k0 : Fin 3 → ℝ) (lam : ℂ), (∃ h : Hmn sh, h ≠ 0 ∧ maxwellOperator k0 G eps h = some fun i x => lam * h i x) →
      ∃ h : Hmn sh, h ≠ 0 ∧ maxwellOperator (-k0) G eps h = some fun i x => (starRingEnd ℂ) lam * h i x := by
    rintro k0 lam ⟨h, h0, hh⟩
    refine ⟨reversed k0 G h, fun hc => h0 ?_, ?_⟩
    · rw [← reversed_reversed k0 G hodd h, hc]
      funext i x
      simp [reversed]
    · have := C109_operator_partial hodd k0 G eps h
      simp only [hreal, hh, Option.map_some] at this
      rw [this]
      congr 1
      funext i x
      simp only [reversed, map_mul]
      ring
  constructor
  · exact key k0 lam
  · intro h
    have := key (-k0) _ h
    simpa only [neg_neg, conj_conj] using this
end

/-- In vacuum the operator multiplies every plane wave by `-|k|²`. -/
theorem maxwell_vacuum (k0 : Fin 3 → ℝ) (G : Matrix (Fin 3) (Fin 3) ℝ) (hr : Regular k0 G sh) (h : Hmn sh) :
    maxwellOperator k0 G (fun _ _ => 1) h = some fun i x => -((kMag k0 G x : ℂ) ^ 2) * h i x := by
  obtain ⟨n, hn, hnv⟩ := nAll_regular k0 G hr
  obtain ⟨b, hb, h0, h1⟩ := maxwell_eq k0 G hn (eps := fun _ _ => 1) (fun _ _ => one_ne_zero) h
  rw [hb]
  congr 1
  have hf : ∀ c x, fftn (fun y => ifftn (dXyz k0 G n h c) y / 1) x = dXyz k0 G n h c x := by
    intro c x
    simp only [div_one]
    exact congrFun (fftn_ifftn _) x
  funext i x
  obtain ⟨e1, e2, -⟩ := nVec_some k0 G (hnv x)
  have e0 := mVec_unit k0 G x
  have e0' : (mVec k0 G x 0 : ℂ) ^ 2 + (mVec k0 G x 1 : ℂ) ^ 2 + (mVec k0 G x 2 : ℂ) ^ 2 = 1 := by exact_mod_cast e0
  have e1' : (n x 0 : ℂ) ^ 2 + (n x 1 : ℂ) ^ 2 + (n x 2 : ℂ) ^ 2 = 1 := by exact_mod_cast (by linear_combination e1 : n x 0 ^ 2 + n x 1 ^ 2 + n x 2 ^ 2 = 1)
  have e2' : (mVec k0 G x 0 : ℂ) * n x 0 + mVec k0 G x 1 * n x 1 + mVec k0 G x 2 * n x 2 = 0 := by
    exact_mod_cast (by linear_combination e2 : mVec k0 G x 0 * n x 0 + mVec k0 G x 1 * n x 1 + mVec k0 G x 2 * n x 2 = 0)
  by_cases hi : i = 0
  · subst hi
    rw [h0]
    simp only [hf, Fin.sum_univ_three, dXyz]
    linear_combination (-(kMag k0 G x : ℂ) ^ 2 * h 0 x) * e1' + (kMag k0 G x : ℂ) ^ 2 * h 1 x * e2'
  · obtain rfl : i = 1 := by omega
    rw [h1]
    simp only [hf, Fin.sum_univ_three, dXyz]
    linear_combination (-(kMag k0 G x : ℂ) ^ 2 * h 1 x) * e0' + (kMag k0 G x : ℂ) ^ 2 * h 0 x * e2'

/-- Wave vectors of a row of cells with the Bloch vector along the row. -/
theorem row_kxyz (h1 : sh 1 = 1) (h2 : sh 2 = 1) (κ : ℝ) (x : Idx sh) :
    kxyz (fun a => if a = 0 then κ else 0) 1 x = fun a => if a = 0 then κ - fftfreq (sh 0) (x 0) else 0 := by
  have z1 : fftfreq (sh 1) (x 1) = 0 := fftfreq_zero _ (by have := (x 1).2; omega)
  have z2 : fftfreq (sh 2) (x 2) = 0 := fftfreq_zero _ (by have := (x 2).2; omega)
  unfold kxyz
  rw [one_mulVec]
  funext a
  revert a
  refine forall_fin3 ?_ ?_ ?_
  · simp
  · simp [z1]
  · simp [z2]

theorem row_kMag (h1 : sh 1 = 1) (h2 : sh 2 = 1) (κ : ℝ) (x : Idx sh) :
    kMag (fun a => if a = 0 then κ else 0) 1 x ^ 2 = (κ - fftfreq (sh 0) (x 0)) ^ 2 := by
  unfold kMag
  rw [norm3_sq, row_kxyz h1 h2]
  simp

/-- **C109, disagreement.** With an even number of cells the bands are not symmetric: the grid has the plane wave `-N/2` but not `N/2`. In vacuum in a row of
cells, `(κ + N/2)²` is a band at `κ` but not at `-κ`. -/
theorem C109_even_partial (heven : sh 0 % 2 = 0) (hpos : 0 < sh 0) (h1 : sh 1 = 1) (h2 : sh 2 = 1) (κ : ℝ) (hκ : 0 < κ) (hκ' : κ < 1 / 2) :
    ∃ lam : ℂ, (∃ h : Hmn sh, h ≠ 0 ∧ maxwellOperator (fun a => if a = 0 then κ else 0) 1 (fun _ _ => 1) h = some fun i x => lam * h i x) ∧
      ¬∃ h : Hmn sh, h ≠ 0 ∧ maxwellOperator (-fun a => if a = 0 then κ else 0) 1 (fun _ _ => 1) h = some fun i x => lam * h i x := by
  obtain ⟨N, hN⟩ : ∃ N, sh 0 = 2 * N := ⟨sh 0 / 2, by omega⟩
  have hreg : ∀ κ : ℝ, Regular (fun a => if a = 0 then κ else 0) 1 sh := by
    intro κ x k hw hc
    obtain rfl := hw.eq
    rw [row_kxyz h1 h2] at hc
    simp at hc
  have hneg : (-fun a : Fin 3 => if a = 0 then κ else 0) = fun a => if a = 0 then -κ else 0 := by
    funext a; simp only [Pi.neg_apply]; split_ifs <;> simp
  let x0 : Idx sh := fun a => if h : a = 0 then ⟨N, by subst h; omega⟩ else ⟨0, by
    revert h; revert a; exact forall_fin3 (fun h => absurd rfl h) (fun _ => by omega) (fun _ => by omega)⟩
  have hx0 : fftfreq (sh 0) (x0 0) = -(N : ℤ) := by
    have hv : (x0 0 : ℕ) = N := by simp [x0]
    unfold fftfreq
    rw [hv, if_neg (by omega)]
    omega
  refine ⟨-((κ + N : ℝ) : ℂ) ^ 2, ⟨fun i x => if x = x0 then 1 else 0, fun hc => ?_, ?_⟩, ?_⟩
  · have := congrFun (congrFun hc 0) x0
    simp at this
  · rw [maxwell_vacuum _ _ (hreg κ)]
    congr 1
    funext i x
    by_cases hx : x = x0
    · subst hx
      simp only [if_true]
      have := row_kMag h1 h2 κ x0
      rw [hx0] at this
      have h3 : ((kMag (fun a => if a = 0 then κ else 0) 1 x0 ^ 2 : ℝ) : ℂ) = (((κ - ((-(N : ℤ) : ℤ) : ℝ)) ^ 2 : ℝ) : ℂ) := by rw [this]
      push_cast at h3 ⊢
      rw [h3]
      ring
    · simp only [if_neg hx, mul_zero]
  · rintro ⟨h, h0, hh⟩
    rw [hneg, maxwell_vacuum _ _ (hreg (-κ))] at hh
    obtain ⟨i, hi⟩ := Function.ne_iff.1 h0
    obtain ⟨x, hx⟩ := Function.ne_iff.1 hi
    have h3 := congrFun (congrFun (Option.some.inj hh) i) x
    have h4 := mul_right_cancel₀ hx h3
    have h5 : kMag (fun a => if a = 0 then -κ else 0) 1 x ^ 2 = (κ + N) ^ 2 := by
      have : ((kMag (fun a => if a = 0 then -κ else 0) 1 x ^ 2 : ℝ) : ℂ) = (((κ + N) ^ 2 : ℝ) : ℂ) := by
        push_cast at h4 ⊢
        linear_combination -h4
      exact_mod_cast this
    rw [row_kMag h1 h2] at h5
    have hb : -(N : ℤ) ≤ fftfreq (sh 0) (x 0) ∧ fftfreq (sh 0) (x 0) ≤ (N : ℤ) - 1 := by
      have := (x 0).2
      unfold fftfreq
      split_ifs <;> omega
    obtain ⟨b1, b2⟩ := hb
    have b1' : -(N : ℝ) ≤ (fftfreq (sh 0) (x 0) : ℝ) := by exact_mod_cast b1
    have b2' : (fftfreq (sh 0) (x 0) : ℝ) ≤ (N : ℝ) - 1 := by exact_mod_cast b2
    nlinarith

/-- Grids and media for the positive statements: three cells along x, k along x. -/
example : ∃ (k0 : Fin 3 → ℝ) (G : Matrix (Fin 3) (Fin 3) ℝ) (eps : VField ![3, 1, 1] ℂ) (lam : ℂ) (h : Hmn ![3, 1, 1]),
    (∀ a, (![3, 1, 1] : Fin 3 → ℕ) a % 2 = 1) ∧ (∀ c x, (starRingEnd ℂ) (eps c x) = eps c x) ∧ h ≠ 0 ∧ lam ≠ 0 ∧
      maxwellOperator k0 G eps h = some fun i x => lam * h i x := by
  have hreg : Regular (fun a => if a = 0 then (1/4 : ℝ) else 0) 1 ![3, 1, 1] := by
    intro x k hw hc
    obtain rfl := hw.eq
    rw [row_kxyz (sh := ![3, 1, 1]) rfl rfl] at hc
    simp at hc
  let x0 : Idx ![3, 1, 1] := fun a => ⟨0, by fin_cases a <;> decide⟩
  have hk : kMag (fun a => if a = 0 then (1/4 : ℝ) else 0) 1 x0 ^ 2 = 1 / 16 := by
    rw [row_kMag (sh := ![3, 1, 1]) rfl rfl, fftfreq_zero _ (rfl : ((x0 0 : Fin _) : ℕ) = 0)]
    norm_num
  refine ⟨fun a => if a = 0 then (1/4 : ℝ) else 0, 1, fun _ _ => 1, -((1 / 16 : ℝ) : ℂ), fun i x => if x = x0 then 1 else 0, by decide, by simp,
    fun hc => ?_, by norm_num, ?_⟩
  · have := congrFun (congrFun hc 0) x0
    simp at this
  · rw [maxwell_vacuum _ _ hreg]
    congr 1
    funext i x
    by_cases hx : x = x0
    · subst hx
      simp only [if_true]
      rw [← hk]; push_cast; ring
    · simp only [if_neg hx, mul_zero]

end Meanas.Props
