/-
A concrete waveguide that meets the hypotheses of C51 and C54: vacuum, unit cells, a 2 × 2 cross-section, 4 planes, the TM-like wave
`E_x = (1, -1)` with `ω = 5/2` and `wavenumber_2d = 3/2`.
-/
import Verif.Props.Waveguide3dModes
import Mathlib.Analysis.SpecialFunctions.Pow.Real

set_option linter.unusedSectionVars false

namespace Meanas.Props

open Matrix Complex Wg3 Spec Fdfd

/-- `E_x = 1` on the first column, `-1` on the other. -/
noncomputable def ex3V (s2 : Fin 2 → ℕ) : Wg2.V 2 s2 := fun p => if p.1 = 0 then (if (p.2 0 : ℕ) = 0 then 1 else -1) else 0

theorem exp_arcsin (z : ℂ) : exp (Wg3.arcsin z * I) = I * z + (1 - z ^ 2) ^ (1 / 2 : ℂ) := by
  obtain ⟨s, hs⟩ : ∃ s : ℂ, s = (1 - z ^ 2) ^ (1 / 2 : ℂ) := ⟨_, rfl⟩
  have hs2 : s ^ 2 = 1 - z ^ 2 := by
    rw [hs]
    generalize 1 - z ^ 2 = w
    have := cpow_nat_inv_pow w (n := 2) two_ne_zero
    rwa [show (((2 : ℕ) : ℂ)⁻¹) = (1 / 2 : ℂ) by norm_num] at this
  have hI := I_sq
  have hu : (I * z + s) * (s - I * z) = 1 := by linear_combination hs2 - z ^ 2 * hI
  have hu0 : I * z + s ≠ 0 := left_ne_zero_of_mul_eq_one hu
  unfold Wg3.arcsin
  rw [← hs, show -I * log (I * z + s) * I = log (I * z + s) by linear_combination -log (I * z + s) * hI, exp_log hu0]

/-- The half-cell phase of the example has a positive real part. -/
theorem ex3_phase : ∃ a b : ℝ, 0 < a ∧ exp (I * ((1 : ℂ) * correct (3 / 2) 1) / 2) = a + b * I := by
  refine ⟨(7 / 16 : ℝ) ^ (1 / 2 : ℝ), 3 / 4, Real.rpow_pos_of_pos (by norm_num) _, ?_⟩
  rw [show I * ((1 : ℂ) * correct (3 / 2) 1) / 2 = Wg3.arcsin (3 / 4) * I by
    unfold correct
    rw [show (3 / 2 * 1 / 2 : ℂ) = 3 / 4 by norm_num]; ring, exp_arcsin]
  rw [show (1 - (3 / 4 : ℂ) ^ 2) ^ (1 / 2 : ℂ) = (((7 / 16 : ℝ) ^ (1 / 2 : ℝ) : ℝ) : ℂ) by
    rw [ofReal_cpow (by norm_num)]; push_cast; norm_num]
  push_cast
  ring

abbrev Sq : Fin 2 → ℕ := fun _ => 2

theorem ex3_shift0 (s : ℤ) (hs : s = 1 ∨ s = -1) (x : Idx Sq) :
    ex3V Sq (0, shiftIdx 0 s x) = -ex3V Sq (0, x) := by
  have := (ex_shift s hs x).1
  have h1 : ((shiftIdx 0 s x 0 : Fin _) : ℕ) = 0 ↔ ¬ ((x 0 : Fin _) : ℕ) = 0 := by
    rw [show ((shiftIdx 0 s x 0 : Fin _) : ℕ) = 0 ↔ shiftIdx 0 s x 0 = 0 from ⟨fun h => Fin.ext h, fun h => by rw [h]; rfl⟩, this]
    exact not_congr ⟨fun h => by rw [h]; rfl, fun h => Fin.ext h⟩
  generalize shiftIdx 0 s x = y at h1 ⊢
  unfold ex3V
  by_cases hx : ((x 0 : Fin _) : ℕ) = 0
  · simp only [if_true, if_pos hx, if_neg fun h => h1.1 h hx]
  · simp only [if_true, if_neg hx, if_pos (h1.2 hx), neg_neg]

theorem ex3_shift1 (s : ℤ) (x : Idx Sq) : ex3V Sq (0, shiftIdx 1 s x) = ex3V Sq (0, x) := by
  have h : shiftIdx 1 s x 0 = x 0 := shiftIdx_of_ne (show (0 : Fin 2) ≠ 1 by decide) s x
  generalize shiftIdx 1 s x = y at h ⊢
  unfold ex3V
  simp only [h]

noncomputable def ex3Dx (s2 : Fin 2 → ℕ) : Wg2.Dx2 s2 := (fun _ _ => 1, fun _ _ => 1)

theorem ex3_fw0 (c : ℂ) (x : Idx Sq) : Wg2.fw (ex3Dx Sq) 0 (fun y => c * ex3V Sq (0, y)) x = -2 * c * ex3V Sq (0, x) := by
  rw [Wg2.fw, derivForward_eq, ex3_shift0 1 (Or.inl rfl)]; simp only [ex3Dx, wOf]; ring
theorem ex3_bw0 (c : ℂ) (x : Idx Sq) : Wg2.bw (ex3Dx Sq) 0 (fun y => c * ex3V Sq (0, y)) x = 2 * c * ex3V Sq (0, x) := by
  rw [Wg2.bw, derivBack_eq, ex3_shift0 (-1) (Or.inr rfl)]; simp only [ex3Dx, wOf]; ring
theorem ex3_fw1 (c : ℂ) (x : Idx Sq) : Wg2.fw (ex3Dx Sq) 1 (fun y => c * ex3V Sq (0, y)) x = 0 := by
  rw [Wg2.fw, derivForward_eq, ex3_shift1]; simp only [ex3Dx, wOf]; ring

theorem ex3_part0 : Wg2.part (ex3V Sq) 0 = fun y => 1 * ex3V Sq (0, y) := by funext y; simp [Wg2.part]
theorem ex3_v1 (x : Idx Sq) : ex3V Sq (1, x) = 0 := by simp [ex3V]
theorem fw_zero (a : Fin 2) (x : Idx Sq) : Wg2.fw (ex3Dx Sq) a (fun _ => 0) x = 0 := by
  rw [Wg2.fw, derivForward_eq]; simp
theorem bw_zero (a : Fin 2) (x : Idx Sq) : Wg2.bw (ex3Dx Sq) a (fun _ => 0) x = 0 := by
  rw [Wg2.bw, derivBack_eq]; simp
theorem ex3_part1 : Wg2.part (ex3V Sq) 1 = fun _ => 0 := by funext y; exact ex3_v1 y

theorem ex3_eig : Wg2.operatorE (5 / 2) (ex3Dx Sq) 1 (some 1) *ᵥ ex3V Sq = (3 / 2 : ℂ) ^ 2 • ex3V Sq := by
  have e1 : (fun y => (Wg2.fw (ex3Dx Sq) 0 (Wg2.part (ex3V Sq) 1) y - Wg2.fw (ex3Dx Sq) 1 (Wg2.part (ex3V Sq) 0) y)
      / (Option.getD (some 1) 1 : Wg2.V 3 Sq) (2, y)) = fun _ => (0 : ℂ) := by
    funext y; rw [ex3_part1, ex3_part0, fw_zero, ex3_fw1]; simp
  have e2 : (fun y => (Wg2.bw (ex3Dx Sq) 0 (fun z => (1 : Wg2.V 3 Sq) (0, z) * ex3V Sq (0, z)) y
      + Wg2.bw (ex3Dx Sq) 1 (fun z => (1 : Wg2.V 3 Sq) (1, z) * ex3V Sq (1, z)) y) / (1 : Wg2.V 3 Sq) (2, y)) = fun y => 2 * ex3V Sq (0, y) := by
    funext y
    have : (fun z => (1 : Wg2.V 3 Sq) (1, z) * ex3V Sq (1, z)) = fun _ => 0 := by funext z; rw [ex3_v1, mul_zero]
    rw [this, bw_zero]
    have h := ex3_bw0 1 y
    simp only [Pi.one_apply] at h ⊢
    rw [h]; ring
  funext p
  obtain ⟨k, x⟩ := p
  fin_cases k
  · refine (Wg2.operatorE_0 _ _ _ _ _ x).trans ?_
    rw [e1, e2, bw_zero, ex3_fw0]
    simp only [Option.getD_some, Pi.one_apply, Pi.smul_apply, smul_eq_mul, Fin.zero_eta]
    ring
  · refine (Wg2.operatorE_1 _ _ _ _ _ x).trans ?_
    rw [e1, e2]
    have h2 : Wg2.fw (ex3Dx Sq) 1 (fun y => 2 * ex3V Sq (0, y)) x = 0 := ex3_fw1 2 x
    rw [bw_zero, h2]
    simp [ex3_v1]

/-- The electric field of the mode. -/
noncomputable def ex3E : Wg2.V 3 Sq := Wg2.exy2e (3 / 2) (ex3Dx Sq) 1 *ᵥ ex3V Sq

theorem ex3E_0 (x : Idx Sq) : ex3E (0, x) = ex3V Sq (0, x) := Wg2.exy2e_0 _ _ _ _ _
theorem ex3E_1 (x : Idx Sq) : ex3E (1, x) = 0 := (Wg2.exy2e_1 _ _ _ _ _).trans (ex3_v1 x)
theorem ex3E_2 (x : Idx Sq) : ex3E (2, x) = -(4 / 3) * I * ex3V Sq (0, x) := by
  refine (Wg2.exy2e_2 _ _ _ _ _).trans ?_
  have : (fun z => (1 : Wg2.V 3 Sq) (1, z) * ex3V Sq (1, z)) = fun _ => 0 := by funext z; rw [ex3_v1, mul_zero]
  rw [this, bw_zero]
  have h := ex3_bw0 1 x
  simp only [Pi.one_apply] at h ⊢
  rw [h]
  have := I_ne_zero
  field_simp
  linear_combination 4 * ex3V Sq (0, x) * I_sq

theorem ex3V_sq (x : Idx Sq) : ex3V Sq (0, x) = 1 ∨ ex3V Sq (0, x) = -1 := by
  unfold ex3V; simp only [if_true]; split_ifs <;> simp

/-- `H_y = (ω/β) E_x`. -/
theorem ex3H_1 (x : Idx Sq) : (Wg2.exy2h (3 / 2) (5 / 2) (ex3Dx Sq) 1 (some 1) *ᵥ ex3V Sq) (1, x) = 5 / 3 * ex3V Sq (0, x) := by
  rw [Wg2.exy2h, ← mulVec_mulVec, Wg2.e2h_mulVec, Wg2.curlE_1]
  have h2 : Wg2.part (Wg2.exy2e (3 / 2) (ex3Dx Sq) 1 *ᵥ ex3V Sq) 2 = fun y => -(4 / 3) * I * ex3V Sq (0, y) := funext fun y => ex3E_2 y
  rw [h2, ex3_fw0, show (Wg2.exy2e (3 / 2) (ex3Dx Sq) 1 *ᵥ ex3V Sq) (0, x) = ex3V Sq (0, x) from ex3E_0 x]
  have := I_ne_zero
  simp only [Option.getD_some, Pi.one_apply]
  field_simp
  ring

theorem ex3_normalized : ∃ r, Wg2.normalizedFieldsE (ex3V Sq) (3 / 2) (5 / 2) (ex3Dx Sq) 1 (some 1) (1 * correct (3 / 2) 1) = .ok r := by
  obtain ⟨a, b, ha, hab⟩ := ex3_phase
  unfold Wg2.normalizedFieldsE
  rw [show Wg2.exy2e (3 / 2) (ex3Dx Sq) 1 *ᵥ ex3V Sq = ex3E from rfl]
  set h := Wg2.exy2h (3 / 2) (5 / 2) (ex3Dx Sq) 1 (some 1) *ᵥ ex3V Sq with hh
  obtain ⟨s, hs, hpos⟩ : ∃ s, Wg2.innerProduct ex3E h (ex3Dx Sq) (1 * correct (3 / 2) 1) true false = .ok s ∧ 0 < s.re := by
    refine ⟨_, C43_inner_product_value _ _ _ _ _, ?_⟩
    have hx : ∀ x, ex3E (0, x) * (starRingEnd ℂ) (h (1, x) * exp (I * (1 * correct (3 / 2) 1) / 2)) = 5 / 3 * (a - b * I) := by
      intro x
      rw [ex3E_0, hh, ex3H_1, hab]
      rcases ex3V_sq x with h | h <;> rw [h] <;> simp only [map_mul, map_add, map_div₀, map_ofNat, map_neg, map_one, conj_ofReal, conj_I] <;> ring
    simp only [overlapSum, fld, ex3E_1, zero_mul, sub_zero, if_true, hx, ipW, ex3Dx, Complex.one_re, ite_self, Finset.prod_const_one, ofReal_one, mul_one]
    rw [Finset.sum_const]
    simp [Idx]
    positivity
  have hen : ∀ p, enrg 1 ex3E p = if p.1 = 0 then 1 else if p.1 = 1 then 0 else 16 / 9 := by
    rintro ⟨k, x⟩
    unfold enrg
    revert k
    apply forall_fin3
    · rw [ex3E_0]; rcases ex3V_sq x with h | h <;> rw [h] <;> simp
    · rw [ex3E_1]; simp
    · rw [ex3E_2]
      rw [show ((1 : Wg2.V 3 Sq) (2, x) * (starRingEnd ℂ) (-(4 / 3) * I * ex3V Sq (0, x)) * (-(4 / 3) * I * ex3V Sq (0, x))) = ((16 / 9 : ℝ) : ℂ) by
        rcases ex3V_sq x with h | h <;> rw [h] <;>
          simp only [map_mul, map_div₀, map_ofNat, map_neg, map_one, conj_I, Pi.one_apply] <;> push_cast <;> linear_combination -(16 / 9) * I_sq]
      rw [ofReal_re, if_neg (show (2 : Fin 3) ≠ 0 by decide), if_neg (show (2 : Fin 3) ≠ 1 by decide)]
  have : Nonempty (Idx Sq) := ⟨fun _ => 0⟩
  obtain ⟨⟨k, y⟩, hp⟩ := argmax_some (enrg 1 ex3E)
  have hk : k = 2 := by
    have := argmax_spec hp (2, fun _ => 0)
    rw [hen, hen, if_neg (show (2 : Fin 3) ≠ 0 by decide), if_neg (show (2 : Fin 3) ≠ 1 by decide)] at this
    simp only at this
    by_contra h2
    split_ifs at this
    · norm_num at this
    · norm_num at this
    · omega
  subst hk
  have hne : ex3E (2, y) ≠ 0 := by
    rw [ex3E_2]; rcases ex3V_sq y with h | h <;> rw [h] <;> simp
  obtain ⟨t, ht, hexp⟩ : ∃ t : ℝ, (t = 1 ∨ t = -1) ∧ exp (I * ((-arg (ex3E (2, y)) : ℝ) : ℂ)) = t * I := by
    rw [exp_neg_arg hne, ex3E_2]
    have hn : ‖-(4 / 3) * I * ex3V Sq (0, y)‖ = 4 / 3 := by
      rcases ex3V_sq y with h | h <;> rw [h] <;> simp [norm_neg, norm_I]
    rw [hn]
    have hI := I_ne_zero
    rcases ex3V_sq y with h | h <;> rw [h]
    · refine ⟨1, Or.inl rfl, ?_⟩
      push_cast
      field_simp
      linear_combination -I_sq
    · refine ⟨-1, Or.inr rfl, ?_⟩
      push_cast
      field_simp
      linear_combination I_sq
  simp only [Wg2.normalizedFields, hs]
  rw [if_neg (not_not.2 hpos)]
  rw [show Wg2.argmax (fun p => ((1 : Wg2.V 3 Sq) p * (starRingEnd ℂ) (ex3E p) * ex3E p).re) = some (2, y) from hp]
  simp only [hexp]
  rw [if_neg]
  · exact ⟨_, rfl⟩
  · rw [Real.sign_eq_zero_iff]
    have hq : ∀ q : Fin 3 × Idx Sq, (ex3E q * ((((1 : Wg2.V 3 Sq) q * (starRingEnd ℂ) (ex3E q) * ex3E q).re : ℝ) : ℂ) * (t * I)).re
        = if q.1 = 2 then t * (64 / 27) * (ex3V Sq (0, q.2)).re else 0 := by
      rintro ⟨k, x⟩
      rw [show ((1 : Wg2.V 3 Sq) (k, x) * (starRingEnd ℂ) (ex3E (k, x)) * ex3E (k, x)).re = enrg 1 ex3E (k, x) from rfl, hen]
      revert k
      apply forall_fin3
      · rw [ex3E_0]; rcases ex3V_sq x with h | h <;> rw [h] <;> simp
      · rw [ex3E_1]; simp
      · rw [ex3E_2, if_neg (show (2 : Fin 3) ≠ 0 by decide), if_neg (show (2 : Fin 3) ≠ 1 by decide), if_pos rfl]
        rw [show -(4 / 3) * I * ex3V Sq (0, x) * ((16 / 9 : ℝ) : ℂ) * (t * I) = ((t * (64 / 27) : ℝ) : ℂ) * ex3V Sq (0, x) by
          push_cast; linear_combination -(64 / 27) * t * ex3V Sq (0, x) * I_sq, re_ofReal_mul]
    simp only [hq]
    rw [Fintype.sum_prod_type, Fin.sum_univ_three]
    simp only [show (0 : Fin 3) ≠ 2 by decide, show (1 : Fin 3) ≠ 2 by decide, if_false, ite_self, Finset.sum_const_zero, zero_add, if_true]
    rw [← (Equiv.sum_comp (finTwoArrowEquiv (Fin 2)).symm)]
    simp [Fintype.sum_prod_type, Wg2.halfLen, ex3V]
    rcases ht with rfl | rfl <;> norm_num

/-- The 2D data of the example for every shape equal to 2 × 2. -/
theorem ex3_all (s2 : Fin 2 → ℕ) (hs : s2 = Sq) :
    Wg2.operatorE (5 / 2) (ex3Dx s2) 1 (some 1) *ᵥ ex3V s2 = (3 / 2 : ℂ) ^ 2 • ex3V s2 ∧
    (∃ r, Wg2.normalizedFieldsE (ex3V s2) (3 / 2) (5 / 2) (ex3Dx s2) 1 (some 1) (1 * correct (3 / 2) 1) = .ok r) ∧
    ∀ y, (Wg2.exy2e (3 / 2) (ex3Dx s2) 1 *ᵥ ex3V s2) (2, y) ≠ 0 := by
  subst hs
  refine ⟨ex3_eig, ex3_normalized, fun y => ?_⟩
  rw [show (Wg2.exy2e (3 / 2) (ex3Dx Sq) 1 *ᵥ ex3V Sq) (2, y) = ex3E (2, y) from rfl, ex3E_2]
  rcases ex3V_sq y with h | h <;> rw [h] <;> simp

/-- A grid of 2 × 2 cells and four planes. -/
def ex3Sh : Fin 3 → ℕ := fun a => if a = 2 then 4 else 2
/-- The whole cross-section at plane 1. -/
def ex3S : Slices ex3Sh 2 where
  start := fun a => if a = 2 then 1 else 0
  stop := fun _ => 2
  lt := by decide
  le := by decide
  one := rfl

theorem ex3_sh2 : sh2 ex3S = Sq := by
  funext j
  revert j
  decide

/-- The hypotheses of C51 and C54 are met, with a mode that has a longitudinal E component: `solve_mode` succeeds for both polarities. -/
theorem ex3_guide : UniformGuide ex3S (5 / 2) (fun _ _ => 1, fun _ _ => 1) 1 (fun _ _ => 1) none (ex3V (sh2 ex3S)) (3 / 2) ∧
    ∀ pol : ℤ, ∃ m, solveMode ex3S (5 / 2) (fun _ _ => 1, fun _ _ => 1) pol (fun _ _ => 1) none (ex3V (sh2 ex3S)) (3 / 2) = .ok m ∧
      ∃ x, m.E 2 x ≠ 0 := by
  obtain ⟨h1, ⟨⟨ve, vh⟩, h2⟩, h3⟩ := ex3_all (sh2 ex3S) ex3_sh2
  have hS : FullWindow ex3S := by intro b; revert b; decide
  have hdp : dxProp ex3S (fun _ _ => 1, fun _ _ => 1) = 1 := by unfold dxProp; norm_num
  refine ⟨⟨hS, one_ne_zero, fun _ => by simp, fun _ => by simp, fun _ _ _ _ => rfl, fun _ _ _ _ => rfl, by norm_num, by norm_num,
    fun _ _ => one_ne_zero, fun _ _ => one_ne_zero, h1⟩, fun pol => ?_⟩
  obtain ⟨m, hm⟩ : ∃ m, solveMode ex3S (5 / 2) (fun _ _ => 1, fun _ _ => 1) pol (fun _ _ => 1) none (ex3V (sh2 ex3S)) (3 / 2) = .ok m := by
    unfold solveMode
    simp only [hdp]
    rw [show Wg2.normalizedFieldsE (ex3V (sh2 ex3S)) (3 / 2) (5 / 2) (dx2d ex3S fun _ _ => 1, dx2d ex3S fun _ _ => 1) (reduce2d ex3S fun _ _ => 1)
      (some (reduce2d ex3S (Option.getD none fun _ _ => 1))) (1 * correct (3 / 2) 1) = .ok (ve, vh) from h2]
    exact ⟨_, rfl⟩
  refine ⟨m, hm, ?_⟩
  obtain ⟨-, -, ve', vh', hn, hx⟩ := solve_mode_spec _ _ _ _ _ _ _ _ hm
  obtain ⟨⟨c, hc, hve, -⟩, -⟩ := C42_normalized_fields_e _ _ _ _ _ _ _ hn
  have x₀ : Idx ex3Sh := fun a => ⟨0, by revert a; decide⟩
  refine ⟨Function.update x₀ 2 ex3S.plane, ?_⟩
  rw [((hx _).1 _ (projT_at ex3S hS x₀)).2.2.1, hve]
  exact mul_ne_zero (mul_ne_zero hc (h3 _)) (exp_ne_zero _)

/-- The counterexample to C51 for polarity -1 in full: a guide for which the backward mode is not a solution. -/
theorem C51_backward_witness_partial : ∃ (m : Mode ex3Sh) (c : Fin 3) (x : Idx ex3Sh),
    solveMode ex3S (5 / 2) (fun _ _ => 1, fun _ _ => 1) (-1) (fun _ _ => 1) none (ex3V (sh2 ex3S)) (3 / 2) = .ok m ∧
    0 < (x 2 : ℕ) ∧ (x 2 : ℕ) + 1 < ex3Sh 2 ∧
    (eFull (5 / 2) (fun _ _ => 1, fun _ _ => 1) (vecS fun _ _ => 1) none none none
      *ᵥ vecS (expandE m.E m.k (fun _ _ => 1, fun _ _ => 1) (-1) ex3S)) (c, x) ≠ 0 := by
  obtain ⟨U, hm⟩ := ex3_guide
  obtain ⟨m, hm, x₀, hx₀⟩ := hm (-1)
  obtain ⟨c, x, h⟩ := C51_backward_fails_partial U hm (by decide) hx₀
  exact ⟨m, c, x, hm, h⟩

end Meanas.Props
