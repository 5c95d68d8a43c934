/-
C45: `sensitivity` of meanas/fdfd/waveguide_2d.py in lossy media.
-/
import Verif.Props.Waveguide2dSens

namespace Meanas.Props

open Matrix Complex OperatorsS Spec Wg2

/-- A 2 × 2 grid of unit cells. -/
noncomputable def lossyDx : Dx2 (fun _ => 2) := (fun _ _ => 1, fun _ _ => 1)

theorem unit_y (f : Idx (fun _ : Fin 2 => 2) → ℂ) (hf : ∀ x y, x 0 = y 0 → f x = f y) (x : Idx (fun _ : Fin 2 => 2)) :
    fw lossyDx 1 f x = 0 ∧ bw lossyDx 1 f x = 0 := by
  rw [fw, bw, derivForward_eq, derivBack_eq, hf _ x (ex_shift 1 (Or.inl rfl) x).2, hf _ x (ex_shift (-1) (Or.inr rfl) x).2]
  simp

/-- Modes of two columns of unit cells with `ε_y = (c, 1)`. -/
theorem unitMode (s c lam : ℂ) (h1 : c + 2 * s = lam) (h2 : (1 + s) - 2 * s = lam * (1 + s)) :
    operatorE 1 lossyDx (exEps c) none *ᵥ exV s = lam • exV s := by
  have e0 : ∀ x, fw lossyDx 0 (part (exV s) 1) x = if x 0 = 0 then s else -s := by
    intro x
    rw [fw, derivForward_eq]
    have := (ex_shift 1 (Or.inl rfl) x).1
    generalize shiftIdx 0 1 x = y at this ⊢
    by_cases hx : x 0 = 0
    · have h' : ¬ y 0 = 0 := fun h => (this.1 h) hx
      simp [part, exV, lossyDx, hx, h']
    · simp [part, exV, lossyDx, hx, this.2 hx]
  have e1 : ∀ x, fw lossyDx 1 (part (exV s) 0) x = 0 := fun x => (unit_y _ (fun _ _ _ => by simp [part, exV]) x).1
  have e2 : ∀ x, bw lossyDx 1 (fun z => exEps c (1, z) * exV s (1, z)) x = 0 :=
    fun x => (unit_y _ (fun x y h => by simp [exEps, exV, h]) x).2
  have e3 : ∀ x, bw lossyDx 0 (fun z => exEps c (0, z) * exV s (0, z)) x = 0 := by
    intro x; rw [bw, derivBack_eq]; simp [exV]
  have e4 : (fun y => (fw lossyDx 0 (part (exV s) 1) y - fw lossyDx 1 (part (exV s) 0) y) / (Option.getD none 1 : V 3 (fun _ => 2)) (2, y))
      = fun y => if y 0 = 0 then s else -s := by
    funext y; rw [e0, e1]; simp
  have e5 : (fun y => (bw lossyDx 0 (fun z => exEps c (0, z) * exV s (0, z)) y + bw lossyDx 1 (fun z => exEps c (1, z) * exV s (1, z)) y) / exEps c (2, y))
      = fun y => (0 : ℂ) := by
    funext y; rw [e2, e3]; simp
  funext p
  obtain ⟨k, x⟩ := p
  fin_cases k
  · refine (operatorE_0 1 lossyDx (exEps c) none (exV s) x).trans ?_
    rw [e4, e5, (unit_y _ (fun x y h => by simp only [h]) x).2, fw, derivForward_eq]
    simp [exV]
  · refine (operatorE_1 1 lossyDx (exEps c) none (exV s) x).trans ?_
    rw [e4, e5, fw, bw, derivForward_eq, derivBack_eq]
    have := (ex_shift (-1) (Or.inr rfl) x).1
    generalize shiftIdx 0 (-1) x = y at this ⊢
    by_cases hx : x 0 = 0
    · have h' : ¬ y 0 = 0 := fun h => (this.1 h) hx
      simp [exV, lossyDx, exEps, hx, h']
      linear_combination h1
    · simp [exV, lossyDx, exEps, hx, this.2 hx]
      linear_combination h2

theorem unit_Ez (β s c : ℂ) (x : Idx (fun _ : Fin 2 => 2)) : (exy2e β lossyDx (exEps c) *ᵥ exV s) (2, x) = 0 := by
  rw [exy2e_2, bw, bw, derivBack_eq, derivBack_eq]
  have := (ex_shift (-1) (Or.inr rfl) x).2
  generalize shiftIdx 1 (-1) x = y at this ⊢
  simp [exV, exEps, this]

theorem unit_Hx (β s c : ℂ) (x : Idx (fun _ : Fin 2 => 2)) : (exy2h β 1 lossyDx (exEps c) none *ᵥ exV s) (0, x) = -β * exV s (1, x) := by
  rw [exy2h, ← mulVec_mulVec, e2h_mulVec, curlE_0, fw, derivForward_eq]
  have h : ∀ y, part (exy2e β lossyDx (exEps c) *ᵥ exV s) 2 y = 0 := fun y => unit_Ez β s c y
  rw [h, h, exy2e_1]
  have := I_ne_zero
  simp
  field_simp

theorem unit_Hy (β s c : ℂ) (x : Idx (fun _ : Fin 2 => 2)) : (exy2h β 1 lossyDx (exEps c) none *ᵥ exV s) (1, x) = 0 := by
  rw [exy2h, ← mulVec_mulVec, e2h_mulVec, curlE_1, fw, derivForward_eq]
  have h : ∀ y, part (exy2e β lossyDx (exEps c) *ᵥ exV s) 2 y = 0 := fun y => unit_Ez β s c y
  rw [h, h, exy2e_0]
  simp [exV]

/-- What `sensitivity` says about the first column of the two: `|E_1|² / (|E_1|² + |E_2|²)`, not `E_1² / (E_1² + E_2²)`. -/
theorem unit_sens (β s c a : ℂ) (hβ : β ≠ 0) :
    ∑ p, sensitivity (exy2e β lossyDx (exEps c) *ᵥ exV s) (exy2h β 1 lossyDx (exEps c) none *ᵥ exV s) β 1 lossyDx (exEps c) none p
        * (if p.1 = 1 ∧ p.2 0 = 0 then a else 0)
      = a / (2 * β * (1 + (starRingEnd ℂ) (1 + s) * (1 + s))) := by
  have hxy : xy (exy2e β lossyDx (exEps c) *ᵥ exV s) = exV s := by
    funext p
    obtain ⟨k, x⟩ := p
    fin_cases k
    · exact exy2e_0 β lossyDx (exEps c) (exV s) x
    · exact exy2e_1 β lossyDx (exEps c) (exV s) x
  have hw : ∀ p, hvOf (exy2h β 1 lossyDx (exEps c) none *ᵥ exV s) p = if p.1 = 0 then 0 else (starRingEnd ℂ) β * (starRingEnd ℂ) (exV s p) := by
    rintro ⟨k, x⟩
    fin_cases k
    · simp [hvOf, unit_Hy]
    · simp [hvOf, unit_Hx]
  rw [sensitivity_sum (D := 1) one_ne_zero (fun x => by simp [lossyDx]), hxy]
  have hdv : ∀ f : V 2 (fun _ => 2), (∀ x, f (0, x) = 0) → (∀ x y, x 0 = y 0 → f (1, x) = f (1, y)) → ∀ x, dv lossyDx f x = 0 := by
    intro f h0 h1 x
    rw [dv, hstack_mulVec]
    have a1 := (unit_y (fun x => f (1, x)) h1 x).2
    have a2 : bw lossyDx 0 (fun x => f (0, x)) x = 0 := by rw [bw, derivBack_eq]; simp [h0]
    simp only [bw] at a1 a2
    rw [derivBack_mulVec, derivBack_mulVec]
    exact (congrArg₂ (· + ·) a2 a1).trans (add_zero 0)
  have hsum : ∀ (f : Fin 2 → ℂ), ∑ x : Idx (fun _ : Fin 2 => 2), f (x 0) = 2 * (f 0 + f 1) := by
    intro f
    rw [← (Equiv.sum_comp (finTwoArrowEquiv (Fin 2)).symm)]
    simp [Fintype.sum_prod_type]; ring
  have hbc : (starRingEnd ℂ) β ≠ 0 := by simpa using hβ
  have hdot : hvOf (exy2h β 1 lossyDx (exEps c) none *ᵥ exV s) ⬝ᵥ exV s = 2 * (starRingEnd ℂ) β * (1 + (starRingEnd ℂ) (1 + s) * (1 + s)) := by
    rw [dotProduct, Fintype.sum_prod_type, Fin.sum_univ_two]
    simp only [hw, if_true, show ¬ ((1 : Fin 2) = 0) by decide, if_false, zero_mul, Finset.sum_const_zero, zero_add]
    refine (Finset.sum_congr rfl fun x _ => ?_).trans ((hsum fun i => if i = 0 then (starRingEnd ℂ) β else (starRingEnd ℂ) β * ((starRingEnd ℂ) (1 + s) * (1 + s))).trans ?_)
    · simp only [exV, show ¬ ((1 : Fin 2) = 0) by decide, if_false]
      split_ifs <;> simp; ring
    · simp; ring
  have hform : dForm 1 lossyDx (exEps c) ((none : Option (V 3 fun _ => 2)).getD 1) (hvOf (exy2h β 1 lossyDx (exEps c) none *ᵥ exV s)) (exV s)
      (fun p => if p.1 = 1 ∧ p.2 0 = 0 then a else 0) = 2 * (starRingEnd ℂ) β * a := by
    rw [dForm]
    have z : ∀ x : Idx (fun _ : Fin 2 => 2), dv lossyDx (exy (fun p => if p.1 = 1 ∧ p.2 0 = 0 then a else 0) * exV s) x = 0 :=
      hdv _ (fun x => by simp [exV]) (fun x y h => by simp [exV, exy, h])
    simp only [z, mul_zero, add_zero, show ¬ ((2 : Fin 3) = 1) by decide, false_and, if_false, neg_zero, zero_div, zero_mul, Finset.sum_const_zero]
    rw [Fintype.sum_prod_type, Fin.sum_univ_two]
    simp only [hw, if_true, show ¬ ((1 : Fin 2) = 0) by decide, if_false, zero_mul, Finset.sum_const_zero, zero_add]
    rw [one_pow, one_mul]
    refine (Finset.sum_congr rfl fun x _ => ?_).trans ((hsum fun i => if i = 0 then (starRingEnd ℂ) β * a else 0).trans ?_)
    · by_cases hx : x 0 = 0 <;> simp [exV, exy, myx, hx]
    · simp; ring
  rw [hdot, hform]
  field_simp

/-- C45 is false in lossy media even on uniform grids: `sensitivity` conjugates the H field, which is the left eigenvector only without loss. Two columns of
unit cells, `ω = 1`, `ε_y = (6/5 - 18i/5, 1)`, wavenumber `1 - i`, `E_y = (1, (2 + 4i)/5)`. -/
theorem C45_sensitivity_fails_lossy_partial :
    ¬ ∀ (dxes : Dx2 (fun _ => 2)) (ω : ℂ) (ε : ℝ → V 3 (fun _ => 2)) (δ : V 3 (fun _ => 2)) (β : ℝ → ℂ) (v : ℝ → V 2 (fun _ => 2)),
      UniformGrid 1 dxes → ω ≠ 0 → (starRingEnd ℂ) ω = ω →
      (∀ p, HasDerivAt (fun t => ε t p) (δ p) 0) → (∀ p, ε 0 p ≠ 0) → (∀ p, 0 < (ε 0 p).re ∧ (ε 0 p).im ≤ 0) →
      ContinuousAt v 0 → ContinuousAt β 0 → β 0 ≠ 0 → 0 < (β 0).re → (β 0).im < 0 →
      (∀ᶠ t in nhds 0, operatorE ω dxes (ε t) none *ᵥ v t = β t ^ 2 • v t) →
      HasDerivAt β (∑ p, sensitivity (exy2e (β 0) dxes (ε 0) *ᵥ v 0) (exy2h (β 0) ω dxes (ε 0) none *ᵥ v 0) (β 0) ω dxes (ε 0) none p * δ p) 0 := by
  intro hall
  set β : ℝ → ℂ := fun t => 1 - I + t with hβ
  set S : ℝ → ℂ := fun t => 2 / (β t ^ 2 + 1) with hS
  set c : ℝ → ℂ := fun t => β t ^ 2 + 2 - 2 * S t with hc
  have hβ0 : β 0 = 1 - I := by simp [hβ]
  have hsq : (1 - I) ^ 2 = -2 * I := by linear_combination I_sq
  have hden : (1 - 2 * I : ℂ) ≠ 0 := fun h => by have := congrArg re h; simp at this
  have hS0 : S 0 = (2 + 4 * I) / 5 := by
    rw [hS]; simp only; rw [hβ0, hsq, div_eq_div_iff (by rw [show (-2 * I + 1 : ℂ) = 1 - 2 * I by ring]; exact hden) (by norm_num)]
    linear_combination (8 : ℂ) * I_sq
  have hc0 : c 0 = 6 / 5 - 18 / 5 * I := by
    rw [hc]; simp only; rw [hS0, hβ0, hsq]; ring
  have hdβ : HasDerivAt β 1 0 := by
    have := ((hasDerivAt_id' (0 : ℝ)).ofReal_comp).const_add (1 - I)
    simpa [hβ] using this
  have hne : β 0 ^ 2 + 1 ≠ 0 := by rw [hβ0, hsq, show (-2 * I + 1 : ℂ) = 1 - 2 * I by ring]; exact hden
  have hdS : HasDerivAt S (-(2 * (2 * β 0)) / (β 0 ^ 2 + 1) ^ 2) 0 := by
    have h1 : HasDerivAt (fun t => β t ^ 2 + 1) (2 * β 0) 0 := ((hdβ.fun_pow 2).add_const 1).congr_deriv (by simp)
    refine ((hasDerivAt_const (0 : ℝ) (2 : ℂ)).fun_div h1 hne).congr_deriv ?_
    ring
  have hdc : HasDerivAt c (2 * β 0 * (1 + S 0 ^ 2)) 0 := by
    have h1 : HasDerivAt (fun t => β t ^ 2 + 2) (2 * β 0) 0 := ((hdβ.fun_pow 2).add_const 2).congr_deriv (by simp)
    refine (h1.fun_sub (hdS.const_mul 2)).congr_deriv ?_
    simp only [hS]
    field_simp
    ring
  have hmode : ∀ᶠ t in nhds (0 : ℝ), operatorE 1 lossyDx (exEps (c t)) none *ᵥ exV (S t - 1) = β t ^ 2 • exV (S t - 1) := by
    have h1 : ContinuousAt (fun t => β t ^ 2 + 1) 0 := (hdβ.continuousAt.pow 2).add continuousAt_const
    filter_upwards [h1.eventually_ne hne] with t ht
    refine unitMode _ _ _ ?_ ?_
    · simp only [hc]; ring
    · simp only [hS]; field_simp; ring
  have := hall lossyDx 1 (fun t => exEps (c t)) (fun p => if p.1 = 1 ∧ p.2 0 = 0 then 2 * β 0 * (1 + S 0 ^ 2) else 0) β (fun t => exV (S t - 1))
    ⟨fun _ => one_ne_zero, fun _ _ => rfl, fun _ _ => rfl⟩ one_ne_zero (map_one _) (by
      intro p
      by_cases hp : p.1 = 1 ∧ p.2 0 = 0
      · simp only [exEps, if_pos hp]; exact hdc
      · simp only [exEps, if_neg hp]; exact hasDerivAt_const _ _)
    (by
      refine exEps_ne ?_
      rw [hc0]; intro h; have := congrArg re h; norm_num at this)
    (by
      intro p
      simp only [exEps]
      split_ifs
      · rw [hc0]; norm_num
      · simp)
    (by
      refine continuousAt_pi.2 fun p => ?_
      simp only [exV]
      split_ifs
      · exact continuousAt_const
      · exact continuousAt_const
      · exact continuousAt_const.add (hdS.continuousAt.sub continuousAt_const))
    hdβ.continuousAt (by rw [hβ0]; intro h; have := congrArg re h; simp at this) (by rw [hβ0]; simp) (by rw [hβ0]; simp) hmode
  have hb : β 0 ≠ 0 := by rw [hβ0]; intro h; have := congrArg re h; simp at this
  have hu := hdβ.unique this
  rw [unit_sens _ _ _ _ hb, add_sub_cancel] at hu
  have hnz : (1 + (starRingEnd ℂ) (S 0) * S 0) ≠ 0 := by
    rw [mul_comm, mul_conj]
    intro h
    have := congrArg re h
    rw [add_re, one_re, ofReal_re, zero_re] at this
    linarith [normSq_nonneg (S 0)]
  rw [mul_assoc, mul_assoc, mul_div_mul_left _ _ two_ne_zero, mul_div_mul_left _ _ hb, eq_comm, div_eq_one_iff_eq hnz, hS0] at hu
  rw [map_div₀, map_add, map_mul, map_ofNat, map_ofNat, map_ofNat, conj_I] at hu
  have h2 := congrArg im hu
  simp [pow_two] at h2
  norm_num at h2

end Meanas.Props
