/-
C42, C43, C44, C69: power normalisation, the mode inner product and mode orthogonality (meanas/fdfd/waveguide_2d.py).
-/
import Verif.Props.Waveguide2d
import Mathlib.Algebra.BigOperators.Field

namespace Meanas.Props

open Matrix Complex OperatorsS Spec Wg2

variable {sh : Fin 2 → ℕ}

/-! ### C43 -/

/-- The overlap sum `½ ∑ (E_x H_y w_x - E_y H_x w_y)` of two fields. -/
noncomputable def overlapSum (wx wy : Idx sh → ℝ) (E H : Fin 3 → Arr sh ℂ) : ℂ :=
  1 / 2 * ∑ x, (E 0 x * H 1 x * wx x - E 1 x * H 0 x * wy x)

/-- The area weights that `inner_product` applies: `dx_h · dy_e` and `dx_e · dy_h`. -/
def ipW (dxes : Dx2 sh) (c : Fin 2) (x : Idx sh) : ℝ := ∏ a, if a = c then (dxes.2 a (x a)).re else (dxes.1 a (x a)).re

/-- C43: the default branch returns the overlap integral on every grid, with H moved by half a cell and conjugated on demand. -/
theorem C43_inner_product_value (e h : V 3 sh) (dxes : Dx2 sh) (φ : ℂ) (conjH : Bool) :
    innerProduct e h dxes φ conjH false = .ok (overlapSum (ipW dxes 0) (ipW dxes 1) (fld e)
      fun c x => if conjH then (starRingEnd ℂ) (h (c, x) * exp (I * φ / 2)) else h (c, x) * exp (I * φ / 2)) := by
  have hph : exp (-I * (-(φ : ℂ)) / 2) = exp (I * φ / 2) := by congr 1; ring
  simp only [innerProduct, Bool.false_eq_true, if_false, hph]
  refine congrArg Except.ok ?_
  rw [overlapSum, Finset.sum_sub_distrib]
  have h0 : ∀ x, ((ipW dxes 0 x : ℝ) : ℂ) = ((dxes.2 0 (x 0)).re : ℝ) * ((dxes.1 1 (x 1)).re : ℝ) := by
    intro x; simp [ipW, Fin.prod_univ_two]
  have h1 : ∀ x, ((ipW dxes 1 x : ℝ) : ℂ) = ((dxes.1 0 (x 0)).re : ℝ) * ((dxes.2 1 (x 1)).re : ℝ) := by
    intro x; simp [ipW, Fin.prod_univ_two]
  simp only [h0, h1, fld, ← mul_assoc]
  norm_num

/-- C43: linear in `e`, linear or antilinear in `h`. -/
theorem C43_sesquilinear (e e' h h' : V 3 sh) (c c' d d' : ℂ) (dxes : Dx2 sh) (φ : ℂ) (conjH : Bool) :
    ∃ s00 s01 s10 s11 : ℂ, innerProduct e h dxes φ conjH false = .ok s00 ∧ innerProduct e h' dxes φ conjH false = .ok s01 ∧
      innerProduct e' h dxes φ conjH false = .ok s10 ∧ innerProduct e' h' dxes φ conjH false = .ok s11 ∧
      innerProduct (c • e + c' • e') (d • h + d' • h') dxes φ conjH false
        = .ok (if conjH then c * (starRingEnd ℂ) d * s00 + c * (starRingEnd ℂ) d' * s01 + c' * (starRingEnd ℂ) d * s10 + c' * (starRingEnd ℂ) d' * s11
               else c * d * s00 + c * d' * s01 + c' * d * s10 + c' * d' * s11) := by
  simp only [C43_inner_product_value]
  refine ⟨_, _, _, _, rfl, rfl, rfl, rfl, congrArg Except.ok ?_⟩
  cases conjH
  · simp only [overlapSum, Bool.false_eq_true, if_false, fld, Pi.add_apply, Pi.smul_apply, smul_eq_mul, Finset.mul_sum, ← Finset.sum_add_distrib]
    exact Finset.sum_congr rfl fun x _ => by ring
  · simp only [overlapSum, if_true, fld, Pi.add_apply, Pi.smul_apply, smul_eq_mul, Finset.mul_sum, ← Finset.sum_add_distrib, map_mul, map_add]
    exact Finset.sum_congr rfl fun x _ => by ring

/-- C43 is false for `trapezoid=True`: on every cross-section with different numbers of rows and columns (apart from sizes 2, where numpy
broadcasts) the call raises a shape error, because `Sz_b` is integrated along y with the x positions. -/
theorem C43_trapezoid_raises_partial (e h : V 3 sh) (dxes : Dx2 sh) (φ : ℂ) (conjH : Bool) (hne : sh 0 ≠ sh 1)
    (h0 : 1 ≤ sh 0) (h1 : 1 ≤ sh 1) (h02 : sh 0 ≠ 2) (h12 : sh 1 ≠ 2) :
    innerProduct e h dxes φ conjH true = .error "ValueError: operands could not be broadcast together" := by
  have hb : bcast (sh 0 - 1) (sh 1 - 1) = .error "ValueError: operands could not be broadcast together" := by
    unfold bcast
    rw [if_neg (by omega), if_neg (by omega), if_neg (by omega)]
  have ha : ∀ n, bcast n n = .ok n := fun n => by simp [bcast]
  simp only [innerProduct, if_true, trapezoid2, hb, ha, trapezoid]

example : ∃ (sh : Fin 2 → ℕ) (e h : V 3 sh) (dxes : Dx2 sh), innerProduct e h dxes 0 false true = .error "ValueError: operands could not be broadcast together" :=
  ⟨fun a => if a = 0 then 10 else 20, 1, 1, (fun _ _ => 1, fun _ _ => 1),
    C43_trapezoid_raises_partial _ _ _ _ _ (by decide) (by decide) (by decide) (by decide) (by decide)⟩

/-- The cell `[i, j]` of a square cross-section. -/
def sqCell {n : ℕ} (i j : Fin (n + 1)) : Idx (fun _ : Fin 2 => n + 1) := fun a => if a = 0 then i else j

/-- The trapezoid rule on a square grid of samples, `wx i`, `wy j` being the widths between samples `i`, `i + 1`. -/
noncomputable def meshTrap {n : ℕ} (F : Idx (fun _ : Fin 2 => n + 1) → ℂ) (wx wy : Fin n → ℝ) : ℂ :=
  ∑ i : Fin n, ∑ j : Fin n, (wx i : ℂ) * wy j *
    ((F (sqCell i.castSucc j.castSucc) + F (sqCell i.castSucc j.succ) + F (sqCell i.succ j.castSucc) + F (sqCell i.succ j.succ)) / 4)

theorem cumsum_diff {n : ℕ} (w : Fin (n + 1) → ℝ) (i : Fin n) : cumsum w i.succ - cumsum w i.castSucc = w i.succ := by
  unfold cumsum
  rw [← Finset.sum_sub_distrib, Finset.sum_eq_single i.succ]
  · simp
  · intro j _ hj
    have : (j : ℕ) ≠ i + 1 := fun h => hj (Fin.ext (by simpa using h))
    by_cases h : (j : ℕ) ≤ i
    · simp [h, Nat.le_succ_of_le h]
    · have h2 : ¬ (j : ℕ) ≤ (i : ℕ) + 1 := by omega
      simp [h, h2]
  · simp

theorem trapezoid_same {n : ℕ} (y : Fin (n + 1) → ℂ) (w : Fin (n + 1) → ℝ) :
    trapezoid y (cumsum w) = .ok (∑ i : Fin n, (w i.succ : ℂ) * ((y i.succ + y i.castSucc) / 2)) := by
  simp only [trapezoid, bcast, Nat.add_sub_cancel, if_true]
  refine congrArg Except.ok ?_
  rw [Finset.sum_range]
  refine Finset.sum_congr rfl fun i _ => ?_
  have hi : (if n = 1 then 0 else (i : ℕ)) = i := by
    split_ifs with h
    · have := i.2; omega
    · rfl
  have h1 : (i : ℕ) + 1 < n + 1 := by omega
  have h2 : (i : ℕ) < n + 1 := by omega
  simp only [hi, dif_pos h1, dif_pos h2]
  rw [← cumsum_diff w i]
  rfl

theorem trapezoid2_same {n : ℕ} (F : Idx (fun _ : Fin 2 => n + 1) → ℂ) (w1 w2 : Fin (n + 1) → ℝ) :
    trapezoid2 F (cumsum w1) (cumsum w2) = .ok (meshTrap F (fun i => w2 i.succ) fun j => w1 j.succ) := by
  have hmk : ∀ i j : Fin (n + 1), (mk2 i j : Idx (fun _ : Fin 2 => n + 1)) = sqCell i j := by
    intro i j; funext a; fin_cases a <;> rfl
  simp only [trapezoid2, trapezoid_same, bcast, Nat.add_sub_cancel, if_true, hmk]
  refine congrArg Except.ok ?_
  simp only [meshTrap]
  refine Finset.sum_congr rfl fun i _ => ?_
  rw [← Finset.sum_add_distrib, Finset.sum_div, Finset.mul_sum]
  exact Finset.sum_congr rfl fun j _ => by ring

/-- C43 with `trapezoid=True` on cross-sections with as many rows as columns: `E_x H_y` is integrated correctly by the trapezoid rule
(between the first and the last sample), but `E_y H_x` with the y widths along x and the x widths along y. -/
theorem C43_trapezoid_square_partial {n : ℕ} (e h : V 3 fun _ => n + 1) (dxes : Dx2 fun _ => n + 1) (φ : ℂ) (conjH : Bool) :
    let H (c : Fin 3) (x : Idx fun _ : Fin 2 => n + 1) : ℂ :=
      if conjH then (starRingEnd ℂ) (h (c, x) * exp (I * φ / 2)) else h (c, x) * exp (I * φ / 2)
    innerProduct e h dxes φ conjH true = .ok (1 / 2 *
      (meshTrap (fun x => e (0, x) * H 1 x) (fun i => (dxes.2 0 i.succ).re) (fun j => (dxes.1 1 j.succ).re)
        - meshTrap (fun x => e (1, x) * H 0 x) (fun i => (dxes.2 1 i.succ).re) (fun j => (dxes.1 0 j.succ).re))) := by
  intro H
  have hph : exp (-I * (-(φ : ℂ)) / 2) = exp (I * φ / 2) := by congr 1; ring
  simp only [innerProduct, if_true, hph]
  rw [trapezoid2_same, trapezoid2_same]
  norm_num [H]

/-- The exchange of the widths matters: on a 3×3 grid with x widths 1, 1, 5 and y widths 1 the returned number is not the trapezoid rule
of the overlap of a field that varies along x. -/
theorem C43_trapezoid_wrong_partial : ∃ (e h : V 3 fun _ => 3) (dxes : Dx2 fun _ => 3) (s : ℂ),
    (∀ a i, dxes.1 a i = dxes.2 a i ∧ 0 < (dxes.1 a i).re ∧ (dxes.1 a i).im = 0) ∧
    innerProduct e h dxes 0 false true = .ok s ∧
    s ≠ 1 / 2 * (meshTrap (fun x => e (0, x) * h (1, x)) (fun i => (dxes.2 0 i.succ).re) (fun j => (dxes.1 1 j.succ).re)
      - meshTrap (fun x => e (1, x) * h (0, x)) (fun i => (dxes.1 0 i.succ).re) (fun j => (dxes.2 1 j.succ).re)) := by
  refine ⟨fun p => if p.2 0 = 2 then 1 else 0, fun p => if p.1 = 0 then 1 else 0, (fun a i => if a = 0 ∧ i.val = 2 then 5 else 1, fun a i => if a = 0 ∧ i.val = 2 then 5 else 1), _, ?_,
    C43_trapezoid_square_partial _ _ _ _ _, ?_⟩
  · intro a i
    dsimp only
    split_ifs <;> norm_num
  · simp [meshTrap, sqCell, Fin.sum_univ_two]
    norm_num

/-- `numpy.trapezoid` of two values with `m + 1` sample points: the single mean is multiplied by every width. -/
theorem trapezoid_two {m : ℕ} (hm : m ≠ 1) (y : Fin 2 → ℂ) (w : Fin (m + 1) → ℝ) :
    trapezoid y (cumsum w) = .ok (∑ i : Fin m, (w i.succ : ℂ) * ((y 1 + y 0) / 2)) := by
  have hb : bcast (m + 1 - 1) (2 - 1) = .ok m := by
    unfold bcast
    rw [if_neg (by omega), if_neg (by omega), if_pos rfl]; rfl
  unfold trapezoid
  simp only [hb]
  refine congrArg Except.ok ?_
  rw [Finset.sum_range]
  refine Finset.sum_congr rfl fun i _ => ?_
  have h1 : (i : ℕ) + 1 < m + 1 := by omega
  have h2 : (i : ℕ) < m + 1 := by omega
  rw [if_neg (show ¬ m + 1 - 1 = 1 by omega), dif_pos h1, dif_pos h2, ← cumsum_diff w i]
  rfl

/-- And of `m + 1` values with two sample points: every mean is multiplied by the single width. -/
theorem trapezoid_two' {m : ℕ} (hm : m ≠ 1) (y : Fin (m + 1) → ℂ) (w : Fin 2 → ℝ) :
    trapezoid y (cumsum w) = .ok (∑ i : Fin m, (w 1 : ℂ) * ((y i.succ + y i.castSucc) / 2)) := by
  have hb : bcast (2 - 1) (m + 1 - 1) = .ok m := by
    unfold bcast
    rw [if_neg (by omega), if_pos rfl]; rfl
  unfold trapezoid
  simp only [hb]
  refine congrArg Except.ok ?_
  rw [Finset.sum_range]
  refine Finset.sum_congr rfl fun i _ => ?_
  have h1 : (i : ℕ) + 1 < m + 1 := by omega
  have h2 : (i : ℕ) < m + 1 := by omega
  rw [if_neg (show ¬ m + 1 - 1 = 1 by omega), dif_pos h1, dif_pos h2]
  have := cumsum_diff w 0
  simp only [Fin.succ_zero_eq_one, Fin.castSucc_zero] at this
  rw [← this]
  rfl

/-- The cell `[i, j]` of a cross-section two cells high. -/
def twoCell {m : ℕ} (i : Fin (m + 1)) (j : Fin 2) : Idx ![m + 1, 2] := mk2 (sh := ![m + 1, 2]) i j

/-- C43 with `trapezoid=True` on cross-sections two cells high and not two wide: numpy broadcasts, nothing is raised, and `E_y H_x` is counted at
every x position with the whole extent of the grid instead of the distance to the next position. -/
theorem C43_trapezoid_two_partial {m : ℕ} (hm : m ≠ 1) (e h : V 3 ![m + 1, 2]) (dxes : Dx2 ![m + 1, 2]) (φ : ℂ) (conjH : Bool) :
    let H (c : Fin 3) (x : Idx ![m + 1, 2]) : ℂ :=
      if conjH then (starRingEnd ℂ) (h (c, x) * exp (I * φ / 2)) else h (c, x) * exp (I * φ / 2)
    let A (i : Fin (m + 1)) : ℂ := (e (0, twoCell i 1) * H 1 (twoCell i 1) + e (0, twoCell i 0) * H 1 (twoCell i 0)) / 2
    let B (i : Fin (m + 1)) : ℂ := (e (1, twoCell i 1) * H 0 (twoCell i 1) + e (1, twoCell i 0) * H 0 (twoCell i 0)) / 2
    let wx (k : DxList ![m + 1, 2] ℂ) (i : Fin (m + 1)) : ℂ := ((k 0 i).re : ℝ)
    let wy (k : DxList ![m + 1, 2] ℂ) : ℂ := ((k 1 (1 : Fin 2)).re : ℝ)
    innerProduct e h dxes φ conjH true = .ok (1 / 2 *
      ((∑ i : Fin m, wx dxes.2 i.succ * ((wy dxes.1 * A i.succ + wy dxes.1 * A i.castSucc) / 2))
        - (∑ k : Fin m, wx dxes.1 k.succ) * ∑ i : Fin m, wy dxes.2 * ((B i.succ + B i.castSucc) / 2))) := by
  intro H A B wx wy
  have hph : exp (-I * (-(φ : ℂ)) / 2) = exp (I * φ / 2) := by congr 1; ring
  have t1 : ∀ (F : Idx ![m + 1, 2] → ℂ) (u : Fin 2 → ℝ) (v : Fin (m + 1) → ℝ), trapezoid2 F (cumsum u) (cumsum v) =
      .ok (∑ i : Fin m, (v (i.succ : Fin (m + 1)) : ℂ) * (((u (1 : Fin 2) : ℂ) * ((F (twoCell i.succ 1) + F (twoCell i.succ 0)) / 2) + (u (1 : Fin 2) : ℂ) * ((F (twoCell i.castSucc 1) + F (twoCell i.castSucc 0)) / 2)) / 2)) := by
    intro F u v
    have h1 : ∀ i : Fin (m + 1), trapezoid (fun j : Fin 2 => F (mk2 (sh := ![m + 1, 2]) i j)) (cumsum u) = .ok ((u (1 : Fin 2) : ℂ) * ((F (twoCell i 1) + F (twoCell i 0)) / 2)) := by
      intro i
      have := trapezoid_same (n := 1) (fun j : Fin 2 => F (mk2 (sh := ![m + 1, 2]) i j)) u
      rw [this, Fin.sum_univ_one]; rfl
    have h2 : trapezoid2 F (cumsum u) (cumsum v) = trapezoid (fun i : Fin (m + 1) => match trapezoid (fun j : Fin 2 => F (mk2 (sh := ![m + 1, 2]) i j)) (cumsum u) with
      | .ok v => v
      | .error _ => 0) (cumsum v) := rfl
    rw [h2]
    simp only [h1]
    rw [trapezoid_same]
  have t2 : ∀ (F : Idx ![m + 1, 2] → ℂ) (u : Fin 2 → ℝ) (v : Fin (m + 1) → ℝ), trapezoid2 F (cumsum v) (cumsum u) =
      .ok ((∑ k : Fin m, (v (k.succ : Fin (m + 1)) : ℂ)) * ∑ i : Fin m, (u (1 : Fin 2) : ℂ) * (((F (twoCell i.succ 1) + F (twoCell i.succ 0)) / 2 + (F (twoCell i.castSucc 1) + F (twoCell i.castSucc 0)) / 2) / 2)) := by
    intro F u v
    have h1 : ∀ i : Fin (m + 1), trapezoid (fun j : Fin 2 => F (mk2 (sh := ![m + 1, 2]) i j)) (cumsum v) = .ok (∑ k : Fin m, (v (k.succ : Fin (m + 1)) : ℂ) * ((F (twoCell i 1) + F (twoCell i 0)) / 2)) := fun i =>
      trapezoid_two hm (fun j : Fin 2 => F (mk2 (sh := ![m + 1, 2]) i j)) v
    have hb : bcast (m + 1 - 1) (2 - 1) = .ok m := by
      simp only [bcast, Nat.add_sub_cancel, hm, if_false]
      norm_num
    have h2 : trapezoid2 F (cumsum v) (cumsum u) = match bcast (m + 1 - 1) (2 - 1) with
      | .error e => .error e
      | .ok _ => trapezoid (fun i : Fin (m + 1) => match trapezoid (fun j : Fin 2 => F (mk2 (sh := ![m + 1, 2]) i j)) (cumsum v) with
        | .ok v => v
        | .error _ => 0) (cumsum u) := rfl
    rw [h2, hb]
    simp only [h1]
    rw [trapezoid_two' hm]
    refine congrArg Except.ok ?_
    rw [Finset.mul_sum]
    refine Finset.sum_congr rfl fun i _ => ?_
    simp only [← Finset.sum_mul]
    ring
  simp only [innerProduct, if_true, hph]
  erw [t1 _ (fun i : Fin 2 => (dxes.1 1 i).re) (fun i : Fin (m + 1) => (dxes.2 0 i).re), t2 _ (fun i : Fin 2 => (dxes.2 1 i).re) (fun i : Fin (m + 1) => (dxes.1 0 i).re)]
  norm_num [H, A, B, wx, wy]

/-! ### C42 -/

theorem ip_smul (e h : V 3 sh) (c : ℂ) (dxes : Dx2 sh) (φ : ℂ) {s : ℂ} (hs : innerProduct e h dxes φ true false = .ok s) :
    innerProduct (c • e) (c • h) dxes φ true false = .ok ((‖c‖ ^ 2 : ℝ) * s) := by
  obtain ⟨s00, s01, s10, s11, r1, -, -, -, r⟩ := C43_sesquilinear e 0 h 0 c 0 c 0 dxes φ true
  rw [hs] at r1
  cases r1
  simp only [zero_smul, add_zero] at r
  rw [r]
  refine congrArg Except.ok ?_
  simp only [if_true, map_zero, mul_zero, zero_mul, add_zero]
  rw [mul_conj, normSq_eq_norm_sq]

/-- C42: the result of a successful normalisation is a common multiple of `e` and `h` with unit power in the forward direction;
the input had positive power. -/
theorem C42_unit_power (e h : V 3 sh) (dxes : Dx2 sh) (eps : V 3 sh) (φ : ℂ) {e' h' : V 3 sh}
    (hr : normalizedFields e h dxes eps φ = .ok (e', h')) :
    (∃ c : ℂ, c ≠ 0 ∧ e' = c • e ∧ h' = c • h) ∧ (∃ s, innerProduct e' h' dxes φ true false = .ok s ∧ s.re = 1) ∧
    ∃ s, innerProduct e h dxes φ true false = .ok s ∧ 0 < s.re := by
  obtain ⟨s, hs⟩ : ∃ s, innerProduct e h dxes φ true false = .ok s := ⟨_, C43_inner_product_value e h dxes φ true⟩
  simp only [normalizedFields, hs] at hr
  split_ifs at hr with hpos
  cases hp : argmax fun p => (eps p * (starRingEnd ℂ) (e p) * e p).re with
  | none => rw [hp] at hr; cases hr
  | some p =>
    rw [hp] at hr
    simp only at hr
    split_ifs at hr with hsg
    simp only [Except.ok.injEq, Prod.mk.injEq] at hr
    generalize hsv : Real.sign _ = sgn at hr hsg
    have hsv' : sgn = 1 ∨ sgn = -1 := by
      rcases Real.sign_apply_eq (∑ x : Fin 3 × Idx sh, if (x.2 0 : ℕ) < halfLen (sh 0) ∧ (x.2 1 : ℕ) < halfLen (sh 1) then
        (e x * ((eps x * (starRingEnd ℂ) (e x) * e x).re : ℝ) * exp (I * ((-arg (e p) : ℝ) : ℂ))).re else 0) with h | h | h
      · exact Or.inr (hsv.symm.trans h)
      · exact absurd (hsv.symm.trans h) hsg
      · exact Or.inl (hsv.symm.trans h)
    generalize hc : (sgn : ℂ) * ((1 / √s.re : ℝ) : ℂ) * exp (I * ((-arg (e p) : ℝ) : ℂ)) = c at hr
    have hnorm : ‖c‖ ^ 2 = 1 / s.re := by
      have hn : ‖(sgn : ℂ)‖ = 1 := by rcases hsv' with h | h <;> simp [h]
      rw [← hc, norm_mul, norm_mul, hn, mul_comm I, norm_exp_ofReal_mul_I, one_mul, mul_one, norm_real, Real.norm_eq_abs, sq_abs, div_pow,
        Real.sq_sqrt hpos.le, one_pow]
    have hc0 : c ≠ 0 := by
      rintro rfl
      rw [norm_zero, zero_pow two_ne_zero, eq_comm, one_div, inv_eq_zero] at hnorm
      exact hpos.ne' hnorm
    have he' : e' = c • e := by rw [← hr.1]; funext q; simp [mul_comm]
    have hh' : h' = c • h := by rw [← hr.2]; funext q; simp [mul_comm]
    refine ⟨⟨c, hc0, he', hh'⟩, ⟨_, by rw [he', hh', ip_smul e h c dxes φ hs], ?_⟩, s, hs, hpos⟩
    rw [re_ofReal_mul, hnorm, one_div, inv_mul_cancel₀ hpos.ne']

/-- C42: modes with non-positive forward power are rejected. -/
theorem C42_rejects (e h : V 3 sh) (dxes : Dx2 sh) (eps : V 3 sh) (φ : ℂ) {s : ℂ}
    (hs : innerProduct e h dxes φ true false = .ok s) (hneg : s.re ≤ 0) :
    normalizedFields e h dxes eps φ = .error "AssertionError: Found a mode propagating in the wrong direction!" := by
  simp only [normalizedFields, hs, not_lt.2 hneg, not_false_eq_true, if_true]

theorem argmax_smul (f : Fin 3 × Idx sh → ℝ) {r : ℝ} (hr : 0 < r) : argmax (fun p => r * f p) = argmax f := by
  unfold argmax
  simp only [mul_le_mul_iff_right₀ hr]

theorem sign_mul_pos {r : ℝ} (hr : 0 < r) (x : ℝ) : Real.sign (r * x) = Real.sign x := by
  rcases lt_trichotomy x 0 with h | rfl | h
  · rw [Real.sign_of_neg h, Real.sign_of_neg (mul_neg_of_pos_of_neg hr h)]
  · rw [mul_zero]
  · rw [Real.sign_of_pos h, Real.sign_of_pos (mul_pos hr h)]

theorem exp_neg_arg {w : ℂ} (hw : w ≠ 0) : exp (I * ((-arg w : ℝ) : ℂ)) = ‖w‖ / w := by
  have h := norm_mul_exp_arg_mul_I w
  rw [eq_div_iff hw]
  have : exp (I * ((-arg w : ℝ) : ℂ)) * exp (arg w * I) = 1 := by
    rw [← exp_add, ← exp_zero]; congr 1; push_cast; ring
  calc _ = exp (I * ((-arg w : ℝ) : ℂ)) * (‖w‖ * exp (arg w * I)) := by rw [h]
    _ = ‖w‖ * (exp (I * ((-arg w : ℝ) : ℂ)) * exp (arg w * I)) := by ring
    _ = _ := by rw [this, mul_one]

/-- The electric energy density that `_normalized_fields` ranks the entries by. -/
noncomputable def enrg (eps e : V 3 sh) (p : Fin 3 × Idx sh) : ℝ := (eps p * (starRingEnd ℂ) (e p) * e p).re

theorem normalizedFields_smul (e h : V 3 sh) (dxes : Dx2 sh) (eps : V 3 sh) (φ : ℂ) {c : ℂ} (hc : c ≠ 0)
    (H : ∀ p, argmax (enrg eps e) = some p → exp (I * ((-arg (c * e p) : ℝ) : ℂ)) * c = ‖c‖ * exp (I * ((-arg (e p) : ℝ) : ℂ))) :
    normalizedFields (c • e) (c • h) dxes eps φ = normalizedFields e h dxes eps φ := by
  obtain ⟨s, hs⟩ : ∃ s, innerProduct e h dxes φ true false = .ok s := ⟨_, C43_inner_product_value e h dxes φ true⟩
  have hn : 0 < ‖c‖ := norm_pos_iff.2 hc
  have hn2 : 0 < ‖c‖ ^ 2 := by positivity
  have hen : ∀ p, (eps p * (starRingEnd ℂ) ((c • e) p) * (c • e) p).re = ‖c‖ ^ 2 * enrg eps e p := by
    intro p
    rw [enrg, ← re_ofReal_mul, ← normSq_eq_norm_sq, ← mul_conj]
    simp only [Pi.smul_apply, smul_eq_mul, map_mul]
    ring_nf
  simp only [normalizedFields, ip_smul e h c dxes φ hs, hs, re_ofReal_mul, hen, mul_pos_iff_of_pos_left hn2]
  split_ifs with hpos
  · rw [argmax_smul _ hn2]
    simp only [show ∀ p, (eps p * (starRingEnd ℂ) (e p) * e p).re = enrg eps e p from fun _ => rfl]
    cases hp : argmax (enrg eps e) with
    | none => rfl
    | some p =>
      simp only
      have Hp := H p hp
      simp only [Pi.smul_apply, smul_eq_mul]
      generalize hA : exp (I * ((-arg (c * e p) : ℝ) : ℂ)) = A at Hp ⊢
      generalize hB : exp (I * ((-arg (e p) : ℝ) : ℂ)) = Bx at Hp ⊢
      have hsum : (∑ x : Fin 3 × Idx sh, if (x.2 0 : ℕ) < halfLen (sh 0) ∧ (x.2 1 : ℕ) < halfLen (sh 1) then
          (c * e x * ((‖c‖ ^ 2 * enrg eps e x : ℝ) : ℂ) * A).re else 0)
          = ‖c‖ ^ 3 * ∑ x : Fin 3 × Idx sh, if (x.2 0 : ℕ) < halfLen (sh 0) ∧ (x.2 1 : ℕ) < halfLen (sh 1) then
          (e x * ((enrg eps e x : ℝ) : ℂ) * Bx).re else 0 := by
        rw [Finset.mul_sum]
        refine Finset.sum_congr rfl fun x _ => ?_
        rw [mul_ite, mul_zero]
        refine if_congr Iff.rfl ?_ rfl
        rw [← re_ofReal_mul]
        congr 1
        push_cast
        linear_combination (e x * (‖c‖ : ℂ) ^ 2 * (enrg eps e x : ℂ)) * Hp
      rw [hsum, sign_mul_pos (by positivity)]
      split_ifs with hsg
      · rfl
      · have hamp : ((1 / √(‖c‖ ^ 2 * s.re) : ℝ) : ℂ) * ‖c‖ = ((1 / √s.re : ℝ) : ℂ) := by
          rw [Real.sqrt_mul hn2.le, Real.sqrt_sq hn.le]
          have : √s.re ≠ 0 := (Real.sqrt_pos.2 hpos).ne'
          have := hn.ne'
          rw [← ofReal_mul]
          congr 1
          field_simp
        have hfac : ∀ (z g : ℂ), c * z * (g * ((1 / √(‖c‖ ^ 2 * s.re) : ℝ) : ℂ) * A) = z * (g * ((1 / √s.re : ℝ) : ℂ) * Bx) := by
          intro z g
          rw [← hamp]
          linear_combination (z * g * ((1 / √(‖c‖ ^ 2 * s.re) : ℝ) : ℂ)) * Hp
        simp only [hfac]
  · rfl

/-- C42: the result does not depend on a positive rescaling of the mode. -/
theorem C42_scale_invariant (e h : V 3 sh) (dxes : Dx2 sh) (eps : V 3 sh) (φ : ℂ) {r : ℝ} (hr : 0 < r) :
    normalizedFields ((r : ℂ) • e) ((r : ℂ) • h) dxes eps φ = normalizedFields e h dxes eps φ := by
  refine normalizedFields_smul e h dxes eps φ (by exact_mod_cast hr.ne') fun p _ => ?_
  rw [arg_real_mul _ hr, norm_real, Real.norm_of_nonneg hr.le, mul_comm]

theorem argmax_spec {f : Fin 3 × Idx sh → ℝ} {p : Fin 3 × Idx sh} (h : argmax f = some p) (q : Fin 3 × Idx sh) : f q ≤ f p := by
  rw [argmax, Option.map_eq_some_iff] at h
  obtain ⟨i, hi, rfl⟩ := h
  have := List.find?_some hi
  exact (decide_eq_true_iff.1 this) q

/-- C42: nor on a phase or sign of the mode, whenever the medium gives some entry a positive energy (as every `ε > 0` does). -/
theorem C42_phase_invariant (e h : V 3 sh) (dxes : Dx2 sh) (eps : V 3 sh) (φ : ℂ) {c : ℂ} (hc : c ≠ 0)
    (hen : ∃ p, 0 < (eps p * (starRingEnd ℂ) (e p) * e p).re) :
    normalizedFields (c • e) (c • h) dxes eps φ = normalizedFields e h dxes eps φ := by
  refine normalizedFields_smul e h dxes eps φ hc fun p hp => ?_
  obtain ⟨q, hq⟩ := hen
  have hpos : 0 < enrg eps e p := lt_of_lt_of_le hq (argmax_spec hp q)
  have he : e p ≠ 0 := by
    intro h0
    rw [enrg, h0] at hpos
    simp at hpos
  rw [exp_neg_arg he, exp_neg_arg (mul_ne_zero hc he), norm_mul]
  push_cast
  field_simp

/-- C42 for the public functions: rescaling the eigenvector by any nonzero number changes nothing. -/
theorem C42_normalized_fields_e (v : V 2 sh) (β ω : ℂ) (dxes : Dx2 sh) (eps : V 3 sh) (mu : Option (V 3 sh)) (φ : ℂ) {e' h' : V 3 sh}
    (hr : normalizedFieldsE v β ω dxes eps mu φ = .ok (e', h')) :
    (∃ c : ℂ, c ≠ 0 ∧ e' = c • (exy2e β dxes eps *ᵥ v) ∧ h' = c • (exy2h β ω dxes eps mu *ᵥ v)) ∧
    (∃ s, innerProduct e' h' dxes φ true false = .ok s ∧ s.re = 1) ∧
    ∀ r : ℝ, 0 < r → normalizedFieldsE ((r : ℂ) • v) β ω dxes eps mu φ = .ok (e', h') := by
  obtain ⟨h1, h2, -⟩ := C42_unit_power _ _ dxes eps φ hr
  refine ⟨h1, h2, fun r hr' => ?_⟩
  rw [normalizedFieldsE, mulVec_smul, mulVec_smul, C42_scale_invariant _ _ _ _ _ hr']
  exact hr

theorem C42_normalized_fields_h (v : V 2 sh) (β ω : ℂ) (dxes : Dx2 sh) (eps : V 3 sh) (mu : Option (V 3 sh)) (φ : ℂ) {e' h' : V 3 sh}
    (hr : normalizedFieldsH v β ω dxes eps mu φ = .ok (e', h')) :
    (∃ c : ℂ, c ≠ 0 ∧ e' = c • (hxy2e β ω dxes eps mu *ᵥ v) ∧ h' = c • (hxy2h β dxes mu *ᵥ v)) ∧
    (∃ s, innerProduct e' h' dxes φ true false = .ok s ∧ s.re = 1) ∧
    ∀ r : ℝ, 0 < r → normalizedFieldsH ((r : ℂ) • v) β ω dxes eps mu φ = .ok (e', h') := by
  obtain ⟨h1, h2, -⟩ := C42_unit_power _ _ dxes eps φ hr
  refine ⟨h1, h2, fun r hr' => ?_⟩
  rw [normalizedFieldsH, mulVec_smul, mulVec_smul, C42_scale_invariant _ _ _ _ _ hr']
  exact hr

theorem argmax_some [Nonempty (Idx sh)] (f : Fin 3 × Idx sh → ℝ) : ∃ p, argmax f = some p := by
  obtain ⟨q, hq⟩ := Finite.exists_max f
  have hu : unflat (finProdFinEquiv (q.1, ravelIdx sh q.2)) = q := by
    simp [unflat, unravel_ravel]
  cases h : argmax f with
  | some p => exact ⟨p, rfl⟩
  | none =>
    exfalso
    rw [argmax, Option.map_eq_none_iff, List.find?_eq_none] at h
    exact h (finProdFinEquiv (q.1, ravelIdx sh q.2)) (List.mem_finRange _) (by rw [decide_eq_true_iff, hu]; exact hq)

/-- A plane wave is normalised successfully. -/
theorem plane_normalized (hsh : ∀ a, 0 < sh a) {r : ℝ} (hr : 0 < r) :
    ∃ e' h', normalizedFields (sh := sh) (fun p => if p.1 = 0 then 1 else 0) (fun p => if p.1 = 1 then (r : ℂ) else 0)
      (fun _ _ => 1, fun _ _ => 1) 1 0 = .ok (e', h') := by
  set e : V 3 sh := fun p => if p.1 = 0 then 1 else 0 with he
  set h : V 3 sh := fun p => if p.1 = 1 then (r : ℂ) else 0 with hh
  let x0 : Idx sh := fun a => ⟨0, hsh a⟩
  have : Nonempty (Idx sh) := ⟨x0⟩
  have hcard : 0 < Fintype.card (Idx sh) := Fintype.card_pos
  have hs : innerProduct e h (fun _ _ => 1, fun _ _ => 1) 0 true false = .ok ((r * Fintype.card (Idx sh) / 2 : ℝ) : ℂ) := by
    rw [C43_inner_product_value]
    refine congrArg Except.ok ?_
    simp [overlapSum, fld, he, hh, ipW]
    ring
  have hen : ∀ p, enrg 1 e p = if p.1 = 0 then 1 else 0 := by
    intro p; simp only [enrg, he]; split_ifs <;> simp
  obtain ⟨p, hp⟩ := argmax_some (enrg 1 e)
  have hp0 : e p = 1 := by
    have := argmax_spec hp (0, x0)
    rw [hen, hen] at this
    simp only [he]
    by_contra hc
    have hc' : ¬ p.1 = 0 := fun h => hc (by rw [if_pos h])
    simp only [if_neg hc', if_true] at this
    norm_num at this
  simp only [normalizedFields, hs]
  rw [if_neg (by rw [ofReal_re, not_not]; positivity)]
  rw [show argmax (fun p => ((1 : V 3 sh) p * (starRingEnd ℂ) (e p) * e p).re) = some p from hp]
  simp only [hp0, arg_one, neg_zero, ofReal_zero, mul_zero, exp_zero, mul_one]
  rw [if_neg]
  · exact ⟨_, _, rfl⟩
  · rw [Real.sign_eq_zero_iff]
    apply ne_of_gt
    have hnn : ∀ q : Fin 3 × Idx sh, (e q * (((1 : V 3 sh) q * (starRingEnd ℂ) (e q) * e q).re : ℝ)).re = if q.1 = 0 then 1 else 0 := by
      intro q
      rw [show ((1 : V 3 sh) q * (starRingEnd ℂ) (e q) * e q).re = enrg 1 e q from rfl, hen]
      simp only [he]; split_ifs <;> simp
    simp only [hnn]
    refine Finset.sum_pos' (fun q _ => by split_ifs <;> norm_num) ⟨(0, x0), Finset.mem_univ _, ?_⟩
    simp [halfLen, x0]

/-- The hypotheses of C42 are met: a plane wave on a 2 x 3 grid is normalised successfully. -/
example : ∃ e' h', normalizedFields (sh := ![2, 3]) (fun p => if p.1 = 0 then 1 else 0) (fun p => if p.1 = 1 then ((2 : ℝ) : ℂ) else 0)
    (fun _ _ => 1, fun _ _ => 1) 1 0 = .ok (e', h') :=
  plane_normalized (by decide) two_pos

/-! ### C44 and C69: orthogonality -/

/-- Transverse overlap `∑ (E_x H_y dA_x - E_y H_x dA_y)` weighted with the cell areas of the transverse E components
(`dx_e · dy_h` and `dx_h · dy_e`). -/
noncomputable def areaOverlap (dxE dxH : DxList sh ℂ) (E H : Fin 3 → Arr sh ℂ) : ℂ :=
  ∑ x, (volE dxE dxH 0 x * (E 0 x * H 1 x) - volE dxE dxH 1 x * (E 1 x * H 0 x))

theorem volE_0 (dxE dxH : DxList sh ℂ) (x : Idx sh) : volE dxE dxH 0 x = dxE 0 (x 0) * dxH 1 (x 1) := by simp [volE, Fin.prod_univ_two]
theorem volE_1 (dxE dxH : DxList sh ℂ) (x : Idx sh) : volE dxE dxH 1 x = dxH 0 (x 0) * dxE 1 (x 1) := by simp [volE, Fin.prod_univ_two]

/-- Summation by parts in one direction, with the width of the other direction as weight. -/
theorem parts2 (a b : Fin 2) (hab : b ≠ a) (dxE dxH : DxList sh ℂ) (hE : Nonzero dxE) (hH : Nonzero dxH) (w : DxList sh ℂ) (f g : Arr sh ℂ) :
    ∑ x, dxH a (x a) * w b (x b) * (g x * gradBack (some dxH) f a x) = -∑ x, dxE a (x a) * w b (x b) * (f x * gradForward (some dxE) g a x) := by
  have := sum_by_parts_weighted a dxE dxH hE hH (fun x => w b (x b)) f g (fun x => by simp only [shiftIdx_of_ne hab])
  simp only [derivBack_eq, derivForward_eq] at this
  exact this

theorem overlap_faraday {β₁ β₂ ω₁ ω₂ : ℂ} {dxE dxH : DxList sh ℂ} (hE : Nonzero dxE) (hH : Nonzero dxH) {eps₁ mu₁ eps₂ mu₂ E₁ H₁ E₂ H₂ : Fin 3 → Arr sh ℂ}
    (m₁ : IsMode β₁ ω₁ dxE dxH eps₁ mu₁ E₁ H₁) (m₂ : IsMode β₂ ω₂ dxE dxH eps₂ mu₂ E₂ H₂) :
    β₁ * areaOverlap dxE dxH E₁ H₂ = ∑ x, (dxE 0 (x 0) * dxH 1 (x 1) * (ω₁ * mu₁ 1 x * H₁ 1 x * H₂ 1 x)
      + dxH 0 (x 0) * dxE 1 (x 1) * (ω₁ * mu₁ 0 x * H₁ 0 x * H₂ 0 x) + dxH 0 (x 0) * dxH 1 (x 1) * (ω₂ * eps₂ 2 x * E₁ 2 x * E₂ 2 x)) := by
  have p0 := parts2 0 1 (by decide) dxE dxH hE hH dxH (H₂ 1) (E₁ 2)
  have p1 := parts2 1 0 (by decide) dxE dxH hE hH dxH (H₂ 0) (E₁ 2)
  have q0 : ∀ x, I * β₁ * (E₁ 0 x) = I * ω₁ * mu₁ 1 x * H₁ 1 x - gradForward (some dxE) (E₁ 2) 0 x := fun x => by
    linear_combination -(m₁.faradayY x)
  have q1 : ∀ x, I * β₁ * (E₁ 1 x) = -(I * ω₁ * mu₁ 0 x * H₁ 0 x) - gradForward (some dxE) (E₁ 2) 1 x := fun x => by
    linear_combination (m₁.faradayX x)
  refine mul_left_cancel₀ I_ne_zero ?_
  have e1 : I * (β₁ * areaOverlap dxE dxH E₁ H₂) = ∑ x, (dxE 0 (x 0) * dxH 1 (x 1) * (I * ω₁ * mu₁ 1 x * H₁ 1 x * H₂ 1 x)
      + dxH 0 (x 0) * dxE 1 (x 1) * (I * ω₁ * mu₁ 0 x * H₁ 0 x * H₂ 0 x))
      - ∑ x, dxE 0 (x 0) * dxH 1 (x 1) * (H₂ 1 x * gradForward (some dxE) (E₁ 2) 0 x)
      + ∑ x, dxE 1 (x 1) * dxH 0 (x 0) * (H₂ 0 x * gradForward (some dxE) (E₁ 2) 1 x) := by
    rw [areaOverlap, Finset.mul_sum, Finset.mul_sum, ← Finset.sum_sub_distrib, ← Finset.sum_add_distrib]
    refine Finset.sum_congr rfl fun x _ => ?_
    rw [volE_0, volE_1]
    linear_combination (dxE 0 (x 0) * dxH 1 (x 1) * H₂ 1 x) * q0 x - (dxH 0 (x 0) * dxE 1 (x 1) * H₂ 0 x) * q1 x
  rw [e1, sub_eq_add_neg, ← p0, (neg_eq_iff_eq_neg.2 p1).symm, ← sub_eq_add_neg, Finset.mul_sum,
    ← Finset.sum_add_distrib, ← Finset.sum_sub_distrib]
  refine Finset.sum_congr rfl fun x _ => ?_
  linear_combination (dxH 0 (x 0) * dxH 1 (x 1) * E₁ 2 x) * m₂.ampereZ x

theorem overlap_ampere {β₁ β₂ ω₁ ω₂ : ℂ} {dxE dxH : DxList sh ℂ} (hE : Nonzero dxE) (hH : Nonzero dxH) {eps₁ mu₁ eps₂ mu₂ E₁ H₁ E₂ H₂ : Fin 3 → Arr sh ℂ}
    (m₁ : IsMode β₁ ω₁ dxE dxH eps₁ mu₁ E₁ H₁) (m₂ : IsMode β₂ ω₂ dxE dxH eps₂ mu₂ E₂ H₂) :
    β₂ * areaOverlap dxE dxH E₁ H₂ = ∑ x, (dxE 0 (x 0) * dxH 1 (x 1) * (ω₂ * eps₂ 0 x * E₁ 0 x * E₂ 0 x)
      + dxH 0 (x 0) * dxE 1 (x 1) * (ω₂ * eps₂ 1 x * E₁ 1 x * E₂ 1 x) + dxE 0 (x 0) * dxE 1 (x 1) * (ω₁ * mu₁ 2 x * H₁ 2 x * H₂ 2 x)) := by
  have p0 := parts2 0 1 (by decide) dxE dxH hE hH dxE (H₂ 2) (E₁ 1)
  have p1 := parts2 1 0 (by decide) dxE dxH hE hH dxE (H₂ 2) (E₁ 0)
  have q0 : ∀ x, I * β₂ * (H₂ 1 x) = I * ω₂ * eps₂ 0 x * E₂ 0 x - gradBack (some dxH) (H₂ 2) 1 x := fun x => by
    linear_combination (m₂.ampereX x)
  have q1 : ∀ x, I * β₂ * (H₂ 0 x) = -(I * ω₂ * eps₂ 1 x * E₂ 1 x) - gradBack (some dxH) (H₂ 2) 0 x := fun x => by
    linear_combination -(m₂.ampereY x)
  refine mul_left_cancel₀ I_ne_zero ?_
  have e1 : I * (β₂ * areaOverlap dxE dxH E₁ H₂) = ∑ x, (dxE 0 (x 0) * dxH 1 (x 1) * (I * ω₂ * eps₂ 0 x * E₁ 0 x * E₂ 0 x)
      + dxH 0 (x 0) * dxE 1 (x 1) * (I * ω₂ * eps₂ 1 x * E₁ 1 x * E₂ 1 x))
      - ∑ x, dxH 1 (x 1) * dxE 0 (x 0) * (E₁ 0 x * gradBack (some dxH) (H₂ 2) 1 x)
      + ∑ x, dxH 0 (x 0) * dxE 1 (x 1) * (E₁ 1 x * gradBack (some dxH) (H₂ 2) 0 x) := by
    rw [areaOverlap, Finset.mul_sum, Finset.mul_sum, ← Finset.sum_sub_distrib, ← Finset.sum_add_distrib]
    refine Finset.sum_congr rfl fun x _ => ?_
    rw [volE_0, volE_1]
    linear_combination (dxE 0 (x 0) * dxH 1 (x 1) * E₁ 0 x) * q0 x - (dxH 0 (x 0) * dxE 1 (x 1) * E₁ 1 x) * q1 x
  rw [e1, p0, p1, sub_neg_eq_add, ← sub_eq_add_neg, Finset.mul_sum,
    ← Finset.sum_add_distrib, ← Finset.sum_sub_distrib]
  refine Finset.sum_congr rfl fun x _ => ?_
  linear_combination -(dxE 0 (x 0) * dxE 1 (x 1) * H₂ 2 x) * m₁.faradayZ x

/-- C44: two modes with different `β²` are orthogonal under the area-weighted, unconjugated transverse overlap, for every medium
(complex, anisotropic, lossy) and every (complex, non-uniform) grid. -/
theorem C44_orthogonal {β₁ β₂ ω : ℂ} {dxE dxH : DxList sh ℂ} (hE : Nonzero dxE) (hH : Nonzero dxH) {eps mu E₁ H₁ E₂ H₂ : Fin 3 → Arr sh ℂ}
    (m₁ : IsMode β₁ ω dxE dxH eps mu E₁ H₁) (m₂ : IsMode β₂ ω dxE dxH eps mu E₂ H₂) (hne : β₁ ^ 2 ≠ β₂ ^ 2) :
    areaOverlap dxE dxH E₁ H₂ = 0 := by
  have f12 := overlap_faraday hE hH m₁ m₂
  have f21 := overlap_faraday hE hH m₂ m₁
  have a12 := overlap_ampere hE hH m₁ m₂
  have a21 := overlap_ampere hE hH m₂ m₁
  have hf : β₁ * areaOverlap dxE dxH E₁ H₂ = β₂ * areaOverlap dxE dxH E₂ H₁ := by
    rw [f12, f21]; exact Finset.sum_congr rfl fun x _ => by ring
  have ha : β₂ * areaOverlap dxE dxH E₁ H₂ = β₁ * areaOverlap dxE dxH E₂ H₁ := by
    rw [a12, a21]; exact Finset.sum_congr rfl fun x _ => by ring
  have : (β₁ ^ 2 - β₂ ^ 2) * areaOverlap dxE dxH E₁ H₂ = 0 := by linear_combination β₁ * hf - β₂ * ha
  exact (mul_eq_zero.1 this).resolve_left (sub_ne_zero.2 hne)

/-- C69 on grids with equal (real) E and H widths: `inner_product` of two different modes is zero. -/
theorem C69_inner_product_orthogonal {β₁ β₂ ω : ℂ} {dx : DxList sh ℂ} (hdx : Nonzero dx) (hre : ∀ a i, (dx a i).im = 0)
    {eps mu : Fin 3 → Arr sh ℂ} {e₁ h₁ e₂ h₂ : V 3 sh} (m₁ : IsMode β₁ ω dx dx eps mu (fld e₁) (fld h₁))
    (m₂ : IsMode β₂ ω dx dx eps mu (fld e₂) (fld h₂)) (hne : β₁ ^ 2 ≠ β₂ ^ 2) (φ : ℂ) :
    innerProduct e₁ h₂ (dx, dx) φ false false = .ok 0 := by
  have h0 := C44_orthogonal hdx hdx m₁ m₂ hne
  rw [C43_inner_product_value]
  refine congrArg Except.ok ?_
  have hw : ∀ (c : Fin 2) (x : Idx sh), ((ipW (dx, dx) c x : ℝ) : ℂ) = volE dx dx c x := by
    intro c x
    have : ∀ a i, (((dx a i).re : ℝ) : ℂ) = dx a i := fun a i => Complex.ext (by simp) (by simp [hre])
    simp [ipW, volE, this]
  simp only [overlapSum, hw, Bool.false_eq_true, if_false]
  have : (∑ x, (fld e₁ 0 x * (h₂ (1, x) * exp (I * φ / 2)) * volE dx dx 0 x - fld e₁ 1 x * (h₂ (0, x) * exp (I * φ / 2)) * volE dx dx 1 x))
      = exp (I * φ / 2) * areaOverlap dx dx (fld e₁) (fld h₂) := by
    rw [areaOverlap, Finset.mul_sum]
    exact Finset.sum_congr rfl fun x _ => by simp only [fld]; ring
  rw [this, h0]; simp

/-- C69, what holds on every real grid: called with the E and H widths exchanged, `inner_product` of two different modes is zero. -/
theorem C69_exchanged_widths_partial {β₁ β₂ ω : ℂ} {dxE dxH : DxList sh ℂ} (hE : Nonzero dxE) (hH : Nonzero dxH) (hreE : ∀ a i, (dxE a i).im = 0) (hreH : ∀ a i, (dxH a i).im = 0)
    {eps mu : Fin 3 → Arr sh ℂ} {e₁ h₁ e₂ h₂ : V 3 sh} (m₁ : IsMode β₁ ω dxE dxH eps mu (fld e₁) (fld h₁))
    (m₂ : IsMode β₂ ω dxE dxH eps mu (fld e₂) (fld h₂)) (hne : β₁ ^ 2 ≠ β₂ ^ 2) (φ : ℂ) :
    innerProduct e₁ h₂ (dxH, dxE) φ false false = .ok 0 := by
  have h0 := C44_orthogonal hE hH m₁ m₂ hne
  rw [C43_inner_product_value]
  refine congrArg Except.ok ?_
  have hw : ∀ (c : Fin 2) (x : Idx sh), ((ipW (dxH, dxE) c x : ℝ) : ℂ) = volE dxE dxH c x := by
    intro c x
    have e1 : ∀ a i, (((dxE a i).re : ℝ) : ℂ) = dxE a i := fun a i => Complex.ext (by simp) (by simp [hreE])
    have e2 : ∀ a i, (((dxH a i).re : ℝ) : ℂ) = dxH a i := fun a i => Complex.ext (by simp) (by simp [hreH])
    fin_cases c <;> simp [ipW, volE, e1, e2]
  simp only [overlapSum, hw, Bool.false_eq_true, if_false]
  have : (∑ x, (fld e₁ 0 x * (h₂ (1, x) * exp (I * φ / 2)) * volE dxE dxH 0 x - fld e₁ 1 x * (h₂ (0, x) * exp (I * φ / 2)) * volE dxE dxH 1 x))
      = exp (I * φ / 2) * areaOverlap dxE dxH (fld e₁) (fld h₂) := by
    rw [areaOverlap, Finset.mul_sum]
    exact Finset.sum_congr rfl fun x _ => by simp only [fld]; ring
  rw [this, h0]; simp

theorem exEz (β s c : ℂ) (x : Idx (fun _ : Fin 2 => 2)) : (exy2e β exDx (exEps c) *ᵥ exV s) (2, x) = 0 := by
  rw [exy2e_2, bw, bw, derivBack_eq, derivBack_eq]
  have := (ex_shift (-1) (Or.inr rfl) x).2
  generalize shiftIdx 1 (-1) x = y at this ⊢
  simp [exV, exEps, this]

theorem exHx (β s c ω : ℂ) (x : Idx (fun _ : Fin 2 => 2)) :
    (exy2h β ω exDx (exEps c) none *ᵥ exV s) (0, x) = (I * β * exV s (1, x)) / (-I * ω) := by
  rw [exy2h, ← mulVec_mulVec, e2h_mulVec, curlE_0, fw, derivForward_eq]
  have h : ∀ y, part (exy2e β exDx (exEps c) *ᵥ exV s) 2 y = 0 := fun y => exEz β s c y
  rw [h, h, exy2e_1]
  simp

/-- The two modes used by the counterexamples: `ε = 1`, `ω = 5/4`, `β = 5/4` with `E_y = (1, 1)` and `β = 3/4` with `E_y = (1, -1)`. -/
theorem exModes : operatorE (5 / 4) exDx (exEps 1) none *ᵥ exV 0 = (5 / 4 : ℂ) ^ 2 • exV 0 ∧
    operatorE (5 / 4) exDx (exEps 1) none *ᵥ exV (-2) = (3 / 4 : ℂ) ^ 2 • exV (-2) :=
  ⟨exMode _ _ _ _ (by norm_num) (by norm_num), exMode _ _ _ _ (by norm_num) (by norm_num)⟩

/-- The hypotheses of C44 are met by two modes on a non-uniform grid. -/
example : ∃ E₁ H₁ E₂ H₂ : Fin 3 → Arr (fun _ : Fin 2 => 2) ℂ, IsMode (5 / 4) (5 / 4) exDx.1 exDx.2 (fld (exEps 1)) (fld 1) E₁ H₁ ∧
    IsMode (3 / 4) (5 / 4) exDx.1 exDx.2 (fld (exEps 1)) (fld 1) E₂ H₂ ∧ E₁ 1 ≠ 0 ∧ E₂ 1 ≠ 0 ∧ Nonzero exDx.1 ∧ Nonzero exDx.2 ∧
    (5 / 4 : ℂ) ^ 2 ≠ (3 / 4) ^ 2 := by
  refine ⟨_, _, _, _, C39_is_mode (5 / 4) (5 / 4) (by norm_num) (by norm_num) exDx (exEps 1) none (exEps_ne one_ne_zero) (by simp) _ exModes.1,
    C39_is_mode (3 / 4) (5 / 4) (by norm_num) (by norm_num) exDx (exEps 1) none (exEps_ne one_ne_zero) (by simp) _ exModes.2, ?_, ?_, ?_, ?_,
    by norm_num⟩
  · intro h
    have := congrFun h (fun _ => 0)
    simp only [fld, exy2e_1] at this
    simp [exV] at this
  · intro h
    have := congrFun h (fun _ => 0)
    simp only [fld, exy2e_1] at this
    simp [exV] at this
  · intro a i; simp only [exDx]; split_ifs <;> norm_num
  · intro a i; simp only [exDx]; split_ifs <;> norm_num

/-- C69 is false in general: `inner_product` weights `E_x H_y` with `dx_h · dy_e` instead of the cell area `dx_e · dy_h` (and `E_y H_x`
likewise), so on a non-uniform grid two different modes of a homogeneous cross-section have a nonzero inner product. -/
theorem C69_inner_product_orthogonality_fails_partial :
    ¬ ∀ (dxes : Dx2 (fun _ => 2)) (eps : V 3 (fun _ => 2)) (ω β₁ β₂ : ℂ) (v₁ v₂ : V 2 (fun _ => 2)), Nonzero dxes.1 → Nonzero dxes.2 →
      (∀ a i, 0 < (dxes.1 a i).re ∧ 0 < (dxes.2 a i).re) → (∀ p, eps p ≠ 0) → ω ≠ 0 → β₁ ≠ 0 → β₂ ≠ 0 → β₁ ^ 2 ≠ β₂ ^ 2 →
      operatorE ω dxes eps none *ᵥ v₁ = β₁ ^ 2 • v₁ → operatorE ω dxes eps none *ᵥ v₂ = β₂ ^ 2 • v₂ →
      innerProduct (exy2e β₁ dxes eps *ᵥ v₁) (exy2h β₂ ω dxes eps none *ᵥ v₂) dxes 0 false false = .ok 0 := by
  intro hall
  have h := hall exDx (exEps 1) (5 / 4) (5 / 4) (3 / 4) (exV 0) (exV (-2)) (by intro a i; simp only [exDx]; split_ifs <;> norm_num)
    (by intro a i; simp only [exDx]; split_ifs <;> norm_num) (by intro a i; simp only [exDx]; split_ifs <;> norm_num)
    (exEps_ne one_ne_zero) (by norm_num) (by norm_num) (by norm_num) (by norm_num) exModes.1 exModes.2
  rw [C43_inner_product_value] at h
  simp only [Except.ok.injEq, Bool.false_eq_true, if_false, overlapSum, fld, exy2e_0, exy2e_1, exHx] at h
  have key : ∀ x : Idx (fun _ : Fin 2 => 2), exV 0 (0, x) * ((exy2h (3 / 4) (5 / 4) exDx (exEps 1) none *ᵥ exV (-2)) (1, x) * exp (I * (0 : ℂ) / 2)) * (ipW exDx 0 x : ℝ)
      - exV 0 (1, x) * (I * (3 / 4) * exV (-2) (1, x) / (-I * (5 / 4)) * exp (I * (0 : ℂ) / 2)) * (ipW exDx 1 x : ℝ)
      = if x 0 = 0 then 3 / 5 else -12 / 5 := by
    intro x
    have hI := I_ne_zero
    by_cases hx : x 0 = 0
    · simp [exV, hx, ipW, exDx, Fin.prod_univ_two]; field_simp
    · simp [exV, hx, ipW, exDx, Fin.prod_univ_two]; field_simp; norm_num
  rw [Finset.sum_congr rfl fun x _ => key x] at h
  rw [← (Equiv.sum_comp (finTwoArrowEquiv (Fin 2)).symm)] at h
  simp [Fintype.sum_prod_type] at h
  norm_num at h

end Meanas.Props
