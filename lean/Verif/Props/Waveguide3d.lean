/-
Properties of the 3D waveguide helpers (C50-C54).
-/
import Verif.Model.Waveguide3d
import Verif.Lemmas.Fdfd
import Verif.Lemmas.Waveguide3d
import Verif.Lemmas.Waveguide2d
import Verif.Props.FdfdOperators
import Verif.Props.Waveguide2dModes
import Mathlib.Algebra.BigOperators.Field

set_option linter.unusedSectionVars false

namespace Meanas.Props

open Matrix Complex Wg3 Spec

variable {sh : Fin 3 → ℕ} {axis : Fin 3}

/-- Cell `x` of the grid is cell `y` of the window: the axes after the propagation axis (cyclically) are the 2D axes. -/
def AtCell (S : Slices sh axis) (x : Idx sh) (y : Idx (sh2 S)) : Prop :=
  (x axis : ℕ) = S.start axis ∧ (x (axis + 1) : ℕ) = S.start (axis + 1) + y 0 ∧ (x (axis + 2) : ℕ) = S.start (axis + 2) + y 1

theorem order_0 (axis : Fin 3) : order axis 0 = axis + 1 := by revert axis; decide
theorem order_1 (axis : Fin 3) : order axis 1 = axis + 2 := by revert axis; decide

theorem squeezeIdx (S : Slices sh axis) {x : Idx sh} {y : Idx (sh2 S)} (h : AtCell S x y) (f : VField sh ℂ) (c : Fin 3) :
    reduce2d S f (c, y) = f (order axis c) x := by
  unfold reduce2d squeeze Wg3.transpose sliceArr
  refine congrArg (f (order axis c)) (funext fun a => Fin.ext ?_)
  obtain ⟨h0, h1, h2⟩ := h
  revert a
  simp only [Slices.at', Fin.val_cast]
  match axis, S, y, h0, h1, h2 with
  | 0, S, y, h0, h1, h2 =>
    exact forall_fin3 h0.symm h1.symm h2.symm
  | 1, S, y, h0, h1, h2 =>
    exact forall_fin3 h2.symm h0.symm h1.symm
  | 2, S, y, h0, h1, h2 =>
    exact forall_fin3 h1.symm h2.symm h0.symm

theorem sh2_0 (S : Slices sh axis) : sh2 S 0 = S.stop (axis + 1) - S.start (axis + 1) := by
  unfold sh2 Slices.len; rw [show order axis (Fin.castSucc 0) = axis + 1 from order_0 axis]
theorem sh2_1 (S : Slices sh axis) : sh2 S 1 = S.stop (axis + 2) - S.start (axis + 2) := by
  unfold sh2 Slices.len; rw [show order axis (Fin.castSucc 1) = axis + 2 from order_1 axis]

theorem AtCell.mem {S : Slices sh axis} {x : Idx sh} {y : Idx (sh2 S)} (h : AtCell S x y) (a : Fin 3) : S.Mem a (x a) := by
  obtain ⟨h0, h1, h2⟩ := h
  have l0 := (y 0).2
  have l1 := (y 1).2
  generalize ((y 0 : Fin _) : ℕ) = m0 at *
  generalize ((y 1 : Fin _) : ℕ) = m1 at *
  rw [sh2_0] at l0; rw [sh2_1] at l1
  have m0 : S.Mem axis (x axis) := ⟨h0.ge, by rw [S.one, h0]; omega⟩
  have m1 : S.Mem (axis + 1) (x (axis + 1)) := ⟨by omega, by omega⟩
  have m2 : S.Mem (axis + 2) (x (axis + 2)) := ⟨by omega, by omega⟩
  rcases fin3_cases axis a with rfl | rfl | rfl <;> assumption

theorem scatterIdx (S : Slices sh axis) {x : Idx sh} {y : Idx (sh2 S)} (h : AtCell S x y) (e : Wg2.V 3 (sh2 S)) (c : Fin 3) :
    expand3 S e c x = e (reverseOrder axis c, y) := by
  unfold expand3 scatter
  rw [dif_pos h.mem]
  obtain ⟨h0, h1, h2⟩ := h
  unfold Wg3.transpose
  refine congrArg (fun z => e (reverseOrder axis c, z)) (funext fun j => Fin.ext ?_)
  simp only [Fin.val_cast]
  have hj : j = 0 ∨ j = 1 := by omega
  rcases hj with rfl | rfl
  · generalize ((y 0 : Fin _) : ℕ) = m0 at *
    rw [show order axis (Fin.castSucc 0) = axis + 1 from order_0 axis]; omega
  · generalize ((y 1 : Fin _) : ℕ) = m0 at *
    rw [show order axis (Fin.castSucc 1) = axis + 2 from order_1 axis]; omega

theorem scatterOut (S : Slices sh axis) {x : Idx sh} (h : ∀ y, ¬ AtCell S x y) (e : Wg2.V 3 (sh2 S)) (c : Fin 3) :
    expand3 S e c x = 0 := by
  unfold expand3 scatter
  rw [dif_neg]
  intro hm
  have h0 := hm axis
  have h1 := hm (axis + 1)
  have h2 := hm (axis + 2)
  unfold Slices.Mem at h0 h1 h2
  have := S.one
  refine h (fun j => if hj : j = 0 then ⟨(x (axis + 1) : ℕ) - S.start (axis + 1), ?_⟩ else ⟨(x (axis + 2) : ℕ) - S.start (axis + 2), ?_⟩) ⟨?_, ?_, ?_⟩
  · rw [hj, sh2_0]; omega
  · rw [show j = 1 by omega, sh2_1]; omega
  · omega
  · show _ = _ + ((x (axis + 1) : ℕ) - S.start (axis + 1)); omega
  · show _ = _ + ((x (axis + 2) : ℕ) - S.start (axis + 2)); omega

/-- C50: the 2D problem is the cross-section with its axes and components in cyclic order behind the propagation axis, for every axis. -/
theorem C50_reduction (S : Slices sh axis) (dx : DxList sh ℂ) (f : VField sh ℂ) {x : Idx sh} {y : Idx (sh2 S)} (h : AtCell S x y) :
    (reduce2d S f (0, y) = f (axis + 1) x ∧ reduce2d S f (1, y) = f (axis + 2) x ∧ reduce2d S f (2, y) = f axis x) ∧
    dx2d S dx 0 (y 0) = dx (axis + 1) (x (axis + 1)) ∧ dx2d S dx 1 (y 1) = dx (axis + 2) (x (axis + 2)) := by
  refine ⟨⟨?_, ?_, ?_⟩, ?_, ?_⟩
  · rw [squeezeIdx S h, order_0]
  · rw [squeezeIdx S h, order_1]
  · rw [squeezeIdx S h, order_two]
  · unfold dx2d
    have : ∀ b (i : Fin (sh b)), b = axis + 1 → (i : ℕ) = x (axis + 1) → dx b i = dx (axis + 1) (x (axis + 1)) := by
      rintro b i rfl hi; exact congrArg _ (Fin.ext hi)
    refine this _ _ (order_0 axis) ?_
    rw [h.2.1]
    show S.start (order axis 0) + _ = _
    rw [order_0]
  · unfold dx2d
    have : ∀ b (i : Fin (sh b)), b = axis + 2 → (i : ℕ) = x (axis + 2) → dx b i = dx (axis + 2) (x (axis + 2)) := by
      rintro b i rfl hi; exact congrArg _ (Fin.ext hi)
    refine this _ _ (order_1 axis) ?_
    rw [h.2.2]
    show S.start (order axis 1) + _ = _
    rw [order_1]

theorem rev_self (axis : Fin 3) : reverseOrder axis axis = 2 := by revert axis; decide
theorem rev_1 (axis : Fin 3) : reverseOrder axis (axis + 1) = 0 := by revert axis; decide
theorem rev_2 (axis : Fin 3) : reverseOrder axis (axis + 2) = 1 := by revert axis; decide

/-- C50: the slice's components return to the matching 3D components and cells, and the field is zero off the slice. -/
theorem C50_expansion (S : Slices sh axis) (e : Wg2.V 3 (sh2 S)) (x : Idx sh) :
    (∀ y, AtCell S x y → expand3 S e (axis + 1) x = e (0, y) ∧ expand3 S e (axis + 2) x = e (1, y) ∧ expand3 S e axis x = e (2, y)) ∧
    ((∀ y, ¬ AtCell S x y) → ∀ c, expand3 S e c x = 0) := by
  refine ⟨fun y h => ⟨?_, ?_, ?_⟩, fun h c => scatterOut S h e c⟩
  · rw [scatterIdx S h, rev_1]
  · rw [scatterIdx S h, rev_2]
  · rw [scatterIdx S h, rev_self]

theorem sin_arcsin (z : ℂ) : sin (Wg3.arcsin z) = z := by
  obtain ⟨s, hs⟩ : ∃ s : ℂ, s = (1 - z ^ 2) ^ (1 / 2 : ℂ) := ⟨_, rfl⟩
  have hs2 : s ^ 2 = 1 - z ^ 2 := by
    rw [hs]
    generalize 1 - z ^ 2 = w
    have := cpow_nat_inv_pow w (n := 2) two_ne_zero
    rwa [show (((2 : ℕ) : ℂ)⁻¹) = (1 / 2 : ℂ) by norm_num] at this
  have hI := I_sq
  have hu : (I * z + s) * (s - I * z) = 1 := by linear_combination hs2 - z ^ 2 * hI
  have hu0 : I * z + s ≠ 0 := left_ne_zero_of_mul_eq_one hu
  have h1 : exp (Wg3.arcsin z * I) = I * z + s := by
    unfold Wg3.arcsin
    rw [← hs, show -I * log (I * z + s) * I = log (I * z + s) by linear_combination -log (I * z + s) * hI, exp_log hu0]
  have h2 : exp (-Wg3.arcsin z * I) = s - I * z := by
    rw [neg_mul, exp_neg, h1]; exact inv_eq_of_mul_eq_one_right hu
  unfold sin
  rw [h1, h2]
  linear_combination -z * hI

/-- C50: the corrected wavenumber gives back the 2D wavenumber through the numerical dispersion relation of a grid with spacing `dx_prop`. -/
theorem C50_wavenumber (k2d dxp : ℂ) (h : dxp ≠ 0) : 2 / dxp * sin (correct k2d dxp * dxp / 2) = k2d := by
  unfold correct
  rw [show 2 / dxp * Wg3.arcsin (k2d * dxp / 2) * dxp / 2 = Wg3.arcsin (k2d * dxp / 2) by field_simp, sin_arcsin]
  field_simp

/-- Everything `solve_mode` returns, for the 2D fields `ve`, `vh` it normalised. -/
theorem solve_mode_spec (S : Slices sh axis) (ω : ℂ) (dxes : Fdfd.Dx sh) (pol : ℤ) (eps : VField sh ℂ) (mu : Option (VField sh ℂ))
    (exy : Wg2.V 2 (sh2 S)) (k2d : ℂ) {m : Mode sh} (hm : solveMode S ω dxes pol eps mu exy k2d = .ok m) :
    m.k2d = k2d ∧ (dxProp S dxes ≠ 0 → 2 / dxProp S dxes * sin (m.k * dxProp S dxes / 2) = k2d) ∧
    ∃ ve vh, Wg2.normalizedFieldsE exy k2d ω (dx2d S dxes.1, dx2d S dxes.2) (reduce2d S eps) (some (reduce2d S (mu.getD fun _ _ => 1)))
        (dxProp S dxes * m.k) = .ok (ve, vh) ∧
      ∀ x, (∀ y, AtCell S x y →
          m.E (axis + 1) x = ve (0, y) ∧ m.E (axis + 2) x = ve (1, y) ∧
          m.E axis x = ve (2, y) * exp (-I * pol * (m.k * dxProp S dxes / 2)) ∧
          m.H (axis + 1) x = pol * vh (0, y) * exp (-I * pol * (m.k * dxProp S dxes / 2)) ∧
          m.H (axis + 2) x = pol * vh (1, y) * exp (-I * pol * (m.k * dxProp S dxes / 2)) ∧ m.H axis x = pol * vh (2, y)) ∧
        ((∀ y, ¬ AtCell S x y) → ∀ c, m.E c x = 0 ∧ m.H c x = 0) := by
  unfold solveMode at hm
  simp only at hm
  split at hm
  · exact absurd hm (by simp)
  rename_i ve vh hn
  injection hm with hm
  subst hm
  refine ⟨rfl, C50_wavenumber k2d _, ve, vh, hn, fun x => ⟨fun y h => ?_, fun h c => ⟨scatterOut S h _ c, scatterOut S h _ c⟩⟩⟩
  have hph : exp (-I * pol * 0.5 * correct k2d (dxProp S dxes) * dxProp S dxes) = exp (-I * pol * (correct k2d (dxProp S dxes) * dxProp S dxes / 2)) := by
    congr 1; norm_num; ring
  obtain ⟨e1, e2, e3⟩ := (C50_expansion S (adjust ve vh pol (correct k2d (dxProp S dxes)) (dxProp S dxes)).1 x).1 y h
  obtain ⟨h1, h2, h3⟩ := (C50_expansion S (adjust ve vh pol (correct k2d (dxProp S dxes)) (dxProp S dxes)).2 x).1 y h
  refine ⟨e1.trans ?_, e2.trans ?_, e3.trans ?_, h1.trans ?_, h2.trans ?_, h3.trans ?_⟩ <;> simp only [adjust, hph]
  · simp
  · simp
  · simp
  · simp [mul_comm]
  · simp [mul_comm]
  · simp [mul_comm]

/-- C50: everything `solve_mode` returns, for the 2D fields `ve`, `vh` it normalised; `d` is the mean of the two cell widths at the slice. -/
theorem C50_solve_mode (S : Slices sh axis) (ω : ℂ) (dxes : Fdfd.Dx sh) (pol : ℤ) (eps : VField sh ℂ) (mu : Option (VField sh ℂ))
    (exy : Wg2.V 2 (sh2 S)) (k2d : ℂ) {m : Mode sh} {d : ℂ}
    (hd : 2 * d = dxes.1 axis S.plane + dxes.2 axis S.plane) (hm : solveMode S ω dxes pol eps mu exy k2d = .ok m) :
    m.k2d = k2d ∧ (d ≠ 0 → 2 / d * sin (m.k * d / 2) = k2d) ∧
    ∃ ve vh, Wg2.normalizedFieldsE exy k2d ω (dx2d S dxes.1, dx2d S dxes.2) (reduce2d S eps) (some (reduce2d S (mu.getD fun _ _ => 1)))
        (d * m.k) = .ok (ve, vh) ∧
      ∀ x, (∀ y, AtCell S x y →
          m.E (axis + 1) x = ve (0, y) ∧ m.E (axis + 2) x = ve (1, y) ∧
          m.E axis x = ve (2, y) * exp (-I * pol * (m.k * d / 2)) ∧
          m.H (axis + 1) x = pol * vh (0, y) * exp (-I * pol * (m.k * d / 2)) ∧
          m.H (axis + 2) x = pol * vh (1, y) * exp (-I * pol * (m.k * d / 2)) ∧ m.H axis x = pol * vh (2, y)) ∧
        ((∀ y, ¬ AtCell S x y) → ∀ c, m.E c x = 0 ∧ m.H c x = 0) := by
  have h : dxProp S dxes = d := by
    unfold dxProp
    rw [← hd]
    norm_num
    ring
  rw [← h]
  exact solve_mode_spec S ω dxes pol eps mu exy k2d hm

/-! ### C52 -/

theorem cumsum_step {n : ℕ} (w : Fin n → ℝ) (i j : Fin n) (hij : (j : ℕ) = i + 1) : Wg2.cumsum w j = Wg2.cumsum w i + w j := by
  rw [Wg2.cumsum, Wg2.cumsum, ← Finset.sum_filter, ← Finset.sum_filter]
  have : (Finset.univ.filter fun k : Fin n => (k : ℕ) ≤ j) = insert j (Finset.univ.filter fun k : Fin n => (k : ℕ) ≤ i) := by
    ext k
    simp only [Finset.mem_filter, Finset.mem_univ, true_and, Finset.mem_insert, Fin.ext_iff]
    omega
  rw [this, Finset.sum_insert (by simp; omega)]; ring

theorem cumsum_const {n : ℕ} (d : ℝ) (i : Fin n) : Wg2.cumsum (fun _ : Fin n => d) i = d * (i + 1) := by
  obtain ⟨i, hi⟩ := i
  induction i with
  | zero =>
    have : ∀ j : Fin n, (if (j : ℕ) ≤ ((⟨0, hi⟩ : Fin n) : ℕ) then d else 0) = if j = ⟨0, hi⟩ then d else 0 := by
      intro j; congr 1; simp [Fin.ext_iff]
    simp only [Wg2.cumsum, this]; simp
  | succ i ih => rw [cumsum_step _ ⟨i, by omega⟩ ⟨i + 1, hi⟩ rfl, ih (by omega)]; push_cast; ring

/-- C52: the field on the mode slice is unchanged, and the result is zero outside the transverse window. -/
theorem C52_slice_and_window (E : VField sh ℂ) (k : ℂ) (dxes : Fdfd.Dx sh) (pol : ℤ) (S : Slices sh axis) (c : Fin 3) (x : Idx sh) :
    ((∀ b, S.start b ≤ x b ∧ (x b : ℕ) < S.stop b) → expandE E k dxes pol S c x = E c x) ∧
    ((∃ b, b ≠ axis ∧ ¬ (S.start b ≤ x b ∧ (x b : ℕ) < S.stop b)) → expandE E k dxes pol S c x = 0) := by
  refine ⟨fun h => ?_, fun ⟨b, hb, hx⟩ => ?_⟩
  · have hx : x axis = S.plane := Fin.ext (by have := h axis; have := S.one; simp only [Slices.plane]; omega)
    unfold expandE
    simp only
    rw [if_pos (show ∀ b, b ≠ axis → S.Mem b (x b) from fun b _ => h b), hx, sub_self, ← hx, Function.update_eq_self]; simp
  · unfold expandE
    simp only
    rw [if_neg]; intro h; exact hx (h b hb)

/-- C52: from one plane to the next the field picks up the phase of the width `dx_e[i + 1]` (see `C52_uniform_partial` and
`C52_off_by_one_partial` for what this means). -/
theorem C52_step (E : VField sh ℂ) (k : ℂ) (dxes : Fdfd.Dx sh) (pol : ℤ) (S : Slices sh axis) (c : Fin 3) (x x' : Idx sh)
    (hax : (x' axis : ℕ) = x axis + 1) (hx : ∀ b, b ≠ axis → x' b = x b) :
    expandE E k dxes pol S c x' = exp (-I * pol * k * (dxes.1 axis (x' axis)).re) * expandE E k dxes pol S c x := by
  unfold expandE
  simp only
  have hu : Function.update x' axis S.plane = Function.update x axis S.plane := by
    funext b; by_cases hb : b = axis
    · subst hb; simp
    · simp [Function.update_of_ne hb, hx b hb]
  have hw : (∀ b, b ≠ axis → S.Mem b (x' b)) ↔ ∀ b, b ≠ axis → S.Mem b (x b) :=
    forall_congr' fun b => ⟨fun h hb => by rw [← hx b hb]; exact h hb, fun h hb => by rw [hx b hb]; exact h hb⟩
  rw [hu, if_congr hw rfl rfl, cumsum_step _ _ _ hax]
  split
  · rw [← mul_assoc, ← exp_add]; congr 2; push_cast; ring
  · rw [mul_zero]

theorem expandE_uniform (E : VField sh ℂ) (k : ℂ) (dxes : Fdfd.Dx sh) (pol : ℤ) (S : Slices sh axis) (d : ℝ) (hd : ∀ i, (dxes.1 axis i).re = d)
    (c : Fin 3) (x : Idx sh) : expandE E k dxes pol S c x =
      if ∀ b, b ≠ axis → S.Mem b (x b) then exp (-I * pol * k * (d * (x axis - S.start axis))) * E c (Function.update x axis S.plane) else 0 := by
  unfold expandE
  simp only [hd, cumsum_const]
  refine if_congr Iff.rfl ?_ rfl
  congr 2
  simp only [Slices.plane]; push_cast; ring

/-- C52, uniform spacing along the axis: between any two planes the field is multiplied by `exp(-i·polarity·wavenumber·distance)`.
The restriction to uniform spacing is needed, see `C52_off_by_one_partial`. -/
theorem C52_uniform_partial (E : VField sh ℂ) (k : ℂ) (dxes : Fdfd.Dx sh) (pol : ℤ) (S : Slices sh axis) (d : ℝ) (hd : ∀ i, (dxes.1 axis i).re = d)
    (c : Fin 3) (x x' : Idx sh) (hx : ∀ b, b ≠ axis → x' b = x b) :
    expandE E k dxes pol S c x' = exp (-I * pol * k * (d * ((x' axis : ℕ) - (x axis : ℕ)))) * expandE E k dxes pol S c x := by
  have hu : Function.update x' axis S.plane = Function.update x axis S.plane := by
    funext b; by_cases hb : b = axis
    · subst hb; simp
    · simp [Function.update_of_ne hb, hx b hb]
  have hw : (∀ b, b ≠ axis → S.Mem b (x' b)) ↔ ∀ b, b ≠ axis → S.Mem b (x b) :=
    forall_congr' fun b => ⟨fun h hb => by rw [← hx b hb]; exact h hb, fun h hb => by rw [hx b hb]; exact h hb⟩
  rw [expandE_uniform E k dxes pol S d hd, expandE_uniform E k dxes pol S d hd, hu, if_congr hw rfl rfl]
  split
  · rw [← mul_assoc (exp _) (exp _), ← exp_add]; congr 2; ring
  · rw [mul_zero]

/-- Position of the transverse E plane `i`: plane `i + 1` is the width `dx_e[i]` (the divisor of the forward difference) further. -/
noncomputable def planePos {n : ℕ} (w : Fin n → ℂ) (i : Fin n) : ℝ := ∑ j : Fin n, if j < i then (w j).re else 0

/-- The whole cross-section at plane 0 of a 2 × 2 × 2 grid. -/
def exSlices : Slices (fun _ => 2) 2 where
  start := fun _ => 0
  stop := fun a => if a = 2 then 1 else 2
  lt := by decide
  le := by decide
  one := rfl

/-- C52 is false on non-uniform grids: the phase uses `cumsum(dx_e)` instead of the plane positions, so the distance between the planes `i` and
`i + 1` is taken to be `dx_e[i + 1]`. Widths 1 and 2, `wavenumber = π`: the phase is `+1` instead of `-1`. -/
theorem C52_off_by_one_partial :
    ¬ ∀ (E : VField (fun _ => 2) ℂ) (k : ℂ) (dxes : Fdfd.Dx (fun _ => 2)) (S : Slices (fun _ => 2) 2) (c : Fin 3) (x x' : Idx fun _ => 2),
      (∀ a i, 0 < (dxes.1 a i).re ∧ 0 < (dxes.2 a i).re) → (∀ b, b ≠ 2 → x' b = x b) →
      expandE E k dxes 1 S c x' = exp (-I * k * (planePos (dxes.1 2) (x' 2) - planePos (dxes.1 2) (x 2) : ℝ)) * expandE E k dxes 1 S c x := by
  intro h
  have := h (fun _ _ => 1) Real.pi (fun _ i => (i : ℕ) + 1, fun _ _ => 1) exSlices 0 (fun _ => 0) (fun a => if a = 2 then 1 else 0) ?_ ?_
  · rw [C52_step (fun _ _ => 1) Real.pi _ 1 exSlices 0 (fun _ => 0) (fun a => if a = 2 then 1 else 0) rfl (fun b hb => by simp [hb]),
      (C52_slice_and_window (fun _ _ => 1) Real.pi (fun _ i => (i : ℕ) + 1, fun _ _ => 1) 1 exSlices 0 (fun _ => 0)).1
        (fun b => ⟨Nat.le_refl _, exSlices.lt b⟩)] at this
    have e1 : exp (-I * (1 : ℤ) * Real.pi * (((((1 : Fin 2) : ℕ) : ℂ) + 1).re : ℝ)) = 1 := by
      rw [show -I * (1 : ℤ) * Real.pi * (((((1 : Fin 2) : ℕ) : ℂ) + 1).re : ℝ) = -(2 * Real.pi * I) by norm_num; ring, exp_neg, exp_two_pi_mul_I, inv_one]
    have e2 : exp (-I * Real.pi * (planePos (n := 2) (fun i => ((i : ℕ) : ℂ) + 1) 1 - planePos (n := 2) (fun i => ((i : ℕ) : ℂ) + 1) 0 : ℝ)) = -1 := by
      have : planePos (n := 2) (fun i => ((i : ℕ) : ℂ) + 1) 1 - planePos (n := 2) (fun i => ((i : ℕ) : ℂ) + 1) 0 = 1 := by
        simp [planePos]
      rw [this, show -I * Real.pi * ((1 : ℝ) : ℂ) = -(Real.pi * I) by push_cast; ring, exp_neg, exp_pi_mul_I]; norm_num
    simp only [if_true] at this
    rw [e1, e2] at this
    norm_num at this
  · intro a i
    have : (0 : ℝ) ≤ (i : ℕ) := Nat.cast_nonneg _
    simp; positivity
  · intro b hb; simp [hb]

/-! ### C53 -/

/-- C53: whenever `compute_overlap_e` returns numbers, the overlap of the mode with its own expanded field is 1, and the overlap is
(conjugate-)linear in the other field. -/
theorem C53_normalised_partial (E : VField sh ℂ) (k : ℂ) (dxes : Fdfd.Dx sh) (pol : ℤ) (S : Slices sh axis) {O : VField sh ℂ}
    (hO : computeOverlapE E k dxes pol S = some O) :
    ∑ c, ∑ x, O c x * (starRingEnd ℂ) (expandE E k dxes pol S c x) = 1 ∧
    ∀ (a b : ℂ) (F G : VField sh ℂ), ∑ c, ∑ x, O c x * (starRingEnd ℂ) (a * F c x + b * G c x) =
      (starRingEnd ℂ) a * (∑ c, ∑ x, O c x * (starRingEnd ℂ) (F c x)) + (starRingEnd ℂ) b * ∑ c, ∑ x, O c x * (starRingEnd ℂ) (G c x) := by
  unfold computeOverlapE at hO
  simp only at hO
  split at hO
  · exact absurd hO (by simp)
  rename_i hn
  injection hO with hO
  subst hO
  constructor
  · set N := ∑ c, ∑ x, (starRingEnd ℂ) (overlapTarget (expandE E k dxes pol S) pol S c x) * overlapTarget (expandE E k dxes pol S) pol S c x with hN
    have : ∀ c x, overlapTarget (expandE E k dxes pol S) pol S c x / N * (starRingEnd ℂ) (expandE E k dxes pol S c x) =
        (starRingEnd ℂ) (overlapTarget (expandE E k dxes pol S) pol S c x) * overlapTarget (expandE E k dxes pol S) pol S c x / N := by
      intro c x
      unfold overlapTarget
      split
      · ring
      · simp
    simp only [this, ← Finset.sum_div]
    rw [← hN, div_self hn]
  · intro a b F G
    simp only [Finset.mul_sum, ← Finset.sum_add_distrib]
    refine Finset.sum_congr rfl fun c _ => Finset.sum_congr rfl fun x _ => ?_
    rw [map_add, map_mul, map_mul]; ring

theorem overlap_isSome (E : VField sh ℂ) (k : ℂ) (dxes : Fdfd.Dx sh) (pol : ℤ) (S : Slices sh axis) (c : Fin 3) (x : Idx sh)
    (h : overlapTarget (expandE E k dxes pol S) pol S c x ≠ 0) : (computeOverlapE E k dxes pol S).isSome := by
  unfold computeOverlapE
  simp only
  rw [if_neg]
  · rfl
  · intro hz
    have h1 : ∀ c x, (starRingEnd ℂ) (overlapTarget (expandE E k dxes pol S) pol S c x) * overlapTarget (expandE E k dxes pol S) pol S c x =
        ((‖overlapTarget (expandE E k dxes pol S) pol S c x‖ ^ 2 : ℝ) : ℂ) := by
      intro c x; rw [mul_comm, mul_conj, normSq_eq_norm_sq]
    simp only [h1, ← ofReal_sum] at hz
    have hz' := ofReal_eq_zero.1 hz
    have h2 := (Finset.sum_eq_zero_iff_of_nonneg (fun c _ => Finset.sum_nonneg fun x _ => sq_nonneg _)).1 hz' c (Finset.mem_univ _)
    have h3 := (Finset.sum_eq_zero_iff_of_nonneg (fun x _ => sq_nonneg _)).1 h2 x (Finset.mem_univ _)
    exact h (norm_eq_zero.1 (pow_eq_zero_iff two_ne_zero |>.1 h3))

/-- C53: with polarity -1, or with polarity +1 and at least two planes in front of the slice, `compute_overlap_e` returns numbers for every
mode field that is not identically zero on its slice. -/
theorem C53_defined_partial (E : VField sh ℂ) (k : ℂ) (dxes : Fdfd.Dx sh) (pol : ℤ) (S : Slices sh axis)
    (hpol : pol = -1 ∨ (pol = 1 ∧ 2 ≤ S.start axis)) (c : Fin 3) (x : Idx sh) (hx : ∀ b, S.start b ≤ x b ∧ (x b : ℕ) < S.stop b)
    (hE : E c x ≠ 0) : (computeOverlapE E k dxes pol S).isSome := by
  have hxa : x axis = S.plane := Fin.ext (by have := hx axis; have := S.one; simp only [Slices.plane]; omega)
  have hsl := S.lt axis
  have hsle := S.le axis
  -- a plane inside the overlap region, shifted back along the axis if the polarity is positive
  obtain ⟨j, hj1, hj2⟩ : ∃ j : Fin (sh axis), inPySlice (sh axis) (min (S.start axis : ℤ) (S.start axis - 2 * pol))
      (max (S.start axis : ℤ) (S.start axis - 2 * pol)) j ∧ (j : ℕ) ≤ S.start axis := by
    rcases hpol with rfl | ⟨rfl, h2⟩
    · refine ⟨S.plane, ?_, le_refl _⟩
      simp only [inPySlice, Slices.plane]
      split_ifs <;> omega
    · refine ⟨⟨S.start axis - 1, by omega⟩, ?_, by simp⟩
      simp only [inPySlice]
      split_ifs <;> omega
  refine overlap_isSome E k dxes pol S c (Function.update x axis j) ?_
  have hw : ∀ b, b ≠ axis → S.Mem b (Function.update x axis j b) := fun b hb => by rw [Function.update_of_ne hb]; exact hx b
  unfold overlapTarget
  rw [if_pos ⟨hw, by rw [Function.update_self]; exact hj1⟩]
  unfold expandE
  simp only
  rw [if_pos hw, Function.update_idem, ← hxa, Function.update_eq_self]
  exact mul_ne_zero (exp_ne_zero _) hE

/-- C53 fails at the start of the domain: with polarity +1 and the slice at plane 0 or 1 the slice bound `start - 2` is negative, counts from
the end, selects nothing, and every entry of the result is NaN, whatever the field. -/
theorem C53_nan_at_start_partial (E : VField sh ℂ) (k : ℂ) (dxes : Fdfd.Dx sh) (S : Slices sh axis) (hs : S.start axis < 2) :
    computeOverlapE E k dxes 1 S = none := by
  have hsl := S.lt axis
  have hsle := S.le axis
  have h0 : ∀ c x, overlapTarget (expandE E k dxes 1 S) 1 S c x = 0 := by
    intro c x
    unfold overlapTarget
    rw [if_neg]
    rintro ⟨-, hj⟩
    have := (x axis).2
    simp only [inPySlice] at hj
    revert hj
    split_ifs <;> omega
  unfold computeOverlapE
  simp only [h0]
  rw [if_pos (by simp)]

example : ∃ (S : Slices (fun _ => 4) 1), 2 ≤ S.start 1 ∧ ∀ a, S.start a + 1 = S.stop a :=
  ⟨⟨fun _ => 2, fun _ => 3, by decide, by decide, rfl⟩, by decide, by decide⟩
example : exSlices.start 2 < 2 := by decide

/-! ### C54 -/

open Fdfd in
/-- Cells at or beyond plane `s` along the axis. -/
noncomputable def beyond (axis : Fin 3) (s : ℕ) : Vec sh := fun p => if s ≤ (p.2 axis : ℕ) then 1 else 0
open Fdfd in
/-- Cells before plane `s` along the axis. -/
noncomputable def before (axis : Fin 3) (s : ℕ) : Vec sh := fun p => if (p.2 axis : ℕ) < s then 1 else 0

theorem nbr_val {c : Fin 3} {x : Idx sh} {mask : Fdfd.Vec sh} {a : Fin 3} {s : ℤ} {v : ℂ} (g : ℕ → ℂ) (hg : ∀ p : Fdfd.Pos sh, mask p = g (p.2 axis))
    (h : NbrVal mask false c x a s v) : v = mask (c, x) ∨ ∃ j : Fin (sh axis), (j : ℤ) = (x axis : ℕ) + s ∧ v = g j := by
  obtain ⟨y, rfl, hb, hy⟩ := h
  by_cases ha : a = axis
  · subst ha
    simp only [Bool.false_eq_true, if_false] at hy
    rcases hy with hy | ⟨hy, -⟩
    · exact Or.inr ⟨y a, hy, hg _⟩
    · left; rw [hg, hg]; simp only; rw [hy]
  · left; rw [hg, hg]; simp only; rw [hb axis (Ne.symm ha)]

/-- C54: the mode source is zero except in the two layers on either side of the interface, where it is the TFSF current of the half-space:
planes `start - 1` and `start` for polarity +1 (half-space from `start` on), planes `stop - 1` and `stop` for polarity -1 (half-space below
`stop`). -/
theorem C54_layers (E : VField sh ℂ) (k ω : ℂ) (dxes : Fdfd.Dx sh) (pol : ℤ) (hpol : pol = 1 ∨ pol = -1) (S : Slices sh axis) (eps : VField sh ℂ)
    (mu : Option (VField sh ℂ)) (c : Fin 3) (x : Idx sh) :
    let s := if pol = 1 then S.start axis else S.stop axis
    let half : Fdfd.Vec sh := if pol = 1 then beyond axis s else before axis s
    computeSource E k ω dxes pol S eps mu c x =
      if 0 < s ∧ s < sh axis ∧ ((x axis : ℕ) + 1 = s ∨ (x axis : ℕ) = s) then
        (Fdfd.eTfsfSource half ω dxes (Fdfd.vecS eps) (mu.map Fdfd.vecS) *ᵥ Fdfd.vecS (expandE E k dxes pol S)) (c, x)
      else 0 := by
  intro s half
  have hmask : Fdfd.vecS (sourceMask pol S) = half := by
    funext p
    rcases hpol with rfl | rfl <;> rfl
  obtain ⟨g, hg, hgs⟩ : ∃ g : ℕ → ℂ, (∀ p : Fdfd.Pos sh, half p = g (p.2 axis)) ∧ ∀ i j, g i ≠ g j ↔ ((i < s ∧ s ≤ j) ∨ (j < s ∧ s ≤ i)) := by
    rcases hpol with rfl | rfl
    · refine ⟨fun i => if s ≤ i then 1 else 0, fun p => rfl, fun i j => ?_⟩
      simp only
      by_cases h1 : s ≤ i <;> by_cases h2 : s ≤ j <;> simp [h1, h2] <;> omega
    · refine ⟨fun i => if i < s then 1 else 0, fun p => rfl, fun i j => ?_⟩
      simp only
      by_cases h1 : i < s <;> by_cases h2 : j < s <;> simp [h1, h2] <;> omega
  obtain ⟨r1, r2⟩ := C30_rows_partial half ω dxes (Fdfd.vecS eps) (mu.map Fdfd.vecS) false (Fdfd.vecS (expandE E k dxes pol S)) c x
  unfold computeSource
  rw [hmask]
  have hxl := (x axis).2
  split
  · rename_i h
    obtain ⟨h0, h1, h2⟩ := h
    refine r1 ?_
    have hne1 : sh axis ≠ 1 := by omega
    rcases h2 with h2 | h2
    · refine ⟨axis, 1, g s, hne1, Or.inl rfl, ⟨Function.update x axis ⟨s, h1⟩, ?_, fun b hb => Function.update_of_ne hb _ _, ?_⟩, ?_⟩
      · rw [hg]; simp
      · simp; omega
      · rw [hg]; exact (hgs _ _).2 (Or.inr ⟨by simp only; omega, le_refl _⟩)
    · refine ⟨axis, -1, g (s - 1), hne1, Or.inr rfl, ⟨Function.update x axis ⟨s - 1, by omega⟩, ?_, fun b hb => Function.update_of_ne hb _ _, ?_⟩, ?_⟩
      · rw [hg]; simp
      · simp; omega
      · rw [hg]; exact (hgs _ _).2 (Or.inl ⟨by omega, by simp only; omega⟩)
  · rename_i h
    refine r2 fun a σ v ha hσ hv => ?_
    rcases nbr_val g hg hv with hv' | ⟨j, hj, rfl⟩
    · exact hv'
    · rw [hg]
      by_contra hne
      have h1 := (hgs _ _).1 hne
      have h2 := j.2
      simp only at h1
      rcases hσ with rfl | rfl <;> omega

end Meanas.Props
