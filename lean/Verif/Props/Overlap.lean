/-
Property C127: what `compute_overlap_e` (meanas/fdfd/waveguide_3d.py:159-203) measures. Its docstring announces the overlap of the mode orthogonality
relation, for which counter-propagating and other modes give zero; the code projects on the electric field alone, without weights.
-/
import Verif.Props.Waveguide3d
import Verif.Props.Waveguide2dModes

set_option linter.unusedSectionVars false

namespace Meanas.Props

open Complex Wg3 Matrix

variable {sh : Fin 3 → ℕ} {axis : Fin 3}

/-- `numpy.sum(overlap_e * other_e.conj())`, as in the docstring of `compute_overlap_e`. -/
noncomputable def overlapOf (O F : VField sh ℂ) : ℂ := ∑ c, ∑ x, O c x * (starRingEnd ℂ) (F c x)

/-- Sum over the cells of the mode slice of `E · conj F`, over all three components and without weights. -/
noncomputable def sliceDot (S : Slices sh axis) (E F : VField sh ℂ) : ℂ :=
  ∑ c, ∑ x, if ∀ b, S.start b ≤ x b ∧ (x b : ℕ) < S.stop b then E c x * (starRingEnd ℂ) (F c x) else 0

/-- The part of it from the longitudinal (`c = axis`) component, resp. the transverse ones. -/
noncomputable def sliceNorm (S : Slices sh axis) (E : VField sh ℂ) (long : Prop) [Decidable long] : ℝ :=
  ∑ c : Fin 3, ∑ x, if (c = axis ↔ long) ∧ ∀ b, S.start b ≤ x b ∧ (x b : ℕ) < S.stop b then ‖E c x‖ ^ 2 else 0

theorem sum_axis (p : Fin (sh axis)) (g : Fin (sh axis) → ℂ) (f : Idx sh → ℂ) :
    ∑ x : Idx sh, g (x axis) * f (Function.update x axis p) = (∑ j, g j) * ∑ x : Idx sh, if x axis = p then f x else 0 := by
  classical
  rw [← Finset.sum_fiberwise Finset.univ (fun x : Idx sh => Function.update x axis p) (fun x => g (x axis) * f (Function.update x axis p)), Finset.mul_sum]
  refine Finset.sum_congr rfl fun y _ => ?_
  by_cases hy : y axis = p
  · rw [if_pos hy, Finset.sum_mul]
    symm
    refine Finset.sum_bij' (fun j _ => Function.update y axis j) (fun x _ => x axis) (fun j _ => ?_) (fun _ _ => Finset.mem_univ _)
      (fun j _ => Function.update_self _ _ _) (fun x hx => ?_) (fun j _ => ?_)
    · rw [Finset.mem_filter]
      exact ⟨Finset.mem_univ _, by rw [Function.update_idem, ← hy, Function.update_eq_self]⟩
    · rw [Finset.mem_filter] at hx
      rw [← hx.2, Function.update_idem, Function.update_eq_self]
    · rw [Function.update_self, Function.update_idem, ← hy, Function.update_eq_self]
  · rw [if_neg hy, mul_zero]
    refine Finset.sum_eq_zero fun x hx => ?_
    rw [Finset.mem_filter] at hx
    exact absurd (by rw [← hx.2, Function.update_self]) hy

theorem mem_slice (S : Slices sh axis) (x : Idx sh) :
    (∀ b, S.start b ≤ x b ∧ (x b : ℕ) < S.stop b) ↔ (∀ b, b ≠ axis → S.Mem b (x b)) ∧ x axis = S.plane := by
  have h1 := S.one
  constructor
  · intro h
    exact ⟨fun b _ => h b, Fin.ext (by have := h axis; simp only [Slices.plane]; omega)⟩
  · rintro ⟨h, hp⟩ b
    by_cases hb : b = axis
    · subst hb
      rw [hp]
      simp only [Slices.plane]
      omega
    · exact h b hb

/-- The sums of `compute_overlap_e` factor into a sum over the planes of its window and one over the mode slice. -/
theorem target_sum (E F : VField sh ℂ) (k k' : ℂ) (dxes : Fdfd.Dx sh) (pol pol' : ℤ) (S : Slices sh axis) (d : ℝ) (hd : ∀ i, (dxes.1 axis i).re = d) :
    overlapOf (overlapTarget (expandE E k dxes pol S) pol S) (expandE F k' dxes pol' S)
      = (∑ j : Fin (sh axis), if inPySlice (sh axis) (min (S.start axis : ℤ) (S.start axis - 2 * pol)) (max (S.start axis : ℤ) (S.start axis - 2 * pol)) j
          then exp (-I * pol * k * (d * (j - S.start axis))) * (starRingEnd ℂ) (exp (-I * pol' * k' * (d * (j - S.start axis)))) else 0) * sliceDot S E F := by
  unfold overlapOf sliceDot
  rw [Finset.mul_sum]
  refine Finset.sum_congr rfl fun c _ => ?_
  have e : ∀ x, (if ∀ b, S.start b ≤ x b ∧ (x b : ℕ) < S.stop b then E c x * (starRingEnd ℂ) (F c x) else 0)
      = if x axis = S.plane then (if ∀ b, b ≠ axis → S.Mem b (x b) then E c x * (starRingEnd ℂ) (F c x) else 0) else 0 := fun x => by
    rw [← ite_and]
    exact if_congr ((mem_slice S x).trans and_comm) rfl rfl
  simp only [e]
  rw [← sum_axis S.plane]
  refine Finset.sum_congr rfl fun x _ => ?_
  have hw : (∀ b, b ≠ axis → S.Mem b (Function.update x axis S.plane b)) ↔ ∀ b, b ≠ axis → S.Mem b (x b) :=
    forall_congr' fun b => forall_congr' fun hb => by rw [Function.update_of_ne hb]
  rw [expandE_uniform F k' dxes pol' S d hd, if_congr hw rfl rfl]
  unfold overlapTarget
  rw [expandE_uniform E k dxes pol S d hd]
  by_cases h1 : ∀ b, b ≠ axis → S.Mem b (x b)
  · by_cases h2 : inPySlice (sh axis) (min (S.start axis : ℤ) (S.start axis - 2 * pol)) (max (S.start axis : ℤ) (S.start axis - 2 * pol)) (x axis)
    · rw [if_pos ⟨h1, h2⟩, if_pos h1, if_pos h1, if_pos h2, if_pos h1, map_mul]
      ring
    · rw [if_neg (fun h => h2 h.2), if_neg h2, zero_mul, zero_mul]
  · rw [if_neg (fun h => h1 h.1), zero_mul, if_neg h1, mul_zero]

/-- The window of `compute_overlap_e` holds two planes: the two before the slice, or the slice and the one after it. -/
theorem window_sum (S : Slices sh axis) (pol : ℤ) (hpol : (pol = 1 ∧ 2 ≤ S.start axis) ∨ (pol = -1 ∧ S.start axis + 2 ≤ sh axis)) :
    ∃ n : ℤ, ∀ f : ℤ → ℂ, (∑ j : Fin (sh axis), if inPySlice (sh axis) (min (S.start axis : ℤ) (S.start axis - 2 * pol))
      (max (S.start axis : ℤ) (S.start axis - 2 * pol)) j then f ((j : ℤ) - S.start axis) else 0) = f n + f (n + 1) := by
  have hs := S.lt axis
  have hl := S.le axis
  obtain ⟨i, j, hij, n, hn, hw⟩ : ∃ i j : Fin (sh axis), (j : ℕ) = i + 1 ∧ ∃ n : ℤ, (i : ℤ) - S.start axis = n ∧ ∀ l : Fin (sh axis),
      inPySlice (sh axis) (min (S.start axis : ℤ) (S.start axis - 2 * pol)) (max (S.start axis : ℤ) (S.start axis - 2 * pol)) l ↔ l = i ∨ l = j := by
    rcases hpol with ⟨rfl, h⟩ | ⟨rfl, h⟩
    · refine ⟨⟨S.start axis - 2, by omega⟩, ⟨S.start axis - 1, by omega⟩, by simp only; omega, _, rfl, fun l => ?_⟩
      have := l.2
      simp only [inPySlice, Fin.ext_iff]
      split_ifs <;> omega
    · refine ⟨⟨S.start axis, by omega⟩, ⟨S.start axis + 1, by omega⟩, by simp only, _, rfl, fun l => ?_⟩
      have := l.2
      simp only [inPySlice, Fin.ext_iff]
      split_ifs <;> omega
  refine ⟨n, fun f => ?_⟩
  simp only [hw]
  have hne : i ≠ j := fun h => by rw [h] at hij; omega
  have : ∀ l : Fin (sh axis), (if l = i ∨ l = j then f ((l : ℤ) - S.start axis) else 0)
      = (if l = i then f ((l : ℤ) - S.start axis) else 0) + if l = j then f ((l : ℤ) - S.start axis) else 0 := fun l => by
    by_cases h1 : l = i
    · rw [if_pos (.inl h1), if_pos h1, if_neg (h1 ▸ hne), add_zero]
    · by_cases h2 : l = j
      · rw [if_pos (.inr h2), if_neg h1, if_pos h2, zero_add]
      · rw [if_neg (not_or.2 ⟨h1, h2⟩), if_neg h1, if_neg h2, add_zero]
  simp only [this, Finset.sum_add_distrib, Finset.sum_ite_eq', Finset.mem_univ, if_true]
  rw [hn, show ((j : ℕ) : ℤ) - S.start axis = n + 1 by omega]

theorem sliceDot_self (S : Slices sh axis) (E : VField sh ℂ) : sliceDot S E E = ((sliceNorm S E True + sliceNorm S E False : ℝ) : ℂ) := by
  unfold sliceDot sliceNorm
  rw [← Finset.sum_add_distrib]
  push_cast
  refine Finset.sum_congr rfl fun c _ => ?_
  rw [← Finset.sum_add_distrib]
  refine Finset.sum_congr rfl fun x _ => ?_
  by_cases h : ∀ b, S.start b ≤ x b ∧ (x b : ℕ) < S.stop b
  · rw [if_pos h, mul_conj, normSq_eq_norm_sq]
    by_cases hc : c = axis
    · rw [if_pos ⟨by simp [hc], h⟩, if_neg (fun h' => by simp [hc] at h')]
      push_cast; ring
    · rw [if_neg (fun h' => by simp [hc] at h'), if_pos ⟨by simp [hc], h⟩]
      push_cast; ring
  · rw [if_neg h, if_neg (fun h' => h h'.2), if_neg (fun h' => h h'.2)]
    simp

theorem norm_two (u v : ℝ) : ‖exp (-I * u) + exp (-I * v)‖ = 2 * |Real.cos ((u - v) / 2)| := by
  have h : exp (-I * u) + exp (-I * v) = exp (-(((u + v) / 2 : ℝ) : ℂ) * I) * ((2 * Real.cos ((u - v) / 2) : ℝ) : ℂ) := by
    rw [show -I * (u : ℂ) = -(((u + v) / 2 : ℝ) : ℂ) * I + -(((u - v) / 2 : ℝ) : ℂ) * I by push_cast; ring,
      show -I * (v : ℂ) = -(((u + v) / 2 : ℝ) : ℂ) * I + (((u - v) / 2 : ℝ) : ℂ) * I by push_cast; ring, exp_add, exp_add, ofReal_mul, ofReal_cos,
      Complex.cos, neg_mul, neg_mul]
    push_cast
    ring
  rw [h, norm_mul, ← ofReal_neg, norm_exp_ofReal_mul_I, one_mul, norm_real, Real.norm_eq_abs, abs_mul, abs_two]

/-- **C127, what the overlap is.** On a grid with uniform spacing `d` along the axis and with two planes available, the overlap of a mode `E` of real
wavenumber `k` with another expanded field `F` of real wavenumber `k'` (negative: travelling the other way) is, in magnitude, the unweighted projection of
`F` on `E` over the mode slice times the cosine of half the phase by which the two fields drift apart from one plane to the next. -/
theorem C127_projection_partial (E F : VField sh ℂ) (k k' d : ℝ) (dxes : Fdfd.Dx sh) (hd : ∀ i, (dxes.1 axis i).re = d) (S : Slices sh axis) (pol : ℤ)
    (hpol : (pol = 1 ∧ 2 ≤ S.start axis) ∨ (pol = -1 ∧ S.start axis + 2 ≤ sh axis)) {O : VField sh ℂ} (hO : computeOverlapE E k dxes pol S = some O) :
    0 < sliceNorm S E True + sliceNorm S E False
      ∧ ‖overlapOf O (expandE F k' dxes pol S)‖ * (sliceNorm S E True + sliceNorm S E False)
        = ‖sliceDot S E F‖ * |Real.cos ((k - k') * d / 2)| := by
  obtain ⟨n, hwin⟩ := window_sum S pol hpol
  have hp2 : (pol : ℝ) * pol = 1 := by rcases hpol with ⟨rfl, -⟩ | ⟨rfl, -⟩ <;> norm_num
  have habs : |(pol : ℝ)| = 1 := by rcases hpol with ⟨rfl, -⟩ | ⟨rfl, -⟩ <;> norm_num
  have key : ∀ (G : VField sh ℂ) (q : ℝ), ‖overlapOf (overlapTarget (expandE E k dxes pol S) pol S) (expandE G q dxes pol S)‖
      = 2 * |Real.cos ((k - q) * d / 2)| * ‖sliceDot S E G‖ := by
    intro G q
    rw [target_sum E G k q dxes pol pol S d hd, norm_mul]
    congr 1
    have e : ∀ j : Fin (sh axis), exp (-I * pol * k * (d * (j - S.start axis))) * (starRingEnd ℂ) (exp (-I * pol * q * (d * (j - S.start axis))))
        = (fun m : ℤ => exp (-I * ((pol * (k - q) * d * m : ℝ) : ℂ))) ((j : ℤ) - S.start axis) := by
      intro j
      simp only
      rw [← exp_conj, ← exp_add]
      congr 1
      simp only [map_mul, map_neg, conj_I, conj_ofReal, map_sub, map_natCast, map_intCast]
      push_cast
      ring
    simp only [e]
    rw [hwin fun m : ℤ => exp (-I * ((pol * (k - q) * d * m : ℝ) : ℂ)), norm_two]
    congr 1
    rw [show (pol * (k - q) * d * (n : ℝ) - pol * (k - q) * d * ((n + 1 : ℤ) : ℝ)) / 2 = -(pol * ((k - q) * d / 2)) by push_cast; ring, Real.cos_neg]
    rcases hpol with ⟨rfl, -⟩ | ⟨rfl, -⟩
    · rw [Int.cast_one, one_mul]
    · rw [show (((-1 : ℤ) : ℝ)) * ((k - q) * d / 2) = -((k - q) * d / 2) by push_cast; ring, Real.cos_neg]
  have hO' := hO
  unfold computeOverlapE at hO'
  simp only at hO'
  have hN : (∑ c, ∑ x, (starRingEnd ℂ) (overlapTarget (expandE E k dxes pol S) pol S c x) * overlapTarget (expandE E k dxes pol S) pol S c x)
      = overlapOf (overlapTarget (expandE E k dxes pol S) pol S) (expandE E k dxes pol S) := by
    unfold overlapOf
    refine Finset.sum_congr rfl fun c _ => Finset.sum_congr rfl fun x _ => ?_
    unfold overlapTarget
    split
    · ring
    · simp
  rw [hN] at hO'
  split at hO'
  · cases hO'
  rename_i hn0
  have hself := key E k
  rw [sub_self, zero_mul, zero_div, Real.cos_zero, abs_one, mul_one, sliceDot_self, norm_real, Real.norm_eq_abs] at hself
  have h0 : 0 ≤ sliceNorm S E True + sliceNorm S E False := by
    unfold sliceNorm
    exact add_nonneg (Finset.sum_nonneg fun c _ => Finset.sum_nonneg fun x _ => by split_ifs <;> positivity)
      (Finset.sum_nonneg fun c _ => Finset.sum_nonneg fun x _ => by split_ifs <;> positivity)
  rw [abs_of_nonneg h0] at hself
  have hpos : 0 < sliceNorm S E True + sliceNorm S E False := by
    refine lt_of_le_of_ne h0 fun h => hn0 (norm_eq_zero.1 ?_)
    rw [hself, ← h, mul_zero]
  refine ⟨hpos, ?_⟩
  have hO2 := Option.some.inj hO'
  have e2 : overlapOf O (expandE F k' dxes pol S) = overlapOf (overlapTarget (expandE E k dxes pol S) pol S) (expandE F k' dxes pol S)
      / overlapOf (overlapTarget (expandE E k dxes pol S) pol S) (expandE E k dxes pol S) := by
    rw [← hO2]
    generalize overlapOf (overlapTarget (expandE E k dxes pol S) pol S) (expandE E k dxes pol S) = N
    unfold overlapOf
    simp only [Finset.sum_div]
    exact Finset.sum_congr rfl fun c _ => Finset.sum_congr rfl fun x _ => by ring
  rw [e2, norm_div, hself, key F k']
  field_simp

theorem expandE_reverse (F : VField sh ℂ) (k : ℂ) (dxes : Fdfd.Dx sh) (pol : ℤ) (S : Slices sh axis) :
    expandE F k dxes (-pol) S = expandE F (-k) dxes pol S := by
  unfold expandE
  funext c x
  simp only
  refine if_congr Iff.rfl ?_ rfl
  congr 2
  push_cast
  ring

/-- The orthogonality integral of the docstring, `Integrate(((E x H_mode) + (E_mode x H)) dot dn)`, for any weights `w` of the cells of the slice. -/
noncomputable def reciprocityIntegral (S : Slices sh axis) (w : Idx sh → ℂ) (E H E' H' : VField sh ℂ) : ℂ :=
  ∑ x, if ∀ b, S.start b ≤ x b ∧ (x b : ℕ) < S.stop b then
    w x * (E (axis + 1) x * H' (axis + 2) x - E (axis + 2) x * H' (axis + 1) x + (E' (axis + 1) x * H (axis + 2) x - E' (axis + 2) x * H (axis + 1) x)) else 0

/-- The counter-propagating copy of a mode: the same transverse electric field, the opposite transverse magnetic field, and a longitudinal electric field of
the same magnitude (it changes sign, and its half-cell phase is that of the other direction). -/
def Reversed (axis : Fin 3) (E H E' H' : VField sh ℂ) : Prop :=
  (∀ c x, c ≠ axis → E' c x = E c x ∧ H' c x = -H c x) ∧ ∀ x, ‖E' axis x‖ = ‖E axis x‖

/-- **C127 fails for the counter-propagating mode.** The announced integral vanishes for it; the overlap computed by `compute_overlap_e` does not, as soon as
the transverse field outweighs the longitudinal one and the grid has not exactly four planes per wavelength (or a similar coincidence). It is at least
`|cos(k d)| · (T - L) / (T + L)`: a reflected wave is counted almost as much as a forward one on a fine grid. -/
theorem C127_backward_partial (E H E' H' : VField sh ℂ) (hrev : Reversed axis E H E' H') (k d : ℝ) (dxes : Fdfd.Dx sh) (hd : ∀ i, (dxes.1 axis i).re = d)
    (S : Slices sh axis) (pol : ℤ) (hpol : (pol = 1 ∧ 2 ≤ S.start axis) ∨ (pol = -1 ∧ S.start axis + 2 ≤ sh axis)) {O : VField sh ℂ}
    (hO : computeOverlapE E k dxes pol S = some O) :
    (∀ w, reciprocityIntegral S w E H E' H' = 0)
      ∧ |Real.cos (k * d)| * ((sliceNorm S E False - sliceNorm S E True) / (sliceNorm S E False + sliceNorm S E True))
        ≤ ‖overlapOf O (expandE E' k dxes (-pol) S)‖ := by
  constructor
  · intro w
    have h1 : axis + 1 ≠ axis := (by decide : ∀ a : Fin 3, a + 1 ≠ a) axis
    have h2 : axis + 2 ≠ axis := (by decide : ∀ a : Fin 3, a + 2 ≠ a) axis
    unfold reciprocityIntegral
    refine Finset.sum_eq_zero fun x _ => ?_
    rw [(hrev.1 _ x h1).1, (hrev.1 _ x h2).1, (hrev.1 _ x h1).2, (hrev.1 _ x h2).2]
    split_ifs
    · ring
    · rfl
  · rw [expandE_reverse, ← ofReal_neg]
    obtain ⟨hpos, hval⟩ := C127_projection_partial E E' k (-k) d dxes hd S pol hpol hO
    rw [show (k - -k) * d / 2 = k * d by ring] at hval
    have hsum : sliceDot S E E' = ((sliceNorm S E False : ℝ) : ℂ)
        + ∑ x, if ∀ b, S.start b ≤ x b ∧ (x b : ℕ) < S.stop b then E axis x * (starRingEnd ℂ) (E' axis x) else 0 := by
      unfold sliceDot sliceNorm
      rw [← Finset.add_sum_erase _ _ (Finset.mem_univ axis), add_comm, ← Finset.add_sum_erase _ _ (Finset.mem_univ axis)]
      congr 1
      rw [ofReal_add]
      have h0 : (∑ x, if (axis = axis ↔ False) ∧ ∀ b, S.start b ≤ x b ∧ (x b : ℕ) < S.stop b then ‖E axis x‖ ^ 2 else 0) = 0 :=
        Finset.sum_eq_zero fun x _ => if_neg fun h => h.1.1 rfl
      rw [h0, ofReal_zero, zero_add]
      push_cast
      refine Finset.sum_congr rfl fun c hc => Finset.sum_congr rfl fun x _ => ?_
      have hca := (Finset.mem_erase.1 hc).1
      by_cases h : ∀ b, S.start b ≤ x b ∧ (x b : ℕ) < S.stop b
      · rw [if_pos h, if_pos ⟨by simp [hca], h⟩, (hrev.1 c x hca).1, mul_conj, normSq_eq_norm_sq]
      · rw [if_neg h, if_neg fun h' => h h'.2, ofReal_zero]
    have hL : ‖∑ x, if ∀ b, S.start b ≤ x b ∧ (x b : ℕ) < S.stop b then E axis x * (starRingEnd ℂ) (E' axis x) else 0‖ ≤ sliceNorm S E True := by
      unfold sliceNorm
      rw [← Finset.add_sum_erase _ _ (Finset.mem_univ axis)]
      have h0 : (∑ c ∈ Finset.univ.erase axis, ∑ x, if (c = axis ↔ True) ∧ ∀ b, S.start b ≤ x b ∧ (x b : ℕ) < S.stop b then ‖E c x‖ ^ 2 else 0) = 0 :=
        Finset.sum_eq_zero fun c hc => Finset.sum_eq_zero fun x _ => if_neg fun h => (Finset.mem_erase.1 hc).1 (h.1.2 trivial)
      rw [h0, add_zero]
      refine (norm_sum_le _ _).trans (Finset.sum_le_sum fun x _ => ?_)
      by_cases h : ∀ b, S.start b ≤ x b ∧ (x b : ℕ) < S.stop b
      · rw [if_pos h, if_pos ⟨by simp, h⟩, norm_mul, RCLike.norm_conj, hrev.2 x, sq]
      · rw [if_neg h, if_neg fun h' => h h'.2, norm_zero]
    have hT : 0 ≤ sliceNorm S E False := by
      unfold sliceNorm
      exact Finset.sum_nonneg fun c _ => Finset.sum_nonneg fun x _ => by split_ifs <;> positivity
    have hge : sliceNorm S E False - sliceNorm S E True ≤ ‖sliceDot S E E'‖ := by
      rw [hsum]
      have := norm_sub_le_norm_add ((sliceNorm S E False : ℝ) : ℂ)
        (∑ x, if ∀ b, S.start b ≤ x b ∧ (x b : ℕ) < S.stop b then E axis x * (starRingEnd ℂ) (E' axis x) else 0)
      rw [norm_real, Real.norm_eq_abs, abs_of_nonneg hT] at this
      linarith
    rw [add_comm] at hpos hval
    rw [← mul_div_assoc, div_le_iff₀ hpos, hval, mul_comm |Real.cos (k * d)|]
    exact mul_le_mul_of_nonneg_right hge (abs_nonneg _)

/-! ### A cross-section on which two modes are not orthogonal in the sense of the code -/

/-- Three cells across, one along y, four planes. -/
abbrev ovSh : Fin 3 → ℕ := ![3, 1, 4]
/-- The cross-section. -/
abbrev ovSh2 : Fin 2 → ℕ := ![3, 1]

/-- The whole cross-section at plane 2. -/
def ovSlices : Slices ovSh 2 where
  start := ![0, 0, 2]
  stop := ![3, 1, 3]
  lt := by decide
  le := by decide
  one := rfl

/-- Cell widths 2, 2, 1 along x, and the widths between the cell centres. -/
noncomputable def ovW (j : Bool) (n : ℕ) : ℂ := if j then (if n = 2 then 1 else 2) else (if n = 1 then 2 else 3 / 2)

noncomputable def ovDx : Fdfd.Dx ovSh := (fun a i => if a = 0 then ovW true i else 1, fun a i => if a = 0 then ovW false i else 1)
noncomputable def ovDx2 : Wg2.Dx2 ovSh2 := (fun a i => if a = 0 then ovW true i else 1, fun a i => if a = 0 then ovW false i else 1)

/-- A field along y that varies along x. -/
noncomputable def ovV (f : ℕ → ℂ) : Wg2.V 2 ovSh2 := fun p => if p.1 = 1 then f (p.2 0 : Fin _) else 0

/-- The two profiles: constant, and `2, -3, 2`. -/
noncomputable def ovF (second : Bool) (n : ℕ) : ℂ := if second then (if n = 1 then -3 else 2) else 1

noncomputable def ovBeta (second : Bool) : ℂ := if second then 7 / 12 else 13 / 12

theorem ov_shift1 (s : ℤ) (x : Idx ovSh2) : shiftIdx 1 s x = x := by
  funext a
  fin_cases a
  · exact shiftIdx_of_ne (by decide) _ _
  · exact Subsingleton.elim (α := Fin 1) _ _

theorem ov_fw1 (f : Idx ovSh2 → ℂ) (x : Idx ovSh2) : Wg2.fw ovDx2 1 f x = 0 := by
  rw [Wg2.fw, derivForward_eq, ov_shift1, sub_self, zero_div]
theorem ov_bw1 (f : Idx ovSh2 → ℂ) (x : Idx ovSh2) : Wg2.bw ovDx2 1 f x = 0 := by
  rw [Wg2.bw, derivBack_eq, ov_shift1, sub_self, zero_div]
theorem ov_bw_zero (x : Idx ovSh2) : Wg2.bw ovDx2 0 (fun _ => 0) x = 0 := by
  rw [Wg2.bw, derivBack_eq, sub_self, zero_div]
theorem ov_fw_zero (x : Idx ovSh2) : Wg2.fw ovDx2 0 (fun _ => 0) x = 0 := by
  rw [Wg2.fw, derivForward_eq, sub_self, zero_div]

theorem ov_next (x : Idx ovSh2) : ((shiftIdx 0 1 x 0 : Fin 3) : ℕ) = ((x 0 : Fin 3) + 1) % 3 := by
  have h : (((shiftIdx 0 1 x 0 : Fin 3) : ℕ) : ℤ) = (((x 0 : Fin 3) : ℕ) + 1 : ℤ) % 3 := by
    rw [shiftIdx_same]
    exact wrap_val (n := 3) (x 0) 1
  omega
theorem ov_prev (x : Idx ovSh2) : ((shiftIdx 0 (-1) x 0 : Fin 3) : ℕ) = ((x 0 : Fin 3) + 2) % 3 := by
  have h : (((shiftIdx 0 (-1) x 0 : Fin 3) : ℕ) : ℤ) = (((x 0 : Fin 3) : ℕ) + -1 : ℤ) % 3 := by
    rw [shiftIdx_same]
    exact wrap_val (n := 3) (x 0) (-1)
  omega

theorem ov_fw0 (f : ℕ → ℂ) (x : Idx ovSh2) :
    Wg2.fw ovDx2 0 (fun y => f (y 0 : Fin 3)) x = (f (((x 0 : Fin 3) + 1) % 3) - f (x 0 : Fin 3)) / ovW true (x 0 : Fin 3) := by
  rw [Wg2.fw, derivForward_eq]
  simp only [ov_next]
  rfl
theorem ov_bw0 (f : ℕ → ℂ) (x : Idx ovSh2) :
    Wg2.bw ovDx2 0 (fun y => f (y 0 : Fin 3)) x = (f (x 0 : Fin 3) - f (((x 0 : Fin 3) + 2) % 3)) / ovW false (x 0 : Fin 3) := by
  rw [Wg2.bw, derivBack_eq]
  simp only [ov_prev]
  rfl

theorem ov_eig (b : Bool) : Wg2.operatorE (13 / 12) ovDx2 1 none *ᵥ ovV (ovF b) = ovBeta b ^ 2 • ovV (ovF b) := by
  funext p
  obtain ⟨k, x⟩ := p
  fin_cases k
  · refine (Wg2.operatorE_0 _ _ _ _ _ x).trans ?_
    have e : (fun y => (Wg2.bw ovDx2 0 (fun z => (1 : Wg2.V 3 ovSh2) (0, z) * ovV (ovF b) (0, z)) y
        + Wg2.bw ovDx2 1 (fun z => (1 : Wg2.V 3 ovSh2) (1, z) * ovV (ovF b) (1, z)) y) / (1 : Wg2.V 3 ovSh2) (2, y)) = fun _ => 0 := by
      funext y
      have : (fun z => (1 : Wg2.V 3 ovSh2) (0, z) * ovV (ovF b) (0, z)) = fun _ => 0 := by funext z; simp [ovV]
      rw [this, ov_bw1, ov_bw_zero]
      simp
    rw [e, ov_bw1, ov_fw_zero]
    simp [ovV]
  · refine (Wg2.operatorE_1 _ _ _ _ _ x).trans ?_
    have e : (fun y => (Wg2.fw ovDx2 0 (Wg2.part (ovV (ovF b)) 1) y - Wg2.fw ovDx2 1 (Wg2.part (ovV (ovF b)) 0) y) / (Option.getD none 1 : Wg2.V 3 ovSh2) (2, y))
        = fun y => Wg2.fw ovDx2 0 (Wg2.part (ovV (ovF b)) 1) y := by
      funext y
      rw [ov_fw1]
      simp
    have e2 : Wg2.part (ovV (ovF b)) 1 = fun y : Idx ovSh2 => ovF b (y 0 : Fin 3) := by funext y; simp [Wg2.part, ovV]
    have e3 : (fun y => Wg2.fw ovDx2 0 (fun y : Idx ovSh2 => ovF b (y 0 : Fin 3)) y)
        = fun y : Idx ovSh2 => (fun n : ℕ => (ovF b ((n + 1) % 3) - ovF b n) / ovW true n) (y 0 : Fin 3) := by
      funext y; exact ov_fw0 _ y
    have e4 : ovV (ovF b) (1, x) = ovF b (x 0 : Fin 3) := by simp [ovV]
    rw [e, ov_fw1, e2, e3, ov_bw0 (fun n : ℕ => (ovF b ((n + 1) % 3) - ovF b n) / ovW true n), e4]
    show _ = ovBeta b ^ 2 * ovV (ovF b) (1, x)
    rw [e4]
    simp only [Option.getD_none, Pi.one_apply]
    obtain ⟨i, hi⟩ : ∃ i : Fin 3, x 0 = i := ⟨x 0, rfl⟩
    rw [hi]
    cases b <;> fin_cases i <;> norm_num [ovF, ovW, ovBeta]

/-- The electric and magnetic fields of the two modes. -/
noncomputable def ovE (b : Bool) : Wg2.V 3 ovSh2 := Wg2.exy2e (ovBeta b) ovDx2 1 *ᵥ ovV (ovF b)
noncomputable def ovH (b : Bool) : Wg2.V 3 ovSh2 := Wg2.exy2h (ovBeta b) (13 / 12) ovDx2 1 none *ᵥ ovV (ovF b)

theorem ovE_val (b : Bool) (c : Fin 3) (x : Idx ovSh2) : ovE b (c, x) = if c = 1 then ovF b (x 0 : Fin 3) else 0 := by
  revert c
  apply forall_fin3
  · refine (Wg2.exy2e_0 _ _ _ _ _).trans ?_
    simp [ovV]
  · refine (Wg2.exy2e_1 _ _ _ _ _).trans ?_
    simp [ovV]
  · refine (Wg2.exy2e_2 _ _ _ _ _).trans ?_
    have : (fun z => (1 : Wg2.V 3 ovSh2) (0, z) * ovV (ovF b) (0, z)) = fun _ => 0 := by funext z; simp [ovV]
    rw [this, ov_bw1, ov_bw_zero]
    simp

/-- A slice field put on plane 2 of the 3D grid, with an amplitude, as `solve_mode` does for `axis = 2`. -/
noncomputable def ovLift (a : ℂ) (e : Wg2.V 3 ovSh2) : VField ovSh ℂ := fun c x =>
  if ((x 2 : Fin _) : ℕ) = 2 then a * e (c, fun j => Fin.cast (by fin_cases j <;> rfl) (x j.castSucc)) else 0

theorem ovLift_val (a : ℂ) (b : Bool) (c : Fin 3) (x : Idx ovSh) :
    ovLift a (ovE b) c x = if ((x 2 : Fin _) : ℕ) = 2 ∧ c = 1 then a * ovF b (x 0 : Fin 3) else 0 := by
  unfold ovLift
  rw [ovE_val]
  by_cases h1 : ((x 2 : Fin _) : ℕ) = 2
  · by_cases h2 : c = 1
    · rw [if_pos h1, if_pos h2, if_pos ⟨h1, h2⟩]
      rfl
    · rw [if_pos h1, if_neg h2, if_neg fun h => h2 h.2, mul_zero]
  · rw [if_neg h1, if_neg fun h => h1 h.1]

/-- The cells of the mode slice. -/
def ovCell (i : Fin 3) : Idx ovSh := Fin.cons (i : Fin 3) (Fin.cons (0 : Fin 1) (Fin.cons (2 : Fin 4) fun i => i.elim0))

theorem ov_sum (g : ℕ → ℂ) : (∑ x : Idx ovSh, if ∀ b, ovSlices.start b ≤ x b ∧ (x b : ℕ) < ovSlices.stop b then g (x 0 : Fin 3) else 0) = g 0 + g 1 + g 2 := by
  classical
  have h3 : g 0 + g 1 + g 2 = ∑ i : Fin 3, g i := by rw [Fin.sum_univ_three]; rfl
  rw [h3, ← Finset.sum_filter]
  refine Finset.sum_bij' (fun x _ => (x 0 : Fin 3)) (fun i _ => ovCell i) (fun _ _ => Finset.mem_univ _) (fun i _ => ?_) (fun x hx => ?_)
    (fun i _ => rfl) (fun x _ => rfl)
  · rw [Finset.mem_filter]
    refine ⟨Finset.mem_univ _, fun b => ?_⟩
    revert b
    apply forall_fin3
    · exact ⟨Nat.zero_le _, i.2⟩
    · exact ⟨Nat.zero_le _, Nat.one_pos⟩
    · exact ⟨le_refl 2, Nat.lt_succ_self 2⟩
  · have h := (Finset.mem_filter.1 hx).2 2
    funext a
    revert a
    apply forall_fin3
    · rfl
    · exact Subsingleton.elim (α := Fin 1) _ _
    · have h2 : 2 ≤ ((x 2 : Fin 4) : ℕ) ∧ ((x 2 : Fin 4) : ℕ) < 3 := h
      exact Fin.ext (by show 2 = ((x 2 : Fin 4) : ℕ); omega)

/-- **C127 fails for other modes on a non-uniform grid.** In vacuum, with cell widths 2, 2, 1 along x (and the matching distances between the cell centres),
`ω = 13/12` and one cell along y, `E_y = (1, 1, 1)` and `E_y = (2, -3, 2)` are modes with different wavenumbers and are orthogonal, but whatever
their normalisation, the overlap that `compute_overlap_e` assigns to the second is not zero. -/
theorem C127_other_mode_partial :
    (∀ b, Spec.IsMode (ovBeta b) (13 / 12) ovDx2.1 ovDx2.2 (fun _ _ => 1) (fun _ _ => 1) (fld (ovE b)) (fld (ovH b)))
      ∧ ovBeta true ^ 2 ≠ ovBeta false ^ 2
      ∧ areaOverlap ovDx2.1 ovDx2.2 (fld (ovE false)) (fld (ovH true)) = 0 ∧ areaOverlap ovDx2.1 ovDx2.2 (fld (ovE true)) (fld (ovH false)) = 0
      ∧ ∀ (k k' : ℝ) (a a' : ℂ), |k - k'| < Real.pi → a ≠ 0 → a' ≠ 0 →
          ∃ O, computeOverlapE (ovLift a (ovE false)) k ovDx 1 ovSlices = some O ∧ overlapOf O (expandE (ovLift a' (ovE true)) k' ovDx 1 ovSlices) ≠ 0 := by
  have hmode : ∀ b, Spec.IsMode (ovBeta b) (13 / 12) ovDx2.1 ovDx2.2 (fun _ _ => 1) (fun _ _ => 1) (fld (ovE b)) (fld (ovH b)) := by
    intro b
    exact C39_is_mode (ovBeta b) (13 / 12) (by cases b <;> norm_num [ovBeta]) (by norm_num) ovDx2 1 none (fun _ => one_ne_zero) (fun _ => one_ne_zero) _ (ov_eig b)
  have hE : Spec.Nonzero ovDx2.1 := by
    intro a i
    simp only [ovDx2, ovW]
    split_ifs <;> norm_num
  have hH : Spec.Nonzero ovDx2.2 := by
    intro a i
    simp only [ovDx2, ovW]
    split_ifs <;> norm_num
  have hne : ovBeta true ^ 2 ≠ ovBeta false ^ 2 := by norm_num [ovBeta]
  refine ⟨hmode, hne, C44_orthogonal hE hH (hmode false) (hmode true) hne.symm, C44_orthogonal hE hH (hmode true) (hmode false) hne, ?_⟩
  intro k k' a a' hk ha ha'
  have hsome : (computeOverlapE (ovLift a (ovE false)) k ovDx 1 ovSlices).isSome := by
    refine C53_defined_partial _ _ _ _ _ (.inr ⟨rfl, by decide⟩) 1 (fun b => ⟨ovSlices.start b, lt_of_lt_of_le (ovSlices.lt b) (ovSlices.le b)⟩)
      (fun b => ⟨le_refl _, ovSlices.lt b⟩) ?_
    rw [ovLift_val, if_pos ⟨rfl, rfl⟩]
    simpa [ovF] using ha
  obtain ⟨O, hO⟩ := Option.isSome_iff_exists.1 hsome
  refine ⟨O, hO, fun hc => ?_⟩
  obtain ⟨-, h⟩ := C127_projection_partial (ovLift a (ovE false)) (ovLift a' (ovE true)) k k' 1 ovDx (fun i => by simp [ovDx]) ovSlices 1 (.inl ⟨rfl, by decide⟩) hO
  rw [hc, norm_zero, zero_mul] at h
  have hcos : |Real.cos ((k - k') * 1 / 2)| ≠ 0 := by
    rw [abs_ne_zero]
    obtain ⟨h1, h2⟩ := abs_lt.1 hk
    exact (Real.cos_pos_of_mem_Ioo ⟨by linarith, by linarith⟩).ne'
  have hdot : sliceDot ovSlices (ovLift a (ovE false)) (ovLift a' (ovE true)) = a * (starRingEnd ℂ) a' := by
    unfold sliceDot
    rw [Finset.sum_eq_single_of_mem 1 (Finset.mem_univ _)]
    · refine Eq.trans ?_ ((ov_sum fun n => a * (starRingEnd ℂ) (a' * ovF true n)).trans ?_)
      swap
      · simp only [ovF, map_mul]
        norm_num
        simp only [map_ofNat]
        ring
      refine Finset.sum_congr rfl fun x _ => ?_
      refine if_ctx_congr Iff.rfl (fun hx => ?_) fun _ => rfl
      have hp : ((x 2 : Fin _) : ℕ) = 2 := by
        have := hx 2
        simp [ovSlices] at this
        omega
      rw [ovLift_val, ovLift_val, if_pos ⟨hp, rfl⟩, if_pos ⟨hp, rfl⟩]
      simp [ovF]
    · intro c _ hc1
      refine Finset.sum_eq_zero fun x _ => ?_
      have h0 : ovLift a (ovE false) c x = 0 := by rw [ovLift_val, if_neg fun h' => hc1 h'.2]
      rw [h0, zero_mul, ite_self]
  rw [hdot] at h
  have hp : ‖a * (starRingEnd ℂ) a'‖ ≠ 0 := norm_ne_zero_iff.2 (mul_ne_zero ha ((map_ne_zero _).2 ha'))
  exact mul_ne_zero hp hcos h.symm

/-- A reflected copy of the first mode, at a wavenumber of one radian per plane, is counted with weight at least `cos 1 > 0`. -/
example : ∃ O, computeOverlapE (ovLift 1 (ovE false)) (1 : ℝ) ovDx 1 ovSlices = some O
    ∧ 0 < ‖overlapOf O (expandE (ovLift 1 (ovE false)) (1 : ℝ) ovDx (-1) ovSlices)‖ := by
  obtain ⟨O, hO, -⟩ := C127_other_mode_partial.2.2.2.2 1 1 1 1 (by simp [Real.pi_pos]) one_ne_zero one_ne_zero
  refine ⟨O, hO, ?_⟩
  obtain ⟨-, h⟩ := C127_backward_partial (ovLift 1 (ovE false)) 0 (ovLift 1 (ovE false)) 0 ⟨fun c x _ => ⟨rfl, by simp⟩, fun x => rfl⟩ 1 1 ovDx
    (fun i => by simp [ovDx]) ovSlices 1 (.inl ⟨rfl, by decide⟩) hO
  have hpos := (C127_projection_partial (ovLift 1 (ovE false)) 0 1 1 1 ovDx (fun i => by simp [ovDx]) ovSlices 1 (.inl ⟨rfl, by decide⟩) hO).1
  have hL : sliceNorm ovSlices (ovLift 1 (ovE false)) True = 0 := by
    unfold sliceNorm
    refine Finset.sum_eq_zero fun c _ => Finset.sum_eq_zero fun x _ => ?_
    by_cases hc : c = 2
    · have h0 : ovLift 1 (ovE false) c x = 0 := by rw [ovLift_val, if_neg fun h' => by rw [hc] at h'; exact absurd h'.2 (by decide)]
      rw [h0]
      simp
    · rw [if_neg fun h' => hc (h'.1.2 trivial)]
  rw [hL, zero_add] at hpos
  rw [hL, sub_zero, add_zero, div_self hpos.ne', mul_one, mul_one, abs_of_pos Real.cos_one_pos] at h
  exact Real.cos_one_pos.trans_le h

end Meanas.Props
