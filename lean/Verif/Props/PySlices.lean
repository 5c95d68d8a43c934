/-
C155: slice bounds written in Python's equivalent ways (meanas/fdfd/waveguide_3d.py).
-/
import Verif.Model.Waveguide3dSlices
import Verif.Props.Waveguide3d

namespace Meanas.Props

open Wg3 Complex Fdfd

variable {sh : Fin 3 → ℕ} {axis : Fin 3}

/-- **C155.** `compute_source` depends on the selected items only. -/
theorem C155_source (E : VField sh ℂ) (k ω : ℂ) (dxes : Dx sh) (pol : ℤ) (R R' : PySlices sh axis)
    (h : ∀ a i, (R.sl a).Sel (sh a) i ↔ (R'.sl a).Sel (sh a) i) (eps : VField sh ℂ) (mu : Option (VField sh ℂ)) :
    computeSourcePy E k ω dxes pol R eps mu = computeSourcePy E k ω dxes pol R' eps mu ∧
      computeSourcePy E k ω dxes pol R eps mu = computeSource E k ω dxes pol R.window eps mu := by
  have key : ∀ R : PySlices sh axis, computeSourcePy E k ω dxes pol R eps mu = computeSource E k ω dxes pol R.window eps mu := by
    intro R
    have : sourceMaskPy pol R = sourceMask pol R.window := by
      funext c x
      have := (x axis).2
      unfold sourceMaskPy sourceMask
      by_cases hp : 0 < pol
      · simp only [hp, if_true, PySlice.Sel, PySlice.lo, PySlice.hi, pyBound, PySlices.window]
        exact if_congr (by simp [this]) rfl rfl
      · simp only [hp, if_false, PySlice.Sel, PySlice.lo, PySlice.hi, pyBound, PySlices.window]
        exact if_congr (by simp) rfl rfl
    unfold computeSourcePy computeSource
    rw [this]
  have hw : R.window = R'.window := by
    have hlo : ∀ a, (R.sl a).lo (sh a) = (R'.sl a).lo (sh a) := fun a => by
      have l1 := R.lt a; have l2 := R'.lt a
      have h1 := (h a ((R.sl a).lo (sh a))).1 ⟨le_refl _, l1⟩
      have h2 := (h a ((R'.sl a).lo (sh a))).2 ⟨le_refl _, l2⟩
      exact le_antisymm h2.1 h1.1
    have hhi : ∀ a, (R.sl a).hi (sh a) = (R'.sl a).hi (sh a) := fun a => by
      have l1 := R.lt a; have l2 := R'.lt a
      have h1 := (h a ((R.sl a).hi (sh a) - 1)).1 ⟨by omega, by omega⟩
      have h2 := (h a ((R'.sl a).hi (sh a) - 1)).2 ⟨by omega, by omega⟩
      have := h1.2; have := h2.2; omega
    unfold PySlices.window
    congr 1
    · exact funext hlo
    · exact funext hhi
  exact ⟨by rw [key, key, hw], key R⟩

theorem overlapPy_eq (E : VField sh ℂ) (k : ℂ) (dxes : Dx sh) (pol : ℤ) (R : PySlices sh axis) {s : ℤ} (hs : (R.sl axis).start = some s)
    (h : ∀ i : ℕ, i < sh axis → (PySlice.Sel ⟨some (min s (s - 2 * pol)), some (max s (s - 2 * pol))⟩ (sh axis) i ↔
      inPySlice (sh axis) (min (R.window.start axis : ℤ) (R.window.start axis - 2 * pol)) (max (R.window.start axis : ℤ) (R.window.start axis - 2 * pol)) i)) :
    computeOverlapEPy E k dxes pol R = .ok (computeOverlapE E k dxes pol R.window) := by
  unfold computeOverlapEPy computeOverlapE
  simp only [hs]
  have e : (fun (c : Fin 3) (x : Idx sh) => if (∀ b, b ≠ axis → (R.sl b).Sel (sh b) (x b)) ∧
      PySlice.Sel ⟨some (min s (s - 2 * pol)), some (max s (s - 2 * pol))⟩ (sh axis) (x axis) then expandE E k dxes pol R.window c x else 0) =
      overlapTarget (expandE E k dxes pol R.window) pol R.window := by
    funext c x
    unfold overlapTarget
    exact if_congr (and_congr Iff.rfl (h _ (x axis).2)) rfl rfl
  have e' : ∀ c x, (if (∀ b, b ≠ axis → (R.sl b).Sel (sh b) (x b)) ∧
      PySlice.Sel ⟨some (min s (s - 2 * pol)), some (max s (s - 2 * pol))⟩ (sh axis) (x axis) then expandE E k dxes pol R.window c x else 0) =
      overlapTarget (expandE E k dxes pol R.window) pol R.window c x := fun c x => congrFun (congrFun e c) x
  simp only [e']

/-- **C155 where it holds.** With a bound counted from the start of the axis, or counted from its end as long as the two planes next to the slice that
the overlap is taken on stay on the same side of the axis' ends, `compute_overlap_e` depends on the selected items only. -/
theorem C155_overlap_partial (E : VField sh ℂ) (k : ℂ) (dxes : Dx sh) (pol : ℤ) (R : PySlices sh axis) {s : ℤ} (hs : (R.sl axis).start = some s)
    (h : 0 ≤ s ∨ -(sh axis : ℤ) ≤ s ∧ (pol = 1 ∧ 2 ≤ R.window.start axis ∨ pol = -1 ∧ s ≤ -3)) :
    computeOverlapEPy E k dxes pol R = .ok (computeOverlapE E k dxes pol R.window) := by
  refine overlapPy_eq E k dxes pol R hs fun i hi => ?_
  have hlt := R.lt axis
  have hle : (R.sl axis).hi (sh axis) ≤ sh axis := pyBound_le (le_refl _) _
  have hst : R.window.start axis = pyBound (sh axis) 0 (some s) := by simp [PySlices.window, PySlice.lo, hs]
  have hst' : (R.sl axis).lo (sh axis) = pyBound (sh axis) 0 (some s) := by simp [PySlice.lo, hs]
  rw [hst] at h ⊢
  rw [hst'] at hlt
  unfold PySlice.Sel inPySlice PySlice.lo PySlice.hi pyBound at *
  simp only at *
  generalize sh axis = n at *
  generalize (R.sl axis).hi _ = u at *
  rcases h with h | ⟨h0, ⟨rfl, h2⟩ | ⟨rfl, h2⟩⟩
  · have hsn : (if s < 0 then (s + ↑n).toNat else min s.toNat n) = s.toNat := by
      rw [if_neg (by omega)] at hlt ⊢; omega
    rw [hsn] at hlt ⊢
    have : ((s.toNat : ℕ) : ℤ) = s := by omega
    rw [this]
    constructor
    · rintro ⟨ha, hb⟩
      split_ifs at ha hb ⊢ <;> constructor <;> omega
    · rintro ⟨ha, hb⟩
      split_ifs at ha hb ⊢ <;> constructor <;> omega
  · by_cases hs0 : s < 0
    · rw [if_pos hs0] at *
      constructor
      · rintro ⟨ha, hb⟩
        split_ifs at ha hb ⊢ <;> constructor <;> omega
      · rintro ⟨ha, hb⟩
        split_ifs at ha hb ⊢ <;> constructor <;> omega
    · rw [if_neg hs0] at *
      constructor
      · rintro ⟨ha, hb⟩
        split_ifs at ha hb ⊢ <;> constructor <;> omega
      · rintro ⟨ha, hb⟩
        split_ifs at ha hb ⊢ <;> constructor <;> omega
  · rw [if_pos (by omega : s < 0)] at *
    constructor
    · rintro ⟨ha, hb⟩
      split_ifs at ha hb ⊢ <;> constructor <;> omega
    · rintro ⟨ha, hb⟩
      split_ifs at ha hb ⊢ <;> constructor <;> omega

/-- **C155 is false for a slice without a start.** `slice(None, 1)` selects what `slice(0, 1)` selects, `compute_source` takes it, and
`compute_overlap_e` raises. -/
theorem C155_none_raises_partial (E : VField sh ℂ) (k : ℂ) (dxes : Dx sh) (pol : ℤ) (R : PySlices sh axis) (hs : (R.sl axis).start = none) :
    ∃ e, computeOverlapEPy E k dxes pol R = .error e := by
  unfold computeOverlapEPy
  simp only [hs]
  exact ⟨_, rfl⟩

/-- **C155 is false for the last two planes counted from the end.** For a mode travelling in the negative direction on plane `-1` or `-2`,
`compute_overlap_e` divides an empty selection by zero and returns NaN, whatever the mode. The same plane counted from the start gives the overlap
vector of the mode (any `R'` that selects the same items with a nonnegative start). -/
theorem C155_negative_nan_partial (E : VField sh ℂ) (k : ℂ) (dxes : Dx sh) (R R' : PySlices sh axis) {s s' : ℤ} (hs : (R.sl axis).start = some s)
    (hs1 : s = -1 ∨ s = -2) (hn : 2 ≤ sh axis) (hs' : (R'.sl axis).start = some s') (h0 : 0 ≤ s') (hR : R.window = R'.window)
    (c : Fin 3) (x : Idx sh) (hx : ∀ a, (R.sl a).Sel (sh a) (x a)) (hE : E c x ≠ 0) :
    computeOverlapEPy E k dxes (-1) R = .ok none ∧ ∃ v, computeOverlapEPy E k dxes (-1) R' = .ok (some v) := by
  constructor
  · unfold computeOverlapEPy
    simp only [hs]
    have h0 : ∀ (c : Fin 3) (x : Idx sh), (if (∀ b, b ≠ axis → (R.sl b).Sel (sh b) (x b)) ∧
        PySlice.Sel ⟨some (min s (s - 2 * -1)), some (max s (s - 2 * -1))⟩ (sh axis) (x axis) then expandE E k dxes (-1) R.window c x else 0) = 0 := by
      intro c x
      rw [if_neg]
      rintro ⟨-, ha, hb⟩
      have := (x axis).2
      simp only [PySlice.lo, PySlice.hi, pyBound] at ha hb
      split_ifs at ha hb <;> omega
    simp only [h0]
    rw [if_pos (by simp)]
  · rw [C155_overlap_partial E k dxes (-1) R' hs' (Or.inl h0), ← hR]
    have h := C53_defined_partial E k dxes (-1) R.window (Or.inl rfl) c x hx hE
    obtain ⟨v, hv⟩ := Option.isSome_iff_exists.1 h
    exact ⟨v, by rw [hv]⟩

/-- **C155 is false near the start of the axis too.** For a mode travelling in the positive direction on plane 1 counted from the end, that is
`1 - n`, the selection is cut to plane 0 and the overlap vector is defined; counted from the start the same plane gives NaN. -/
theorem C155_negative_defined_partial (E : VField sh ℂ) (k : ℂ) (dxes : Dx sh) (R R' : PySlices sh axis) {s' : ℤ}
    (hs : (R.sl axis).start = some (1 - (sh axis : ℤ))) (hn : 2 ≤ sh axis) (hs' : (R'.sl axis).start = some s') (h0 : 0 ≤ s') (hR : R.window = R'.window)
    (c : Fin 3) (x : Idx sh) (hx : ∀ a, (R.sl a).Sel (sh a) (x a)) (hE : E c x ≠ 0) :
    computeOverlapEPy E k dxes 1 R' = .ok none ∧ ∃ v, computeOverlapEPy E k dxes 1 R = .ok (some v) := by
  have hst : R.window.start axis = 1 := by
    simp only [PySlices.window, PySlice.lo, hs, pyBound]
    split_ifs <;> omega
  constructor
  · rw [C155_overlap_partial E k dxes 1 R' hs' (Or.inl h0), ← hR, C53_nan_at_start_partial E k dxes R.window (by omega)]
  · have hxa : x axis = R.window.plane := Fin.ext (by
      have := hx axis; have h1 := R.one
      unfold PySlice.Sel at this
      have : R.window.start axis = (R.sl axis).lo (sh axis) := rfl
      simp only [Slices.plane]; omega)
    unfold computeOverlapEPy
    simp only [hs]
    rw [if_neg]
    · exact ⟨_, rfl⟩
    intro hz
    set F : Fin 3 → Idx sh → ℂ := fun c x => if (∀ b, b ≠ axis → (R.sl b).Sel (sh b) (x b)) ∧
        PySlice.Sel ⟨some (min (1 - (sh axis : ℤ)) (1 - sh axis - 2 * 1)), some (max (1 - (sh axis : ℤ)) (1 - sh axis - 2 * 1))⟩ (sh axis) (x axis) then
          expandE E k dxes 1 R.window c x else 0 with hF
    change ∑ c, ∑ x, (starRingEnd ℂ) (F c x) * F c x = 0 at hz
    have h1 : ∀ c x, (starRingEnd ℂ) (F c x) * F c x = ((‖F c x‖ ^ 2 : ℝ) : ℂ) := by
      intro c x; rw [mul_comm, mul_conj, normSq_eq_norm_sq]
    simp only [h1, ← ofReal_sum] at hz
    have hz' := ofReal_eq_zero.1 hz
    let j : Fin (sh axis) := ⟨0, by omega⟩
    have h2 := (Finset.sum_eq_zero_iff_of_nonneg (fun c _ => Finset.sum_nonneg fun x _ => sq_nonneg _)).1 hz' c (Finset.mem_univ _)
    have h3 := (Finset.sum_eq_zero_iff_of_nonneg (fun x _ => sq_nonneg _)).1 h2 (Function.update x axis j) (Finset.mem_univ _)
    have h4 : F c (Function.update x axis j) = 0 := by simpa using h3
    have hw : ∀ b, b ≠ axis → (R.sl b).Sel (sh b) (Function.update x axis j b) := fun b hb => by rw [Function.update_of_ne hb]; exact hx b
    rw [hF] at h4
    simp only at h4
    rw [if_pos ⟨hw, by
      rw [Function.update_self]
      simp only [PySlice.Sel, PySlice.lo, PySlice.hi, pyBound, j]
      split_ifs <;> omega⟩] at h4
    unfold expandE at h4
    simp only at h4
    rw [if_pos (show ∀ b, b ≠ axis → R.window.Mem b (Function.update x axis j b) from hw), Function.update_idem, ← hxa,
      Function.update_eq_self] at h4
    exact (mul_ne_zero (Complex.exp_ne_zero _) hE) h4

/-- `slice(-1, None)` along the axis. -/
def exLastPy : PySlices (fun _ => 4) 2 := ⟨![⟨none, none⟩, ⟨none, none⟩, ⟨some (-1), none⟩], by decide, by decide⟩
/-- `slice(3, 4)` along the axis. -/
def exLastPy' : PySlices (fun _ => 4) 2 := ⟨![⟨none, none⟩, ⟨some 0, some 4⟩, ⟨some 3, some 4⟩], by decide, by decide⟩
/-- `slice(-3, -2)` and `slice(1, 2)`. -/
def exFirstPy : PySlices (fun _ => 4) 2 := ⟨![⟨none, none⟩, ⟨none, none⟩, ⟨some (-3), some (-2)⟩], by decide, by decide⟩
/-- `slice(1, 2)` along the axis. -/
def exFirstPy' : PySlices (fun _ => 4) 2 := ⟨![⟨none, some 99⟩, ⟨none, none⟩, ⟨some 1, some 2⟩], by decide, by decide⟩

example : exLastPy.window = exLastPy'.window := by
  unfold PySlices.window; congr 1 <;> (funext a; revert a; decide)
example : exFirstPy.window = exFirstPy'.window := by
  unfold PySlices.window; congr 1 <;> (funext a; revert a; decide)
example : ∀ a i, (exLastPy.sl a).Sel 4 i ↔ (exLastPy'.sl a).Sel 4 i := by
  intro a i; fin_cases a <;> exact Iff.rfl
/-- The hypotheses of `C155_negative_nan_partial` and `C155_negative_defined_partial` are met by the field that is 1 everywhere. -/
example : (∀ a, (exLastPy.sl a).Sel 4 3) ∧ (exLastPy.sl 2).start = some (-1) ∧ (exLastPy'.sl 2).start = some 3 ∧
    (∀ a, (exFirstPy.sl a).Sel 4 1) ∧ (exFirstPy.sl 2).start = some (1 - 4) ∧ (exFirstPy'.sl 2).start = some 1 := by
  refine ⟨by decide, rfl, rfl, by decide, by decide, rfl⟩

end Meanas.Props
