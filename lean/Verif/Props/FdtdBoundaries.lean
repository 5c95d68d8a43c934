/-
C18: conducting_boundary (meanas/fdtd/boundaries.py).
-/
import Verif.Model.Boundaries
import Mathlib.Tactic.FinCases
import Mathlib.Algebra.Field.Rat

namespace Meanas.Props

open Fdtd

variable {sh : Fin 3 → ℕ} {K : Type} [Field K]

/-- C18: `conducting_boundary` accepts exactly directions 0, 1, 2 with a nonzero polarity (any reading of the layer index). -/
theorem C18_accepts (L : (n : ℕ) → ℤ → Except String (Fin n)) (direction polarity : ℤ) :
    (∃ r, conductingBoundary (sh := sh) (K := K) L direction polarity = .ok r) ↔
      (0 ≤ direction ∧ direction ≤ 2) ∧ polarity ≠ 0 := by
  unfold conductingBoundary
  by_cases h : direction = 0 ∨ direction = 1 ∨ direction = 2
  · rw [dif_pos h]
    rcases lt_trichotomy polarity 0 with hp | hp | hp
    · simp only [if_pos hp]
      exact ⟨fun _ => ⟨by omega, by omega⟩, fun _ => ⟨_, rfl⟩⟩
    · subst hp; simp
    · have : ¬ polarity < 0 := by omega
      simp only [if_neg this, if_pos hp]
      exact ⟨fun _ => ⟨by omega, by omega⟩, fun _ => ⟨_, rfl⟩⟩
  · rw [dif_neg h]
    constructor
    · rintro ⟨r, hr⟩; cases hr
    · rintro ⟨⟨h1, h2⟩, _⟩; exact absurd (by omega) h

theorem pyIndex_nonneg {n : ℕ} {i : ℕ} (h : i < n) : pyIndex n (i : ℤ) = .ok ⟨i, h⟩ := by
  unfold pyIndex
  rw [dif_pos (by omega)]
  simp

theorem pyIndex_neg {n : ℕ} {i : ℕ} (h : i < n) (k : ℤ) (hk : k = (i : ℤ) - n) : pyIndex n k = .ok ⟨i, h⟩ := by
  unfold pyIndex
  rw [dif_neg (by omega), dif_pos (by omega)]
  congr 2; omega

/-- Expected result of the low-side E updater: layer 0 gets a zero normal component and the tangential components of
layer 1; nothing else changes. -/
def specEn (a : Fin 3) (l1 : Fin (sh a)) (e : VField sh K) : VField sh K := fun c x =>
  if (x a : ℕ) = 0 then (if c = a then 0 else e c (Function.update x a l1)) else e c x

/-- Expected result of the low-side H updater. -/
def specHn (a : Fin 3) (l1 : Fin (sh a)) (h : VField sh K) : VField sh K := fun c x =>
  if (x a : ℕ) = 0 then (if c = a then h c (Function.update x a l1) else 0) else h c x

/-- Expected result of the high-side E updater: normal component odd about the second-last layer, tangential components copied
from it. -/
def specEp (a : Fin 3) (l2 l3 : Fin (sh a)) (e : VField sh K) : VField sh K := fun c x =>
  if (x a : ℕ) + 1 = sh a then (if c = a then -e c (Function.update x a l3) else e c (Function.update x a l2))
  else if (x a : ℕ) + 2 = sh a then (if c = a then 0 else e c x)
  else e c x

/-- Expected result of the high-side H updater: normal component copied, tangential components odd about the
second-last layer. -/
def specHp (a : Fin 3) (l2 l3 : Fin (sh a)) (h : VField sh K) : VField sh K := fun c x =>
  if (x a : ℕ) + 1 = sh a then (if c = a then h c (Function.update x a l2) else -h c (Function.update x a l3))
  else if (x a : ℕ) + 2 = sh a then (if c = a then h c x else 0)
  else h c x

theorem otherDirs_cases (a c : Fin 3) : c = a ∨ c = (otherDirs a).1 ∨ c = (otherDirs a).2 := by
  revert a c; decide

theorem otherDirs_ne (a : Fin 3) : (otherDirs a).1 ≠ a ∧ (otherDirs a).2 ≠ a ∧ (otherDirs a).1 ≠ (otherDirs a).2 := by
  revert a; decide

theorem fin_eq_iff {n : ℕ} (i : Fin n) (k : ℕ) (h : k < n) : i = ⟨k, h⟩ ↔ (i : ℕ) = k := Fin.ext_iff

/-- C18 (partial: under the tuple reading of the slice lists), low side: for every field with at least two layers the
updaters do exactly what is documented. -/
theorem C18_low_side_partial (a : Fin 3) (hn : 2 ≤ sh a) (f : VField sh K) :
    condEn layerTuple a f = .ok (specEn a ⟨1, by omega⟩ f) ∧ condHn layerTuple a f = .ok (specHn a ⟨1, by omega⟩ f) := by
  have i0 : layerTuple (sh a) 0 = .ok ⟨0, by omega⟩ := pyIndex_nonneg (i := 0) (by omega)
  have i1 : layerTuple (sh a) 1 = .ok ⟨1, by omega⟩ := pyIndex_nonneg (i := 1) (by omega)
  obtain ⟨h1, h2, h3⟩ := otherDirs_ne a
  constructor
  · simp only [condEn, i0, i1, bind, Except.bind, pure, Except.pure]
    congr 1; funext c x
    simp only [setLayer, getLayer, specEn, fin_eq_iff, Function.update_self]
    rcases otherDirs_cases a c with h | h | h <;> subst h <;> simp [h1, h2, h3, h3.symm, h1.symm, h2.symm]
  · simp only [condHn, i0, i1, bind, Except.bind, pure, Except.pure]
    congr 1; funext c x
    simp only [setLayer, getLayer, specHn, fin_eq_iff]
    rcases otherDirs_cases a c with h | h | h <;> subst h <;> simp [h1, h2, h3, h3.symm, h1.symm, h2.symm]

/-- C18 (partial: under the tuple reading), high side: for every field with at least three layers. -/
theorem C18_high_side_partial (a : Fin 3) (hn : 3 ≤ sh a) (f : VField sh K) :
    condEp layerTuple a f = .ok (specEp a ⟨sh a - 2, by omega⟩ ⟨sh a - 3, by omega⟩ f) ∧
    condHp layerTuple a f = .ok (specHp a ⟨sh a - 2, by omega⟩ ⟨sh a - 3, by omega⟩ f) := by
  have i1 : layerTuple (sh a) (-1) = .ok ⟨sh a - 1, by omega⟩ := pyIndex_neg (by omega) _ (by omega)
  have i2 : layerTuple (sh a) (-2) = .ok ⟨sh a - 2, by omega⟩ := pyIndex_neg (by omega) _ (by omega)
  have i3 : layerTuple (sh a) (-3) = .ok ⟨sh a - 3, by omega⟩ := pyIndex_neg (by omega) _ (by omega)
  obtain ⟨h1, h2, h3⟩ := otherDirs_ne a
  have n1 : ¬ (sh a - 2 = sh a - 1) := by omega
  have n2 : ¬ (sh a - 3 = sh a - 1) := by omega
  have n3 : ¬ (sh a - 3 = sh a - 2) := by omega
  constructor
  · simp only [condEp, i1, i2, i3, bind, Except.bind, pure, Except.pure]
    congr 1; funext c x
    have e1 : (x a : ℕ) = sh a - 1 ↔ (x a : ℕ) + 1 = sh a := by omega
    have e2 : (x a : ℕ) = sh a - 2 ↔ (x a : ℕ) + 2 = sh a := by omega
    simp only [setLayer, getLayer, specEp, fin_eq_iff, Function.update_self, e1, e2]
    by_cases q1 : (x a : ℕ) + 1 = sh a <;> by_cases q2 : (x a : ℕ) + 2 = sh a <;> try omega
    all_goals
      rcases otherDirs_cases a c with h | h | h <;> subst h <;>
      simp [h1, h2, h3, h3.symm, h1.symm, h2.symm, q1, q2]
  · simp only [condHp, i1, i2, i3, bind, Except.bind, pure, Except.pure]
    congr 1; funext c x
    have e1 : (x a : ℕ) = sh a - 1 ↔ (x a : ℕ) + 1 = sh a := by omega
    have e2 : (x a : ℕ) = sh a - 2 ↔ (x a : ℕ) + 2 = sh a := by omega
    simp only [setLayer, getLayer, specHp, fin_eq_iff, Function.update_self, e1, e2]
    by_cases q1 : (x a : ℕ) + 1 = sh a <;> by_cases q2 : (x a : ℕ) + 2 = sh a <;> try omega
    all_goals
      rcases otherDirs_cases a c with h | h | h <;> subst h <;>
      simp [h1, h2, h3, h3.symm, h1.symm, h2.symm, q1, q2]

theorem pyIndex_error {n : ℕ} {k : ℤ} (h : ¬ (-(n : ℤ) ≤ k ∧ k < n)) : ∃ msg, pyIndex n k = .error msg := by
  unfold pyIndex
  rw [dif_neg (by omega), dif_neg (by omega)]
  exact ⟨_, rfl⟩

/-- C18 (partial: tuple reading): the updaters raise when the axis is too short to hold the layers involved. -/
theorem C18_too_short_partial (a : Fin 3) (f : VField sh K) :
    (sh a < 2 → (∃ msg, condEn layerTuple a f = .error msg) ∧ ∃ msg, condHn layerTuple a f = .error msg) ∧
    (sh a < 3 → (∃ msg, condEp layerTuple a f = .error msg) ∧ ∃ msg, condHp layerTuple a f = .error msg) := by
  constructor
  · intro h
    obtain ⟨m1, h1⟩ : ∃ msg, layerTuple (sh a) 1 = .error msg := pyIndex_error (by omega)
    constructor
    · simp only [condEn, h1, bind, Except.bind]
      cases layerTuple (sh a) 0 <;> exact ⟨_, rfl⟩
    · simp only [condHn, h1, bind, Except.bind]; exact ⟨_, rfl⟩
  · intro h
    obtain ⟨m1, h1⟩ : ∃ msg, layerTuple (sh a) (-3) = .error msg := pyIndex_error (by omega)
    constructor
    · simp only [condEp, h1, bind, Except.bind]; exact ⟨_, rfl⟩
    · simp only [condHp, h1, bind, Except.bind]
      cases layerTuple (sh a) (-2) <;> cases layerTuple (sh a) (-1) <;> exact ⟨_, rfl⟩

/-- C18 (partial: tuple reading): applying any returned updater twice is the same as applying it once. -/
theorem C18_idempotent_partial (direction polarity : ℤ) (E H : Updater sh K)
    (hr : conductingBoundary layerTuple direction polarity = .ok (E, H)) (f g : VField sh K) :
    (E f = .ok g → E g = .ok g) ∧ (H f = .ok g → H g = .ok g) := by
  unfold conductingBoundary at hr
  split_ifs at hr with hd hp hp'
  · simp only [Except.ok.injEq, Prod.mk.injEq] at hr
    obtain ⟨rfl, rfl⟩ := hr
    generalize (⟨direction.toNat, _⟩ : Fin 3) = a
    by_cases hn : 2 ≤ sh a
    · rw [(C18_low_side_partial a hn f).1, (C18_low_side_partial a hn f).2, (C18_low_side_partial a hn g).1,
        (C18_low_side_partial a hn g).2]
      simp only [Except.ok.injEq]
      constructor <;> rintro rfl <;> funext c x
      · simp only [specEn]; split_ifs <;> simp_all
      · simp only [specHn]; split_ifs <;> simp_all
    · obtain ⟨⟨m1, h1⟩, m2, h2⟩ := (C18_too_short_partial a f).1 (by omega)
      rw [h1, h2]; exact ⟨by rintro ⟨⟩, by rintro ⟨⟩⟩
  · simp only [Except.ok.injEq, Prod.mk.injEq] at hr
    obtain ⟨rfl, rfl⟩ := hr
    generalize (⟨direction.toNat, _⟩ : Fin 3) = a
    by_cases hn : 3 ≤ sh a
    · rw [(C18_high_side_partial a hn f).1, (C18_high_side_partial a hn f).2, (C18_high_side_partial a hn g).1,
        (C18_high_side_partial a hn g).2]
      have n1 : ¬ (sh a - 2 + 1 = sh a) := by omega
      have n2 : ¬ (sh a - 3 + 1 = sh a) := by omega
      have n3 : ¬ (sh a - 3 + 2 = sh a) := by omega
      have n4 : (sh a - 2 + 2 = sh a) := by omega
      simp only [Except.ok.injEq]
      constructor <;> rintro rfl <;> funext c x
      · simp only [specEp, Function.update_self, n1, n2, n3, n4, if_false, if_true]; split_ifs <;> simp_all
      · simp only [specHp, Function.update_self, n1, n2, n3, n4, if_false, if_true]; split_ifs <;> simp_all
    · obtain ⟨⟨m1, h1⟩, m2, h2⟩ := (C18_too_short_partial a f).2 (by omega)
      rw [h1, h2]; exact ⟨by rintro ⟨⟩, by rintro ⟨⟩⟩

-- Non-vacuous: on a 4×1×1 grid the high-side E updater of axis 0 changes the field (and succeeds).
example : ∃ g : VField ![4, 1, 1] ℚ, condEp layerTuple 0 (fun _ x => ((x 0 : ℕ) : ℚ) + 1) = .ok g ∧ g ≠ fun _ x => ((x 0 : ℕ) : ℚ) + 1 := by
  refine ⟨_, (C18_high_side_partial (sh := ![4, 1, 1]) 0 (by decide) _).1, fun h => ?_⟩
  have := congrFun (congrFun h 0) (fun a => if h : a = 0 then ⟨2, by subst h; decide⟩ else ⟨0, by fin_cases a <;> decide⟩)
  revert this
  decide +kernel

/-- C18 fails for the code as written on the required numpy (>= 2.0): the layer index is a *list* of slices, so every
updater raises on every field. -/
theorem C18_raises_on_numpy2_partial (direction polarity : ℤ) (E H : Updater sh K)
    (hr : conductingBoundary layerList direction polarity = .ok (E, H)) (f : VField sh K) :
    (∃ msg, E f = .error msg) ∧ (∃ msg, H f = .error msg) := by
  unfold conductingBoundary at hr
  split_ifs at hr with hd hp hp' <;> cases hr <;>
    exact ⟨⟨_, rfl⟩, ⟨_, rfl⟩⟩

end Meanas.Props
