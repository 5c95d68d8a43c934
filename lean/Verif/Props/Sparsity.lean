import Verif.Props.GridInvariance
import Verif.Props.Duality
import Verif.Lemmas.Waveguide2d

namespace Meanas.Props

open Matrix Complex Meanas.Fdfd Duality

variable {sh : Fin 3 → ℕ}

/-- The thirteen positions in the equation of one field component: itself and its four neighbours in the plane across the component, and for each of
the two other components the four positions around it. `s = 1` for E (whose components sit at the low faces), `s = -1` for H. -/
def stencilList (s : ℤ) (p : Pos sh) : List (Pos sh) :=
  let c := p.1
  let x := p.2
  (c, x) :: [c + 1, c + 2].flatMap fun a =>
    [(c, shiftIdx a 1 x), (c, shiftIdx a (-1) x), (a, x), (a, shiftIdx c s x), (a, shiftIdx a (-s) x), (a, shiftIdx a (-s) (shiftIdx c s x))]

/-- The stencil of an equation. -/
def stencil (s : ℤ) (p : Pos sh) : Finset (Pos sh) := (stencilList s p).toFinset

theorem stencil_card (s : ℤ) (p : Pos sh) : (stencil s p).card ≤ 13 := (List.toFinset_card_le _).trans (by simp [stencilList])

theorem mem_stencil (s : ℤ) (c : Fin 3) (x : Idx sh) (q : Pos sh) : q ∈ stencil s (c, x) ↔ q = (c, x) ∨
    ∃ a, a ≠ c ∧ (q = (c, shiftIdx a 1 x) ∨ q = (c, shiftIdx a (-1) x) ∨ q = (a, x) ∨ q = (a, shiftIdx c s x) ∨ q = (a, shiftIdx a (-s) x)
      ∨ q = (a, shiftIdx a (-s) (shiftIdx c s x))) := by
  have h0 : ∀ c a : Fin 3, a ≠ c ↔ a = c + 1 ∨ a = c + 2 := by decide
  have h : ∀ (c : Fin 3) (P : Fin 3 → Prop), (∃ a, a ≠ c ∧ P a) ↔ P (c + 1) ∨ P (c + 2) := by
    intro c P
    simp only [h0, or_and_right, exists_or, exists_eq_left]
  rw [h]
  simp only [stencil, stencilList, List.mem_toFinset, List.mem_cons, List.flatMap_cons, List.flatMap_nil, List.append_nil, List.mem_append, List.not_mem_nil,
    or_false]

/-- The relation is symmetric. -/
theorem stencil_symm (s : ℤ) {p q : Pos sh} (h : q ∈ stencil s p) : p ∈ stencil s q := by
  obtain ⟨c, x⟩ := p
  obtain ⟨e, y⟩ := q
  rw [mem_stencil] at h ⊢
  rcases h with h | ⟨a, ha, h | h | h | h | h | h⟩ <;> obtain ⟨rfl, rfl⟩ := Prod.mk.inj h
  · exact .inl rfl
  · exact .inr ⟨a, ha, .inr (.inl (by simp))⟩
  · exact .inr ⟨a, ha, .inl (by simp)⟩
  · exact .inr ⟨c, ha.symm, .inr (.inr (.inl rfl))⟩
  · exact .inr ⟨c, ha.symm, .inr (.inr (.inr (.inr (.inl (by simp)))))⟩
  · exact .inr ⟨c, ha.symm, .inr (.inr (.inr (.inl (by simp))))⟩
  · exact .inr ⟨c, ha.symm, .inr (.inr (.inr (.inr (.inr (by simp)))))⟩

theorem last_axis {a b c e : Fin 3} (h : a ≠ b) (h1 : e ≠ a) (h2 : e ≠ b) (h3 : c ≠ a) (h4 : c ≠ b) : e = c := by decide +revert

/-- One component of a curl, with the two other axes named. -/
theorem curlForward_zero (d : Dx sh) (v : Vec sh) (c : Fin 3) (x : Idx sh) (h : ∀ a, a ≠ c → v (a, x) = 0)
    (h1 : ∀ a b, a ≠ c → b ≠ c → a ≠ b → v (a, shiftIdx b 1 x) = 0) : cE d v (c, x) = 0 := by
  show Functional.curlForward (some d.1) (unS v) c x = 0
  have e : ∀ a y, unS v a y = v (a, y) := fun _ _ => rfl
  revert c
  refine forall_fin3 (fun h h1 => ?_) (fun h h1 => ?_) (fun h h1 => ?_)
  · rw [curlForward_0, derivForward_eq, derivForward_eq, e, e, e, e, h 1 (by decide), h 2 (by decide), h1 1 2 (by decide) (by decide) (by decide),
      h1 2 1 (by decide) (by decide) (by decide)]; simp
  · rw [curlForward_1, derivForward_eq, derivForward_eq, e, e, e, e, h 0 (by decide), h 2 (by decide), h1 0 2 (by decide) (by decide) (by decide),
      h1 2 0 (by decide) (by decide) (by decide)]; simp
  · rw [curlForward_2, derivForward_eq, derivForward_eq, e, e, e, e, h 0 (by decide), h 1 (by decide), h1 0 1 (by decide) (by decide) (by decide),
      h1 1 0 (by decide) (by decide) (by decide)]; simp

theorem curlBack_zero (d : Dx sh) (v : Vec sh) (c : Fin 3) (x : Idx sh) (h : ∀ a, a ≠ c → v (a, x) = 0)
    (h1 : ∀ a b, a ≠ c → b ≠ c → a ≠ b → v (a, shiftIdx b (-1) x) = 0) : cH d v (c, x) = 0 := by
  show Functional.curlBack (some d.2) (unS v) c x = 0
  have e : ∀ a y, unS v a y = v (a, y) := fun _ _ => rfl
  revert c
  refine forall_fin3 (fun h h1 => ?_) (fun h h1 => ?_) (fun h h1 => ?_)
  · rw [curlBack_0, derivBack_eq, derivBack_eq, e, e, e, e, h 1 (by decide), h 2 (by decide), h1 1 2 (by decide) (by decide) (by decide),
      h1 2 1 (by decide) (by decide) (by decide)]; simp
  · rw [curlBack_1, derivBack_eq, derivBack_eq, e, e, e, e, h 0 (by decide), h 2 (by decide), h1 0 2 (by decide) (by decide) (by decide),
      h1 2 0 (by decide) (by decide) (by decide)]; simp
  · rw [curlBack_2, derivBack_eq, derivBack_eq, e, e, e, e, h 0 (by decide), h 1 (by decide), h1 0 1 (by decide) (by decide) (by decide),
      h1 1 0 (by decide) (by decide) (by decide)]; simp

/-- C182: in every row of `e_full` only the thirteen entries of the stencil can differ from zero, with and without conductors. -/
theorem C182_e_full (ω : ℂ) (d : Dx sh) (eps : Vec sh) (mu : Option (Vec sh)) (pec pmc : Option (Pos sh → Bool)) {p q : Pos sh}
    (h : eFull ω d eps mu pec pmc p q ≠ 0) : q ∈ stencil 1 p := by
  by_contra hq
  apply h
  obtain ⟨c, x⟩ := p
  have hv : ∀ r ∈ stencil 1 (c, x), (Pi.single q 1 : Vec sh) r = 0 := fun r hr => Pi.single_eq_of_ne (fun e => hq (by rw [← e]; exact hr)) _
  have key := eFull_mulVec_masks ω d eps mu pec pmc (Pi.single q 1) (c, x)
  rw [mulVec_single_one] at key
  refine key.trans ?_
  simp only [mem_stencil] at hv
  have hw : ∀ r, (Pi.single q 1 : Vec sh) r = 0 → (openAt pec r : ℂ) * (Pi.single q 1 : Vec sh) r = 0 := fun r hr => by rw [hr, mul_zero]
  have hu : ∀ r, cE d (fun r => (openAt pec r : ℂ) * (Pi.single q 1 : Vec sh) r) r = 0 →
      (openAt pmc r : ℂ) * (cE d (fun r => (openAt pec r : ℂ) * (Pi.single q 1 : Vec sh) r) r / muV mu r) = 0 := fun r hr => by rw [hr]; simp
  rw [hv _ (.inl rfl), curlBack_zero]
  · simp
  · intro a ha
    refine hu _ (curlForward_zero _ _ _ _ (fun b hb => hw _ ?_) fun b e hb he hbe => hw _ ?_)
    · by_cases hbc : b = c
      · subst hbc; exact hv _ (.inl rfl)
      · exact hv _ (.inr ⟨b, hbc, .inr (.inr (.inl rfl))⟩)
    · by_cases hbc : b = c
      · subst hbc; exact hv _ (.inr ⟨e, hbe.symm, .inl rfl⟩)
      · obtain rfl : e = c := last_axis hb.symm he hbe.symm ha.symm (Ne.symm hbc)
        exact hv _ (.inr ⟨b, hbc, .inr (.inr (.inr (.inl rfl)))⟩)
  · intro a f ha hf haf
    refine hu _ (curlForward_zero _ _ _ _ (fun b hb => hw _ ?_) fun b e hb he hbe => hw _ ?_)
    · by_cases hbc : b = c
      · subst hbc; exact hv _ (.inr ⟨f, hf, .inr (.inl rfl)⟩)
      · obtain rfl : b = f := last_axis ha hb hbc haf.symm hf
        exact hv _ (.inr ⟨b, hbc, .inr (.inr (.inr (.inr (.inl rfl))))⟩)
    · by_cases hbc : b = c
      · subst hbc
        obtain rfl : e = f := last_axis ha he hbe.symm haf.symm hf
        exact hv _ (.inl (by simp))
      · obtain rfl : b = f := last_axis ha hb hbc haf.symm hf
        obtain rfl : e = c := last_axis hb.symm he hbe.symm ha.symm (Ne.symm hbc)
        exact hv _ (.inr ⟨b, hbc, .inr (.inr (.inr (.inr (.inr (by rw [shiftIdx_comm])))))⟩)

/-- C182: the same for `h_full`. -/
theorem C182_h_full (ω : ℂ) (d : Dx sh) (eps : Vec sh) (mu : Option (Vec sh)) (pec pmc : Option (Pos sh → Bool)) {p q : Pos sh}
    (h : hFull ω d eps mu pec pmc p q ≠ 0) : q ∈ stencil (-1) p := by
  by_contra hq
  apply h
  obtain ⟨c, x⟩ := p
  have hv : ∀ r ∈ stencil (-1) (c, x), (Pi.single q 1 : Vec sh) r = 0 := fun r hr => Pi.single_eq_of_ne (fun e => hq (by rw [← e]; exact hr)) _
  have key := hFull_mulVec_masks ω d eps mu pec pmc (Pi.single q 1) (c, x)
  rw [mulVec_single_one] at key
  refine key.trans ?_
  simp only [mem_stencil] at hv
  have hw : ∀ r, (Pi.single q 1 : Vec sh) r = 0 → (openAt pmc r : ℂ) * (Pi.single q 1 : Vec sh) r = 0 := fun r hr => by rw [hr, mul_zero]
  have hu : ∀ r, cH d (fun r => (openAt pmc r : ℂ) * (Pi.single q 1 : Vec sh) r) r = 0 →
      (openAt pec r : ℂ) * (cH d (fun r => (openAt pmc r : ℂ) * (Pi.single q 1 : Vec sh) r) r / eps r) = 0 := fun r hr => by rw [hr]; simp
  rw [hv _ (.inl rfl), curlForward_zero]
  · simp
  · intro a ha
    refine hu _ (curlBack_zero _ _ _ _ (fun b hb => hw _ ?_) fun b e hb he hbe => hw _ ?_)
    · by_cases hbc : b = c
      · subst hbc; exact hv _ (.inl rfl)
      · exact hv _ (.inr ⟨b, hbc, .inr (.inr (.inl rfl))⟩)
    · by_cases hbc : b = c
      · subst hbc; exact hv _ (.inr ⟨e, hbe.symm, .inr (.inl rfl)⟩)
      · obtain rfl : e = c := last_axis hb.symm he hbe.symm ha.symm (Ne.symm hbc)
        exact hv _ (.inr ⟨b, hbc, .inr (.inr (.inr (.inl rfl)))⟩)
  · intro a f ha hf haf
    refine hu _ (curlBack_zero _ _ _ _ (fun b hb => hw _ ?_) fun b e hb he hbe => hw _ ?_)
    · by_cases hbc : b = c
      · subst hbc; exact hv _ (.inr ⟨f, hf, .inl rfl⟩)
      · obtain rfl : b = f := last_axis ha hb hbc haf.symm hf
        exact hv _ (.inr ⟨b, hbc, .inr (.inr (.inr (.inr (.inl rfl))))⟩)
    · by_cases hbc : b = c
      · subst hbc
        obtain rfl : e = f := last_axis ha he hbe.symm haf.symm hf
        exact hv _ (.inl (by simp))
      · obtain rfl : b = f := last_axis ha hb hbc haf.symm hf
        obtain rfl : e = c := last_axis hb.symm he hbe.symm ha.symm (Ne.symm hbc)
        exact hv _ (.inr ⟨b, hbc, .inr (.inr (.inr (.inr (.inr (by rw [shiftIdx_comm, neg_neg])))))⟩)

/-- The part of the wave operator that couples the components `c` and `a` (`b` is the third axis). -/
noncomputable def pairTerm (d : Dx sh) (mu : Option (Vec sh)) (v : Vec sh) (c a b : Fin 3) (y : Idx sh) : ℂ :=
  ((v (a, shiftIdx c 1 y) - v (a, y)) / d.1 c (y c) - (v (c, shiftIdx a 1 y) - v (c, y)) / d.1 a (y a)) / muV mu (b, y)

theorem eFull_pairs (ω : ℂ) (d : Dx sh) (eps : Vec sh) (mu : Option (Vec sh)) (v : Vec sh) (x : Idx sh) (c a b : Fin 3) (hac : a ≠ c) (hbc : b ≠ c) (hab : a ≠ b) :
    (eFull ω d eps mu none none *ᵥ v) (c, x) = (pairTerm d mu v c a b x - pairTerm d mu v c a b (shiftIdx a (-1) x)) / d.2 a (x a)
      + (pairTerm d mu v c b a x - pairTerm d mu v c b a (shiftIdx b (-1) x)) / d.2 b (x b) - ω ^ 2 * (eps (c, x) * v (c, x)) := by
  rw [eFull_mulVec]
  congr 1
  show Functional.curlBack (some d.2) (unS fun q => Functional.curlForward (some d.1) (unS v) q.1 q.2 / muV mu q) c x = _
  have e : ∀ (u : Vec sh) a y, unS u a y = u (a, y) := fun _ _ _ => rfl
  have w : ∀ (k : DxList sh ℂ) a i, Spec.wOf (some k) a i = k a i := fun _ _ _ => rfl
  revert c a b
  refine forall_fin3 ?_ ?_ ?_ <;> refine forall_fin3 ?_ ?_ ?_ <;> refine forall_fin3 ?_ ?_ ?_ <;> intro h1 h2 h3 <;>
    first
    | exact absurd rfl h1
    | exact absurd rfl h2
    | exact absurd rfl h3
    | (simp only [curlBack_0, curlBack_1, curlBack_2, curlForward_0, curlForward_1, curlForward_2, derivBack_eq, derivForward_eq, e, pairTerm, w]; ring)

/-- Shifts by at most one cell are different on axes with three or more cells. -/
theorem shift_ne {a : Fin 3} (hn : 3 ≤ sh a) {s t : ℤ} (h1 : s ≠ t) (h2 : s - t ≤ 2) (h3 : t - s ≤ 2) (i : Fin (sh a)) : wrap i s ≠ wrap i t := by
  intro h
  have := congrArg (fun j : Fin (sh a) => ((j : ℕ) : ℤ)) h
  simp only [wrap_val] at this
  have hd : ((sh a : ℕ) : ℤ) ∣ s - t := by
    have := Int.ModEq.dvd (show ((i : ℕ) : ℤ) + t ≡ ((i : ℕ) : ℤ) + s [ZMOD (sh a : ℕ)] from this.symm)
    simpa using this
  obtain ⟨k, hk⟩ := hd
  have : k = 0 := by
    by_contra hk0
    rcases lt_or_gt_of_ne hk0 with h | h
    · nlinarith
    · nlinarith
  subst this
  apply h1
  linarith

set_option linter.unusedSimpArgs false in
/-- C182: on grids with three or more cells along each axis all twelve entries besides the diagonal do differ from zero, whatever the widths and media. -/
theorem C182_sharp (hn : ∀ a, 3 ≤ sh a) (ω : ℂ) (d : Dx sh) (hd1 : ∀ a i, d.1 a i ≠ 0) (hd2 : ∀ a i, d.2 a i ≠ 0) (eps : Vec sh) (mu : Option (Vec sh))
    (hmu : ∀ m, mu = some m → ∀ p, m p ≠ 0) {p q : Pos sh} (h : q ∈ stencil 1 p) (hne : q ≠ p) : eFull ω d eps mu none none p q ≠ 0 := by
  obtain ⟨c, x⟩ := p
  have hm : ∀ p, muV mu p ≠ 0 := by
    intro p
    cases mu with
    | none => exact one_ne_zero
    | some m => exact hmu m rfl p
  have key : ∀ a b, a ≠ c → b ≠ c → a ≠ b → _ := fun a b h1 h2 h3 => eFull_pairs ω d eps mu (Pi.single q 1) x c a b h1 h2 h3
  rw [mulVec_single_one] at key
  rw [mem_stencil] at h
  rcases h with h | ⟨a, ha, h⟩
  · exact absurd h hne
  obtain ⟨b, hb, hab⟩ : ∃ b, b ≠ c ∧ a ≠ b := by clear h hne key; decide +revert
  have key' : eFull ω d eps mu none none (c, x) q = _ := key a b ha hb hab
  rw [key']
  have ne1 : ∀ (a : Fin 3) (s t : ℤ), s ≠ t → s - t ≤ 2 → t - s ≤ 2 → shiftIdx a s x ≠ shiftIdx a t x := by
    intro a s t h1 h2 h3 h
    have := congrFun h a
    rw [shiftIdx_same, shiftIdx_same] at this
    exact shift_ne (hn a) h1 h2 h3 _ this
  have ne0 : ∀ (a : Fin 3) (s : ℤ), s ≠ 0 → s ≤ 2 → -s ≤ 2 → shiftIdx a s x ≠ x := by
    intro a s h1 h2 h3 h
    exact ne1 a s 0 h1 (by omega) (by omega) (by rw [h, shiftIdx_zero])
  have ne2 : ∀ (a b : Fin 3) (s t : ℤ), a ≠ b → s ≠ 0 → s ≤ 2 → -s ≤ 2 → shiftIdx a s x ≠ shiftIdx b t x := by
    intro a b s t hab h1 h2 h3 h
    have := congrFun h a
    rw [shiftIdx_same, shiftIdx_of_ne hab] at this
    exact shift_ne (hn a) (s := s) (t := 0) h1 (by omega) (by omega) (x a) (by rw [this, wrap_zero])
  have ne3 : shiftIdx c 1 (shiftIdx a (-1) x) ≠ x := fun h => by
    have := congrFun h c
    rw [shiftIdx_same, shiftIdx_of_ne ha.symm] at this
    exact shift_ne (hn c) (s := 1) (t := 0) (by omega) (by omega) (by omega) (x c) (by rw [this, wrap_zero])
  have ne4 : shiftIdx c 1 (shiftIdx a (-1) x) ≠ shiftIdx c 1 x := fun h => by
    have := congrFun h a
    rw [shiftIdx_of_ne ha, shiftIdx_of_ne ha, shiftIdx_same] at this
    exact shift_ne (hn a) (s := -1) (t := 0) (by omega) (by omega) (by omega) (x a) (by rw [this, wrap_zero])
  have ne5 : shiftIdx c 1 (shiftIdx a (-1) x) ≠ shiftIdx a (-1) x := fun h => by
    have := congrFun h c
    rw [shiftIdx_same, shiftIdx_of_ne ha.symm] at this
    exact shift_ne (hn c) (s := 1) (t := 0) (by omega) (by omega) (by omega) (x c) (by rw [this, wrap_zero])
  have sc : ∀ y : Idx sh, shiftIdx a (-1) y c = y c := fun y => shiftIdx_of_ne ha.symm _ _
  simp only [pairTerm, Pi.single_apply, shiftIdx_shiftIdx, neg_add_cancel, shiftIdx_zero]
  rw [shiftIdx_comm a c] at h
  have ne0' : ∀ (a : Fin 3) (s : ℤ), s ≠ 0 → s ≤ 2 → -s ≤ 2 → x ≠ shiftIdx a s x := fun a s h1 h2 h3 => (ne0 a s h1 h2 h3).symm
  clear key key' hne
  rcases h with rfl | rfl | rfl | rfl | rfl | rfl <;>
    simp [ha, hb, ha.symm, hab.symm, ne0, ne0', ne1, ne2, ne3, ne3.symm, ne4, ne4.symm, ne5, ne5.symm, hm, hd1, hd2]

/-- On a grid of three cells along each axis the stencil has thirteen members, and the hypotheses of `C182_sharp` are met in vacuum with unit cells. -/
example : (stencil 1 ((0, fun _ => 0) : Pos fun _ => 3)).card = 13 ∧
    ∀ q ∈ (stencil 1 ((0, fun _ => 0) : Pos fun _ => 3)).erase (0, fun _ => 0), eFull 1 (fun _ _ => 1, fun _ _ => 1) 1 none none none (0, fun _ => 0) q ≠ 0 :=
  ⟨by decide +kernel, fun q hq => C182_sharp (fun _ => le_rfl) 1 _ (fun _ _ => one_ne_zero) (fun _ _ => one_ne_zero) 1 none (fun _ h => by simp at h)
    (Finset.mem_of_mem_erase hq) (Finset.ne_of_mem_erase hq)⟩

/-- C182: the number of stored entries. Each row and each column of `e_full` has at most thirteen entries that differ from zero, the whole matrix
at most thirteen times as many as there are field components; the same for `h_full`. -/
theorem C182_count (ω : ℂ) (d : Dx sh) (eps : Vec sh) (mu : Option (Vec sh)) (pec pmc : Option (Pos sh → Bool)) :
    (∀ p, (Finset.univ.filter fun q => eFull ω d eps mu pec pmc p q ≠ 0).card ≤ 13) ∧
    (∀ q, (Finset.univ.filter fun p => eFull ω d eps mu pec pmc p q ≠ 0).card ≤ 13) ∧
    (Finset.univ.filter fun r : Pos sh × Pos sh => eFull ω d eps mu pec pmc r.1 r.2 ≠ 0).card ≤ 13 * (3 * ∏ a, sh a) ∧
    (∀ p, (Finset.univ.filter fun q => hFull ω d eps mu pec pmc p q ≠ 0).card ≤ 13) ∧
    (∀ q, (Finset.univ.filter fun p => hFull ω d eps mu pec pmc p q ≠ 0).card ≤ 13) ∧
    (Finset.univ.filter fun r : Pos sh × Pos sh => hFull ω d eps mu pec pmc r.1 r.2 ≠ 0).card ≤ 13 * (3 * ∏ a, sh a) := by
  have main : ∀ (s : ℤ) (A : Mat sh), (∀ p q, A p q ≠ 0 → q ∈ stencil s p) →
      (∀ p, (Finset.univ.filter fun q => A p q ≠ 0).card ≤ 13) ∧ (∀ q, (Finset.univ.filter fun p => A p q ≠ 0).card ≤ 13) ∧
      (Finset.univ.filter fun r : Pos sh × Pos sh => A r.1 r.2 ≠ 0).card ≤ 13 * (3 * ∏ a, sh a) := by
    intro s A h
    have row : ∀ p, (Finset.univ.filter fun q => A p q ≠ 0).card ≤ 13 := fun p =>
      (Finset.card_le_card fun q hq => h p q (Finset.mem_filter.1 hq).2).trans (stencil_card s p)
    refine ⟨row, fun q => (Finset.card_le_card fun p hp => stencil_symm s (h p q (Finset.mem_filter.1 hp).2)).trans (stencil_card s q), ?_⟩
    rw [Finset.card_filter, ← Finset.univ_product_univ, Finset.sum_product]
    calc ∑ p : Pos sh, ∑ q : Pos sh, (if A p q ≠ 0 then 1 else 0) ≤ ∑ p : Pos sh, 13 := Finset.sum_le_sum fun p _ => by
          rw [← Finset.card_filter]; exact row p
      _ = 13 * (3 * ∏ a, sh a) := by
          rw [Finset.sum_const, Finset.card_univ, Fintype.card_prod, Fintype.card_fin, Fintype.card_pi]
          simp [mul_comm]
  obtain ⟨h1, h2, h3⟩ := main 1 _ fun p q => C182_e_full ω d eps mu pec pmc
  obtain ⟨h4, h5, h6⟩ := main (-1) _ fun p q => C182_h_full ω d eps mu pec pmc
  exact ⟨h1, h2, h3, h4, h5, h6⟩

/-- The four positions in one component of a curl (`s = 1`: forward differences). -/
def curlStencil (s : ℤ) (p : Pos sh) : Finset (Pos sh) :=
  ([p.1 + 1, p.1 + 2].flatMap fun a => [(a, p.2), (a, shiftIdx (-(a + p.1)) s p.2)]).toFinset

theorem curlStencil_card (s : ℤ) (p : Pos sh) : (curlStencil s p).card ≤ 4 := (List.toFinset_card_le _).trans (by simp)

theorem mem_curlStencil (s : ℤ) (c a b : Fin 3) (x : Idx sh) (ha : a ≠ c) (hb : b ≠ c) (hab : a ≠ b) :
    (a, x) ∈ curlStencil s (c, x) ∧ (a, shiftIdx b s x) ∈ curlStencil s (c, x) := by
  have h0 : ∀ c a : Fin 3, a ≠ c → a = c + 1 ∨ a = c + 2 := by decide
  have h1 : ∀ c a b : Fin 3, a ≠ c → b ≠ c → a ≠ b → b = -(a + c) := by decide
  rw [h1 c a b ha hb hab]
  simp only [curlStencil, List.mem_toFinset, List.mem_flatMap]
  have : a ∈ [c + 1, c + 2] := by simpa using h0 c a ha
  exact ⟨⟨a, this, by simp⟩, ⟨a, this, by simp⟩⟩

theorem curl_entries (d : Dx sh) {p q : Pos sh} : (OperatorsS.curlForward d.1 p q ≠ 0 → q ∈ curlStencil 1 p) ∧
    (OperatorsS.curlBack d.2 p q ≠ 0 → q ∈ curlStencil (-1) p) := by
  obtain ⟨c, x⟩ := p
  have hv : ∀ s, q ∉ curlStencil s (c, x) → ∀ r ∈ curlStencil s (c, x), (Pi.single q 1 : Vec sh) r = 0 :=
    fun s hq r hr => Pi.single_eq_of_ne (fun e => hq (by rw [← e]; exact hr)) _
  have third : ∀ a : Fin 3, a ≠ c → ∃ b, b ≠ c ∧ a ≠ b := by intro a ha; clear hv; decide +revert
  constructor <;> intro h <;> by_contra hq <;> apply h
  · have key := congrFun (curlForward_mulVec d (Pi.single q 1)) (c, x)
    rw [mulVec_single_one] at key
    refine key.trans (curlForward_zero d _ c x (fun a ha => ?_) fun a b ha hb hab => ?_)
    · obtain ⟨b, hb, hab⟩ := third a ha
      exact hv 1 hq _ (mem_curlStencil 1 c a b x ha hb hab).1
    · exact hv 1 hq _ (mem_curlStencil 1 c a b x ha hb hab).2
  · have key := congrFun (curlBack_mulVec d (Pi.single q 1)) (c, x)
    rw [mulVec_single_one] at key
    refine key.trans (curlBack_zero d _ c x (fun a ha => ?_) fun a b ha hb hab => ?_)
    · obtain ⟨b, hb, hab⟩ := third a ha
      exact hv (-1) hq _ (mem_curlStencil (-1) c a b x ha hb hab).1
    · exact hv (-1) hq _ (mem_curlStencil (-1) c a b x ha hb hab).2

/-- C182: `e2h` and `m2j` have at most four entries per row, `eh_full` at most five. -/
theorem C182_first_order (ω : ℂ) (d : Dx sh) (eps : Vec sh) (mu : Option (Vec sh)) (pec pmc : Option (Pos sh → Bool)) :
    (∀ p, (Finset.univ.filter fun q => Fdfd.e2h ω d mu pmc p q ≠ 0).card ≤ 4) ∧ (∀ p, (Finset.univ.filter fun q => m2j ω d mu p q ≠ 0).card ≤ 4) ∧
    ∀ A, ehFull ω d eps mu pec pmc = .ok A → ∀ p, (Finset.univ.filter fun q => A p q ≠ 0).card ≤ 5 := by
  refine ⟨fun p => ?_, fun p => ?_, fun A hA p => ?_⟩
  · refine (Finset.card_le_card fun q hq => (curl_entries d).1 ?_).trans (curlStencil_card 1 p)
    refine fun h => (Finset.mem_filter.1 hq).2 ?_
    cases mu <;> cases pmc <;> simp [Fdfd.e2h, diagonal_mul, h]
  · refine (Finset.card_le_card fun q hq => (curl_entries d).2 ?_).trans (curlStencil_card (-1) p)
    refine fun h => (Finset.mem_filter.1 hq).2 ?_
    cases mu <;> simp [m2j, mul_diagonal, h]
  · cases mu with
    | none => simp [ehFull] at hA
    | some m =>
      simp only [ehFull, Except.ok.injEq] at hA
      subst hA
      have five : ∀ (S : Finset (Pos sh)) (p : Pos sh) (f g : Pos sh → Pos sh ⊕ Pos sh), S.card ≤ 4 → (insert (g p) (S.image f)).card ≤ 5 :=
        fun S p f g h => (Finset.card_insert_le ..).trans (Nat.succ_le_succ (Finset.card_image_le.trans h))
      rcases p with p | p
      · refine (Finset.card_le_card fun q hq => ?_).trans (five _ p .inr .inl (curlStencil_card (-1) p))
        replace hq := (Finset.mem_filter.1 hq).2
        rcases q with q | q
        · refine Finset.mem_insert.2 (.inl ?_)
          by_contra hne
          have hne : p ≠ q := fun h => hne (by rw [h])
          apply hq
          simp [notMask_openAt, diagonal_apply_ne _ hne]
        · refine Finset.mem_insert_of_mem (Finset.mem_image_of_mem _ ((curl_entries d).2 fun h => hq ?_))
          simp [notMask_openAt, diagonal_mul, mul_diagonal, h]
      · refine (Finset.card_le_card fun q hq => ?_).trans (five _ p .inl .inr (curlStencil_card 1 p))
        replace hq := (Finset.mem_filter.1 hq).2
        rcases q with q | q
        · refine Finset.mem_insert_of_mem (Finset.mem_image_of_mem _ ((curl_entries d).1 fun h => hq ?_))
          simp [notMask_openAt, diagonal_mul, mul_diagonal, h]
        · refine Finset.mem_insert.2 (.inl ?_)
          by_contra hne
          have hne : p ≠ q := fun h => hne (by rw [h])
          apply hq
          simp [notMask_openAt, diagonal_apply_ne _ hne]

/-- The nine positions in one equation of the mode operators of `waveguide_2d`: the component with its four neighbours and four positions of the
other component (`s = 1` for E, `s = -1` for H). -/
def stencil2 {sh : Fin 2 → ℕ} (s : ℤ) (p : Fin 2 × Idx sh) : Finset (Fin 2 × Idx sh) :=
  let c := p.1
  let x := p.2
  let a := 1 - c
  [(c, x), (c, shiftIdx 0 1 x), (c, shiftIdx 0 (-1) x), (c, shiftIdx 1 1 x), (c, shiftIdx 1 (-1) x),
    (a, x), (a, shiftIdx c s x), (a, shiftIdx a (-s) x), (a, shiftIdx a (-s) (shiftIdx c s x))].toFinset

theorem stencil2_card {sh : Fin 2 → ℕ} (s : ℤ) (p : Fin 2 × Idx sh) : (stencil2 s p).card ≤ 9 := (List.toFinset_card_le _).trans (by simp)

/-- C182: the mode operators of `waveguide_2d` have at most nine entries per row. -/
theorem C182_modes {sh : Fin 2 → ℕ} (ω : ℂ) (d : Wg2.Dx2 sh) (eps : Wg2.V 3 sh) (mu : Option (Wg2.V 3 sh)) (p : Fin 2 × Idx sh) :
    (Finset.univ.filter fun q => Wg2.operatorE ω d eps mu p q ≠ 0).card ≤ 9 ∧ (Finset.univ.filter fun q => Wg2.operatorH ω d eps mu p q ≠ 0).card ≤ 9 := by
  have hv : ∀ s q, q ∉ stencil2 s p → ∀ r ∈ stencil2 s p, (Pi.single q 1 : Wg2.V 2 sh) r = 0 :=
    fun s q hq r hr => Pi.single_eq_of_ne (fun e => hq (by rw [← e]; exact hr)) _
  obtain ⟨c, x⟩ := p
  constructor
  · refine (Finset.card_le_card fun q hq => ?_).trans (stencil2_card 1 (c, x))
    by_contra hn
    apply (Finset.mem_filter.1 hq).2
    have e : Wg2.operatorE ω d eps mu (c, x) q = (Wg2.operatorE ω d eps mu *ᵥ Pi.single q 1) (c, x) := by rw [mulVec_single_one]; rfl
    rw [e]
    have hv := hv 1 q hn
    simp only [stencil2, List.mem_toFinset, List.mem_cons, List.not_mem_nil, or_false, forall_eq_or_imp, forall_eq] at hv
    generalize (Pi.single q 1 : Wg2.V 2 sh) = v at hv ⊢
    clear * - hv
    revert c
    refine Fin.forall_fin_two.2 ⟨fun h => ?_, fun h => ?_⟩
    · obtain ⟨h1, h2, h3, h4, h5, h6, h7, h8, h9⟩ := h
      simp only [sub_zero] at h6 h7 h8 h9
      rw [Wg2.operatorE_0]
      simp only [derivBack_eq, derivForward_eq, Wg2.part, shiftIdx_shiftIdx, h1, h2, h3, h4, h5, h6, h7, h8, h9, shiftIdx_zero, neg_add_cancel, add_neg_cancel]
      rw [shiftIdx_comm 0 1, h9]
      simp
    · obtain ⟨h1, h2, h3, h4, h5, h6, h7, h8, h9⟩ := h
      simp only [sub_self] at h6 h7 h8 h9
      rw [Wg2.operatorE_1]
      simp only [derivBack_eq, derivForward_eq, Wg2.part, shiftIdx_shiftIdx, h1, h2, h3, h4, h5, h6, h7, h8, h9, shiftIdx_zero, neg_add_cancel, add_neg_cancel]
      rw [shiftIdx_comm 1 0, h9]
      simp
  · refine (Finset.card_le_card fun q hq => ?_).trans (stencil2_card (-1) (c, x))
    by_contra hn
    apply (Finset.mem_filter.1 hq).2
    have e : Wg2.operatorH ω d eps mu (c, x) q = (Wg2.operatorH ω d eps mu *ᵥ Pi.single q 1) (c, x) := by rw [mulVec_single_one]; rfl
    rw [e]
    have hv := hv (-1) q hn
    simp only [stencil2, List.mem_toFinset, List.mem_cons, List.not_mem_nil, or_false, forall_eq_or_imp, forall_eq] at hv
    generalize (Pi.single q 1 : Wg2.V 2 sh) = v at hv ⊢
    clear * - hv
    revert c
    refine Fin.forall_fin_two.2 ⟨fun h => ?_, fun h => ?_⟩
    · obtain ⟨h1, h2, h3, h4, h5, h6, h7, h8, h9⟩ := h
      simp only [sub_zero, neg_neg] at h6 h7 h8 h9
      rw [Wg2.operatorH_0]
      simp only [derivBack_eq, derivForward_eq, Wg2.part, shiftIdx_shiftIdx, h1, h2, h3, h4, h5, h6, h7, h8, h9, shiftIdx_zero, neg_add_cancel, add_neg_cancel]
      rw [shiftIdx_comm 0 1, h9]
      simp
    · obtain ⟨h1, h2, h3, h4, h5, h6, h7, h8, h9⟩ := h
      simp only [sub_self, neg_neg] at h6 h7 h8 h9
      rw [Wg2.operatorH_1]
      simp only [derivBack_eq, derivForward_eq, Wg2.part, shiftIdx_shiftIdx, h1, h2, h3, h4, h5, h6, h7, h8, h9, shiftIdx_zero, neg_add_cancel, add_neg_cancel]
      rw [shiftIdx_comm 1 0, h9]
      simp

end Meanas.Props
