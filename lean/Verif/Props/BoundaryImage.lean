/-
C126: image principle of the updaters of meanas/fdtd/boundaries.py:12-71 in a run of meanas/fdtd/base.py.
-/
import Verif.Props.Symmetry
import Verif.Props.FdtdBoundaries

namespace Meanas.Props

open Fdtd Spec

variable {sh sh' : Fin 3 → ℕ} {K : Type} [Field K]

/-- One call on a grid with the conducting boundary on both sides of axis `a`: after each change of a field both updaters of this field are called,
the low side first. -/
def stepWall (a : Fin 3) (S : Sys sh K) (s : State sh K) (o : Op sh K) : Except String (State sh K) :=
  let t := step S s o
  match o with
  | .stepE | .injJ _ => do
    let e ← condEn layerTuple a t.e
    let e ← condEp layerTuple a e
    pure ⟨e, t.h⟩
  | .stepH | .injM _ => do
    let h ← condHn layerTuple a t.h
    let h ← condHp layerTuple a h
    pure ⟨t.e, h⟩

/-- A run on a grid with the conducting boundary on both sides of axis `a`. -/
def runWall (a : Fin 3) (S : Sys sh K) (s : State sh K) (ops : List (Op sh K)) : Except String (State sh K) := ops.foldlM (stepWall a S) s

/-- Mirror image of E at the point half a cell above sample 0 of the axis `a`: the normal component changes its sign. Samples of the normal component
lie on the mirror, `i ↦ -i`; those of the others at half a cell from it, `i ↦ 1 - i`. -/
def EvenE (a : Fin 3) (F : VField sh K) : Prop := ∀ c x, F c (mirIdx a (if c = a then 0 else -1) x) = (if c = a then -1 else 1) * F c x
/-- Mirror image of H: the components along the mirror change their sign. -/
def EvenH (a : Fin 3) (F : VField sh K) : Prop := ∀ c x, F c (mirIdx a (if c = a then -1 else 0) x) = (if c = a then 1 else -1) * F c x
/-- Symmetric permittivity. -/
def EvenEps (a : Fin 3) (F : VField sh K) : Prop := ∀ c x, F c (mirIdx a (if c = a then 0 else -1) x) = F c x
/-- Symmetric permeability. -/
def EvenMu (a : Fin 3) (F : VField sh K) : Prop := ∀ c x, F c (mirIdx a (if c = a then -1 else 0) x) = F c x
/-- Symmetric cell widths. -/
def EvenDx (a : Fin 3) (d : Dxes sh K) : Prop := (∀ i, d.1 a (mir 0 i) = d.1 a i) ∧ ∀ i, d.2 a (mir (-1) i) = d.2 a i

/-- Reflection at the point half a cell above sample 0. -/
def mirHalf (sh : Fin 3 → ℕ) (K : Type) [Field K] (a : Fin 3) : FieldMap sh sh K where
  comp := id
  sE := fun c => if c = a then -1 else 1
  sH := fun c => if c = a then 1 else -1
  iE := fun c => mirIdx a (if c = a then 0 else -1)
  iH := fun c => mirIdx a (if c = a then -1 else 0)

theorem mirHalf_respects (a : Fin 3) (d : Dxes sh K) (hd : EvenDx a d) : (mirHalf sh K a).Respects d d := by
  constructor
  · intro F
    funext c x
    show _ = (if c = a then 1 else -1) * Functional.curlForward (some d.1) F c (mirIdx a (if c = a then -1 else 0) x)
    rw [curlForward_lc, curlForward_lc, Finset.mul_sum]
    refine Finset.sum_congr rfl fun b _ => ?_
    rw [Finset.mul_sum]
    refine Finset.sum_congr rfl fun b' _ => ?_
    by_cases hl : lc c b b' = 0
    · rw [hl]; simp
    obtain ⟨n1, n2, n3⟩ := lc_ne hl
    rw [mul_left_comm]
    congr 1
    rw [derivForward_eq, derivForward_eq]
    simp only [wOf_some, mirHalf, FieldMap.e, id]
    by_cases hb : b = a
    · subst hb
      rw [if_neg n1.symm, if_neg n1.symm, if_neg n2.symm, if_neg n2.symm, mirIdx_shift_same, shift_mirIdx_same, mirIdx_same, hd.1]
      norm_num
      ring
    · rw [mirIdx_of_ne hb]
      by_cases hb' : b' = a
      · subst hb'
        rw [if_neg n3.symm, if_neg n3.symm, if_pos rfl, if_pos rfl, mirIdx_shift_ne hb]
        ring
      · have hc : c = a := by revert hl n1 n2 n3 hb hb'; clear * -; revert a b b' c; decide
        subst hc
        rw [if_neg n3, if_neg n3, if_pos rfl, if_pos rfl, mirIdx_shift_ne hb]
        ring
  · intro F
    funext c x
    show _ = (if c = a then -1 else 1) * Functional.curlBack (some d.2) F c (mirIdx a (if c = a then 0 else -1) x)
    rw [curlBack_lc, curlBack_lc, Finset.mul_sum]
    refine Finset.sum_congr rfl fun b _ => ?_
    rw [Finset.mul_sum]
    refine Finset.sum_congr rfl fun b' _ => ?_
    by_cases hl : lc c b b' = 0
    · rw [hl]; simp
    obtain ⟨n1, n2, n3⟩ := lc_ne hl
    rw [mul_left_comm]
    congr 1
    rw [derivBack_eq, derivBack_eq]
    simp only [wOf_some, mirHalf, FieldMap.h, id]
    by_cases hb : b = a
    · subst hb
      rw [if_neg n1.symm, if_neg n1.symm, if_neg n2.symm, if_neg n2.symm, mirIdx_shift_same, shift_mirIdx_same, mirIdx_same, hd.2]
      norm_num
      ring
    · rw [mirIdx_of_ne hb]
      by_cases hb' : b' = a
      · subst hb'
        rw [if_neg n3.symm, if_neg n3.symm, if_pos rfl, if_pos rfl, mirIdx_shift_ne hb]
        ring
      · have hc : c = a := by revert hl n1 n2 n3 hb hb'; clear * -; revert a b b' c; decide
        subst hc
        rw [if_neg n3, if_neg n3, if_pos rfl, if_pos rfl, mirIdx_shift_ne hb]
        ring

/-- The symmetry of a call. -/
def EvenOp (a : Fin 3) : Op sh K → Prop
  | .stepE => True
  | .stepH => True
  | .injJ j => EvenE a j
  | .injM m => EvenH a m

theorem evenE_iff (a : Fin 3) (F : VField sh K) : EvenE a F ↔ (mirHalf sh K a).e F = fun c x => 1 * F c x := by
  rw [funext_iff]
  refine forall_congr' fun c => ?_
  rw [funext_iff]
  refine forall_congr' fun x => ?_
  simp only [mirHalf, FieldMap.e, id]
  split_ifs
  · constructor <;> intro h <;> linear_combination -h
  · constructor <;> intro h <;> linear_combination h

theorem evenH_iff (a : Fin 3) (F : VField sh K) : EvenH a F ↔ (mirHalf sh K a).h F = fun c x => 1 * F c x := by
  rw [funext_iff]
  refine forall_congr' fun c => ?_
  rw [funext_iff]
  refine forall_congr' fun x => ?_
  simp only [mirHalf, FieldMap.h, id]
  split_ifs
  · constructor <;> intro h <;> linear_combination h
  · constructor <;> intro h <;> linear_combination -h

/-- A symmetric run stays symmetric. -/
theorem even_run (a : Fin 3) (dt : K) (d : Dxes sh K) (hd : EvenDx a d) (ε : VField sh K) (hε : EvenEps a ε) (μ : Option (VField sh K))
    (hμ : ∀ m, μ = some m → EvenMu a m) (s : State sh K) (he : EvenE a s.e) (hh : EvenH a s.h) (ops : List (Op sh K)) (hops : ∀ o ∈ ops, EvenOp a o) :
    EvenE a (run ⟨dt, some d, ε, μ⟩ s ops).e ∧ EvenH a (run ⟨dt, some d, ε, μ⟩ s ops).h := by
  rw [evenE_iff, evenH_iff]
  refine (mirHalf sh K a).symmetric_run 1 dt d (mirHalf_respects a d hd) ε μ s ops (funext fun c => funext fun x => hε c x)
    (fun m hm => funext fun c => funext fun x => hμ m hm c x) ((evenE_iff a _).1 he) ((evenH_iff a _).1 hh) fun o ho => ?_
  have := hops o ho
  cases o with
  | stepE => trivial
  | stepH => trivial
  | injJ j => exact (evenE_iff a j).1 this
  | injM m => exact (evenH_iff a m).1 this

/-- The grid with walls has `L + 2` samples along `a`, the grid with its mirror image `2 L`. -/
structure Doubled (a : Fin 3) (L : ℕ) (sh sh' : Fin 3 → ℕ) : Prop where
  pos : 0 < L
  half : sh a = L + 2
  full : sh' a = 2 * L
  other : ∀ b, b ≠ a → sh' b = sh b

/-- Where a sample of the grid with walls lies in the doubled grid, along one axis. -/
def embAxis {a : Fin 3} {L : ℕ} (h : Doubled a L sh sh') (b : Fin 3) (i : Fin (sh b)) : Fin (sh' b) :=
  if hb : b = a then ⟨(i : ℕ) % (2 * L), by subst hb; rw [h.full]; exact Nat.mod_lt _ (by have := h.pos; omega)⟩
  else ⟨i, by rw [h.other b hb]; exact i.2⟩

/-- Where a sample of the grid with walls lies in the doubled grid. -/
def emb {a : Fin 3} {L : ℕ} (h : Doubled a L sh sh') (x : Idx sh) : Idx sh' := fun b => embAxis h b (x b)

section
variable {a : Fin 3} {L : ℕ} (h : Doubled a L sh sh')

/-- The part of a field of the doubled grid that the grid with walls holds. -/
def restrict (F : VField sh' K) : VField sh K := fun c x => F c (emb h x)
/-- The part of the cell widths. -/
def restrictDx (d : Dxes sh' K) : Dxes sh K := (fun b i => d.1 b (embAxis h b i), fun b i => d.2 b (embAxis h b i))
/-- The part of the sources. -/
def restrictOp : Op sh' K → Op sh K
  | .stepE => .stepE
  | .stepH => .stepH
  | .injJ j => .injJ (restrict h j)
  | .injM m => .injM (restrict h m)

omit h in
theorem wrap_val_of {n m : ℕ} (hm : n = m) (i : Fin n) (s : ℤ) : ((wrap i s : Fin n) : ℤ) = ((i : ℤ) + s) % (m : ℤ) := by subst hm; exact wrap_val i s

omit h in
theorem mir_val_of {n m : ℕ} (hm : n = m) (o : ℤ) (i : Fin n) : ((mir o i : Fin n) : ℤ) = (-(i : ℤ) - o) % (m : ℤ) := by subst hm; exact mir_val o i

theorem emb_same_val (x : Idx sh) : ((emb h x a : Fin _) : ℕ) = (x a : ℕ) % (2 * L) := by simp [emb, embAxis]

theorem emb_ne_val (x : Idx sh) {b : Fin 3} (hb : b ≠ a) : ((emb h x b : Fin _) : ℕ) = (x b : ℕ) := by simp [emb, embAxis, hb]

theorem emb_shift_ne {b : Fin 3} (hb : b ≠ a) (s : ℤ) (x : Idx sh) : emb h (shiftIdx b s x) = shiftIdx b s (emb h x) := by
  funext b'
  by_cases h1 : b' = b
  · subst h1
    rw [shiftIdx_same]
    apply Fin.ext
    rw [emb_ne_val h _ hb, shiftIdx_same]
    have e1 := wrap_val (x b') s
    have e2 := wrap_val_of (h.other b' hb) (emb h x b') s
    rw [emb_ne_val h x hb] at e2
    omega
  · rw [shiftIdx_of_ne h1]
    show embAxis h b' _ = embAxis h b' _
    rw [shiftIdx_of_ne h1]

theorem emb_shift_same (s : ℤ) (x : Idx sh) (h0 : 0 ≤ (x a : ℤ) + s) (h1 : (x a : ℤ) + s < L + 2) :
    emb h (shiftIdx a s x) = shiftIdx a s (emb h x) := by
  funext b'
  by_cases hb : b' = a
  · subst hb
    rw [shiftIdx_same]
    apply Fin.ext
    have e1 := wrap_val_of h.half (x b') s
    have e2 := wrap_val_of h.full (emb h x b') s
    rw [emb_same_val, shiftIdx_same]
    rw [emb_same_val] at e2
    rw [Int.emod_eq_of_lt h0 (by push_cast; exact h1)] at e1
    have e3 : (((wrap (x b') s : Fin _) : ℕ) % (2 * L) : ℕ) = ((((wrap (emb h x b') s : Fin _) : ℕ)) : ℤ) := by
      rw [e2]
      push_cast
      rw [e1, Int.emod_add_emod]
    exact_mod_cast e3
  · rw [shiftIdx_of_ne hb]
    show embAxis h b' _ = embAxis h b' _
    rw [shiftIdx_of_ne hb]

theorem mirIdx_emb (o : ℤ) (x : Idx sh) (k : Fin (sh a)) (hk : ∃ z : ℤ, -(x a : ℤ) - o = k + 2 * L * z) :
    mirIdx a o (emb h x) = emb h (Function.update x a k) := by
  funext b'
  by_cases hb : b' = a
  · subst hb
    rw [mirIdx_same]
    apply Fin.ext
    have e1 := mir_val_of h.full o (emb h x b')
    rw [emb_same_val] at e1
    rw [emb_same_val, Function.update_self]
    obtain ⟨z, hz⟩ := hk
    have e3 : (((mir o (emb h x b') : Fin _) : ℕ) : ℤ) = ((k : ℕ) % (2 * L) : ℕ) := by
      rw [e1]
      push_cast
      have e4 : -((x b' : ℤ) % (2 * (L : ℤ))) - o ≡ -(x b' : ℤ) - o [ZMOD (2 * (L : ℤ))] := (Int.mod_modEq _ _).neg.sub_right o
      have e5 : -(x b' : ℤ) - o ≡ (k : ℤ) [ZMOD (2 * (L : ℤ))] := by
        rw [hz]
        exact (Int.modEq_iff_dvd.2 ⟨-z, by ring⟩)
      exact e4.trans e5
    exact_mod_cast e3
  · rw [mirIdx_of_ne hb]
    show embAxis h b' _ = embAxis h b' _
    rw [Function.update_of_ne hb]

/-- The E updaters restore the mirror image in the outer layers. -/
theorem fix_e (h2 : (2 : K) ≠ 0) {F : VField sh' K} (hF : EvenE a F) (f : VField sh K)
    (hf : ∀ c x, 1 ≤ (x a : ℕ) → (x a : ℕ) ≤ L → f c x = F c (emb h x)) :
    (condEn layerTuple a f >>= condEp layerTuple a) = Except.ok (restrict h F) := by
  have hL := h.pos
  have hN := h.half
  rw [(C18_low_side_partial a (by omega) f).1]
  simp only [bind, Except.bind]
  rw [(C18_high_side_partial a (by omega) _).1]
  congr 1
  funext c x
  have hx : (x a : ℕ) < L + 2 := by have := (x a).2; omega
  have hz : ∀ x : Idx sh, (∃ z : ℤ, -(x a : ℤ) - 0 = (x a : ℕ) + 2 * L * z) → F a (emb h x) = 0 := fun x hx => by
    have h1 := hF a (emb h x)
    rw [if_pos rfl, if_pos rfl, mirIdx_emb h 0 x (x a) hx, Function.update_eq_self] at h1
    have : 2 * F a (emb h x) = 0 := by linear_combination h1
    exact (mul_eq_zero.1 this).resolve_left h2
  have hodd : ∀ (x : Idx sh) (k : Fin (sh a)), (∃ z : ℤ, -(x a : ℤ) - 0 = (k : ℕ) + 2 * L * z) → F a (emb h (Function.update x a k)) = -F a (emb h x) := fun x k hk => by
    have h1 := hF a (emb h x)
    rw [if_pos rfl, if_pos rfl, mirIdx_emb h 0 x k hk] at h1
    rw [h1]; ring
  have heven : ∀ {c} (_ : c ≠ a) (x : Idx sh) (k : Fin (sh a)), (∃ z : ℤ, -(x a : ℤ) - -1 = (k : ℕ) + 2 * L * z) →
      F c (emb h (Function.update x a k)) = F c (emb h x) := fun {c} hc x k hk => by
    have h1 := hF c (emb h x)
    rw [if_neg hc, if_neg hc, mirIdx_emb h (-1) x k hk] at h1
    rw [h1]; ring
  simp only [specEp, specEn, restrict, Function.update_self, Function.update_idem]
  rcases Nat.eq_zero_or_pos (x a : ℕ) with h0 | h0
  · -- low wall
    rw [if_neg (by omega), if_neg (by omega), if_pos h0]
    by_cases hc : c = a
    · subst hc; rw [if_pos rfl, hz x ⟨0, by rw [h0]; simp⟩]
    · rw [if_neg hc, hf _ _ (by simp) (by simp; omega), heven hc x _ ⟨0, by rw [h0]; simp⟩]
  · rcases eq_or_ne (x a : ℕ) (L + 1) with h1 | h1
    · rw [if_pos (by omega)]
      by_cases hc : c = a
      · subst hc
        rw [if_pos rfl, if_pos rfl]
        have key : F c (emb h (Function.update x c ⟨sh c - 3, by omega⟩)) = -F c (emb h x) :=
          hodd x _ ⟨-1, by rw [h1]; simp only; push_cast [show sh c - 3 = L - 1 by omega, Nat.cast_sub hL]; ring⟩
        split_ifs with h3
        · have hz2 := hz (Function.update x c ⟨sh c - 3, by omega⟩) ⟨0, by rw [Function.update_self]; simp only [h3]; simp⟩
          rw [hz2] at key
          rw [neg_zero]
          linear_combination -key
        · rw [hf _ _ (by rw [Function.update_self]; simp only; omega) (by rw [Function.update_self]; simp only; omega), key]; ring
      · rw [if_neg hc, if_neg hc, if_neg (by omega), hf _ _ (by rw [Function.update_self]; simp only; omega) (by rw [Function.update_self]; simp only; omega)]
        exact heven hc x _ ⟨-1, by rw [h1]; simp only; push_cast [show sh a - 2 = L by omega]; ring⟩
    · rw [if_neg (by omega)]
      have hin : (if (x a : ℕ) = 0 then (if c = a then 0 else f c (Function.update x a ⟨1, by omega⟩)) else f c x) = F c (emb h x) := by
        rw [if_neg (by omega), hf c x (by omega) (by omega)]
      rw [hin]
      split_ifs with h3 hc
      · subst hc
        exact (hz x ⟨-1, by rw [show (x c : ℕ) = L by omega]; ring⟩).symm
      · rfl
      · rfl

/-- The H updaters restore the mirror image in the outer layers. -/
theorem fix_h (h2 : (2 : K) ≠ 0) {F : VField sh' K} (hF : EvenH a F) (f : VField sh K)
    (hf : ∀ c x, 1 ≤ (x a : ℕ) → (x a : ℕ) ≤ L → f c x = F c (emb h x)) :
    (condHn layerTuple a f >>= condHp layerTuple a) = Except.ok (restrict h F) := by
  have hL := h.pos
  have hN := h.half
  rw [(C18_low_side_partial a (by omega) f).2]
  simp only [bind, Except.bind]
  rw [(C18_high_side_partial a (by omega) _).2]
  congr 1
  funext c x
  have hx : (x a : ℕ) < L + 2 := by have := (x a).2; omega
  have hz : ∀ {c} (_ : c ≠ a) (x : Idx sh), (∃ z : ℤ, -(x a : ℤ) - 0 = (x a : ℕ) + 2 * L * z) → F c (emb h x) = 0 := fun {c} hc x hx => by
    have h1 := hF c (emb h x)
    rw [if_neg hc, if_neg hc, mirIdx_emb h 0 x (x a) hx, Function.update_eq_self] at h1
    have : 2 * F c (emb h x) = 0 := by linear_combination h1
    exact (mul_eq_zero.1 this).resolve_left h2
  have hodd : ∀ {c} (_ : c ≠ a) (x : Idx sh) (k : Fin (sh a)), (∃ z : ℤ, -(x a : ℤ) - 0 = (k : ℕ) + 2 * L * z) →
      F c (emb h (Function.update x a k)) = -F c (emb h x) := fun {c} hc x k hk => by
    have h1 := hF c (emb h x)
    rw [if_neg hc, if_neg hc, mirIdx_emb h 0 x k hk] at h1
    rw [h1]; ring
  have heven : ∀ (x : Idx sh) (k : Fin (sh a)), (∃ z : ℤ, -(x a : ℤ) - -1 = (k : ℕ) + 2 * L * z) → F a (emb h (Function.update x a k)) = F a (emb h x) := fun x k hk => by
    have h1 := hF a (emb h x)
    rw [if_pos rfl, if_pos rfl, mirIdx_emb h (-1) x k hk] at h1
    rw [h1]; ring
  simp only [specHp, specHn, restrict, Function.update_self, Function.update_idem]
  rcases Nat.eq_zero_or_pos (x a : ℕ) with h0 | h0
  · rw [if_neg (by omega), if_neg (by omega), if_pos h0]
    by_cases hc : c = a
    · subst hc
      rw [if_pos rfl, hf _ _ (by simp) (by simp; omega), heven x _ ⟨0, by rw [h0]; simp⟩]
    · rw [if_neg hc, hz hc x ⟨0, by rw [h0]; simp⟩]
  · rcases eq_or_ne (x a : ℕ) (L + 1) with h1 | h1
    · rw [if_pos (by omega)]
      by_cases hc : c = a
      · subst hc
        rw [if_pos rfl, if_pos rfl, if_neg (by omega), hf _ _ (by rw [Function.update_self]; simp only; omega) (by rw [Function.update_self]; simp only; omega)]
        exact heven x _ ⟨-1, by rw [h1]; simp only; push_cast [show sh c - 2 = L by omega]; ring⟩
      · rw [if_neg hc, if_neg hc]
        have key : F c (emb h (Function.update x a ⟨sh a - 3, by omega⟩)) = -F c (emb h x) :=
          hodd hc x _ ⟨-1, by rw [h1]; simp only; push_cast [show sh a - 3 = L - 1 by omega, Nat.cast_sub hL]; ring⟩
        split_ifs with h3
        · have hz2 := hz hc (Function.update x a ⟨sh a - 3, by omega⟩) ⟨0, by rw [Function.update_self]; simp only [h3]; simp⟩
          rw [hz2] at key
          rw [neg_zero]
          linear_combination -key
        · rw [hf _ _ (by rw [Function.update_self]; simp only; omega) (by rw [Function.update_self]; simp only; omega), key]; ring
    · rw [if_neg (by omega)]
      have hin : (if (x a : ℕ) = 0 then (if c = a then f c (Function.update x a ⟨1, by omega⟩) else 0) else f c x) = F c (emb h x) := by
        rw [if_neg (by omega), hf c x (by omega) (by omega)]
      rw [hin]
      split_ifs with h3 hc
      · rfl
      · exact (hz hc x ⟨-1, by rw [show (x a : ℕ) = L by omega]; ring⟩).symm
      · rfl

/-- Derivatives inside the walls are those of the doubled grid. -/
theorem restrict_curlBack (d : Dxes sh' K) (F : VField sh' K) (c : Fin 3) (x : Idx sh) (h0 : 1 ≤ (x a : ℕ)) :
    Functional.curlBack (some (restrictDx h d).2) (restrict h F) c x = Functional.curlBack (some d.2) F c (emb h x) := by
  rw [curlBack_lc, curlBack_lc]
  refine Finset.sum_congr rfl fun b _ => Finset.sum_congr rfl fun b' _ => ?_
  congr 1
  rw [derivBack_eq, derivBack_eq]
  simp only [wOf_some, restrict, restrictDx]
  have hx := (x a).2
  have hN := h.half
  have e : emb h (shiftIdx b (-1) x) = shiftIdx b (-1) (emb h x) := by
    by_cases hb : b = a
    · subst hb; exact emb_shift_same h _ x (by omega) (by omega)
    · exact emb_shift_ne h hb _ x
  rw [e]
  rfl

theorem restrict_curlForward (d : Dxes sh' K) (F : VField sh' K) (c : Fin 3) (x : Idx sh) (h0 : (x a : ℕ) ≤ L) :
    Functional.curlForward (some (restrictDx h d).1) (restrict h F) c x = Functional.curlForward (some d.1) F c (emb h x) := by
  rw [curlForward_lc, curlForward_lc]
  refine Finset.sum_congr rfl fun b _ => Finset.sum_congr rfl fun b' _ => ?_
  congr 1
  rw [derivForward_eq, derivForward_eq]
  simp only [wOf_some, restrict, restrictDx]
  have e : emb h (shiftIdx b 1 x) = shiftIdx b 1 (emb h x) := by
    by_cases hb : b = a
    · subst hb; exact emb_shift_same h _ x (by omega) (by omega)
    · exact emb_shift_ne h hb _ x
  rw [e]
  rfl

/-- C126 (partial: under the tuple reading of the slice lists, see C18): image principle. A run between two conducting boundaries, with both updaters
called after each change of a field, is the part between the walls of the run on a periodic grid that also holds the mirror image: permittivity,
permeability, widths, initial fields and sources mirrored at the point half a cell above sample 0 (equivalently, half a cell above sample `L`), with
the components of E along the wall and of H across the wall even. The walls are therefore magnetic: E across and H along the wall vanish on them. -/
theorem C126_image_partial (h2 : (2 : K) ≠ 0) (dt : K) (d : Dxes sh' K) (hd : EvenDx a d) (ε : VField sh' K) (hε : EvenEps a ε)
    (μ : Option (VField sh' K)) (hμ : ∀ m, μ = some m → EvenMu a m) (s : State sh' K) (he : EvenE a s.e) (hh : EvenH a s.h) (ops : List (Op sh' K))
    (hops : ∀ o ∈ ops, EvenOp a o) :
    runWall a ⟨dt, some (restrictDx h d), restrict h ε, μ.map (restrict h)⟩ ⟨restrict h s.e, restrict h s.h⟩ (ops.map (restrictOp h))
      = .ok ⟨restrict h (run ⟨dt, some d, ε, μ⟩ s ops).e, restrict h (run ⟨dt, some d, ε, μ⟩ s ops).h⟩ := by
  induction ops generalizing s with
  | nil => rfl
  | cons o ops ih =>
    have ho := hops o (by simp)
    have hev := even_run a dt d hd ε hε μ hμ s he hh [o] (by simpa using ho)
    have hrun : run ⟨dt, some d, ε, μ⟩ s (o :: ops) = run ⟨dt, some d, ε, μ⟩ (run ⟨dt, some d, ε, μ⟩ s [o]) ops := rfl
    rw [hrun, ← ih _ hev.1 hev.2 fun o' h' => hops o' (List.mem_cons_of_mem _ h')]
    simp only [runWall, List.map_cons, List.foldlM_cons]
    have hstep : stepWall a ⟨dt, some (restrictDx h d), restrict h ε, μ.map (restrict h)⟩ ⟨restrict h s.e, restrict h s.h⟩ (restrictOp h o)
        = .ok ⟨restrict h (run ⟨dt, some d, ε, μ⟩ s [o]).e, restrict h (run ⟨dt, some d, ε, μ⟩ s [o]).h⟩ := by
      have mkE : ∀ f : VField sh K, (∀ c x, 1 ≤ (x a : ℕ) → (x a : ℕ) ≤ L → f c x = (run ⟨dt, some d, ε, μ⟩ s [o]).e c (emb h x)) →
          (do let e ← condEn layerTuple a f
              let e ← condEp layerTuple a e
              pure (⟨e, restrict h s.h⟩ : State sh K)) = Except.ok ⟨restrict h (run ⟨dt, some d, ε, μ⟩ s [o]).e, restrict h s.h⟩ := by
        intro f hf
        have := fix_e h h2 hev.1 f hf
        simp only [bind, Except.bind, pure, Except.pure] at this ⊢
        cases h1 : condEn layerTuple a f with
        | error m => rw [h1] at this; simp at this
        | ok v => rw [h1] at this; simp only at this ⊢; rw [this]
      have mkH : ∀ f : VField sh K, (∀ c x, 1 ≤ (x a : ℕ) → (x a : ℕ) ≤ L → f c x = (run ⟨dt, some d, ε, μ⟩ s [o]).h c (emb h x)) →
          (do let e ← condHn layerTuple a f
              let e ← condHp layerTuple a e
              pure (⟨restrict h s.e, e⟩ : State sh K)) = Except.ok ⟨restrict h s.e, restrict h (run ⟨dt, some d, ε, μ⟩ s [o]).h⟩ := by
        intro f hf
        have := fix_h h h2 hev.2 f hf
        simp only [bind, Except.bind, pure, Except.pure] at this ⊢
        cases h1 : condHn layerTuple a f with
        | error m => rw [h1] at this; simp at this
        | ok v => rw [h1] at this; simp only at this ⊢; rw [this]
      cases o with
      | stepE =>
        refine mkE _ fun c x h0 h1 => ?_
        simp only [restrictOp, step, maxwellE, run, List.foldl, restrict_curlBack h d s.h c x h0]
        rfl
      | stepH =>
        refine mkH _ fun c x h0 h1 => ?_
        cases μ <;> simp only [restrictOp, step, maxwellH, run, List.foldl, Option.map, restrict_curlForward h d s.e c x h1] <;> rfl
      | injJ j => exact mkE _ fun c x h0 h1 => rfl
      | injM m =>
        cases μ with
        | none => exact mkH _ fun c x h0 h1 => rfl
        | some μ => exact mkH _ fun c x h0 h1 => rfl
    rw [hstep]
    rfl

end

/-- Three cells between the walls (five samples), doubled to six: the hypotheses are met by a uniform grid in vacuum and a field along y that is one at
the two samples next to the low wall. -/
example : Doubled 0 3 ![5, 2, 2] ![6, 2, 2] ∧ EvenDx (sh := ![6, 2, 2]) 0 ((fun _ _ => 1, fun _ _ => 1) : Dxes ![6, 2, 2] ℚ) ∧
    EvenEps (sh := ![6, 2, 2]) 0 (fun _ _ => (1 : ℚ)) ∧
    EvenE (sh := ![6, 2, 2]) 0 (fun c x => if c = 1 ∧ (x 0 : ℕ) < 2 then (1 : ℚ) else 0) ∧ EvenH (sh := ![6, 2, 2]) 0 (fun _ _ => (0 : ℚ)) := by
  refine ⟨⟨by norm_num, rfl, rfl, by decide⟩, ⟨fun _ => rfl, fun _ => rfl⟩, fun _ _ => rfl, fun c x => ?_, fun c x => by simp⟩
  have h6 : ∀ i : Fin 6, ((mir (-1) i : Fin 6) : ℕ) ≤ 1 ↔ (i : ℕ) ≤ 1 := by decide
  have := h6 (x 0)
  fin_cases c
  · simp
  · simp only [mirIdx_same]
    simp +decide
    exact if_congr this rfl rfl
  · simp

end Meanas.Props
