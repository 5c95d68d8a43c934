/-
C184 (array shapes). Width lists and media of any shape: what numpy accepts, and what it then means (Model/Shapes.lean: meanas/fdmath/functional.py:16-122, meanas/fdtd/base.py:13-125,
meanas/fdtd/energy.py:10-87, 250-270, meanas/fdmath/operators.py:99-123, 222-235).
-/
import Verif.Model.Shapes
import Verif.Props.Fdmath
import Mathlib.Data.List.GetD
set_option linter.unnecessarySeqFocus false

namespace Meanas.Props
open Shapes
universe u

variable {K : Type*} [Field K] {sh : Fin 3 → ℕ}

/-! ## Specification -/

/-- The list `w` has one width per cell of an axis with `n` cells, or one for all. -/
def ListFits (n : ℕ) (w : List K) : Prop := w.length = n ∨ w.length = 1

/-- The widths meant by lists that fit. -/
def meant (sh : Fin 3 → ℕ) (w : Fin 3 → List K) : DxList sh K := fun a i => (w a).getD (if (w a).length = 1 then 0 else i) 0

/-- The medium of shape `s` (last axis first) can be repeated to the shape `t`. -/
def CanRepeat : List ℕ → List ℕ → Prop
  | [], _ => True
  | _ :: _, [] => False
  | m :: s, n :: t => (m = n ∨ m = 1) ∧ CanRepeat s t

/-- The values of the medium at the positions of a field. -/
def meantMedium (sh : Fin 3 → ℕ) (m : Medium K) : VField sh K := fun c x => m.val (pick m.rshape [x 2, x 1, x 0, c])

/-! ## Broadcasting -/

def Sub1 (m n : ℕ) : Prop := m = 1 ∨ m = n

theorem Sub1.trans {l m n : ℕ} (h : Sub1 l m) (k : Sub1 m n) : Sub1 l n := by
  rcases h with h | h
  · exact Or.inl h
  · rcases k with k | k
    · exact Or.inl (h.trans k)
    · exact Or.inr (h.trans k)

omit [Field K] in
theorem bin_inv {op : K → K → K} {A B C : A3 K} (h : bin op A B = .ok C) (a : Fin 3) : Sub1 (A.shape a) (C.shape a) ∧ Sub1 (B.shape a) (C.shape a) := by
  unfold bin at h
  split_ifs at h with q
  cases h
  have := q a
  unfold Sub1
  dsimp only
  split_ifs with k
  · exact ⟨Or.inl k, Or.inr rfl⟩
  · refine ⟨Or.inr rfl, ?_⟩
    tauto

omit [Field K] in
theorem bin_ok (op : K → K → K) {A B : A3 K} (h : ∀ a, A.shape a = B.shape a ∨ A.shape a = 1 ∨ B.shape a = 1) :
    ∃ C, bin op A B = .ok C ∧ C.shape = fun a => if A.shape a = 1 then B.shape a else A.shape a := ⟨_, if_pos h, rfl⟩

omit [Field K] in
theorem store_inv {A : A3 K} {r : Arr sh K} (h : store sh A = .ok r) (a : Fin 3) : Sub1 (A.shape a) (sh a) := by
  unfold store at h
  split_ifs at h with q
  exact (q a).symm

theorem bind_inv {α β : Type u} {x : Except String α} {f : α → Except String β} {b : β} (h : (x >>= f) = .ok b) : ∃ a, x = .ok a ∧ f a = .ok b := by
  cases x with
  | error e => cases h
  | ok a => exact ⟨a, rfl, h⟩

/-- The array `A` is the component `f`. -/
def Is (A : A3 K) (f : Arr sh K) : Prop := A.shape = sh ∧ ∀ x : Idx sh, A.val (fun a => x a) = f x

omit [Field K] in
theorem Is.at {A : A3 K} {f : Arr sh K} (h : Is A f) (x : Idx sh) : at_ A (fun a => x a) = f x := by
  rw [← h.2 x]
  unfold at_
  congr 1
  funext a
  split_ifs with q
  · have := (x a).isLt
    rw [h.1] at q
    omega
  · rfl

theorem is_ofArr (f : Arr sh K) : Is (ofArr f) f := ⟨rfl, fun x => by
  unfold ofArr
  exact dif_pos fun a => (x a).isLt⟩

omit [Field K] in
theorem Is.bin {op : K → K → K} {A B : A3 K} {f g : Arr sh K} (hA : Is A f) (hB : Is B g) : ∃ C, bin op A B = .ok C ∧ Is C fun x => op (f x) (g x) := by
  refine ⟨_, if_pos fun a => Or.inl (by rw [hA.1, hB.1]), ?_, fun x => ?_⟩
  · funext a
    dsimp only
    rw [hA.1, hB.1, ite_self]
  · dsimp only
    rw [hA.at, hB.at]

theorem Is.widths {op : K → K → K} {A : A3 K} {f : Arr sh K} (hA : Is A f) (w : Fin 3 → List K) (a : Fin 3) (hw : ListFits (sh a) (w a)) :
    ∃ C, Shapes.bin op A (widths (w a) a) = .ok C ∧ Is C fun x => op (f x) (meant sh w a (x a)) := by
  refine ⟨_, if_pos fun b => ?_, ?_, fun x => ?_⟩
  · rw [hA.1]
    by_cases q : b = a
    · subst q
      simp only [Shapes.widths, if_true]
      rcases hw with hw | hw
      · exact Or.inl hw.symm
      · exact Or.inr (Or.inr hw)
    · exact Or.inr (Or.inr (by simp [Shapes.widths, q]))
  · funext b
    dsimp only
    rw [hA.1]
    split_ifs with q
    · by_cases k : b = a
      · subst k
        simp only [Shapes.widths, if_true]
        rcases hw with hw | hw
        · exact hw
        · rw [hw, q]
      · simp [Shapes.widths, k, q]
    · rfl
  · dsimp only
    rw [hA.at]
    congr 1
    simp only [at_, Shapes.widths, meant, if_true]

omit [Field K] in
theorem Is.roll {A : A3 K} {f : Arr sh K} (hA : Is A f) (s : ℤ) (a : Fin 3) : Is (rollA A s a) (Meanas.roll f s a) := by
  refine ⟨hA.1, fun x => ?_⟩
  unfold Meanas.roll
  rw [← hA.2]
  unfold rollA
  dsimp only
  congr 1
  funext b
  rw [hA.1]
  by_cases q : b = a
  · subst q
    simp [shiftIdx, wrap]
  · simp [shiftIdx, q]

omit [Field K] in
theorem Is.store {A : A3 K} {f : Arr sh K} (hA : Is A f) : store sh A = .ok f := by
  unfold Shapes.store
  rw [if_pos fun a => Or.inl (by rw [hA.1])]
  congr 1
  funext x
  exact hA.at x

/-! ## Derivatives and curls -/

theorem derivForward_is (w : Fin 3 → List K) (a : Fin 3) (hw : ListFits (sh a) (w a)) (f : Arr sh K) :
    ∃ C, Shapes.derivForward w a (ofArr f) = .ok C ∧ Is C (Functional.derivForward (some (meant sh w)) a f) := by
  obtain ⟨B, h1, h2⟩ := (is_ofArr f |>.roll (-1) a).bin (op := (· - ·)) (is_ofArr f)
  obtain ⟨C, h3, h4⟩ := h2.widths (op := (· / ·)) w a hw
  refine ⟨C, ?_, h4⟩
  unfold Shapes.derivForward
  rw [h1]
  exact h3

theorem derivBack_is (w : Fin 3 → List K) (a : Fin 3) (hw : ListFits (sh a) (w a)) (f : Arr sh K) :
    ∃ C, Shapes.derivBack w a (ofArr f) = .ok C ∧ Is C (Functional.derivBack (some (meant sh w)) a f) := by
  obtain ⟨B, h1, h2⟩ := (is_ofArr f).bin (op := (· - ·)) (is_ofArr f |>.roll 1 a)
  obtain ⟨C, h3, h4⟩ := h2.widths (op := (· / ·)) w a hw
  refine ⟨C, ?_, h4⟩
  unfold Shapes.derivBack
  rw [h1]
  exact h3

theorem widths_sub (w : List K) (a : Fin 3) {n : ℕ} (h : Sub1 ((widths w a).shape a) n) : ListFits n w := by
  simp only [Shapes.widths, if_true] at h
  exact h.symm

theorem deriv_refuses (w : Fin 3 → List K) (a : Fin 3) (f : A3 K) {A : A3 K} (h : Shapes.derivForward w a f = .ok A ∨ Shapes.derivBack w a f = .ok A)
    (hs : Sub1 (A.shape a) (sh a)) : ListFits (sh a) (w a) := by
  rcases h with h | h <;>
  · obtain ⟨B, -, h2⟩ := bind_inv h
    exact widths_sub _ _ ((bin_inv h2 a).2.trans hs)

theorem curl_is {D : Fin 3 → A3 K → Except String (A3 K)} {D' : Fin 3 → Arr sh K → Arr sh K} (hD : ∀ a f, ∃ C, D a (ofArr f) = .ok C ∧ Is C (D' a f)) (e : VField sh K) :
    curl D e = .ok ![fun x => D' 1 (e 2) x - D' 2 (e 1) x, fun x => D' 2 (e 0) x - D' 0 (e 2) x, fun x => D' 0 (e 1) x - D' 1 (e 0) x] := by
  obtain ⟨A0, a0, i0⟩ := hD 1 (e 2)
  obtain ⟨A1, a1, i1⟩ := hD 2 (e 0)
  obtain ⟨A2, a2, i2⟩ := hD 0 (e 1)
  obtain ⟨B0, b0, j0⟩ := hD 2 (e 1)
  obtain ⟨B1, b1, j1⟩ := hD 0 (e 2)
  obtain ⟨B2, b2, j2⟩ := hD 1 (e 0)
  unfold curl isub
  simp only [a0, a1, a2, b0, b1, b2, i0.store, i1.store, i2.store, j0.store, j1.store, j2.store, bind, Except.bind, pure, Except.pure]

theorem curl_inv {D : Fin 3 → A3 K → Except String (A3 K)} {e r : VField sh K} (h : curl D e = .ok r) (a : Fin 3) : ∃ f A, D a f = .ok A ∧ Sub1 (A.shape a) (sh a) := by
  unfold curl at h
  obtain ⟨A0, a0, h⟩ := bind_inv h
  obtain ⟨o0, s0, h⟩ := bind_inv h
  obtain ⟨A1, a1, h⟩ := bind_inv h
  obtain ⟨o1, s1, h⟩ := bind_inv h
  obtain ⟨A2, a2, h⟩ := bind_inv h
  obtain ⟨o2, s2, h⟩ := bind_inv h
  fin_cases a
  · exact ⟨_, _, a2, store_inv s2 0⟩
  · exact ⟨_, _, a0, store_inv s0 1⟩
  · exact ⟨_, _, a1, store_inv s1 2⟩

/-- **C184.** `curl_forward(dx)(e)` returns exactly if every list has one width per cell or one for all, and then the result is the curl with these widths. -/
theorem C184_curl (w : Fin 3 → List K) (e r : VField sh K) :
    (Shapes.curlForward w e = .ok r ↔ (∀ a, ListFits (sh a) (w a)) ∧ r = Functional.curlForward (some (meant sh w)) e) ∧
    (Shapes.curlBack w e = .ok r ↔ (∀ a, ListFits (sh a) (w a)) ∧ r = Functional.curlBack (some (meant sh w)) e) := by
  refine ⟨⟨fun h => ?_, fun h => ?_⟩, ⟨fun h => ?_, fun h => ?_⟩⟩
  · have hf : ∀ a, ListFits (sh a) (w a) := fun a => by
      obtain ⟨f, A, h1, h2⟩ := curl_inv h a
      exact deriv_refuses w a f (Or.inl h1) h2
    refine ⟨hf, ?_⟩
    have := curl_is (fun a f => derivForward_is w a (hf a) f) e
    exact (Except.ok.inj (this.symm.trans h)).symm
  · rw [h.2]
    exact curl_is (fun a f => derivForward_is w a (h.1 a) f) e
  · have hf : ∀ a, ListFits (sh a) (w a) := fun a => by
      obtain ⟨f, A, h1, h2⟩ := curl_inv h a
      exact deriv_refuses w a f (Or.inr h1) h2
    refine ⟨hf, ?_⟩
    have := curl_is (fun a f => derivBack_is w a (hf a) f) e
    exact (Except.ok.inj (this.symm.trans h)).symm
  · rw [h.2]
    exact curl_is (fun a f => derivBack_is w a (h.1 a) f) e

/-! ## Updates -/

theorem bcastRev_canRepeat : ∀ t s : List ℕ, Bloch.bcastRev t s = some t ↔ CanRepeat s t
  | [], [] => by simp [Bloch.bcastRev, CanRepeat]
  | [], m :: s => by simp [Bloch.bcastRev, CanRepeat]
  | n :: t, [] => by simp [Bloch.bcastRev, CanRepeat]
  | n :: t, m :: s => by
    have ih := bcastRev_canRepeat t s
    simp only [Bloch.bcastRev, CanRepeat, ← ih]
    cases hb : Bloch.bcastRev t s with
    | none => simp
    | some r =>
      simp only [Option.some.injEq]
      split_ifs with h1 h2 h3
      · simp [h1]
      · simp only [Option.some.injEq, List.cons.injEq]
        constructor
        · rintro ⟨rfl, rfl⟩
          exact ⟨Or.inl rfl, rfl⟩
        · rintro ⟨q | q, rfl⟩
          · exact absurd q.symm h1
          · exact absurd (h2.trans q.symm) h1
      · simp [h3]
      · constructor
        · intro q; cases q
        · rintro ⟨q | q, -⟩
          · exact absurd q.symm h1
          · exact absurd q h3

omit [Field K] in
theorem mediumAt_iff (m : Medium K) (r : VField sh K) : mediumAt sh m = .ok r ↔ CanRepeat m.rshape [sh 2, sh 1, sh 0, 3] ∧ r = meantMedium sh m := by
  rw [← bcastRev_canRepeat]
  unfold mediumAt
  cases hb : Bloch.bcastRev [sh 2, sh 1, sh 0, 3] m.rshape with
  | none => simp
  | some q =>
    simp only [Option.some.injEq]
    split_ifs with h
    · simp only [h, Except.ok.injEq, true_and]
      exact eq_comm
    · simp [h]

/-- **C184.** The FDTD updates return exactly if every list fits and the medium can be repeated to the shape of the field; then they are the updates with the widths and
the medium meant. -/
theorem C184_update (dt : K) (w : Fin 3 → List K) (w' : DxList sh K) (e h r : VField sh K) (m : Medium K) :
    (Shapes.maxwellE dt w e h m = .ok r ↔ (∀ a, ListFits (sh a) (w a)) ∧ CanRepeat m.rshape [sh 2, sh 1, sh 0, 3] ∧
      r = Fdtd.maxwellE dt (some (w', meant sh w)) e h (meantMedium sh m)) ∧
    (Shapes.maxwellH dt w e h (some m) = .ok r ↔ (∀ a, ListFits (sh a) (w a)) ∧ CanRepeat m.rshape [sh 2, sh 1, sh 0, 3] ∧
      r = Fdtd.maxwellH dt (some (meant sh w, w')) e h (some (meantMedium sh m))) ∧
    (Shapes.maxwellH dt w e h none = .ok r ↔ (∀ a, ListFits (sh a) (w a)) ∧ r = Fdtd.maxwellH dt (some (meant sh w, w')) e h none) := by
  refine ⟨⟨fun q => ?_, fun q => ?_⟩, ⟨fun q => ?_, fun q => ?_⟩, ⟨fun q => ?_, fun q => ?_⟩⟩
  · obtain ⟨c, h1, q⟩ := bind_inv q
    obtain ⟨v, h2, q⟩ := bind_inv q
    obtain ⟨f, rfl⟩ := (C184_curl w h c).2.1 h1
    obtain ⟨g, rfl⟩ := (mediumAt_iff m v).1 h2
    exact ⟨f, g, (Except.ok.inj q).symm⟩
  · unfold Shapes.maxwellE
    rw [(C184_curl w h _).2.2 ⟨q.1, rfl⟩, (mediumAt_iff m _).2 ⟨q.2.1, rfl⟩, q.2.2]
    rfl
  · obtain ⟨c, h1, q⟩ := bind_inv q
    obtain ⟨v, h2, q⟩ := bind_inv q
    obtain ⟨f, rfl⟩ := (C184_curl w e c).1.1 h1
    obtain ⟨g, rfl⟩ := (mediumAt_iff m v).1 h2
    exact ⟨f, g, (Except.ok.inj q).symm⟩
  · unfold Shapes.maxwellH
    rw [(C184_curl w e _).1.2 ⟨q.1, rfl⟩, q.2.2]
    dsimp only [bind, Except.bind]
    rw [(mediumAt_iff m _).2 ⟨q.2.1, rfl⟩]
    rfl
  · obtain ⟨c, h1, q⟩ := bind_inv q
    obtain ⟨f, rfl⟩ := (C184_curl w e c).1.1 h1
    exact ⟨f, (Except.ok.inj q).symm⟩
  · unfold Shapes.maxwellH
    rw [(C184_curl w e _).1.2 ⟨q.1, rfl⟩, q.2]
    rfl


omit [Field K] in
/-- **C184.** The usual media: a number; one value per cell (isotropic); one value per component (homogeneous, shape `(3, 1, 1, 1)`); one value per component and cell. -/
theorem C184_media (m : Medium K) :
    (m.rshape = [] → CanRepeat m.rshape [sh 2, sh 1, sh 0, 3] ∧ meantMedium sh m = fun _ _ => m.val []) ∧
    (m.rshape = [sh 2, sh 1, sh 0] → CanRepeat m.rshape [sh 2, sh 1, sh 0, 3] ∧ meantMedium sh m = fun _ x => m.val [x 2, x 1, x 0]) ∧
    (m.rshape = [1, 1, 1, 3] → CanRepeat m.rshape [sh 2, sh 1, sh 0, 3] ∧ meantMedium sh m = fun (c : Fin 3) _ => m.val [0, 0, 0, c]) ∧
    (m.rshape = [sh 2, sh 1, sh 0, 3] → CanRepeat m.rshape [sh 2, sh 1, sh 0, 3] ∧ meantMedium sh m = fun (c : Fin 3) (x : Idx sh) => m.val [x 2, x 1, x 0, c]) := by
  have hs : ∀ a (x : Idx sh), (if sh a = 1 then 0 else (x a : ℕ)) = x a := fun a x => by
    have := (x a).isLt
    split_ifs <;> omega
  refine ⟨fun h => ?_, fun h => ?_, fun h => ?_, fun h => ?_⟩ <;> unfold meantMedium <;> rw [h]
  · exact ⟨trivial, rfl⟩
  · exact ⟨by simp [CanRepeat], by simp [pick, hs]⟩
  · exact ⟨by simp [CanRepeat], by simp [pick]⟩
  · exact ⟨by simp [CanRepeat], by simp [pick, hs]⟩

omit [Field K] in
/-- **C184 (trap).** Three numbers `[eps_x, eps_y, eps_z]` (shape `(3,)`) are refused unless the grid has three cells along z. There they are accepted and mean three layers,
not three components. -/
theorem C184_three_numbers_partial (m : Medium K) (hm : m.rshape = [3]) :
    (CanRepeat m.rshape [sh 2, sh 1, sh 0, 3] ↔ sh 2 = 3) ∧ meantMedium sh m = fun _ x => m.val [x 2] := by
  unfold meantMedium
  rw [hm]
  exact ⟨by simp [CanRepeat, eq_comm], by simp [pick]⟩

/-! ## Energies -/

/-- **C184.** `poynting` returns exactly if all six lists fit, and then it is the Poynting vector with the widths meant. Without `dxes` the widths are one. -/
theorem C184_poynting (e h r : VField sh K) (w : (Fin 3 → List K) × (Fin 3 → List K)) :
    (Shapes.poynting e h (some w) = .ok r ↔ (∀ a, ListFits (sh a) (w.1 a) ∧ ListFits (sh a) (w.2 a)) ∧ r = Fdtd.poynting e h (some (meant sh w.1, meant sh w.2))) ∧
    Shapes.poynting e h none = .ok (Fdtd.poynting e h none) := by
  have ok : ∀ w : (Fin 3 → List K) × (Fin 3 → List K), (∀ a, ListFits (sh a) (w.1 a) ∧ ListFits (sh a) (w.2 a)) →
      Shapes.poynting e h (some w) = .ok (Fdtd.poynting e h (some (meant sh w.1, meant sh w.2))) := fun w hw => by
    obtain ⟨ex, q1, i1⟩ := (is_ofArr (e 0)).widths (op := (· * ·)) w.1 0 (hw 0).1
    obtain ⟨ey, q2, i2⟩ := (is_ofArr (e 1)).widths (op := (· * ·)) w.1 1 (hw 1).1
    obtain ⟨ez, q3, i3⟩ := (is_ofArr (e 2)).widths (op := (· * ·)) w.1 2 (hw 2).1
    obtain ⟨hx, q4, i4⟩ := (is_ofArr (h 0)).widths (op := (· * ·)) w.2 0 (hw 0).2
    obtain ⟨hy, q5, i5⟩ := (is_ofArr (h 1)).widths (op := (· * ·)) w.2 1 (hw 1).2
    obtain ⟨hz, q6, i6⟩ := (is_ofArr (h 2)).widths (op := (· * ·)) w.2 2 (hw 2).2
    obtain ⟨a1, p1, j1⟩ := (i2.roll (-1) 0).bin (op := (· * ·)) i6
    obtain ⟨a2, p2, j2⟩ := (i3.roll (-1) 0).bin (op := (· * ·)) i5
    obtain ⟨a3, p3, j3⟩ := j1.bin (op := (· - ·)) j2
    obtain ⟨b1, p4, j4⟩ := (i3.roll (-1) 1).bin (op := (· * ·)) i4
    obtain ⟨b2, p5, j5⟩ := (i1.roll (-1) 1).bin (op := (· * ·)) i6
    obtain ⟨b3, p6, j6⟩ := j4.bin (op := (· - ·)) j5
    obtain ⟨c1, p7, j7⟩ := (i1.roll (-1) 2).bin (op := (· * ·)) i5
    obtain ⟨c2, p8, j8⟩ := (i2.roll (-1) 2).bin (op := (· * ·)) i4
    obtain ⟨c3, p9, j9⟩ := j7.bin (op := (· - ·)) j8
    unfold Shapes.poynting
    simp only [Option.getD_some, q1, q2, q3, q4, q5, q6, p1, p2, p3, p4, p5, p6, p7, p8, p9, j3.store, j6.store, j9.store, bind, Except.bind, pure, Except.pure]
    rfl
  refine ⟨⟨fun q => ?_, fun q => ?_⟩, ?_⟩
  · have fit : ∀ a, ListFits (sh a) (w.1 a) ∧ ListFits (sh a) (w.2 a) := by
      unfold Shapes.poynting at q
      simp only [Option.getD_some] at q
      obtain ⟨ex, q1, q⟩ := bind_inv q
      obtain ⟨ey, q2, q⟩ := bind_inv q
      obtain ⟨ez, q3, q⟩ := bind_inv q
      obtain ⟨hx, q4, q⟩ := bind_inv q
      obtain ⟨hy, q5, q⟩ := bind_inv q
      obtain ⟨hz, q6, q⟩ := bind_inv q
      obtain ⟨a1, p1, q⟩ := bind_inv q
      obtain ⟨a2, p2, q⟩ := bind_inv q
      obtain ⟨a3, p3, q⟩ := bind_inv q
      obtain ⟨s0, t0, q⟩ := bind_inv q
      obtain ⟨b1, p4, q⟩ := bind_inv q
      obtain ⟨b2, p5, q⟩ := bind_inv q
      obtain ⟨b3, p6, q⟩ := bind_inv q
      obtain ⟨s1, t1, q⟩ := bind_inv q
      intro a
      fin_cases a
      · exact ⟨widths_sub _ _ ((bin_inv q1 0).2.trans ((bin_inv p5 0).1.trans ((bin_inv p6 0).2.trans (store_inv t1 0)))),
          widths_sub _ _ ((bin_inv q4 0).2.trans ((bin_inv p4 0).2.trans ((bin_inv p6 0).1.trans (store_inv t1 0))))⟩
      · exact ⟨widths_sub _ _ ((bin_inv q2 1).2.trans ((bin_inv p1 1).1.trans ((bin_inv p3 1).1.trans (store_inv t0 1)))),
          widths_sub _ _ ((bin_inv q5 1).2.trans ((bin_inv p2 1).2.trans ((bin_inv p3 1).2.trans (store_inv t0 1))))⟩
      · exact ⟨widths_sub _ _ ((bin_inv q3 2).2.trans ((bin_inv p2 2).1.trans ((bin_inv p3 2).2.trans (store_inv t0 2)))),
          widths_sub _ _ ((bin_inv q6 2).2.trans ((bin_inv p1 2).2.trans ((bin_inv p3 2).1.trans (store_inv t0 2))))⟩
    exact ⟨fit, (Except.ok.inj ((ok w fit).symm.trans q)).symm⟩
  · rw [q.2]
    exact ok w q.1
  · have := ok (fun _ => [1], fun _ => [1]) fun a => ⟨Or.inr rfl, Or.inr rfl⟩
    refine Eq.trans ?_ (this.trans ?_)
    · rfl
    · congr 1

/-- The other energy functions return whatever broadcasting gives. Lists that fit: the energy on the grid, with the widths meant. -/
theorem energyJ_is (j e : VField sh K) (w v : Fin 3 → List K) (hw : ∀ a, ListFits (sh a) (w a)) :
    ∃ C, Shapes.deltaEnergyJ j e (some (w, v)) = .ok C ∧ Is C (Fdtd.deltaEnergyJ j e (some (meant sh w, meant sh v))) := by
  obtain ⟨A, q1, i1⟩ := (is_ofArr fun x : Idx sh => ∑ c, j c x * e c x).widths (op := (· * ·)) w 0 (hw 0)
  obtain ⟨B, q2, i2⟩ := i1.widths (op := (· * ·)) w 1 (hw 1)
  obtain ⟨C, q3, i3⟩ := i2.widths (op := (· * ·)) w 2 (hw 2)
  refine ⟨C, ?_, i3⟩
  unfold Shapes.deltaEnergyJ
  simp only [Option.getD_some, q1, q2, q3, bind, Except.bind]

/-- **C184 (partial).** `delta_energy_j` returns an array of the shape of the grid exactly if the E lists fit, and then the energy with the widths meant. Missing: it does
not always raise otherwise. Along an axis with one cell it accepts any number of widths and returns that many copies of the cell, each with its own width. -/
theorem C184_energy_partial (j e : VField sh K) (w v : Fin 3 → List K) :
    ((∃ C, Shapes.deltaEnergyJ j e (some (w, v)) = .ok C ∧ C.shape = sh) ↔ ∀ a, ListFits (sh a) (w a)) ∧
    ((∀ a, ListFits (sh a) (w a)) → ∃ C, Shapes.deltaEnergyJ j e (some (w, v)) = .ok C ∧ C.shape = sh ∧
      ∀ x : Idx sh, C.val (fun a => x a) = Fdtd.deltaEnergyJ j e (some (meant sh w, meant sh v)) x) ∧
    ((∃ C, Shapes.deltaEnergyJ j e (some (w, v)) = .ok C) ↔ ∀ a, ListFits (sh a) (w a) ∨ sh a = 1) := by
  have two : (∀ a, ListFits (sh a) (w a)) → ∃ C, Shapes.deltaEnergyJ j e (some (w, v)) = .ok C ∧ C.shape = sh ∧
      ∀ x : Idx sh, C.val (fun a => x a) = Fdtd.deltaEnergyJ j e (some (meant sh w, meant sh v)) x := fun hw => by
    obtain ⟨C, h1, h2⟩ := energyJ_is j e w v hw
    exact ⟨C, h1, h2.1, h2.2⟩
  refine ⟨⟨?_, fun hw => ?_⟩, two, ⟨?_, fun hw => ?_⟩⟩
  · rintro ⟨C, h, hs⟩ a
    unfold Shapes.deltaEnergyJ at h
    simp only [Option.getD_some] at h
    obtain ⟨A, q1, h⟩ := bind_inv h
    obtain ⟨B, q2, q3⟩ := bind_inv h
    have hs' := congrFun hs
    fin_cases a
    · exact widths_sub _ _ ((bin_inv q1 0).2.trans ((bin_inv q2 0).1.trans ((bin_inv q3 0).1.trans (Or.inr (hs' 0)))))
    · exact widths_sub _ _ ((bin_inv q2 1).2.trans ((bin_inv q3 1).1.trans (Or.inr (hs' 1))))
    · exact widths_sub _ _ ((bin_inv q3 2).2.trans (Or.inr (hs' 2)))
  · obtain ⟨C, h1, h2, -⟩ := two hw
    exact ⟨C, h1, h2⟩
  · rintro ⟨C, h⟩ a
    unfold Shapes.deltaEnergyJ at h
    simp only [Option.getD_some] at h
    obtain ⟨A, q1, h⟩ := bind_inv h
    obtain ⟨B, q2, q3⟩ := bind_inv h
    unfold bin at q1 q2 q3
    split_ifs at q1 q2 q3 with c1 c2 c3
    cases q1
    cases q2
    have k1 := c1 a
    have k2 := c2 a
    have k3 := c3 a
    simp only [ofArr, widths] at k1 k2 k3
    unfold ListFits
    fin_cases a <;> simp at k1 k2 k3 ⊢ <;> (try split_ifs at k2 k3) <;> omega
  · have g := hw
    unfold ListFits at g
    obtain ⟨A, q1, s1⟩ := bin_ok (· * ·) (A := ofArr fun x : Idx sh => ∑ c, j c x * e c x) (B := widths (w 0) 0) fun a => by
      have := g a
      simp only [ofArr, widths]
      fin_cases a <;> simp at this ⊢ <;> omega
    obtain ⟨B, q2, s2⟩ := bin_ok (· * ·) (A := A) (B := widths (w 1) 1) fun a => by
      have := g a
      simp only [s1, ofArr, widths]
      fin_cases a <;> simp at this ⊢ <;> (try split_ifs) <;> omega
    obtain ⟨C, q3, -⟩ := bin_ok (· * ·) (A := B) (B := widths (w 2) 2) fun a => by
      have := g a
      simp only [s2, s1, ofArr, widths]
      fin_cases a <;> simp at this ⊢ <;> (try split_ifs) <;> omega
    refine ⟨C, ?_⟩
    unfold Shapes.deltaEnergyJ
    simp only [Option.getD_some, q1, q2, q3, bind, Except.bind]

/-! ## Energies with media -/

theorem bcastRev_fits : ∀ {t s r : List ℕ}, Bloch.bcastRev t s = some r → List.Forall₂ Sub1 r t → r = t
  | [], [], r, h, _ => by simp [Bloch.bcastRev] at h; exact h
  | [], m :: s, r, h, q => by cases q; rfl
  | n :: t, [], r, h, _ => by simp [Bloch.bcastRev] at h; exact h.symm
  | n :: t, m :: s, r, h, q => by
    simp only [Bloch.bcastRev] at h
    cases hb : Bloch.bcastRev t s with
    | none => simp [hb] at h
    | some r' =>
      simp only [hb] at h
      split_ifs at h with h1 h2 h3 <;> cases h <;> cases q with
      | cons q1 q2 =>
        rw [bcastRev_fits hb q2]
        try (rcases q1 with q1 | q1 <;> simp_all)

theorem bcastRev_tail {n q : ℕ} {t s r : List ℕ} (h : Bloch.bcastRev (n :: t) s = some (q :: r)) : (∃ s', Bloch.bcastRev t s' = some r) ∧ (q = n ∨ n = 1) := by
  cases s with
  | nil =>
    simp only [Bloch.bcastRev, Option.some.injEq, List.cons.injEq] at h
    exact ⟨⟨[], by rw [← h.2]; cases t <;> rfl⟩, Or.inl h.1.symm⟩
  | cons m s =>
    simp only [Bloch.bcastRev] at h
    cases hb : Bloch.bcastRev t s with
    | none => simp [hb] at h
    | some r' =>
      simp only [hb] at h
      split_ifs at h with h1 h2 h3 <;> cases h
      · exact ⟨⟨s, hb⟩, Or.inl rfl⟩
      · exact ⟨⟨s, hb⟩, Or.inr h2⟩
      · exact ⟨⟨s, hb⟩, Or.inl rfl⟩

theorem sumMedium_is (f : VField sh K) (m : Medium K) (hm : CanRepeat m.rshape [sh 2, sh 1, sh 0, 3]) :
    ∃ C, sumMedium f m = .ok C ∧ Is C fun x : Idx sh => ∑ c, f c x * meantMedium sh m c x := by
  have hb := (bcastRev_canRepeat _ _).2 hm
  refine ⟨_, by unfold sumMedium; rw [hb], ?_, fun x => ?_⟩
  · funext a; fin_cases a <;> rfl
  · dsimp only
    refine Finset.sum_congr rfl fun c _ => ?_
    rw [(is_ofArr (f c)).at x]
    rfl

theorem sumMedium_inv {f : VField sh K} {m : Medium K} {C : A3 K} (h : sumMedium f m = .ok C) (hs : ∀ a, Sub1 (C.shape a) (sh a)) : CanRepeat m.rshape [sh 2, sh 1, sh 0, 3] := by
  rw [← bcastRev_canRepeat]
  unfold sumMedium at h
  split at h
  · cases h
  · rename_i r2 r1 r0 k hb
    cases h
    have hk : k = 3 := by
      obtain ⟨⟨_, t1⟩, -⟩ := bcastRev_tail hb
      obtain ⟨⟨_, t2⟩, -⟩ := bcastRev_tail t1
      obtain ⟨⟨_, t3⟩, -⟩ := bcastRev_tail t2
      simpa using (bcastRev_tail t3).2
    subst hk
    have := bcastRev_fits hb (.cons (hs 2) (.cons (hs 1) (.cons (hs 0) (.cons (Or.inr rfl) .nil))))
    rw [hb, this]
  · cases h

/-- **C184 (partial).** `dxmul`, and with it the stored energies and their changes, return an array of the shape of the grid exactly if all lists fit and both media can be repeated to the shape of the field,
and then the energies with the widths and the media meant. Missing: it does not always raise otherwise. On a grid with one cell along `z`, media with two cells there give an array with two cells. (Media of at most four axes.) -/
theorem C184_dxmul_partial (ee hh : VField sh K) (epsilon mu : Medium K) (w : (Fin 3 → List K) × (Fin 3 → List K)) :
    ((∃ C, Shapes.dxmul ee hh (some epsilon) (some mu) (some w) = .ok C ∧ C.shape = sh) ↔
      (∀ a, ListFits (sh a) (w.1 a) ∧ ListFits (sh a) (w.2 a)) ∧ CanRepeat epsilon.rshape [sh 2, sh 1, sh 0, 3] ∧ CanRepeat mu.rshape [sh 2, sh 1, sh 0, 3]) ∧
    ∀ C, Shapes.dxmul ee hh (some epsilon) (some mu) (some w) = .ok C → C.shape = sh →
      ∀ x : Idx sh, C.val (fun a => x a) = Fdtd.dxmul ee hh (some (meantMedium sh epsilon)) (some (meantMedium sh mu)) (some (meant sh w.1, meant sh w.2)) x := by
  have fwd : ∀ C, Shapes.dxmul ee hh (some epsilon) (some mu) (some w) = .ok C → C.shape = sh →
      (∀ a, ListFits (sh a) (w.1 a) ∧ ListFits (sh a) (w.2 a)) ∧ CanRepeat epsilon.rshape [sh 2, sh 1, sh 0, 3] ∧ CanRepeat mu.rshape [sh 2, sh 1, sh 0, 3] := by
    intro C h hs
    unfold Shapes.dxmul at h
    simp only [Option.getD_some] at h
    obtain ⟨a0, p0, h⟩ := bind_inv h
    obtain ⟨a1, p1, h⟩ := bind_inv h
    obtain ⟨a2, p2, h⟩ := bind_inv h
    obtain ⟨a3, p3, h⟩ := bind_inv h
    obtain ⟨b0, q0, h⟩ := bind_inv h
    obtain ⟨b1, q1, h⟩ := bind_inv h
    obtain ⟨b2, q2, h⟩ := bind_inv h
    obtain ⟨b3, q3, h⟩ := bind_inv h
    have hC : ∀ a, Sub1 (C.shape a) (sh a) := fun a => Or.inr (congrFun hs a)
    have e3 := fun a => (bin_inv h a).1.trans (hC a)
    have f3 := fun a => (bin_inv h a).2.trans (hC a)
    have e2 := fun a => (bin_inv p3 a).1.trans (e3 a)
    have f2 := fun a => (bin_inv q3 a).1.trans (f3 a)
    have e1 := fun a => (bin_inv p2 a).1.trans (e2 a)
    have f1 := fun a => (bin_inv q2 a).1.trans (f2 a)
    have e0 := fun a => (bin_inv p1 a).1.trans (e1 a)
    have f0 := fun a => (bin_inv q1 a).1.trans (f1 a)
    refine ⟨fun a => ?_, sumMedium_inv p0 e0, sumMedium_inv q0 f0⟩
    fin_cases a
    · exact ⟨widths_sub _ _ ((bin_inv p1 0).2.trans (e1 0)), widths_sub _ _ ((bin_inv q1 0).2.trans (f1 0))⟩
    · exact ⟨widths_sub _ _ ((bin_inv p2 1).2.trans (e2 1)), widths_sub _ _ ((bin_inv q2 1).2.trans (f2 1))⟩
    · exact ⟨widths_sub _ _ ((bin_inv p3 2).2.trans (e3 2)), widths_sub _ _ ((bin_inv q3 2).2.trans (f3 2))⟩
  have ok : (∀ a, ListFits (sh a) (w.1 a) ∧ ListFits (sh a) (w.2 a)) ∧ CanRepeat epsilon.rshape [sh 2, sh 1, sh 0, 3] ∧ CanRepeat mu.rshape [sh 2, sh 1, sh 0, 3] →
      ∃ C, Shapes.dxmul ee hh (some epsilon) (some mu) (some w) = .ok C
        ∧ Is C (Fdtd.dxmul ee hh (some (meantMedium sh epsilon)) (some (meantMedium sh mu)) (some (meant sh w.1, meant sh w.2))) := by
    rintro ⟨hw, he, hm⟩
    obtain ⟨a0, p0, i0⟩ := sumMedium_is ee epsilon he
    obtain ⟨a1, p1, i1⟩ := i0.widths (op := (· * ·)) w.1 0 (hw 0).1
    obtain ⟨a2, p2, i2⟩ := i1.widths (op := (· * ·)) w.1 1 (hw 1).1
    obtain ⟨a3, p3, i3⟩ := i2.widths (op := (· * ·)) w.1 2 (hw 2).1
    obtain ⟨b0, q0, j0⟩ := sumMedium_is hh mu hm
    obtain ⟨b1, q1, j1⟩ := j0.widths (op := (· * ·)) w.2 0 (hw 0).2
    obtain ⟨b2, q2, j2⟩ := j1.widths (op := (· * ·)) w.2 1 (hw 1).2
    obtain ⟨b3, q3, j3⟩ := j2.widths (op := (· * ·)) w.2 2 (hw 2).2
    obtain ⟨C, hC, iC⟩ := i3.bin (op := (· + ·)) j3
    refine ⟨C, ?_, iC⟩
    unfold Shapes.dxmul
    simp only [Option.getD_some, p0, p1, p2, p3, q0, q1, q2, q3, hC, bind, Except.bind]
  refine ⟨⟨fun ⟨C, h, hs⟩ => fwd C h hs, fun h => ?_⟩, fun C h hs x => ?_⟩
  · obtain ⟨C, h1, h2⟩ := ok h
    exact ⟨C, h1, h2.1⟩
  · obtain ⟨D, h1, h2⟩ := ok (fwd C h hs)
    rw [h] at h1
    cases h1
    exact h2.2 x

/-- The media and widths that are left out are ones. -/
theorem C184_dxmul_default (ee hh : VField sh K) :
    ∃ C, Shapes.dxmul ee hh none none none = .ok C ∧ C.shape = sh ∧ ∀ x : Idx sh, C.val (fun a => x a) = Fdtd.dxmul ee hh none none none x := by
  have h := C184_dxmul_partial ee hh ⟨[], fun _ => 1⟩ ⟨[], fun _ => 1⟩ (fun _ => [1], fun _ => [1])
  obtain ⟨C, h1, h2⟩ := h.1.2 ⟨fun a => ⟨Or.inr rfl, Or.inr rfl⟩, trivial, trivial⟩
  refine ⟨C, h1, h2, fun x => (h.2 C h1 h2 x).trans ?_⟩
  rfl

/-- The witness: one cell, `epsilon` of shape `(3, 1, 1, 2)`; the result has two cells instead of an exception. -/
theorem C184_dxmul_grows_partial (ee hh : VField (fun _ => 1) K) (v : List ℕ → K) :
    ∃ C, Shapes.dxmul ee hh (some ⟨[2, 1, 1, 3], v⟩) none none = .ok C ∧ C.shape 2 = 2 := by
  refine ⟨_, rfl, rfl⟩

/-! ## Matrices -/

/-- **C184 (partial).** The matrix form of the curl compares only the numbers of cells. With one width per cell and axis it is the same curl as the function (C01). Missing: lists in
the wrong order are accepted as long as the product of their lengths is right, and one width for all cells is refused; the function takes the second and refuses lists that do not fit. -/
theorem C184_sparse_partial (w : Fin 3 → List K) (e : VField sh K) :
    ((∃ r, sparseCurlForward w e = .ok r) ↔ ∏ a, (w a).length = ∏ a, sh a) ∧
    ∀ hw : ∀ a, (w a).length = sh a, ∃ r, sparseCurlForward w e = .ok r ∧
      ∀ c (x : Idx sh), unvecField r c (fun a => Fin.cast (hw a).symm (x a)) = Functional.curlForward (some (meant sh w)) e c x := by
  obtain ⟨M, hM, -⟩ := C01_curl_forward (fun a (i : Fin (w a).length) => (w a)[i]) fun _ _ => (0 : K)
  refine ⟨?_, fun hw => ?_⟩
  · unfold sparseCurlForward
    rw [hM]
    dsimp only [bind, Except.bind]
    split_ifs with q
    · exact ⟨fun _ => Nat.eq_of_mul_eq_mul_left (by norm_num) q, fun _ => ⟨_, rfl⟩⟩
    · refine ⟨fun ⟨r, h⟩ => (by cases h), fun h => absurd (congrArg (3 * ·) h) q⟩
  · obtain rfl : sh = fun a => (w a).length := funext fun a => (hw a).symm
    obtain ⟨M, hM, hv⟩ := C01_curl_forward (fun a (i : Fin (w a).length) => (w a)[i]) e
    refine ⟨M.mulVec (vecField e), ?_, fun c x => ?_⟩
    · unfold sparseCurlForward
      rw [hM]
      dsimp only [bind, Except.bind]
      rw [dif_pos rfl]
      rfl
    · have : (fun a (i : Fin (w a).length) => (w a)[i]) = meant (fun a => (w a).length) w := by
        funext a i
        have hi := i.isLt
        unfold meant
        split_ifs with h1
        · rw [List.getD_eq_getElem _ _ (by omega)]
          have h0 : (i : ℕ) = 0 := by omega
          simp [h0]
        · rw [List.getD_eq_getElem _ _ hi]
          rfl
      rw [← this, ← hv]
      rfl

/-! ## The hypotheses can be met, and the exceptions occur -/

/-- Lists that fit, among them one width for all. -/
example : ∀ a, ListFits ((![2, 3, 1] : Fin 3 → ℕ) a) ((![[1, 2], [1], [5]] : Fin 3 → List ℚ) a) := by
  intro a
  fin_cases a <;> simp [ListFits]

/-- Exchanged lists: the function raises, the matrix form does not. -/
example (e : VField ![2, 3, 1] ℚ) : (∃ r, sparseCurlForward ![[1, 2, 3], [1, 2], [1]] e = .ok r) ∧ ¬ ∃ r, Shapes.curlForward ![[1, 2, 3], [1, 2], [1]] e = .ok r := by
  refine ⟨(C184_sparse_partial _ _).1.2 (by simp [Fin.prod_univ_succ]), ?_⟩
  rintro ⟨r, h⟩
  have := ((C184_curl _ _ _).1.1 h).1 0
  simp [ListFits] at this

/-- One width for all: the function takes it, the matrix form does not. -/
example (e : VField ![2, 3, 1] ℚ) : (¬ ∃ r, sparseCurlForward ![[1], [1], [1]] e = .ok r) ∧ ∃ r, Shapes.curlForward ![[1], [1], [1]] e = .ok r := by
  refine ⟨fun h => ?_, _, (C184_curl _ _ _).1.2 ⟨fun a => ?_, rfl⟩⟩
  · have := (C184_sparse_partial _ _).1.1 h
    simp [Fin.prod_univ_succ] at this
  · fin_cases a <;> simp [ListFits]

/-- A flat grid and two widths across it: no exception from the energy, two cells instead of one. -/
example (j e : VField ![2, 3, 1] ℚ) (v : Fin 3 → List ℚ) : (∃ C, Shapes.deltaEnergyJ j e (some (![[1, 2], [1, 2, 3], [1, 1]], v)) = .ok C) ∧
    ¬ ∃ C, Shapes.deltaEnergyJ j e (some (![[1, 2], [1, 2, 3], [1, 1]], v)) = .ok C ∧ C.shape = ![2, 3, 1] := by
  refine ⟨(C184_energy_partial j e _ v).2.2.2 fun a => ?_, fun h => ?_⟩
  · fin_cases a <;> simp [ListFits]
  · have := (C184_energy_partial j e _ v).1.1 h 2
    simp [ListFits] at this

/-- A medium with three layers where three components may have been meant. -/
example : ∃ m : Medium ℚ, m.rshape = [3] ∧ CanRepeat m.rshape [3, 4, 4, 3] ∧ ∃ x y : Idx ![4, 4, 3], meantMedium ![4, 4, 3] m 0 x ≠ meantMedium ![4, 4, 3] m 0 y :=
  ⟨⟨[3], fun y => y.headD 0⟩, rfl, by simp [CanRepeat], fun a => ⟨0, by fin_cases a <;> simp⟩, fun a => ⟨if a = 2 then 1 else 0, by fin_cases a <;> simp⟩, by simp [meantMedium, pick]⟩

end Meanas.Props
