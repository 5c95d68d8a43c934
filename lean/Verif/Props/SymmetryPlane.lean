/-
C169: symmetry planes. A simulation of one half of a mirror-symmetric structure, with a wall of perfect electric (magnetic) conductor given to
meanas/fdfd/operators.py:40-96 (`e_full`) by its masks `pec`, `pmc` at the mirror, is the simulation of the whole structure on fields that are odd (even).
-/
import Verif.Props.Symmetry
import Verif.Props.Resonances

namespace Meanas.Props

open Matrix Complex Fdfd Spec

variable {sh sh' : Fin 3 → ℕ}

/-! ### Part of a grid -/

/-- A grid of shape `sh` is the part of a grid of shape `sh'` below index `sh a` along the axis `a`. -/
structure PartOf (a : Fin 3) (sh sh' : Fin 3 → ℕ) : Prop where
  le : sh a ≤ sh' a
  other : ∀ b, b ≠ a → sh' b = sh b

namespace PartOf

variable {a : Fin 3} (h : PartOf a sh sh')

include h in
theorem le_all (b : Fin 3) : sh b ≤ sh' b := by
  by_cases hb : b = a
  · subst hb; exact h.le
  · exact (h.other b hb).ge

/-- The cell of the large grid with the same indices. -/
def up (x : Idx sh) : Idx sh' := fun b => ⟨x b, lt_of_lt_of_le (x b).2 (h.le_all b)⟩

theorem up_val (x : Idx sh) (b : Fin 3) : ((h.up x b : Fin (sh' b)) : ℕ) = (x b : ℕ) := rfl

/-- The part of a function of component and cell. -/
def res {A : Type*} (v : Pos sh' → A) : Pos sh → A := fun p => v (p.1, h.up p.2)

/-- The part of the cell widths. -/
def resDx (d : Dx sh') : Dx sh := (fun b i => d.1 b ⟨i, lt_of_lt_of_le i.2 (h.le_all b)⟩, fun b i => d.2 b ⟨i, lt_of_lt_of_le i.2 (h.le_all b)⟩)

/-- The conductors of the part, and a wall of perfect electric conductor: all components of E along the mirror, in the first plane. -/
def pecWall (m : Option (Pos sh' → Bool)) : Option (Pos sh → Bool) :=
  some fun p => (m.elim false fun f => f (p.1, h.up p.2)) || (decide (p.1 ≠ a) && decide ((p.2 a : ℕ) = 0))

/-- The magnetic conductors of the part, and a wall of perfect magnetic conductor: all components of H along the mirror, in the last plane. -/
def pmcWall (m : Option (Pos sh' → Bool)) : Option (Pos sh → Bool) :=
  some fun p => (m.elim false fun f => f (p.1, h.up p.2)) || (decide (p.1 ≠ a) && decide ((p.2 a : ℕ) + 1 = sh a))

theorem openAt_res (m : Option (Pos sh' → Bool)) (p : Pos sh) : openAt (m.map h.res) p = openAt m (p.1, h.up p.2) := by
  cases m <;> rfl

theorem muV_res (m : Option (Vec sh')) (p : Pos sh) : muV (m.map h.res) p = muV m (p.1, h.up p.2) := by
  cases m <;> rfl

theorem openAt_pecWall (m : Option (Pos sh' → Bool)) (p : Pos sh) :
    openAt (h.pecWall m) p = if p.1 ≠ a ∧ (p.2 a : ℕ) = 0 then 0 else openAt m (p.1, h.up p.2) := by
  by_cases hp : p.1 ≠ a ∧ (p.2 a : ℕ) = 0
  · rw [if_pos hp]; simp [openAt, pecWall, hp.1, hp.2]
  · rw [if_neg hp]
    have : (decide (p.1 ≠ a) && decide ((p.2 a : ℕ) = 0)) = false := by
      rw [Bool.and_eq_false_iff, decide_eq_false_iff_not, decide_eq_false_iff_not]; tauto
    cases m <;> simp only [openAt, pecWall, this, Bool.or_false, Option.elim_none, Option.elim_some]
    rfl

theorem openAt_pmcWall (m : Option (Pos sh' → Bool)) (p : Pos sh) :
    openAt (h.pmcWall m) p = if p.1 ≠ a ∧ (p.2 a : ℕ) + 1 = sh a then 0 else openAt m (p.1, h.up p.2) := by
  by_cases hp : p.1 ≠ a ∧ (p.2 a : ℕ) + 1 = sh a
  · rw [if_pos hp]; simp [openAt, pmcWall, hp.1, hp.2]
  · rw [if_neg hp]
    have : (decide (p.1 ≠ a) && decide ((p.2 a : ℕ) + 1 = sh a)) = false := by
      rw [Bool.and_eq_false_iff, decide_eq_false_iff_not, decide_eq_false_iff_not]; tauto
    cases m <;> simp only [openAt, pmcWall, this, Bool.or_false, Option.elim_none, Option.elim_some]
    rfl

theorem wrap_up_val {n : ℕ} (i : Fin n) : ((wrap i 1 : Fin n) : ℕ) = if (i : ℕ) + 1 = n then 0 else (i : ℕ) + 1 := by
  have h1 := wrap_val i 1
  have h2 : (i : ℕ) < n := i.2
  split_ifs with h
  · have : ((i : ℤ) + 1) = n := by exact_mod_cast h
    rw [this, Int.emod_self] at h1; exact_mod_cast h1
  · rw [Int.emod_eq_of_lt (by omega) (by omega)] at h1; exact_mod_cast h1

theorem wrap_down_val {n : ℕ} (i : Fin n) : ((wrap i (-1) : Fin n) : ℕ) = if (i : ℕ) = 0 then n - 1 else (i : ℕ) - 1 := by
  have h1 := wrap_val i (-1)
  have h2 : (i : ℕ) < n := i.2
  split_ifs with h
  · have h3 : ((i : ℤ) + -1) % n = n - 1 := by
      rw [h, Nat.cast_zero, zero_add, show (-1 : ℤ) = (n - 1 : ℤ) + n * (-1) by ring, Int.add_mul_emod_self_left, Int.emod_eq_of_lt (by omega) (by omega)]
    rw [h3] at h1; omega
  · rw [Int.emod_eq_of_lt (by omega) (by omega)] at h1; omega

theorem up_shift_up (d : Fin 3) (x : Idx sh) (hx : d = a → (x a : ℕ) + 1 ≠ sh a) : h.up (shiftIdx d 1 x) = shiftIdx d 1 (h.up x) := by
  funext b
  apply Fin.ext
  rw [up_val]
  by_cases hb : b = d
  · subst hb
    rw [shiftIdx_same, shiftIdx_same, wrap_up_val, wrap_up_val, up_val]
    by_cases ha : b = a
    · subst ha
      have h1 := hx rfl
      have h2 := (x b).2
      have h3 := h.le
      rw [if_neg h1, if_neg (by omega)]
    · rw [h.other b ha]
  · rw [shiftIdx_of_ne hb, shiftIdx_of_ne hb, up_val]

theorem up_shift_down (d : Fin 3) (x : Idx sh) (hx : d = a → (x a : ℕ) ≠ 0) : h.up (shiftIdx d (-1) x) = shiftIdx d (-1) (h.up x) := by
  funext b
  apply Fin.ext
  rw [up_val]
  by_cases hb : b = d
  · subst hb
    rw [shiftIdx_same, shiftIdx_same, wrap_down_val, wrap_down_val, up_val]
    by_cases ha : b = a
    · subst ha
      rw [if_neg (hx rfl), if_neg (hx rfl)]
    · rw [h.other b ha]
  · rw [shiftIdx_of_ne hb, shiftIdx_of_ne hb, up_val]

/-- Curl of E, away from the last plane or when the next planes of both grids hold the same field. -/
theorem cE_up (d : Dx sh') (u : Vec sh) (u' : Vec sh') (hu : ∀ p, u p = u' (p.1, h.up p.2)) (p : Pos sh)
    (hb : ∀ c, c ≠ a → c ≠ p.1 → p.1 ≠ a → (p.2 a : ℕ) + 1 = sh a → u (c, shiftIdx a 1 p.2) = u' (c, shiftIdx a 1 (h.up p.2))) :
    cE (h.resDx d) u p = cE d u' (p.1, h.up p.2) := by
  obtain ⟨c, x⟩ := p
  show Functional.curlForward (some (h.resDx d).1) (unS u) c x = Functional.curlForward (some d.1) (unS u') c (h.up x)
  rw [curlForward_lc, curlForward_lc]
  refine Finset.sum_congr rfl fun b _ => Finset.sum_congr rfl fun b' _ => ?_
  by_cases hl : lc c b b' = 0
  · rw [hl]; simp
  obtain ⟨n1, n2, n3⟩ := lc_ne hl
  congr 1
  rw [derivForward_eq, derivForward_eq]
  simp only [wOf_some]
  have e1 : unS u b' x = unS u' b' (h.up x) := hu (b', x)
  have e2 : unS u b' (shiftIdx b 1 x) = unS u' b' (shiftIdx b 1 (h.up x)) := by
    by_cases hx : b = a ∧ (x a : ℕ) + 1 = sh a
    · obtain ⟨rfl, hx⟩ := hx
      exact hb b' n1.symm n3 n2.symm hx
    · rw [← h.up_shift_up b x fun e => fun e' => hx ⟨e, e'⟩]
      exact hu (b', shiftIdx b 1 x)
  rw [e1, e2]
  rfl

/-- Curl of H, away from the first plane or when the planes before both grids hold the same field. -/
theorem cH_up (d : Dx sh') (u : Vec sh) (u' : Vec sh') (hu : ∀ p, u p = u' (p.1, h.up p.2)) (p : Pos sh)
    (hb : ∀ c, c ≠ a → c ≠ p.1 → p.1 ≠ a → (p.2 a : ℕ) = 0 → u (c, shiftIdx a (-1) p.2) = u' (c, shiftIdx a (-1) (h.up p.2))) :
    cH (h.resDx d) u p = cH d u' (p.1, h.up p.2) := by
  obtain ⟨c, x⟩ := p
  show Functional.curlBack (some (h.resDx d).2) (unS u) c x = Functional.curlBack (some d.2) (unS u') c (h.up x)
  rw [curlBack_lc, curlBack_lc]
  refine Finset.sum_congr rfl fun b _ => Finset.sum_congr rfl fun b' _ => ?_
  by_cases hl : lc c b b' = 0
  · rw [hl]; simp
  obtain ⟨n1, n2, n3⟩ := lc_ne hl
  congr 1
  rw [derivBack_eq, derivBack_eq]
  simp only [wOf_some]
  have e1 : unS u b' x = unS u' b' (h.up x) := hu (b', x)
  have e2 : unS u b' (shiftIdx b (-1) x) = unS u' b' (shiftIdx b (-1) (h.up x)) := by
    by_cases hx : b = a ∧ (x a : ℕ) = 0
    · obtain ⟨rfl, hx⟩ := hx
      exact hb b' n1.symm n3 n2.symm hx
    · rw [← h.up_shift_down b x fun e => fun e' => hx ⟨e, e'⟩]
      exact hu (b', shiftIdx b (-1) x)
  rw [e1, e2]
  rfl

theorem shift_first (x : Idx sh) (hx : (x a : ℕ) + 1 = sh a) : (shiftIdx a 1 x a : ℕ) = 0 := by
  rw [shiftIdx_same, wrap_up_val, if_pos hx]

theorem shift_last (x : Idx sh) (hx : (x a : ℕ) = 0) : (shiftIdx a (-1) x a : ℕ) + 1 = sh a := by
  have := (x a).2
  rw [shiftIdx_same, wrap_down_val, if_pos hx]; omega

end PartOf

open PartOf

/-- The components of E along the walls of the part vanish on both of them: at index 0 and at index `sh a` of the large grid (which is index 0 again if
the part is everything). -/
def ZeroOnWalls (a : Fin 3) (n : ℕ) (E : Vec sh') : Prop :=
  ∀ c y, c ≠ a → ((y a : ℕ) = 0 ∨ ((y a : ℕ) = n % sh' a)) → E (c, y) = 0

/-- C169, electric walls: on fields whose components along two planes vanish in them, the wave operator of the whole grid, restricted to the part between the
planes, is the wave operator of the part with a wall of perfect electric conductor. Also the magnetic field is the one computed in the part. -/
theorem C169_pec_part {a : Fin 3} (h : PartOf a sh sh') (ω : ℂ) (d : Dx sh') (eps : Vec sh') (mu : Option (Vec sh')) (pec pmc : Option (Pos sh' → Bool))
    (E : Vec sh') (hE : ZeroOnWalls a (sh a) E) :
    (∀ p : Pos sh, ¬ (p.1 ≠ a ∧ (p.2 a : ℕ) = 0) →
      (eFull ω (h.resDx d) (h.res eps) (mu.map h.res) (h.pecWall pec) (pmc.map h.res) *ᵥ h.res E) p = h.res (eFull ω d eps mu pec pmc *ᵥ E) p) ∧
    (∀ p : Pos sh, p.1 ≠ a → (p.2 a : ℕ) = 0 →
      (eFull ω (h.resDx d) (h.res eps) (mu.map h.res) (h.pecWall pec) (pmc.map h.res) *ᵥ h.res E) p = 0) ∧
    Fdfd.e2h ω (h.resDx d) (mu.map h.res) (pmc.map h.res) *ᵥ h.res E = h.res (Fdfd.e2h ω d mu pmc *ᵥ E) := by
  have hnext : ∀ x : Idx sh, (x a : ℕ) + 1 = sh a → ((shiftIdx a 1 (h.up x) a : Fin (sh' a)) : ℕ) = sh a % sh' a := by
    intro x hx
    rw [shiftIdx_same, wrap_up_val, up_val, hx]
    split_ifs with e
    · rw [e, Nat.mod_self]
    · rw [Nat.mod_eq_of_lt (lt_of_le_of_ne h.le e)]
  have hcE : ∀ (m : Pos sh → ℝ) (m' : Pos sh' → ℝ), (∀ p : Pos sh, (m p : ℂ) * E (p.1, h.up p.2) = m' (p.1, h.up p.2) * E (p.1, h.up p.2)) → ∀ q,
      cE (h.resDx d) (fun p => (m p : ℂ) * h.res E p) q = cE d (fun p => (m' p : ℂ) * E p) (q.1, h.up q.2) := by
    intro m m' hm q
    refine h.cE_up d _ _ (fun p => hm p) q fun c hc _ _ hx => ?_
    have z1 : h.res E (c, shiftIdx a 1 q.2) = 0 := hE c _ hc (.inl (by rw [up_val]; exact shift_first q.2 hx))
    have z2 : E (c, shiftIdx a 1 (h.up q.2)) = 0 := hE c _ hc (.inr (hnext q.2 hx))
    rw [z1, z2, mul_zero, mul_zero]
  have hmask : ∀ p : Pos sh, (openAt (h.pecWall pec) p : ℂ) * E (p.1, h.up p.2) = openAt pec (p.1, h.up p.2) * E (p.1, h.up p.2) := by
    intro p
    rw [h.openAt_pecWall]
    split_ifs with hp
    · rw [hE p.1 _ hp.1 (.inl hp.2), mul_zero, mul_zero]
    · rfl
  refine ⟨fun p hp => ?_, fun p hc hx => ?_, ?_⟩
  · show _ = (eFull ω d eps mu pec pmc *ᵥ E) (p.1, h.up p.2)
    rw [eFull_mulVec_masks, eFull_mulVec_masks, h.openAt_pecWall, if_neg hp]
    have e2 : (openAt pec (p.1, h.up p.2) : ℂ) * h.res E p = openAt pec (p.1, h.up p.2) * E (p.1, h.up p.2) := rfl
    congr 1
    congr 1
    refine h.cH_up d _ _ (fun q => ?_) p fun c _ _ hc hx => absurd ⟨hc, hx⟩ hp
    rw [h.openAt_res, h.muV_res, hcE _ _ hmask]
  · rw [eFull_mulVec_masks, h.openAt_pecWall, if_pos ⟨hc, hx⟩]; simp
  · funext q
    show _ = (Fdfd.e2h ω d mu pmc *ᵥ E) (q.1, h.up q.2)
    rw [e2h_mulVec_masks, e2h_mulVec_masks, h.openAt_res, h.muV_res]
    have := hcE (fun _ => 1) (fun _ => 1) (fun _ => rfl) q
    simp only [ofReal_one, one_mul] at this
    rw [this]

/-- C169, magnetic walls: if the components of H along two planes vanish in them, the wave operator of the whole grid, restricted to the part
between the planes, is the wave operator of the part with a wall of perfect magnetic conductor. -/
theorem C169_pmc_part {a : Fin 3} (h : PartOf a sh sh') (ω : ℂ) (hω : ω ≠ 0) (d : Dx sh') (eps : Vec sh') (mu : Option (Vec sh')) (pec pmc : Option (Pos sh' → Bool))
    (E : Vec sh') (hoff : OffPec pec E)
    (hH : ∀ c y, c ≠ a → ((y a : ℕ) + 1 = sh a ∨ (y a : ℕ) + 1 = sh' a) → (Fdfd.e2h ω d mu pmc *ᵥ E) (c, y) = 0) :
    eFull ω (h.resDx d) (h.res eps) (mu.map h.res) (pec.map h.res) (h.pmcWall pmc) *ᵥ h.res E = h.res (eFull ω d eps mu pec pmc *ᵥ E) ∧
    Fdfd.e2h ω (h.resDx d) (mu.map h.res) (h.pmcWall pmc) *ᵥ h.res E = h.res (Fdfd.e2h ω d mu pmc *ᵥ E) := by
  have hoff' := (offPec_iff pec E).1 hoff
  have hm' : (fun r => (openAt pec r : ℂ) * E r) = E := funext hoff'
  have hm : (fun r => (openAt (pec.map h.res) r : ℂ) * h.res E r) = h.res E := by
    funext r; rw [h.openAt_res]; exact hoff' _
  have hI : (-I * ω) ≠ 0 := mul_ne_zero (neg_ne_zero.2 I_ne_zero) hω
  have hZ : ∀ c y, c ≠ a → ((y a : ℕ) + 1 = sh a ∨ (y a : ℕ) + 1 = sh' a) → (openAt pmc (c, y) : ℂ) * (cE d E (c, y) / muV mu (c, y)) = 0 := by
    intro c y hc hy
    have := hH c y hc hy
    rw [e2h_mulVec_masks, div_right_comm, ← mul_div_assoc, div_eq_zero_iff] at this
    exact this.resolve_right hI
  have key : ∀ q : Pos sh, (openAt (h.pmcWall pmc) q : ℂ) * (cE (h.resDx d) (h.res E) q / muV (mu.map h.res) q)
      = openAt pmc (q.1, h.up q.2) * (cE d E (q.1, h.up q.2) / muV mu (q.1, h.up q.2)) := by
    intro q
    rw [h.openAt_pmcWall, h.muV_res]
    split_ifs with hq
    · rw [hZ q.1 _ hq.1 (.inl hq.2)]; simp
    · rw [h.cE_up d (h.res E) E (fun _ => rfl) q fun c _ _ hc hx => absurd ⟨hc, hx⟩ hq]
  constructor
  · funext p
    show _ = (eFull ω d eps mu pec pmc *ᵥ E) (p.1, h.up p.2)
    rw [eFull_mulVec_masks, eFull_mulVec_masks, hm, hm', h.openAt_res]
    congr 1
    congr 1
    refine h.cH_up d _ _ key p fun c hc _ _ hx => ?_
    rw [key]
    have hx' : ((h.up p.2) a : ℕ) = 0 := hx
    rw [hZ c _ hc (.inl (by rw [up_val]; exact shift_last p.2 hx)), hZ c _ hc (.inr (shift_last (h.up p.2) hx'))]
  · funext q
    show _ = (Fdfd.e2h ω d mu pmc *ᵥ E) (q.1, h.up q.2)
    have := key q
    rw [e2h_mulVec_masks, e2h_mulVec_masks, div_right_comm, ← mul_div_assoc, this]
    ring

/-! ### Mirrors -/

/-- Reflection of the Yee grid at position `-o / 2` of the axis `a` (in cells): samples at whole positions move from `i` to `-i - o`, those half a
cell further from `i` to `-i - o - 1`. `o = 0` is a mirror through the samples of E along it, `o = 1` one through the samples of H along it. -/
def mirAt (sh : Fin 3 → ℕ) (o : ℤ) (a : Fin 3) : FieldMap sh sh ℂ where
  comp := id
  sE := fun c => if c = a then -1 else 1
  sH := fun c => if c = a then 1 else -1
  iE := fun c => mirIdx a (if c = a then o + 1 else o)
  iH := fun c => mirIdx a (if c = a then o else o + 1)

/-- The cell widths are symmetric. -/
def MirrorDx (o : ℤ) (a : Fin 3) (d : Dx sh) : Prop := (∀ i, d.1 a (mir (o + 1) i) = d.1 a i) ∧ ∀ i, d.2 a (mir o i) = d.2 a i

theorem mirAt_respects (o : ℤ) (a : Fin 3) (d : Dx sh) (hd : MirrorDx o a d) : (mirAt sh o a).Respects d d := by
  constructor
  · intro F
    funext c x
    show _ = (if c = a then 1 else -1) * Functional.curlForward (some d.1) F c (mirIdx a (if c = a then o else o + 1) x)
    rw [curlForward_lc, curlForward_lc, Finset.mul_sum]
    refine Finset.sum_congr rfl fun b _ => ?_
    rw [Finset.mul_sum]
    refine Finset.sum_congr rfl fun b' _ => ?_
    by_cases hl : lc c b b' = 0
    · rw [hl]; simp
    obtain ⟨n1, n2, n3⟩ := lc_ne hl
    rw [mul_left_comm]
    congr 1
    rw [derivForward_eq, derivForward_eq]
    simp only [wOf_some, mirAt, FieldMap.e, id]
    by_cases hb : b = a
    · subst hb
      rw [if_neg n1.symm, if_neg n1.symm, if_neg n2.symm, if_neg n2.symm, mirIdx_shift_same, shift_mirIdx_same, mirIdx_same, hd.1,
        show o + 1 - 1 = o by ring]
      ring
    · rw [mirIdx_of_ne hb]
      by_cases hb' : b' = a
      · subst hb'
        rw [if_neg n3.symm, if_neg n3.symm, if_pos rfl, if_pos rfl, mirIdx_shift_ne hb]
        ring
      · have hc : c = a := by revert hl n1 n2 n3 hb hb'; clear * -; revert a b b' c; decide
        subst hc
        rw [if_neg n3, if_neg n3, if_pos rfl, if_pos rfl, mirIdx_shift_ne hb]
        ring
  · intro F
    funext c x
    show _ = (if c = a then -1 else 1) * Functional.curlBack (some d.2) F c (mirIdx a (if c = a then o + 1 else o) x)
    rw [curlBack_lc, curlBack_lc, Finset.mul_sum]
    refine Finset.sum_congr rfl fun b _ => ?_
    rw [Finset.mul_sum]
    refine Finset.sum_congr rfl fun b' _ => ?_
    by_cases hl : lc c b b' = 0
    · rw [hl]; simp
    obtain ⟨n1, n2, n3⟩ := lc_ne hl
    rw [mul_left_comm]
    congr 1
    rw [derivBack_eq, derivBack_eq]
    simp only [wOf_some, mirAt, FieldMap.h, id]
    by_cases hb : b = a
    · subst hb
      rw [if_neg n1.symm, if_neg n1.symm, if_neg n2.symm, if_neg n2.symm, mirIdx_shift_same, shift_mirIdx_same, mirIdx_same, hd.2,
        show o + 1 + -1 = o by ring, show o - -1 = o + 1 by ring]
      ring
    · rw [mirIdx_of_ne hb]
      by_cases hb' : b' = a
      · subst hb'
        rw [if_neg n3.symm, if_neg n3.symm, if_pos rfl, if_pos rfl, mirIdx_shift_ne hb]
        ring
      · have hc : c = a := by revert hl n1 n2 n3 hb hb'; clear * -; revert a b b' c; decide
        subst hc
        rw [if_neg n3, if_neg n3, if_pos rfl, if_pos rfl, mirIdx_shift_ne hb]
        ring

/-- Mirror-symmetric media and conductors. -/
structure MirrorSym (o : ℤ) (a : Fin 3) (d : Dx sh) (eps : Vec sh) (mu : Option (Vec sh)) (pec pmc : Option (Pos sh → Bool)) : Prop where
  dx : MirrorDx o a d
  eps : ∀ p : Pos sh, eps (p.1, (mirAt sh o a).iE p.1 p.2) = eps p
  mu : ∀ m, mu = some m → ∀ p : Pos sh, m (p.1, (mirAt sh o a).iH p.1 p.2) = m p
  pec : ∀ m, pec = some m → ∀ p : Pos sh, m (p.1, (mirAt sh o a).iE p.1 p.2) = m p
  pmc : ∀ m, pmc = some m → ∀ p : Pos sh, m (p.1, (mirAt sh o a).iH p.1 p.2) = m p

/-- The mirror image of E (a vector field: the component across the mirror changes its sign). -/
def imageE (o : ℤ) (a : Fin 3) (E : Vec sh) : Vec sh := fun p => (if p.1 = a then -1 else 1) * E (p.1, mirIdx a (if p.1 = a then o + 1 else o) p.2)
/-- The mirror image of H (an axial vector field: the components along the mirror change their sign). -/
def imageH (o : ℤ) (a : Fin 3) (H : Vec sh) : Vec sh := fun p => (if p.1 = a then 1 else -1) * H (p.1, mirIdx a (if p.1 = a then o else o + 1) p.2)

theorem MirrorSym.eFull {o : ℤ} {a : Fin 3} {d : Dx sh} {eps : Vec sh} {mu : Option (Vec sh)} {pec pmc : Option (Pos sh → Bool)}
    (hs : MirrorSym o a d eps mu pec pmc) (ω : ℂ) (E : Vec sh) :
    eFull ω d eps mu pec pmc *ᵥ imageE o a E = imageE o a (eFull ω d eps mu pec pmc *ᵥ E) := by
  have h := (mirAt sh o a).eFull_eq (mirAt_respects o a d hs.dx) ω eps mu pec pmc (unS E)
  have e1 : (mirAt sh o a).epsV eps = eps := funext hs.eps
  have e2 : mu.map (mirAt sh o a).muV' = mu := by
    cases mu with
    | none => rfl
    | some m => exact congrArg some (funext (hs.mu m rfl))
  have e3 : pec.map (mirAt sh o a).epsV = pec := by
    cases pec with
    | none => rfl
    | some m => exact congrArg some (funext (hs.pec m rfl))
  have e4 : pmc.map (mirAt sh o a).muV' = pmc := by
    cases pmc with
    | none => rfl
    | some m => exact congrArg some (funext (hs.pmc m rfl))
  rw [e1, e2, e3, e4, vecS_unS] at h
  exact h

theorem MirrorSym.e2h {o : ℤ} {a : Fin 3} {d : Dx sh} {eps : Vec sh} {mu : Option (Vec sh)} {pec pmc : Option (Pos sh → Bool)}
    (hs : MirrorSym o a d eps mu pec pmc) (ω : ℂ) (E : Vec sh) :
    Fdfd.e2h ω d mu pmc *ᵥ imageE o a E = imageH o a (Fdfd.e2h ω d mu pmc *ᵥ E) := by
  have h := (mirAt sh o a).e2h_eq (mirAt_respects o a d hs.dx) ω mu pmc (unS E)
  have e2 : mu.map (mirAt sh o a).muV' = mu := by
    cases mu with
    | none => rfl
    | some m => exact congrArg some (funext (hs.mu m rfl))
  have e4 : pmc.map (mirAt sh o a).muV' = pmc := by
    cases pmc with
    | none => rfl
    | some m => exact congrArg some (funext (hs.pmc m rfl))
  rw [e2, e4, vecS_unS] at h
  exact h

/-- One half of the grid, along axis `a`. -/
structure HalfOf (a : Fin 3) (sh sh' : Fin 3 → ℕ) : Prop where
  double : sh' a = 2 * sh a
  other : ∀ b, b ≠ a → sh' b = sh b

theorem HalfOf.part {a : Fin 3} (h : HalfOf a sh sh') : PartOf a sh sh' := ⟨by rw [h.double]; omega, h.other⟩

/-- The cell of the half with the same indices, for cells in the half. -/
def HalfOf.down {a : Fin 3} (h : HalfOf a sh sh') (y : Idx sh') (hy : (y a : ℕ) < sh a) : Idx sh :=
  fun b => ⟨y b, by by_cases hb : b = a
                    · subst hb; exact hy
                    · exact lt_of_lt_of_eq (y b).2 (h.other b hb)⟩

theorem HalfOf.up_down {a : Fin 3} (h : HalfOf a sh sh') (y : Idx sh') (hy : (y a : ℕ) < sh a) : h.part.up (h.down y hy) = y := rfl
theorem HalfOf.down_up {a : Fin 3} (h : HalfOf a sh sh') (x : Idx sh) : h.down (h.part.up x) (x a).2 = x := rfl

/-- A field of the half, and zero in the other half. -/
noncomputable def HalfOf.pad {a : Fin 3} (h : HalfOf a sh sh') (E : Vec sh) : Vec sh' :=
  fun p => if hp : (p.2 a : ℕ) < sh a then E (p.1, h.down p.2 hp) else 0

/-- The odd field on the whole grid: a field of the half minus its mirror image. -/
noncomputable def HalfOf.odd {a : Fin 3} (h : HalfOf a sh sh') (E : Vec sh) : Vec sh' := fun p => h.pad E p - imageE 0 a (h.pad E) p
/-- The even field on the whole grid: a field of the half plus its mirror image. -/
noncomputable def HalfOf.even {a : Fin 3} (h : HalfOf a sh sh') (E : Vec sh) : Vec sh' := fun p => h.pad E p + imageE 1 a (h.pad E) p

theorem mir_cases {n m : ℕ} (hn : n = 2 * m) (i : Fin n) :
    ((mir 0 i : Fin n) : ℕ) = (if (i : ℕ) = 0 then 0 else n - i) ∧ ((mir 1 i : Fin n) : ℕ) = n - 1 - i ∧
    ((mir 2 i : Fin n) : ℕ) = (if (i : ℕ) + 1 = n then n - 1 else n - 2 - i) := by
  have hi : (i : ℕ) < n := i.2
  have key : ∀ o k : ℤ, 0 ≤ -(i : ℤ) - o + n * k → -(i : ℤ) - o + n * k < n → ((mir o i : Fin n) : ℤ) = -(i : ℤ) - o + n * k := by
    intro o k h1 h2
    rw [mir_val, ← Int.emod_eq_of_lt h1 h2, Int.add_mul_emod_self_left]
  refine ⟨?_, ?_, ?_⟩
  · split_ifs with h
    · have := key 0 0 (by omega) (by omega); omega
    · have := key 0 1 (by omega) (by omega); omega
  · have := key 1 1 (by omega) (by omega); omega
  · split_ifs with h
    · have := key 2 2 (by omega) (by omega); omega
    · have := key 2 1 (by omega) (by omega); omega

/-- The field is the negative of its mirror image. -/
def IsOdd (o : ℤ) (a : Fin 3) (E : Vec sh) : Prop := ∀ p, imageE o a E p = - E p
/-- The field is its mirror image. -/
def IsEven (o : ℤ) (a : Fin 3) (E : Vec sh) : Prop := ∀ p, imageE o a E p = E p

theorem mirIdx_twice (a : Fin 3) (o : ℤ) (x : Idx sh) : mirIdx a o (mirIdx a o x) = x := by
  funext b
  by_cases hb : b = a
  · subst hb
    rw [mirIdx_same, mirIdx_same]
    have e : mir o (x b) = wrap (mir 0 (x b)) (-o) := by rw [wrap_mir]; congr 1; ring
    apply Fin.ext
    have h1 : ((mir o (mir o (x b)) : Fin (sh b)) : ℤ) = x b := by
      have hx := (x b).2
      rw [mir_val, mir_val]
      have h1 : -((-(x b : ℤ) - o) % (sh b)) - o ≡ -(-(x b : ℤ) - o) - o [ZMOD sh b] := (Int.mod_modEq _ _).neg.sub_right o
      have h2 : -(-(x b : ℤ) - o) - o = x b := by ring
      rw [h2] at h1
      rw [h1, Int.emod_eq_of_lt (by omega) (by omega)]
    exact_mod_cast h1
  · rw [mirIdx_of_ne hb, mirIdx_of_ne hb]

theorem imageE_imageE (o : ℤ) (a : Fin 3) (E : Vec sh) : imageE o a (imageE o a E) = E := by
  funext p
  obtain ⟨c, x⟩ := p
  simp only [imageE]
  rw [mirIdx_twice]
  split_ifs <;> ring

theorem imageE_sub (o : ℤ) (a : Fin 3) (E F : Vec sh) (p : Pos sh) : imageE o a (fun q => E q - F q) p = imageE o a E p - imageE o a F p := by
  simp only [imageE]; ring

theorem imageE_add (o : ℤ) (a : Fin 3) (E F : Vec sh) (p : Pos sh) : imageE o a (fun q => E q + F q) p = imageE o a E p + imageE o a F p := by
  simp only [imageE]; ring

theorem HalfOf.odd_isOdd {a : Fin 3} (h : HalfOf a sh sh') (E : Vec sh) : IsOdd 0 a (h.odd E) := by
  intro p
  show imageE 0 a (fun q => h.pad E q - imageE 0 a (h.pad E) q) p = - (h.pad E p - imageE 0 a (h.pad E) p)
  rw [imageE_sub, imageE_imageE]; ring

theorem HalfOf.even_isEven {a : Fin 3} (h : HalfOf a sh sh') (E : Vec sh) : IsEven 1 a (h.even E) := by
  intro p
  show imageE 1 a (fun q => h.pad E q + imageE 1 a (h.pad E) q) p = h.pad E p + imageE 1 a (h.pad E) p
  rw [imageE_add, imageE_imageE]; ring

/-- The components of E along the mirror vanish in the first plane. -/
def ZeroFirst (a : Fin 3) (E : Vec sh) : Prop := ∀ c x, c ≠ a → (x a : ℕ) = 0 → E (c, x) = 0
/-- The component of E across the mirror vanishes in the last plane. -/
def ZeroLast (a : Fin 3) (E : Vec sh) : Prop := ∀ x, (x a : ℕ) + 1 = sh a → E (a, x) = 0

theorem IsOdd.zeroOnWalls {a : Fin 3} (h : HalfOf a sh sh') {E : Vec sh'} (hE : IsOdd 0 a E) : ZeroOnWalls a (sh a) E := by
  intro c y hc hy
  have h1 := hE (c, y)
  have hm : mirIdx a 0 y = y := by
    funext b
    by_cases hb : b = a
    · subst hb
      rw [mirIdx_same]
      apply Fin.ext
      rw [(mir_cases h.double (y b)).1]
      have h2 := (y b).2
      have h3 := h.double
      rcases hy with hy | hy
      · rw [if_pos hy, hy]
      · have : sh b % sh' b = sh b := Nat.mod_eq_of_lt (by omega)
        rw [this] at hy
        split_ifs <;> omega
    · rw [mirIdx_of_ne hb]
  simp only [imageE, if_neg hc, hm, one_mul] at h1
  exact self_eq_neg.1 h1

theorem HalfOf.res_odd {a : Fin 3} (h : HalfOf a sh sh') {E : Vec sh} (hE : ZeroFirst a E) : h.part.res (h.odd E) = E := by
  funext p
  obtain ⟨c, x⟩ := p
  have hx := (x a).2
  have hd := h.double
  have e1 : h.pad E (c, h.part.up x) = E (c, x) := by
    have : ((h.part.up x) a : ℕ) < sh a := hx
    simp only [pad]; rw [dif_pos this]; rfl
  show h.pad E (c, h.part.up x) - imageE 0 a (h.pad E) (c, h.part.up x) = _
  rw [e1]
  simp only [imageE]
  by_cases hc : c = a
  · subst hc
    rw [if_pos rfl, if_pos rfl]
    have : ¬ ((mirIdx c (0 + 1) (h.part.up x) c : Fin (sh' c)) : ℕ) < sh c := by
      rw [mirIdx_same, zero_add, (mir_cases h.double _).2.1, PartOf.up_val]; omega
    simp only [pad]; rw [dif_neg this]; ring
  · rw [if_neg hc, if_neg hc]
    have hm := (mir_cases h.double (h.part.up x a)).1
    rw [PartOf.up_val] at hm
    by_cases hx0 : (x a : ℕ) = 0
    · rw [if_pos hx0] at hm
      have : ((mirIdx a 0 (h.part.up x) a : Fin (sh' a)) : ℕ) < sh a := by rw [mirIdx_same, hm]; omega
      simp only [pad]; rw [dif_pos this, hE c x hc hx0, hE c _ hc (by show ((mirIdx a 0 (h.part.up x) a : Fin (sh' a)) : ℕ) = 0; rw [mirIdx_same, hm])]
      ring
    · rw [if_neg hx0] at hm
      have : ¬ ((mirIdx a 0 (h.part.up x) a : Fin (sh' a)) : ℕ) < sh a := by rw [mirIdx_same, hm]; omega
      simp only [pad]; rw [dif_neg this]; ring

theorem HalfOf.res_even {a : Fin 3} (h : HalfOf a sh sh') {E : Vec sh} (hE : ZeroLast a E) : h.part.res (h.even E) = E := by
  funext p
  obtain ⟨c, x⟩ := p
  have hx := (x a).2
  have hd := h.double
  have e1 : h.pad E (c, h.part.up x) = E (c, x) := by
    have : ((h.part.up x) a : ℕ) < sh a := hx
    simp only [pad]; rw [dif_pos this]; rfl
  show h.pad E (c, h.part.up x) + imageE 1 a (h.pad E) (c, h.part.up x) = _
  rw [e1]
  simp only [imageE]
  by_cases hc : c = a
  · subst hc
    rw [if_pos rfl, if_pos rfl, show (1 : ℤ) + 1 = 2 by norm_num]
    have hm := (mir_cases h.double (h.part.up x c)).2.2
    rw [PartOf.up_val, if_neg (by omega)] at hm
    by_cases hx0 : (x c : ℕ) + 1 = sh c
    · have : ((mirIdx c 2 (h.part.up x) c : Fin (sh' c)) : ℕ) < sh c := by rw [mirIdx_same, hm]; omega
      simp only [pad]; rw [dif_pos this, hE x hx0, hE _ (by show ((mirIdx c 2 (h.part.up x) c : Fin (sh' c)) : ℕ) + 1 = sh c; rw [mirIdx_same, hm]; omega)]
      ring
    · have : ¬ ((mirIdx c 2 (h.part.up x) c : Fin (sh' c)) : ℕ) < sh c := by rw [mirIdx_same, hm]; omega
      simp only [pad]; rw [dif_neg this]; ring
  · rw [if_neg hc, if_neg hc]
    have : ¬ ((mirIdx a 1 (h.part.up x) a : Fin (sh' a)) : ℕ) < sh a := by
      rw [mirIdx_same, (mir_cases h.double _).2.1, PartOf.up_val]; omega
    simp only [pad]; rw [dif_neg this]; ring

/-- Odd fields that agree in the half agree. -/
theorem HalfOf.odd_ext {a : Fin 3} (h : HalfOf a sh sh') {E F : Vec sh'} (hE : IsOdd 0 a E) (hF : IsOdd 0 a F)
    (hEF : h.part.res E = h.part.res F) : E = F := by
  have hd := h.double
  have low : ∀ c y, (y a : ℕ) < sh a → E (c, y) = F (c, y) := fun c y hy => congrFun hEF (c, h.down y hy)
  funext p
  obtain ⟨c, y⟩ := p
  have hy' := (y a).2
  by_cases hy : (y a : ℕ) < sh a
  · exact low c y hy
  have h1 := hE (c, y)
  have h2 := hF (c, y)
  simp only [imageE] at h1 h2
  by_cases hc : c = a
  · subst hc
    rw [if_pos rfl, if_pos rfl] at h1 h2
    rw [low c _ (by rw [mirIdx_same, zero_add, (mir_cases h.double _).2.1]; omega)] at h1
    exact neg_injective (h1.symm.trans h2)
  · rw [if_neg hc, if_neg hc] at h1 h2
    by_cases hn : (y a : ℕ) = sh a
    · have hz : (y a : ℕ) = sh a % sh' a := by rw [Nat.mod_eq_of_lt (by omega)]; exact hn
      rw [hE.zeroOnWalls h c y hc (.inr hz), hF.zeroOnWalls h c y hc (.inr hz)]
    · rw [low c _ (by rw [mirIdx_same, (mir_cases h.double _).1, if_neg (by omega)]; omega)] at h1
      exact neg_injective (h1.symm.trans h2)

theorem IsEven.zero {a : Fin 3} (h : HalfOf a sh sh') {E : Vec sh'} (hE : IsEven 1 a E) (y : Idx sh')
    (hy : (y a : ℕ) + 1 = sh a ∨ (y a : ℕ) + 1 = sh' a) : E (a, y) = 0 := by
  have h1 := hE (a, y)
  have hm : mirIdx a 2 y = y := by
    funext b
    by_cases hb : b = a
    · subst hb
      rw [mirIdx_same]
      apply Fin.ext
      rw [(mir_cases h.double (y b)).2.2]
      have h2 := (y b).2
      have h3 := h.double
      split_ifs <;> omega
    · rw [mirIdx_of_ne hb]
  simp only [imageE, if_true, show (1 : ℤ) + 1 = 2 by norm_num, hm] at h1
  have h2 : E (a, y) = - E (a, y) := by linear_combination -h1
  exact self_eq_neg.1 h2

/-- Even fields that agree in the half agree. -/
theorem HalfOf.even_ext {a : Fin 3} (h : HalfOf a sh sh') {E F : Vec sh'} (hE : IsEven 1 a E) (hF : IsEven 1 a F)
    (hEF : h.part.res E = h.part.res F) : E = F := by
  have hd := h.double
  have low : ∀ c y, (y a : ℕ) < sh a → E (c, y) = F (c, y) := fun c y hy => congrFun hEF (c, h.down y hy)
  funext p
  obtain ⟨c, y⟩ := p
  have hy' := (y a).2
  by_cases hy : (y a : ℕ) < sh a
  · exact low c y hy
  have h1 := hE (c, y)
  have h2 := hF (c, y)
  simp only [imageE] at h1 h2
  by_cases hc : c = a
  · subst hc
    by_cases hn : (y c : ℕ) + 1 = sh' c
    · rw [hE.zero h y (.inr hn), hF.zero h y (.inr hn)]
    · rw [if_pos rfl, if_pos rfl, show (1 : ℤ) + 1 = 2 by norm_num] at h1 h2
      rw [low c _ (by rw [mirIdx_same, (mir_cases h.double _).2.2, if_neg hn]; omega)] at h1
      exact h1.symm.trans h2
  · rw [if_neg hc, if_neg hc] at h1 h2
    rw [low c _ (by rw [mirIdx_same, (mir_cases h.double _).2.1]; omega)] at h1
    exact h1.symm.trans h2

/-! ### Half and whole structure -/

theorem imageE_neg (o : ℤ) (a : Fin 3) (E : Vec sh) : imageE o a (-E) = -imageE o a E := by
  funext p; simp only [imageE, Pi.neg_apply]; ring

theorem MirrorSym.odd {o : ℤ} {a : Fin 3} {d : Dx sh} {eps : Vec sh} {mu : Option (Vec sh)} {pec pmc : Option (Pos sh → Bool)}
    (hs : MirrorSym o a d eps mu pec pmc) (ω : ℂ) {E : Vec sh} (hE : IsOdd o a E) : IsOdd o a (Fdfd.eFull ω d eps mu pec pmc *ᵥ E) := by
  intro p
  rw [← hs.eFull, show imageE o a E = -E from funext hE, mulVec_neg, Pi.neg_apply]

theorem MirrorSym.even {o : ℤ} {a : Fin 3} {d : Dx sh} {eps : Vec sh} {mu : Option (Vec sh)} {pec pmc : Option (Pos sh → Bool)}
    (hs : MirrorSym o a d eps mu pec pmc) (ω : ℂ) {E : Vec sh} (hE : IsEven o a E) : IsEven o a (Fdfd.eFull ω d eps mu pec pmc *ᵥ E) := by
  intro p
  rw [← hs.eFull, show imageE o a E = E from funext hE]

/-- The wave operator of one half, with a wall of perfect electric conductor at the mirror. -/
noncomputable def HalfOf.eFullPec {a : Fin 3} (h : HalfOf a sh sh') (ω : ℂ) (d : Dx sh') (eps : Vec sh') (mu : Option (Vec sh'))
    (pec pmc : Option (Pos sh' → Bool)) : Fdfd.Mat sh :=
  eFull ω (h.part.resDx d) (h.part.res eps) (mu.map h.part.res) (h.part.pecWall pec) (pmc.map h.part.res)

/-- The wave operator of one half, with a wall of perfect magnetic conductor at the mirror. -/
noncomputable def HalfOf.eFullPmc {a : Fin 3} (h : HalfOf a sh sh') (ω : ℂ) (d : Dx sh') (eps : Vec sh') (mu : Option (Vec sh'))
    (pec pmc : Option (Pos sh' → Bool)) : Fdfd.Mat sh :=
  eFull ω (h.part.resDx d) (h.part.res eps) (mu.map h.part.res) (pec.map h.part.res) (h.part.pmcWall pmc)

theorem HalfOf.eFullPec_first {a : Fin 3} (h : HalfOf a sh sh') (ω : ℂ) (d : Dx sh') (eps : Vec sh') (mu : Option (Vec sh'))
    (pec pmc : Option (Pos sh' → Bool)) (E : Vec sh) : ZeroFirst a (h.eFullPec ω d eps mu pec pmc *ᵥ E) := by
  intro c x hc hx
  rw [eFullPec, eFull_mulVec_masks, h.part.openAt_pecWall, if_pos ⟨hc, hx⟩]; simp

theorem HalfOf.res_eFull_odd {a : Fin 3} (h : HalfOf a sh sh') (ω : ℂ) {d : Dx sh'} {eps : Vec sh'} {mu : Option (Vec sh')}
    {pec pmc : Option (Pos sh' → Bool)} (hs : MirrorSym 0 a d eps mu pec pmc) {E : Vec sh'} (hE : IsOdd 0 a E) :
    h.part.res (eFull ω d eps mu pec pmc *ᵥ E) = h.eFullPec ω d eps mu pec pmc *ᵥ h.part.res E := by
  obtain ⟨h1, h2, -⟩ := C169_pec_part h.part ω d eps mu pec pmc E (hE.zeroOnWalls h)
  funext p
  by_cases hp : p.1 ≠ a ∧ (p.2 a : ℕ) = 0
  · rw [eFullPec, h2 p hp.1 hp.2]
    exact (hs.odd ω hE).zeroOnWalls h p.1 _ hp.1 (.inl hp.2)
  · exact (h1 p hp).symm

/-- C169: the wave operator of the whole structure on the odd field made of a field of the half is the odd field made of the wave operator of the
half with a wall of perfect electric conductor. -/
theorem C169_pec {a : Fin 3} (h : HalfOf a sh sh') (ω : ℂ) (d : Dx sh') (eps : Vec sh') (mu : Option (Vec sh')) (pec pmc : Option (Pos sh' → Bool))
    (hs : MirrorSym 0 a d eps mu pec pmc) (E : Vec sh) (hE : ZeroFirst a E) :
    eFull ω d eps mu pec pmc *ᵥ h.odd E = h.odd (h.eFullPec ω d eps mu pec pmc *ᵥ E) := by
  refine h.odd_ext (hs.odd ω (h.odd_isOdd E)) (h.odd_isOdd _) ?_
  rw [h.res_eFull_odd ω hs (h.odd_isOdd E), h.res_odd hE, h.res_odd (h.eFullPec_first ω d eps mu pec pmc E)]

/-- C169: a field and a source that are odd solve the equation of the whole structure iff their halves solve that of the half with a wall of perfect
electric conductor; the magnetic field of the half is the half of the magnetic field. -/
theorem C169_pec_driven {a : Fin 3} (h : HalfOf a sh sh') (ω : ℂ) (d : Dx sh') (eps : Vec sh') (mu : Option (Vec sh')) (pec pmc : Option (Pos sh' → Bool))
    (hs : MirrorSym 0 a d eps mu pec pmc) (E J : Vec sh') (hE : IsOdd 0 a E) (hJ : IsOdd 0 a J) :
    (eFull ω d eps mu pec pmc *ᵥ E = (-I * ω) • J ↔ h.eFullPec ω d eps mu pec pmc *ᵥ h.part.res E = (-I * ω) • h.part.res J) ∧
    Fdfd.e2h ω (h.part.resDx d) (mu.map h.part.res) (pmc.map h.part.res) *ᵥ h.part.res E = h.part.res (Fdfd.e2h ω d mu pmc *ᵥ E) := by
  refine ⟨⟨fun he => ?_, fun he => ?_⟩, (C169_pec_part h.part ω d eps mu pec pmc E (hE.zeroOnWalls h)).2.2⟩
  · rw [← h.res_eFull_odd ω hs hE, he]; rfl
  · refine h.odd_ext (hs.odd ω hE) (fun p => ?_) ?_
    · have := hJ p
      simp only [imageE, Pi.smul_apply, smul_eq_mul] at this ⊢
      linear_combination (-I * ω) * this
    · rw [h.res_eFull_odd ω hs hE, he]; rfl

theorem offPec_imageE {o : ℤ} {a : Fin 3} {d : Dx sh} {eps : Vec sh} {mu : Option (Vec sh)} {pec pmc : Option (Pos sh → Bool)}
    (hs : MirrorSym o a d eps mu pec pmc) {E : Vec sh} (hE : OffPec pec E) : OffPec pec (imageE o a E) := by
  intro m hm p hp
  have := hE m hm (p.1, mirIdx a (if p.1 = a then o + 1 else o) p.2) (by rw [← hp]; exact hs.pec m hm p)
  simp only [imageE, this, mul_zero]

/-- C169: where the field is determined by the source, odd sources make odd fields and even sources even ones. -/
theorem C169_parity (o : ℤ) (a : Fin 3) (ω : ℂ) (d : Dx sh) (eps : Vec sh) (mu : Option (Vec sh)) (pec pmc : Option (Pos sh → Bool))
    (hs : MirrorSym o a d eps mu pec pmc) (huniq : ω ∉ resonances d eps mu pec pmc) (E J : Vec sh) (hE : OffPec pec E)
    (he : eFull ω d eps mu pec pmc *ᵥ E = (-I * ω) • J) : (IsOdd o a J → IsOdd o a E) ∧ (IsEven o a J → IsEven o a E) := by
  have huniq' : ∀ F, OffPec pec F → eFull ω d eps mu pec pmc *ᵥ F = 0 → F = 0 := fun F h1 h2 => by
    by_contra hF
    exact huniq ⟨F, hF, h1, h2⟩
  have hi : eFull ω d eps mu pec pmc *ᵥ imageE o a E = (-I * ω) • imageE o a J := by
    rw [hs.eFull, he]; funext p; simp only [imageE, Pi.smul_apply, smul_eq_mul]; ring
  have ho := offPec_imageE hs hE
  constructor
  · intro hJ p
    have := huniq' (imageE o a E + E) (fun m hm q hq => by rw [Pi.add_apply, ho m hm q hq, hE m hm q hq, add_zero]) (by
      rw [mulVec_add, hi, he, ← smul_add, show imageE o a J = -J from funext hJ, neg_add_cancel, smul_zero])
    exact eq_neg_of_add_eq_zero_left (congrFun this p)
  · intro hJ p
    have := huniq' (imageE o a E - E) (fun m hm q hq => by rw [Pi.sub_apply, ho m hm q hq, hE m hm q hq, sub_zero]) (by
      rw [mulVec_sub, hi, he, show imageE o a J = J from funext hJ, sub_self])
    exact sub_eq_zero.1 (congrFun this p)

theorem HalfOf.offPec_odd {a : Fin 3} (h : HalfOf a sh sh') {d : Dx sh'} {eps : Vec sh'} {mu : Option (Vec sh')}
    {pec pmc : Option (Pos sh' → Bool)} (hs : MirrorSym 0 a d eps mu pec pmc) {E : Vec sh} (hE : OffPec (h.part.pecWall pec) E) :
    OffPec pec (h.odd E) := by
  have hp : OffPec pec (h.pad E) := by
    intro m hm p hp
    simp only [pad]
    split_ifs with hx
    · refine hE _ rfl _ ?_
      subst hm
      show (m (p.1, h.part.up (h.down p.2 hx)) || _) = true
      rw [h.up_down, hp, Bool.true_or]
    · rfl
  intro m hm p hmp
  simp only [odd]
  rw [hp m hm p hmp, offPec_imageE hs hp m hm p hmp, sub_zero]

theorem HalfOf.offPec_first {a : Fin 3} (h : HalfOf a sh sh') {pec : Option (Pos sh' → Bool)} {E : Vec sh} (hE : OffPec (h.part.pecWall pec) E) :
    ZeroFirst a E := by
  intro c x hc hx
  exact hE _ rfl (c, x) (by simp [hc, hx])

theorem HalfOf.offPec_res {a : Fin 3} (h : HalfOf a sh sh') {pec : Option (Pos sh' → Bool)} {E : Vec sh'} (hE : OffPec pec E) (ho : IsOdd 0 a E) :
    OffPec (h.part.pecWall pec) (h.part.res E) := by
  rintro m ⟨⟩ p hp
  rw [Bool.or_eq_true, Bool.and_eq_true, decide_eq_true_eq, decide_eq_true_eq] at hp
  rcases hp with hp | ⟨h1, h2⟩
  · cases pec with
    | none => cases hp
    | some f => exact hE f rfl _ hp
  · exact ho.zeroOnWalls h p.1 _ h1 (.inl h2)

/-- C169: the resonances of the half with a wall of perfect electric conductor are those resonances of the whole structure that have an odd field. -/
theorem C169_pec_resonances {a : Fin 3} (h : HalfOf a sh sh') (d : Dx sh') (eps : Vec sh') (mu : Option (Vec sh')) (pec pmc : Option (Pos sh' → Bool))
    (hs : MirrorSym 0 a d eps mu pec pmc) :
    resonances (h.part.resDx d) (h.part.res eps) (mu.map h.part.res) (h.part.pecWall pec) (pmc.map h.part.res)
      = {ω | ∃ E, E ≠ 0 ∧ IsOdd 0 a E ∧ IsResonant ω d eps mu pec pmc E} := by
  ext ω
  constructor
  · rintro ⟨E, h0, hoff, hfree⟩
    have hz := h.offPec_first hoff
    refine ⟨h.odd E, fun e => h0 ?_, h.odd_isOdd E, h.offPec_odd hs hoff, ?_⟩
    · rw [← h.res_odd hz, e]; rfl
    · have := C169_pec h ω d eps mu pec pmc hs E hz
      rw [this, show h.eFullPec ω d eps mu pec pmc *ᵥ E = 0 from hfree]
      funext p
      simp [HalfOf.odd, imageE, HalfOf.pad]
  · rintro ⟨E, h0, ho, hoff, hfree⟩
    refine ⟨h.part.res E, fun e => h0 ?_, h.offPec_res hoff ho, ?_⟩
    · refine h.odd_ext ho (F := 0) (fun p => by simp [imageE]) ?_
      rw [e]; rfl
    · have := h.res_eFull_odd ω hs ho
      rw [hfree] at this
      exact this.symm

/-! ### Magnetic walls -/

theorem imageH_zero {a : Fin 3} (h : HalfOf a sh sh') {H : Vec sh'} (hH : imageH 1 a H = H) (c : Fin 3) (y : Idx sh') (hc : c ≠ a)
    (hy : (y a : ℕ) + 1 = sh a ∨ (y a : ℕ) + 1 = sh' a) : H (c, y) = 0 := by
  have h1 := congrFun hH (c, y)
  have hm : mirIdx a 2 y = y := by
    funext b
    by_cases hb : b = a
    · subst hb
      rw [mirIdx_same]
      apply Fin.ext
      rw [(mir_cases h.double (y b)).2.2]
      have h2 := (y b).2
      have h3 := h.double
      split_ifs <;> omega
    · rw [mirIdx_of_ne hb]
  simp only [imageH, if_neg hc, show (1 : ℤ) + 1 = 2 by norm_num, hm] at h1
  have h2 : H (c, y) = - H (c, y) := by linear_combination -h1
  exact self_eq_neg.1 h2

theorem HalfOf.res_eFull_even {a : Fin 3} (h : HalfOf a sh sh') (ω : ℂ) (hω : ω ≠ 0) {d : Dx sh'} {eps : Vec sh'} {mu : Option (Vec sh')}
    {pec pmc : Option (Pos sh' → Bool)} (hs : MirrorSym 1 a d eps mu pec pmc) {E : Vec sh'} (hE : IsEven 1 a E) (hoff : OffPec pec E) :
    h.part.res (eFull ω d eps mu pec pmc *ᵥ E) = h.eFullPmc ω d eps mu pec pmc *ᵥ h.part.res E ∧
    Fdfd.e2h ω (h.part.resDx d) (mu.map h.part.res) (h.part.pmcWall pmc) *ᵥ h.part.res E = h.part.res (Fdfd.e2h ω d mu pmc *ᵥ E) := by
  have hH : imageH 1 a (Fdfd.e2h ω d mu pmc *ᵥ E) = Fdfd.e2h ω d mu pmc *ᵥ E := by
    rw [← hs.e2h, show imageE 1 a E = E from funext hE]
  obtain ⟨h1, h2⟩ := C169_pmc_part h.part ω hω d eps mu pec pmc E hoff fun c y hc hy => imageH_zero h hH c y hc hy
  exact ⟨h1.symm, h2⟩

theorem HalfOf.offPec_even {a : Fin 3} (h : HalfOf a sh sh') {d : Dx sh'} {eps : Vec sh'} {mu : Option (Vec sh')}
    {pec pmc : Option (Pos sh' → Bool)} (hs : MirrorSym 1 a d eps mu pec pmc) {E : Vec sh} (hE : OffPec (pec.map h.part.res) E) :
    OffPec pec (h.even E) := by
  have hp : OffPec pec (h.pad E) := by
    intro m hm p hp
    simp only [pad]
    split_ifs with hx
    · subst hm
      exact hE _ rfl _ hp
    · rfl
  intro m hm p hmp
  simp only [even]
  rw [hp m hm p hmp, offPec_imageE hs hp m hm p hmp, add_zero]

/-- C169: the wave operator of the whole structure on the even field made of a field of the half is the even field made of the wave operator of the
half with a wall of perfect magnetic conductor. -/
theorem C169_pmc {a : Fin 3} (h : HalfOf a sh sh') (ω : ℂ) (hω : ω ≠ 0) (d : Dx sh') (eps : Vec sh') (mu : Option (Vec sh'))
    (pec pmc : Option (Pos sh' → Bool)) (hs : MirrorSym 1 a d eps mu pec pmc) (E : Vec sh) (hE : ZeroLast a E)
    (hoff : OffPec (pec.map h.part.res) E) :
    eFull ω d eps mu pec pmc *ᵥ h.even E = h.even (h.eFullPmc ω d eps mu pec pmc *ᵥ E) := by
  have h1 := (h.res_eFull_even ω hω hs (h.even_isEven E) (h.offPec_even hs hoff)).1
  rw [h.res_even hE] at h1
  have h2 := hs.even ω (h.even_isEven E)
  refine h.even_ext h2 (h.even_isEven _) ?_
  rw [h.res_even (by
    intro x hx
    rw [← h1]
    exact h2.zero h (h.part.up x) (.inl hx)), h1]

/-- C169: a field and a source that are even solve the equation of the whole structure iff their halves solve that of the half with a wall of perfect
magnetic conductor; the magnetic field of the half is the half of the magnetic field. -/
theorem C169_pmc_driven {a : Fin 3} (h : HalfOf a sh sh') (ω : ℂ) (hω : ω ≠ 0) (d : Dx sh') (eps : Vec sh') (mu : Option (Vec sh'))
    (pec pmc : Option (Pos sh' → Bool)) (hs : MirrorSym 1 a d eps mu pec pmc) (E J : Vec sh') (hE : IsEven 1 a E) (hJ : IsEven 1 a J)
    (hoff : OffPec pec E) :
    (eFull ω d eps mu pec pmc *ᵥ E = (-I * ω) • J ↔ h.eFullPmc ω d eps mu pec pmc *ᵥ h.part.res E = (-I * ω) • h.part.res J) ∧
    Fdfd.e2h ω (h.part.resDx d) (mu.map h.part.res) (h.part.pmcWall pmc) *ᵥ h.part.res E = h.part.res (Fdfd.e2h ω d mu pmc *ᵥ E) := by
  obtain ⟨h1, h2⟩ := h.res_eFull_even ω hω hs hE hoff
  refine ⟨⟨fun he => ?_, fun he => ?_⟩, h2⟩
  · rw [← h1, he]; rfl
  · refine h.even_ext (hs.even ω hE) (fun p => ?_) ?_
    · have := hJ p
      simp only [imageE, Pi.smul_apply, smul_eq_mul] at this ⊢
      linear_combination (-I * ω) * this
    · rw [h1, he]; rfl

/-- In the half with a magnetic wall, a source-free field has no component across the wall in it. -/
theorem HalfOf.resonant_last {a : Fin 3} (h : HalfOf a sh sh') (ω : ℂ) (hω : ω ≠ 0) (d : Dx sh') (eps : Vec sh') (heps : ∀ p, eps p ≠ 0)
    (mu : Option (Vec sh')) (pec pmc : Option (Pos sh' → Bool)) {E : Vec sh} (hoff : OffPec (pec.map h.part.res) E)
    (hfree : h.eFullPmc ω d eps mu pec pmc *ᵥ E = 0) : ZeroLast a E := by
  intro x hx
  have h1 := congrFun hfree (a, x)
  have ho := (offPec_iff _ E).1 hoff
  rw [eFullPmc, eFull_mulVec_masks] at h1
  have hc : cH (h.part.resDx d) (fun q => (openAt (h.part.pmcWall pmc) q : ℂ)
      * (cE (h.part.resDx d) (fun r => (openAt (pec.map h.part.res) r : ℂ) * E r) q / muV (mu.map h.part.res) q)) (a, x) = 0 := by
    generalize hu : (fun q => (openAt (h.part.pmcWall pmc) q : ℂ)
      * (cE (h.part.resDx d) (fun r => (openAt (pec.map h.part.res) r : ℂ) * E r) q / muV (mu.map h.part.res) q)) = u
    have hz : ∀ c y, c ≠ a → (y a : ℕ) + 1 = sh a → u (c, y) = 0 := by
      intro c y hc hy
      rw [← hu]
      simp only
      rw [h.part.openAt_pmcWall, if_pos ⟨hc, hy⟩]; simp
    show Functional.curlBack (some (h.part.resDx d).2) (unS u) a x = 0
    rw [curlBack_lc]
    refine Finset.sum_eq_zero fun b _ => Finset.sum_eq_zero fun b' _ => ?_
    by_cases hl : lc a b b' = 0
    · rw [hl]; simp
    obtain ⟨n1, n2, n3⟩ := lc_ne hl
    rw [derivBack_eq]
    have e1 : unS u b' x = 0 := hz b' x n3 hx
    have e2 : unS u b' (shiftIdx b (-1) x) = 0 := hz b' _ n3 (by rw [shiftIdx_of_ne n2.symm]; exact hx)
    rw [e1, e2]; simp
  rw [hc, Pi.zero_apply, zero_sub, ho] at h1
  have h2 : (openAt (pec.map h.part.res) (a, x) : ℂ) * E (a, x) = E (a, x) := ho (a, x)
  have h3 : ω ^ 2 * (h.part.res eps (a, x) * E (a, x)) = 0 := by linear_combination -h1 - ω ^ 2 * h.part.res eps (a, x) * h2
  have h4 : h.part.res eps (a, x) ≠ 0 := heps _
  simpa [hω, h4] using h3

/-- C169: the nonzero resonances of the half with a wall of perfect magnetic conductor are those resonances of the whole structure that have an even
field. -/
theorem C169_pmc_resonances {a : Fin 3} (h : HalfOf a sh sh') (d : Dx sh') (eps : Vec sh') (heps : ∀ p, eps p ≠ 0) (mu : Option (Vec sh'))
    (pec pmc : Option (Pos sh' → Bool)) (hs : MirrorSym 1 a d eps mu pec pmc) (ω : ℂ) (hω : ω ≠ 0) :
    ω ∈ resonances (h.part.resDx d) (h.part.res eps) (mu.map h.part.res) (pec.map h.part.res) (h.part.pmcWall pmc)
      ↔ ∃ E, E ≠ 0 ∧ IsEven 1 a E ∧ IsResonant ω d eps mu pec pmc E := by
  constructor
  · rintro ⟨E, h0, hoff, hfree⟩
    have hz := h.resonant_last ω hω d eps heps mu pec pmc hoff hfree
    refine ⟨h.even E, fun e => h0 ?_, h.even_isEven E, h.offPec_even hs hoff, ?_⟩
    · rw [← h.res_even hz, e]; rfl
    · have := C169_pmc h ω hω d eps mu pec pmc hs E hz hoff
      rw [this, show h.eFullPmc ω d eps mu pec pmc *ᵥ E = 0 from hfree]
      funext p
      simp [HalfOf.even, imageE, HalfOf.pad]
  · rintro ⟨E, h0, ho, hoff, hfree⟩
    refine ⟨h.part.res E, fun e => h0 ?_, ?_, ?_⟩
    · refine h.even_ext ho (F := 0) (fun p => by simp [imageE]) ?_
      rw [e]; rfl
    · intro m hm p hp
      cases pec with
      | none => cases hm
      | some f =>
        obtain rfl : h.part.res f = m := by simpa using hm
        exact hoff f rfl _ hp
    · have := (h.res_eFull_even ω hω hs ho hoff).1
      rw [hfree] at this
      exact this.symm

/-! ### Simulations -/

/-- The field with its values inside the conductor set to zero. -/
noncomputable def clearPec (pec : Option (Pos sh → Bool)) (E : Vec sh) : Vec sh := fun p => openAt pec p * E p

theorem clearPec_off (pec : Option (Pos sh → Bool)) (E : Vec sh) : OffPec pec (clearPec pec E) := by
  rintro m rfl p hp
  simp [clearPec, openAt, hp]

theorem clearPec_open {pec : Option (Pos sh → Bool)} (E : Vec sh) {p : Pos sh} (hp : ∀ m, pec = some m → m p = false) : clearPec pec E p = E p := by
  cases pec with
  | none => simp [clearPec, openAt]
  | some m => simp [clearPec, openAt, hp m rfl]

theorem eFull_clearPec (ω : ℂ) (d : Dx sh) (eps : Vec sh) (mu : Option (Vec sh)) (pec pmc : Option (Pos sh → Bool)) (E : Vec sh) :
    eFull ω d eps mu pec pmc *ᵥ clearPec pec E = eFull ω d eps mu pec pmc *ᵥ E := by
  have h : ∀ r, (openAt pec r : ℂ) * clearPec pec E r = openAt pec r * E r := fun r => by
    show (openAt pec r : ℂ) * (openAt pec r * E r) = _
    rcases openAt_cases pec r with e | e <;> rw [e] <;> simp
  funext p
  rw [eFull_mulVec_masks, eFull_mulVec_masks, h, show (fun r => (openAt pec r : ℂ) * clearPec pec E r) = fun r => (openAt pec r : ℂ) * E r from funext h]

theorem offPec_sub {pec : Option (Pos sh → Bool)} {E F : Vec sh} (hE : OffPec pec E) (hF : OffPec pec F) : OffPec pec (E - F) := fun m hm p hp => by
  rw [Pi.sub_apply, hE m hm p hp, hF m hm p hp, sub_zero]

theorem eq_of_not_resonant {ω : ℂ} {d : Dx sh} {eps : Vec sh} {mu : Option (Vec sh)} {pec pmc : Option (Pos sh → Bool)}
    (h : ω ∉ resonances d eps mu pec pmc) {E F : Vec sh} (hE : OffPec pec E) (hF : OffPec pec F)
    (he : eFull ω d eps mu pec pmc *ᵥ E = eFull ω d eps mu pec pmc *ᵥ F) : E = F := by
  by_contra hne
  exact h ⟨E - F, sub_ne_zero.2 hne, offPec_sub hE hF, by rw [mulVec_sub, he, sub_self]⟩

/-- C169: the simulation of one half. Away from the resonances of the whole structure, every solution of the half with an electric wall, driven by half of
an odd source, is half of the solution for the whole structure, outside the conductors. -/
theorem C169_pec_simulation {a : Fin 3} (h : HalfOf a sh sh') (ω : ℂ) (d : Dx sh') (eps : Vec sh') (mu : Option (Vec sh'))
    (pec pmc : Option (Pos sh' → Bool)) (hs : MirrorSym 0 a d eps mu pec pmc) (hres : ω ∉ resonances d eps mu pec pmc) (J E : Vec sh')
    (hJ : IsOdd 0 a J) (he : eFull ω d eps mu pec pmc *ᵥ E = (-I * ω) • J) (F : Vec sh)
    (hf : h.eFullPec ω d eps mu pec pmc *ᵥ F = (-I * ω) • h.part.res J) (p : Pos sh) (hp : p.1 = a ∨ (p.2 a : ℕ) ≠ 0)
    (hopen : ∀ m, pec = some m → m (p.1, h.part.up p.2) = false) : F p = E (p.1, h.part.up p.2) := by
  have hE0 := clearPec_off pec E
  have he0 : eFull ω d eps mu pec pmc *ᵥ clearPec pec E = (-I * ω) • J := by rw [eFull_clearPec, he]
  have hodd := (C169_parity 0 a ω d eps mu pec pmc hs hres _ J hE0 he0).1 hJ
  have hr := ((C169_pec_driven h ω d eps mu pec pmc hs _ J hodd hJ).1).1 he0
  have hres' : ω ∉ resonances (h.part.resDx d) (h.part.res eps) (mu.map h.part.res) (h.part.pecWall pec) (pmc.map h.part.res) := by
    rw [C169_pec_resonances h d eps mu pec pmc hs]
    rintro ⟨G, h1, -, h2⟩
    exact hres ⟨G, h1, h2⟩
  have key := eq_of_not_resonant hres' (clearPec_off _ F) (h.offPec_res hE0 hodd) (by
    rw [eFull_clearPec]; exact hf.trans hr.symm)
  have h1 : clearPec (h.part.pecWall pec) F p = F p := by
    refine clearPec_open F ?_
    rintro m ⟨⟩
    rw [Bool.or_eq_false_iff, Bool.and_eq_false_iff, decide_eq_false_iff_not, decide_eq_false_iff_not, not_not]
    refine ⟨?_, hp⟩
    cases pec with
    | none => rfl
    | some f => exact hopen f rfl
  have h2 : h.part.res (clearPec pec E) p = E (p.1, h.part.up p.2) := clearPec_open E hopen
  rw [← h1, key, h2]

/-- C169: the simulation of one half. Away from the resonances of the whole structure, every solution of the half with a magnetic wall, driven by half of
an even source, is half of the solution for the whole structure, outside the conductors. -/
theorem C169_pmc_simulation {a : Fin 3} (h : HalfOf a sh sh') (ω : ℂ) (hω : ω ≠ 0) (d : Dx sh') (eps : Vec sh') (heps : ∀ p, eps p ≠ 0)
    (mu : Option (Vec sh')) (pec pmc : Option (Pos sh' → Bool)) (hs : MirrorSym 1 a d eps mu pec pmc) (hres : ω ∉ resonances d eps mu pec pmc)
    (J E : Vec sh') (hJ : IsEven 1 a J) (he : eFull ω d eps mu pec pmc *ᵥ E = (-I * ω) • J) (F : Vec sh)
    (hf : h.eFullPmc ω d eps mu pec pmc *ᵥ F = (-I * ω) • h.part.res J) (p : Pos sh)
    (hopen : ∀ m, pec = some m → m (p.1, h.part.up p.2) = false) : F p = E (p.1, h.part.up p.2) := by
  have hE0 := clearPec_off pec E
  have he0 : eFull ω d eps mu pec pmc *ᵥ clearPec pec E = (-I * ω) • J := by rw [eFull_clearPec, he]
  have heven := (C169_parity 1 a ω d eps mu pec pmc hs hres _ J hE0 he0).2 hJ
  have hr := ((C169_pmc_driven h ω hω d eps mu pec pmc hs _ J heven hJ hE0).1).1 he0
  have hres' : ω ∉ resonances (h.part.resDx d) (h.part.res eps) (mu.map h.part.res) (pec.map h.part.res) (h.part.pmcWall pmc) := by
    rw [C169_pmc_resonances h d eps heps mu pec pmc hs ω hω]
    rintro ⟨G, h1, -, h2⟩
    exact hres ⟨G, h1, h2⟩
  have hopen' : ∀ m, pec.map h.part.res = some m → m p = false := by
    intro m hm
    cases pec with
    | none => cases hm
    | some f =>
      obtain rfl : h.part.res f = m := by simpa using hm
      exact hopen f rfl
  have hoffr : OffPec (pec.map h.part.res) (h.part.res (clearPec pec E)) := by
    intro m hm q hq
    cases pec with
    | none => cases hm
    | some f =>
      obtain rfl : h.part.res f = m := by simpa using hm
      exact hE0 f rfl _ hq
  have key := eq_of_not_resonant hres' (clearPec_off _ F) hoffr (by rw [eFull_clearPec]; exact hf.trans hr.symm)
  have h1 : clearPec (pec.map h.part.res) F p = F p := clearPec_open F hopen'
  have h2 : h.part.res (clearPec pec E) p = E (p.1, h.part.up p.2) := clearPec_open E hopen
  rw [← h1, key, h2]

/-- Concrete case: a 4×2×2 grid with widths, permittivity and conductors that are symmetric about the first plane and not uniform, its 2×2×2 half,
and the odd field and source made of a field of the half. -/
theorem C169_case :
    let sh' : Fin 3 → ℕ := ![4, 2, 2]
    let sh : Fin 3 → ℕ := ![2, 2, 2]
    let d : Dx sh' := (fun b i => if b = 0 ∧ ((i : ℕ) = 1 ∨ (i : ℕ) = 2) then 2 else 1, fun b i => if b = 0 ∧ (i : ℕ) = 2 then 2 else 3)
    let eps : Vec sh' := fun p => if p.1 ≠ 0 ∧ (p.2 0 : ℕ) = 2 then 5 else 2
    let pec : Option (Pos sh' → Bool) := some fun p => decide (p.1 = 0 ∧ ((p.2 0 : ℕ) = 0 ∨ (p.2 0 : ℕ) = 3) ∧ (p.2 1 : ℕ) = 1)
    HalfOf 0 sh sh' ∧ MirrorSym 0 0 d eps none pec none ∧
    ∃ (h : HalfOf 0 sh sh') (E : Vec sh), E ≠ 0 ∧ ZeroFirst 0 E ∧ h.odd E ≠ 0 ∧ IsOdd 0 0 (h.odd E) ∧ h.part.res (h.odd E) = E := by
  intro sh' sh d eps pec
  have hh : HalfOf 0 sh sh' := ⟨rfl, by intro b; fin_cases b <;> simp [sh, sh']⟩
  have m0 : ∀ i : Fin 4, ((mir 0 i : Fin 4) : ℕ) = 2 ↔ (i : ℕ) = 2 := by decide
  have m1 : ∀ i : Fin 4, (((mir 1 i : Fin 4) : ℕ) = 1 ∨ ((mir 1 i : Fin 4) : ℕ) = 2) ↔ ((i : ℕ) = 1 ∨ (i : ℕ) = 2) := by decide
  have m2 : ∀ i : Fin 4, (((mir 1 i : Fin 4) : ℕ) = 0 ∨ ((mir 1 i : Fin 4) : ℕ) = 3) ↔ ((i : ℕ) = 0 ∨ (i : ℕ) = 3) := by decide
  have hsym : MirrorSym 0 0 d eps none pec none := by
    refine ⟨⟨fun i => ?_, fun i => ?_⟩, fun p => ?_, fun m hm => (Option.some_ne_none m hm.symm).elim, ?_,
      fun m hm => (Option.some_ne_none m hm.symm).elim⟩
    · exact if_congr (and_congr_right fun _ => m1 i) rfl rfl
    · exact if_congr (and_congr_right fun _ => m0 i) rfl rfl
    · refine if_congr (and_congr_right fun hc => ?_) rfl rfl
      show ((mirIdx 0 (if p.1 = 0 then 0 + 1 else 0) p.2 0 : Fin 4) : ℕ) = 2 ↔ _
      rw [if_neg hc, mirIdx_same]; exact m0 _
    · intro m hm p
      obtain rfl := Option.some.inj hm
      refine decide_eq_decide.2 (and_congr_right fun hc => ?_)
      have hc' : p.1 = 0 := hc
      show ((((mirIdx 0 (if p.1 = 0 then 0 + 1 else 0) p.2 0 : Fin 4) : ℕ) = 0 ∨ ((mirIdx 0 (if p.1 = 0 then 0 + 1 else 0) p.2 0 : Fin 4) : ℕ) = 3)
        ∧ ((mirIdx 0 (if p.1 = 0 then 0 + 1 else 0) p.2 1 : Fin 2) : ℕ) = 1) ↔ _
      rw [if_pos hc', mirIdx_same, mirIdx_of_ne (by decide)]
      exact and_congr (m2 _) Iff.rfl
  refine ⟨hh, hsym, hh, fun p => if p.1 = 1 ∧ (p.2 0 : ℕ) = 1 then 1 else 0, fun e => ?_, fun c x _ hx => by simp [hx], fun e => ?_, hh.odd_isOdd _,
    hh.res_odd fun c x _ hx => by simp [hx]⟩
  · have := congrFun e ((1 : Fin 3), fun b => ⟨1, by fin_cases b <;> simp [sh]⟩)
    simp at this
  · have h1 := hh.res_odd (E := fun p => if p.1 = 1 ∧ (p.2 0 : ℕ) = 1 then 1 else 0) fun c x _ hx => by simp [hx]
    rw [e] at h1
    have := congrFun h1 ((1 : Fin 3), fun b => ⟨1, by fin_cases b <;> simp [sh]⟩)
    simp [PartOf.res] at this

/-- Concrete case for the magnetic wall: a uniform 4×2×2 grid with a permittivity that depends on y, and an even field. -/
example :
    let sh' : Fin 3 → ℕ := ![4, 2, 2]
    let sh : Fin 3 → ℕ := ![2, 2, 2]
    let d : Dx sh' := (fun _ _ => 1, fun _ _ => 1)
    let eps : Vec sh' := fun p => 2 + (p.2 1 : ℕ)
    MirrorSym 1 0 d eps none none none ∧
    ∃ (h : HalfOf 0 sh sh') (E : Vec sh), E ≠ 0 ∧ ZeroLast 0 E ∧ IsEven 1 0 (h.even E) ∧ h.part.res (h.even E) = E ∧
      ∀ ω : ℂ, ω ≠ 0 → eFull ω d eps none none none *ᵥ h.even E = h.even (h.eFullPmc ω d eps none none none *ᵥ E) := by
  intro sh' sh d eps
  have hh : HalfOf 0 sh sh' := ⟨rfl, by intro b; fin_cases b <;> simp [sh, sh']⟩
  have hs : MirrorSym 1 0 d eps none none none := by
    refine ⟨⟨fun _ => rfl, fun _ => rfl⟩, fun p => ?_, fun m hm => (Option.some_ne_none m hm.symm).elim, fun m hm => (Option.some_ne_none m hm.symm).elim,
      fun m hm => (Option.some_ne_none m hm.symm).elim⟩
    show (2 + ((mirIdx 0 (if p.1 = 0 then 1 + 1 else 1) p.2 1 : Fin 2) : ℕ) : ℂ) = 2 + ((p.2 1 : Fin 2) : ℕ)
    rw [mirIdx_of_ne (by decide)]
  have hz : ZeroLast (sh := sh) 0 fun p => if p.1 = 1 then 1 else 0 := fun x _ => by simp
  refine ⟨hs, hh, fun p => if p.1 = 1 then 1 else 0, fun e => ?_, hz, hh.even_isEven _, hh.res_even hz, fun ω hω => ?_⟩
  · have := congrFun e ((1 : Fin 3), fun b => ⟨1, by fin_cases b <;> simp [sh]⟩)
    simp at this
  · exact C169_pmc hh ω hω d eps none none none hs _ hz (fun m hm => (Option.some_ne_none m hm.symm).elim)

end Meanas.Props
