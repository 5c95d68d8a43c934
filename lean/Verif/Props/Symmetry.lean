/-
C90, C91: permuting the axes and mirroring an axis (meanas/fdmath/functional.py, meanas/fdfd/operators.py, meanas/fdtd/base.py).
-/
import Verif.Props.GridInvariance
import Mathlib.GroupTheory.Perm.Sign

namespace Meanas.Props

open Matrix Complex Fdfd Spec

variable {sh sh' : Fin 3 → ℕ} {K : Type*} [Field K]

/-! ### Curls as sums over the antisymmetric symbol -/

/-- The antisymmetric symbol. -/
def lc (c a b : Fin 3) : ℤ := if a = c + 1 ∧ b = c + 2 then 1 else if a = c + 2 ∧ b = c + 1 then -1 else 0

theorem curlForward_lc (dx : Option (DxList sh K)) (F : VField sh K) (c : Fin 3) (x : Idx sh) :
    Functional.curlForward dx F c x = ∑ a, ∑ b, (lc c a b : K) * Functional.derivForward dx a (F b) x := by
  revert c
  refine forall_fin3 ?_ ?_ ?_ <;>
  · simp +decide only [curlForward_0, curlForward_1, curlForward_2, Fin.sum_univ_three, lc, if_true, if_false, Int.cast_one, Int.cast_neg,
      Int.cast_zero, and_true, and_false]
    ring

theorem curlBack_lc (dx : Option (DxList sh K)) (F : VField sh K) (c : Fin 3) (x : Idx sh) :
    Functional.curlBack dx F c x = ∑ a, ∑ b, (lc c a b : K) * Functional.derivBack dx a (F b) x := by
  revert c
  refine forall_fin3 ?_ ?_ ?_ <;>
  · simp +decide only [curlBack_0, curlBack_1, curlBack_2, Fin.sum_univ_three, lc, if_true, if_false, Int.cast_one, Int.cast_neg,
      Int.cast_zero, and_true, and_false]
    ring

theorem lc_ne {c a b : Fin 3} (h : lc c a b ≠ 0) : a ≠ b ∧ a ≠ c ∧ b ≠ c := by
  revert c a b; decide

/-! ### Symmetries in general -/

/-- A way to carry fields from a grid of shape `sh` to one of shape `sh'`: component `c` of the new E (H) field at `x` is
`± ` component `comp c` of the old one at `iE c x` (`iH c x`). -/
structure FieldMap (sh sh' : Fin 3 → ℕ) (K : Type*) where
  /-- components -/
  comp : Fin 3 → Fin 3
  /-- signs of the E field -/
  sE : Fin 3 → K
  /-- signs of the H field -/
  sH : Fin 3 → K
  /-- cells of the E samples -/
  iE : Fin 3 → Idx sh' → Idx sh
  /-- cells of the H samples -/
  iH : Fin 3 → Idx sh' → Idx sh

namespace FieldMap

/-- The E field (or a current) on the new grid. -/
def e (T : FieldMap sh sh' K) (F : VField sh K) : VField sh' K := fun c x => T.sE c * F (T.comp c) (T.iE c x)
/-- The H field (or a magnetic current) on the new grid. -/
def h (T : FieldMap sh sh' K) (F : VField sh K) : VField sh' K := fun c x => T.sH c * F (T.comp c) (T.iH c x)
/-- Permittivity, or anything without a sign at the E samples, on the new grid. -/
def eps {A : Type*} (T : FieldMap sh sh' K) (F : VField sh A) : VField sh' A := fun c x => F (T.comp c) (T.iE c x)
/-- Permeability, or anything without a sign at the H samples, on the new grid. -/
def mu {A : Type*} (T : FieldMap sh sh' K) (F : VField sh A) : VField sh' A := fun c x => F (T.comp c) (T.iH c x)

/-- The map respects both curls. -/
def Respects (T : FieldMap sh sh' K) (d : Fdtd.Dxes sh K) (d' : Fdtd.Dxes sh' K) : Prop :=
  (∀ F, Functional.curlForward (some d'.1) (T.e F) = T.h (Functional.curlForward (some d.1) F)) ∧
  ∀ F, Functional.curlBack (some d'.2) (T.h F) = T.e (Functional.curlBack (some d.2) F)

/-- One call on the new grid. -/
def op (T : FieldMap sh sh' K) : Fdtd.Op sh K → Fdtd.Op sh' K
  | .stepE => .stepE
  | .stepH => .stepH
  | .injJ j => .injJ (T.e j)
  | .injM m => .injM (T.h m)

/-- FDTD runs on the two grids correspond. -/
theorem run_eq (T : FieldMap sh sh' K) {d : Fdtd.Dxes sh K} {d' : Fdtd.Dxes sh' K} (hT : T.Respects d d') (dt : K) (ε : VField sh K)
    (μ : Option (VField sh K)) (s : Fdtd.State sh K) (ops : List (Fdtd.Op sh K)) :
    Fdtd.run ⟨dt, some d', T.eps ε, μ.map T.mu⟩ ⟨T.e s.e, T.h s.h⟩ (ops.map T.op)
      = ⟨T.e (Fdtd.run ⟨dt, some d, ε, μ⟩ s ops).e, T.h (Fdtd.run ⟨dt, some d, ε, μ⟩ s ops).h⟩ := by
  induction ops generalizing s with
  | nil => rfl
  | cons o ops ih =>
    have e1 : ∀ (S : Fdtd.Sys sh K), Fdtd.run S s (o :: ops) = Fdtd.run S (Fdtd.step S s o) ops := fun _ => rfl
    have e2 : ∀ (S : Fdtd.Sys sh' K) t, Fdtd.run S t ((o :: ops).map T.op) = Fdtd.run S (Fdtd.step S t (T.op o)) (ops.map T.op) :=
      fun _ _ => rfl
    rw [e1, e2, ← ih]
    congr 1
    cases o with
    | stepE =>
      simp only [op, Fdtd.step, Fdtd.maxwellE, hT.2]
      congr 1; funext c x; simp only [e, eps]; ring
    | stepH =>
      cases μ with
      | none =>
        simp only [op, Fdtd.step, Fdtd.maxwellH, hT.1, Option.map_none]
        congr 1; funext c x; simp only [h]; ring
      | some m =>
        simp only [op, Fdtd.step, Fdtd.maxwellH, hT.1, Option.map_some]
        congr 1; funext c x; simp only [h, mu]; ring
    | injJ j =>
      simp only [op, Fdtd.step]
      congr 1; funext c x; simp only [e, eps]; ring
    | injM m =>
      cases μ with
      | none =>
        simp only [op, Fdtd.step, Option.map_none]
        congr 1; funext c x; simp only [h]; ring
      | some m =>
        simp only [op, Fdtd.step, Option.map_some]
        congr 1; funext c x; simp only [h, mu]; ring

/-- A function of component and cell, on the new grid (E samples). -/
def epsV {A : Type*} (T : FieldMap sh sh' K) (v : Pos sh → A) : Pos sh' → A := fun p => v (T.comp p.1, T.iE p.1 p.2)
/-- A function of component and cell, on the new grid (H samples). -/
def muV' {A : Type*} (T : FieldMap sh sh' K) (v : Pos sh → A) : Pos sh' → A := fun p => v (T.comp p.1, T.iH p.1 p.2)

/-- The wave operators on the two grids correspond. -/
theorem eFull_eq (T : FieldMap sh sh' ℂ) {d : Dx sh} {d' : Dx sh'} (hT : T.Respects d d') (ω : ℂ) (ε : Vec sh) (μ : Option (Vec sh))
    (pec pmc : Option (Pos sh → Bool)) (E : VField sh ℂ) :
    eFull ω d' (T.epsV ε) (μ.map T.muV') (pec.map T.epsV) (pmc.map T.muV') *ᵥ vecS (T.e E)
      = vecS (T.e (unS (eFull ω d ε μ pec pmc *ᵥ vecS E))) := by
  have hoE : ∀ (m : Option (Pos sh → Bool)) p, openAt (m.map T.epsV) p = openAt m (T.comp p.1, T.iE p.1 p.2) := by
    intro m p; cases m <;> rfl
  have hoH : ∀ (m : Option (Pos sh → Bool)) p, openAt (m.map T.muV') p = openAt m (T.comp p.1, T.iH p.1 p.2) := by
    intro m p; cases m <;> rfl
  have hm : ∀ p, muV (μ.map T.muV') p = muV μ (T.comp p.1, T.iH p.1 p.2) := by intro p; cases μ <;> rfl
  have h1 : ∀ F : VField sh ℂ, cE d' (vecS (T.e F)) = vecS (T.h (unS (cE d (vecS F)))) := fun F => by
    simp only [cE, unS_vecS, hT.1]
  have h2 : ∀ F : VField sh ℂ, cH d' (vecS (T.h F)) = vecS (T.e (unS (cH d (vecS F)))) := fun F => by
    simp only [cH, unS_vecS, hT.2]
  funext p
  obtain ⟨c, x⟩ := p
  rw [eFull_mulVec_masks]
  have g1 : (fun r => (openAt (pec.map T.epsV) r : ℂ) * vecS (T.e E) r) = vecS (T.e fun c x => openAt pec (c, x) * E c x) := by
    funext r
    rw [hoE]
    show _ * (T.sE r.1 * _) = T.sE r.1 * (_ * _)
    ring
  rw [g1, h1]
  have g2 : (fun q => (openAt (pmc.map T.muV') q : ℂ) * (vecS (T.h (unS (cE d (vecS fun c x => (openAt pec (c, x) : ℂ) * E c x)))) q
      / muV (μ.map T.muV') q))
      = vecS (T.h (unS fun q => (openAt pmc q : ℂ) * (cE d (vecS fun c x => (openAt pec (c, x) : ℂ) * E c x) q / muV μ q))) := by
    funext q
    rw [hoH, hm]
    show _ * (T.sH q.1 * cE d _ (T.comp q.1, T.iH q.1 q.2) / _) = T.sH q.1 * (_ * (cE d _ (T.comp q.1, T.iH q.1 q.2) / _))
    ring
  rw [g2, h2, hoE]
  show _ = T.sE c * (eFull ω d ε μ pec pmc *ᵥ vecS E) (T.comp c, T.iE c x)
  rw [eFull_mulVec_masks]
  show (openAt pec (T.comp c, T.iE c x) : ℂ) * (T.sE c * _ - ω ^ 2 * (ε (T.comp c, T.iE c x) * (_ * (T.sE c * _)))) = _
  rw [vecS_unS]
  set A := cH d (fun q => (openAt pmc q : ℂ) * (cE d (vecS fun c x => (openAt pec (c, x) : ℂ) * E c x) q / muV μ q)) with hA
  show (openAt pec (T.comp c, T.iE c x) : ℂ) * (T.sE c * A (T.comp c, T.iE c x)
    - ω ^ 2 * (ε (T.comp c, T.iE c x) * (openAt pec (T.comp c, T.iE c x) * (T.sE c * E (T.comp c) (T.iE c x)))))
    = T.sE c * ((openAt pec (T.comp c, T.iE c x) : ℂ) * (A (T.comp c, T.iE c x)
    - ω ^ 2 * (ε (T.comp c, T.iE c x) * (openAt pec (T.comp c, T.iE c x) * E (T.comp c) (T.iE c x)))))
  ring

/-- The magnetic fields on the two grids correspond. -/
theorem e2h_eq (T : FieldMap sh sh' ℂ) {d : Dx sh} {d' : Dx sh'} (hT : T.Respects d d') (ω : ℂ) (μ : Option (Vec sh))
    (pmc : Option (Pos sh → Bool)) (E : VField sh ℂ) :
    Fdfd.e2h ω d' (μ.map T.muV') (pmc.map T.muV') *ᵥ vecS (T.e E) = vecS (T.h (unS (Fdfd.e2h ω d μ pmc *ᵥ vecS E))) := by
  have ho : ∀ p, openAt (pmc.map T.muV') p = openAt pmc (T.comp p.1, T.iH p.1 p.2) := by intro p; cases pmc <;> rfl
  have hm : ∀ p, muV (μ.map T.muV') p = muV μ (T.comp p.1, T.iH p.1 p.2) := by intro p; cases μ <;> rfl
  funext p
  obtain ⟨c, x⟩ := p
  rw [e2h_mulVec_masks, hm, ho]
  show _ * (cE d' (vecS (T.e E)) (c, x) / _ / _) = T.sH c * (Fdfd.e2h ω d μ pmc *ᵥ vecS E) (T.comp c, T.iH c x)
  rw [e2h_mulVec_masks]
  simp only [cE, unS_vecS, hT.1]
  show _ * (T.sH c * Functional.curlForward (some d.1) E (T.comp c) (T.iH c x) / _ / _)
    = T.sH c * (_ * (Functional.curlForward (some d.1) E (T.comp c) (T.iH c x) / _ / _))
  ring

end FieldMap

/-! ### C90: permuting the axes -/

/-- The cell of the old grid with the same position as cell `x` of the permuted grid: coordinate `σ a` is coordinate `a` of `x`. -/
def permIdx (σ : Equiv.Perm (Fin 3)) (x : Idx fun a => sh (σ a)) : Idx sh := Equiv.piCongrLeft (fun a => Fin (sh a)) σ x

theorem permIdx_apply (σ : Equiv.Perm (Fin 3)) (x : Idx fun a => sh (σ a)) (a : Fin 3) : permIdx σ x (σ a) = x a :=
  Equiv.piCongrLeft_apply_apply _ _ _ _

/-- Axis `a` of the new grid is axis `σ a` of the old one. E is a vector; H changes sign if `σ` changes the handedness. -/
def permMap (sh : Fin 3 → ℕ) (K : Type*) [Field K] (σ : Equiv.Perm (Fin 3)) : FieldMap sh (fun a => sh (σ a)) K where
  comp := σ
  sE := fun _ => 1
  sH := fun _ => ((Equiv.Perm.sign σ : ℤ) : K)
  iE := fun _ => permIdx σ
  iH := fun _ => permIdx σ

/-- Cell widths of the permuted grid. -/
def permDx (σ : Equiv.Perm (Fin 3)) (d : Fdtd.Dxes sh K) : Fdtd.Dxes (fun a => sh (σ a)) K := (fun a => d.1 (σ a), fun a => d.2 (σ a))

theorem permIdx_shift (σ : Equiv.Perm (Fin 3)) (x : Idx fun a => sh (σ a)) (a : Fin 3) (s : ℤ) :
    permIdx σ (shiftIdx a s x) = shiftIdx (σ a) s (permIdx σ x) := by
  funext b
  obtain ⟨b, rfl⟩ := σ.surjective b
  rw [permIdx_apply]
  by_cases h : b = a
  · subst h; rw [shiftIdx_same, shiftIdx_same, permIdx_apply]
  · rw [shiftIdx_of_ne h, shiftIdx_of_ne (σ.injective.ne h), permIdx_apply]

theorem lc_perm (σ : Equiv.Perm (Fin 3)) (c a b : Fin 3) : lc (σ c) (σ a) (σ b) = (Equiv.Perm.sign σ : ℤ) * lc c a b := by
  revert σ c a b; decide

theorem perm_respects (σ : Equiv.Perm (Fin 3)) (d : Fdtd.Dxes sh K) : (permMap sh K σ).Respects d (permDx σ d) := by
  have hs : ((Equiv.Perm.sign σ : ℤ) : K) * ((Equiv.Perm.sign σ : ℤ) : K) = 1 := by
    rw [← Int.cast_mul]
    rcases Int.units_eq_one_or (Equiv.Perm.sign σ) with h | h <;> rw [h] <;> simp
  constructor
  · intro F
    funext c x
    show _ = ((Equiv.Perm.sign σ : ℤ) : K) * Functional.curlForward (some d.1) F (σ c) (permIdx σ x)
    rw [curlForward_lc, curlForward_lc,
      ← Equiv.sum_comp σ (fun a => ∑ b, (lc (σ c) a b : K) * Functional.derivForward (some d.1) a (F b) (permIdx σ x)), Finset.mul_sum]
    refine Finset.sum_congr rfl fun a _ => ?_
    rw [← Equiv.sum_comp σ (fun b => (lc (σ c) (σ a) b : K) * Functional.derivForward (some d.1) (σ a) (F b) (permIdx σ x)), Finset.mul_sum]
    refine Finset.sum_congr rfl fun b _ => ?_
    rw [lc_perm, derivForward_eq, derivForward_eq, Int.cast_mul, ← mul_assoc, ← mul_assoc, hs, one_mul]
    congr 1
    simp only [wOf_some]
    show (1 * F (σ b) (permIdx σ (shiftIdx a 1 x)) - 1 * F (σ b) (permIdx σ x)) / d.1 (σ a) (x a) = _
    rw [permIdx_shift, permIdx_apply, one_mul, one_mul]
  · intro F
    funext c x
    show _ = 1 * Functional.curlBack (some d.2) F (σ c) (permIdx σ x)
    rw [curlBack_lc, curlBack_lc,
      ← Equiv.sum_comp σ (fun a => ∑ b, (lc (σ c) a b : K) * Functional.derivBack (some d.2) a (F b) (permIdx σ x)), Finset.mul_sum]
    refine Finset.sum_congr rfl fun a _ => ?_
    rw [← Equiv.sum_comp σ (fun b => (lc (σ c) (σ a) b : K) * Functional.derivBack (some d.2) (σ a) (F b) (permIdx σ x)), Finset.mul_sum]
    refine Finset.sum_congr rfl fun b _ => ?_
    rw [lc_perm, derivBack_eq, derivBack_eq, Int.cast_mul, one_mul]
    simp only [wOf_some]
    show _ * ((((Equiv.Perm.sign σ : ℤ) : K) * F (σ b) (permIdx σ x) - ((Equiv.Perm.sign σ : ℤ) : K) * F (σ b) (permIdx σ (shiftIdx a (-1) x)))
      / d.2 (σ a) (x a)) = _
    rw [permIdx_shift, permIdx_apply]
    ring

/-- C90 (FDFD): renaming the axes of the grid, the materials, the conductors and the field renames those of the result. -/
theorem C90_e_full (σ : Equiv.Perm (Fin 3)) (ω : ℂ) (d : Dx sh) (ε : Vec sh) (μ : Option (Vec sh)) (pec pmc : Option (Pos sh → Bool))
    (E : VField sh ℂ) :
    let T := permMap sh ℂ σ
    eFull ω (permDx σ d) (T.epsV ε) (μ.map T.muV') (pec.map T.epsV) (pmc.map T.muV') *ᵥ vecS (T.e E)
      = vecS (T.e (unS (eFull ω d ε μ pec pmc *ᵥ vecS E))) :=
  (permMap sh ℂ σ).eFull_eq (perm_respects σ d) ω ε μ pec pmc E

/-- C90 (FDFD): the magnetic field. -/
theorem C90_e2h (σ : Equiv.Perm (Fin 3)) (ω : ℂ) (d : Dx sh) (μ : Option (Vec sh)) (pmc : Option (Pos sh → Bool)) (E : VField sh ℂ) :
    let T := permMap sh ℂ σ
    Fdfd.e2h ω (permDx σ d) (μ.map T.muV') (pmc.map T.muV') *ᵥ vecS (T.e E) = vecS (T.h (unS (Fdfd.e2h ω d μ pmc *ᵥ vecS E))) :=
  (permMap sh ℂ σ).e2h_eq (perm_respects σ d) ω μ pmc E

/-- C90 (FDTD): a run on the grid with renamed axes is the renamed run. -/
theorem C90_fdtd (σ : Equiv.Perm (Fin 3)) (dt : K) (d : Fdtd.Dxes sh K) (ε : VField sh K) (μ : Option (VField sh K))
    (s : Fdtd.State sh K) (ops : List (Fdtd.Op sh K)) :
    let T := permMap sh K σ
    Fdtd.run ⟨dt, some (permDx σ d), T.eps ε, μ.map T.mu⟩ ⟨T.e s.e, T.h s.h⟩ (ops.map T.op)
      = ⟨T.e (Fdtd.run ⟨dt, some d, ε, μ⟩ s ops).e, T.h (Fdtd.run ⟨dt, some d, ε, μ⟩ s ops).h⟩ :=
  (permMap sh K σ).run_eq (perm_respects σ d) dt ε μ s ops

/-! ### C91: mirroring an axis -/

/-- Index `(-i - o) mod n`. -/
def mir {n : ℕ} (o : ℤ) (i : Fin n) : Fin n :=
  ⟨((-(i : ℤ) - o) % (n : ℤ)).toNat, by
    have hn : (0 : ℤ) < (n : ℤ) := by exact_mod_cast i.pos
    have h1 := Int.emod_nonneg (-(i : ℤ) - o) hn.ne'
    have h2 := Int.emod_lt_of_pos (-(i : ℤ) - o) hn
    omega⟩

theorem mir_val {n : ℕ} (o : ℤ) (i : Fin n) : ((mir o i : Fin n) : ℤ) = (-(i : ℤ) - o) % (n : ℤ) := by
  have hn : (0 : ℤ) < (n : ℤ) := by exact_mod_cast i.pos
  exact Int.toNat_of_nonneg (Int.emod_nonneg _ hn.ne')

theorem mir_wrap {n : ℕ} (o s : ℤ) (i : Fin n) : mir o (wrap i s) = wrap (mir o i) (-s) := by
  apply Fin.ext
  have h : ((mir o (wrap i s) : Fin n) : ℤ) = (wrap (mir o i) (-s) : Fin n) := by
    rw [mir_val, wrap_val, wrap_val, mir_val]
    have h1 : -(((i : ℤ) + s) % n) - o ≡ -((i : ℤ) + s) - o [ZMOD n] := (Int.mod_modEq _ _).neg.sub_right o
    have h2 : (-(i : ℤ) - o) % n + -s ≡ (-(i : ℤ) - o) + -s [ZMOD n] := (Int.mod_modEq _ _).add_right (-s)
    have h3 : -((i : ℤ) + s) - o = (-(i : ℤ) - o) + -s := by ring
    rw [h3] at h1
    exact h1.trans h2.symm
  exact_mod_cast h

theorem wrap_mir {n : ℕ} (o s : ℤ) (i : Fin n) : wrap (mir o i) s = mir (o - s) i := by
  apply Fin.ext
  have h : ((wrap (mir o i) s : Fin n) : ℤ) = (mir (o - s) i : Fin n) := by
    rw [mir_val, wrap_val, mir_val]
    have h2 : (-(i : ℤ) - o) % n + s ≡ (-(i : ℤ) - o) + s [ZMOD n] := (Int.mod_modEq _ _).add_right s
    rw [show -(i : ℤ) - (o - s) = (-(i : ℤ) - o) + s by ring]
    exact h2
  exact_mod_cast h

/-- Coordinate `a` mirrored. -/
def mirIdx {D : ℕ} {sh : Fin D → ℕ} (a : Fin D) (o : ℤ) (x : Idx sh) : Idx sh := Function.update x a (mir o (x a))

theorem mirIdx_same {D : ℕ} {sh : Fin D → ℕ} (a : Fin D) (o : ℤ) (x : Idx sh) : mirIdx a o x a = mir o (x a) := Function.update_self ..

theorem mirIdx_of_ne {D : ℕ} {sh : Fin D → ℕ} {a b : Fin D} (h : b ≠ a) (o : ℤ) (x : Idx sh) : mirIdx a o x b = x b := Function.update_of_ne h ..

theorem mirIdx_shift_same {D : ℕ} {sh : Fin D → ℕ} (a : Fin D) (o s : ℤ) (x : Idx sh) : mirIdx a o (shiftIdx a s x) = mirIdx a (o + s) x := by
  funext b
  by_cases h : b = a
  · subst h; rw [mirIdx_same, shiftIdx_same, mir_wrap, wrap_mir, mirIdx_same]; congr 1; ring
  · rw [mirIdx_of_ne h, shiftIdx_of_ne h, mirIdx_of_ne h]

theorem shift_mirIdx_same {D : ℕ} {sh : Fin D → ℕ} (a : Fin D) (o s : ℤ) (x : Idx sh) : shiftIdx a s (mirIdx a o x) = mirIdx a (o - s) x := by
  funext b
  by_cases h : b = a
  · subst h; rw [shiftIdx_same, mirIdx_same, wrap_mir, mirIdx_same]
  · rw [shiftIdx_of_ne h, mirIdx_of_ne h, mirIdx_of_ne h]

theorem mirIdx_shift_ne {D : ℕ} {sh : Fin D → ℕ} {a b : Fin D} (hb : b ≠ a) (o s : ℤ) (x : Idx sh) : mirIdx a o (shiftIdx b s x) = shiftIdx b s (mirIdx a o x) := by
  funext b'
  by_cases h : b' = a
  · subst h; rw [mirIdx_same, shiftIdx_of_ne (Ne.symm hb), shiftIdx_of_ne (Ne.symm hb), mirIdx_same]
  · by_cases h' : b' = b
    · subst h'; rw [mirIdx_of_ne h, shiftIdx_same, shiftIdx_same, mirIdx_of_ne h]
    · rw [mirIdx_of_ne h, shiftIdx_of_ne h', shiftIdx_of_ne h', mirIdx_of_ne h]

/-- Reflection `r_a ↦ -r_a` of the Yee grid. Along `a`, the samples of `E_c` (c ≠ a) and `H_a` sit at integer positions, those of `E_a` and
`H_c` half a cell further. E is a vector, H an axial vector. -/
def mirMap (sh : Fin 3 → ℕ) (K : Type*) [Field K] (a : Fin 3) : FieldMap sh sh K where
  comp := id
  sE := fun c => if c = a then -1 else 1
  sH := fun c => if c = a then 1 else -1
  iE := fun c => mirIdx a (if c = a then 1 else 0)
  iH := fun c => mirIdx a (if c = a then 0 else 1)

/-- Cell widths of the reflected grid: `dx_e` is the distance from sample `i` to `i + 1`, `dx_h` the distance between neighbouring midpoints. -/
def mirDx (a : Fin 3) (d : Fdtd.Dxes sh K) : Fdtd.Dxes sh K :=
  (fun b i => if b = a then d.1 b (mir 1 i) else d.1 b i, fun b i => if b = a then d.2 b (mir 0 i) else d.2 b i)

theorem mir_respects (a : Fin 3) (d : Fdtd.Dxes sh K) : (mirMap sh K a).Respects d (mirDx a d) := by
  constructor
  · intro F
    funext c x
    show _ = (if c = a then 1 else -1) * Functional.curlForward (some d.1) F c (mirIdx a (if c = a then 0 else 1) x)
    rw [curlForward_lc, curlForward_lc, Finset.mul_sum]
    refine Finset.sum_congr rfl fun b _ => ?_
    rw [Finset.mul_sum]
    refine Finset.sum_congr rfl fun b' _ => ?_
    by_cases hl : lc c b b' = 0
    · rw [hl]; simp
    obtain ⟨n1, n2, n3⟩ := lc_ne hl
    rw [mul_left_comm]
    congr 1
    rw [derivForward_eq, derivForward_eq]
    simp only [wOf_some, mirMap, FieldMap.e, id, mirDx]
    by_cases hb : b = a
    · subst hb
      rw [if_neg n1.symm, if_neg n1.symm, if_neg n2.symm, if_neg n2.symm, if_pos rfl, mirIdx_shift_same, shift_mirIdx_same, mirIdx_same]
      norm_num
      ring
    · rw [if_neg hb, mirIdx_of_ne hb]
      by_cases hb' : b' = a
      · subst hb'
        rw [if_neg n3.symm, if_neg n3.symm, if_pos rfl, if_pos rfl, mirIdx_shift_ne hb]
        ring
      · have hc : c = a := by revert hl n1 n2 n3 hb hb'; clear * -; revert a b b' c; decide
        subst hc
        rw [if_neg n3, if_neg n3, if_pos rfl, if_pos rfl, mirIdx_shift_ne hb]
        ring
  · intro F
    funext c x
    show _ = (if c = a then -1 else 1) * Functional.curlBack (some d.2) F c (mirIdx a (if c = a then 1 else 0) x)
    rw [curlBack_lc, curlBack_lc, Finset.mul_sum]
    refine Finset.sum_congr rfl fun b _ => ?_
    rw [Finset.mul_sum]
    refine Finset.sum_congr rfl fun b' _ => ?_
    by_cases hl : lc c b b' = 0
    · rw [hl]; simp
    obtain ⟨n1, n2, n3⟩ := lc_ne hl
    rw [mul_left_comm]
    congr 1
    rw [derivBack_eq, derivBack_eq]
    simp only [wOf_some, mirMap, FieldMap.h, id, mirDx]
    by_cases hb : b = a
    · subst hb
      rw [if_neg n1.symm, if_neg n1.symm, if_neg n2.symm, if_neg n2.symm, if_pos rfl, mirIdx_shift_same, shift_mirIdx_same, mirIdx_same]
      norm_num
      ring
    · rw [if_neg hb, mirIdx_of_ne hb]
      by_cases hb' : b' = a
      · subst hb'
        rw [if_neg n3.symm, if_neg n3.symm, if_pos rfl, if_pos rfl, mirIdx_shift_ne hb]
        ring
      · have hc : c = a := by revert hl n1 n2 n3 hb hb'; clear * -; revert a b b' c; decide
        subst hc
        rw [if_neg n3, if_neg n3, if_pos rfl, if_pos rfl, mirIdx_shift_ne hb]
        ring

/-- C91 (FDFD): mirroring the grid, the materials, the conductors and the field mirrors the result. -/
theorem C91_e_full (a : Fin 3) (ω : ℂ) (d : Dx sh) (ε : Vec sh) (μ : Option (Vec sh)) (pec pmc : Option (Pos sh → Bool))
    (E : VField sh ℂ) :
    let T := mirMap sh ℂ a
    eFull ω (mirDx a d) (T.epsV ε) (μ.map T.muV') (pec.map T.epsV) (pmc.map T.muV') *ᵥ vecS (T.e E)
      = vecS (T.e (unS (eFull ω d ε μ pec pmc *ᵥ vecS E))) :=
  (mirMap sh ℂ a).eFull_eq (mir_respects a d) ω ε μ pec pmc E

/-- C91 (FDFD): the magnetic field. -/
theorem C91_e2h (a : Fin 3) (ω : ℂ) (d : Dx sh) (μ : Option (Vec sh)) (pmc : Option (Pos sh → Bool)) (E : VField sh ℂ) :
    let T := mirMap sh ℂ a
    Fdfd.e2h ω (mirDx a d) (μ.map T.muV') (pmc.map T.muV') *ᵥ vecS (T.e E) = vecS (T.h (unS (Fdfd.e2h ω d μ pmc *ᵥ vecS E))) :=
  (mirMap sh ℂ a).e2h_eq (mir_respects a d) ω μ pmc E

/-- C91 (FDTD): a run on the mirrored grid is the mirrored run. -/
theorem C91_fdtd (a : Fin 3) (dt : K) (d : Fdtd.Dxes sh K) (ε : VField sh K) (μ : Option (VField sh K)) (s : Fdtd.State sh K)
    (ops : List (Fdtd.Op sh K)) :
    let T := mirMap sh K a
    Fdtd.run ⟨dt, some (mirDx a d), T.eps ε, μ.map T.mu⟩ ⟨T.e s.e, T.h s.h⟩ (ops.map T.op)
      = ⟨T.e (Fdtd.run ⟨dt, some d, ε, μ⟩ s ops).e, T.h (Fdtd.run ⟨dt, some d, ε, μ⟩ s ops).h⟩ :=
  (mirMap sh K a).run_eq (mir_respects a d) dt ε μ s ops

/-- Fields that a symmetry of the grid and the media maps to a multiple of themselves, driven by such currents, stay so. -/
theorem FieldMap.symmetric_run (T : FieldMap sh sh K) (t : K) (dt : K) (d : Fdtd.Dxes sh K) (hT : T.Respects d d) (ε : VField sh K)
    (μ : Option (VField sh K)) (s : Fdtd.State sh K) (ops : List (Fdtd.Op sh K))
    (hε : T.eps ε = ε) (hμ : ∀ m, μ = some m → T.mu m = m)
    (he : T.e s.e = fun c x => t * s.e c x) (hh : T.h s.h = fun c x => t * s.h c x)
    (hops : ∀ o ∈ ops, match o with
      | .stepE => True
      | .stepH => True
      | .injJ j => T.e j = fun c x => t * j c x
      | .injM m => T.h m = fun c x => t * m c x) :
    T.e (Fdtd.run ⟨dt, some d, ε, μ⟩ s ops).e = (fun c x => t * (Fdtd.run ⟨dt, some d, ε, μ⟩ s ops).e c x) ∧
    T.h (Fdtd.run ⟨dt, some d, ε, μ⟩ s ops).h = fun c x => t * (Fdtd.run ⟨dt, some d, ε, μ⟩ s ops).h c x := by
  induction ops generalizing s with
  | nil => exact ⟨he, hh⟩
  | cons o ops ih =>
    have e1 : Fdtd.run ⟨dt, some d, ε, μ⟩ s (o :: ops) = Fdtd.run ⟨dt, some d, ε, μ⟩ (Fdtd.step ⟨dt, some d, ε, μ⟩ s o) ops := rfl
    rw [e1]
    have ho := hops o (by simp)
    have hrest := fun o' h => hops o' (List.mem_cons_of_mem _ h)
    have hε' : ∀ c x, ε (T.comp c) (T.iE c x) = ε c x := fun c x => congrFun (congrFun hε c) x
    have he' : ∀ c x, T.sE c * s.e (T.comp c) (T.iE c x) = t * s.e c x := fun c x => congrFun (congrFun he c) x
    have hh' : ∀ c x, T.sH c * s.h (T.comp c) (T.iH c x) = t * s.h c x := fun c x => congrFun (congrFun hh c) x
    cases o with
    | stepE =>
      refine ih _ ?_ hh hrest
      have hc : ∀ c x, T.sE c * Functional.curlBack (some d.2) s.h (T.comp c) (T.iE c x) = t * Functional.curlBack (some d.2) s.h c x := by
        intro c x
        have := congrFun (congrFun (hT.2 s.h) c) x
        rw [hh, curlBack_smul] at this
        exact this.symm
      funext c x
      simp only [FieldMap.e, Fdtd.step, Fdtd.maxwellE]
      rw [hε', mul_add, he', mul_add, ← mul_div_assoc, mul_left_comm, hc]
      ring
    | stepH =>
      refine ih _ he ?_ hrest
      have hc : ∀ c x, T.sH c * Functional.curlForward (some d.1) s.e (T.comp c) (T.iH c x) = t * Functional.curlForward (some d.1) s.e c x := by
        intro c x
        have := congrFun (congrFun (hT.1 s.e) c) x
        rw [he, curlForward_smul] at this
        exact this.symm
      funext c x
      cases μ with
      | none =>
        simp only [FieldMap.h, Fdtd.step, Fdtd.maxwellH]
        rw [mul_sub, hh', mul_sub, mul_left_comm, hc]
        ring
      | some m =>
        have hm : m (T.comp c) (T.iH c x) = m c x := congrFun (congrFun (hμ m rfl) c) x
        simp only [FieldMap.h, Fdtd.step, Fdtd.maxwellH]
        rw [hm, mul_sub, hh', mul_sub, ← mul_div_assoc, mul_left_comm, hc]
        ring
    | injJ j =>
      refine ih _ ?_ hh hrest
      have hj : ∀ c x, T.sE c * j (T.comp c) (T.iE c x) = t * j c x := fun c x => congrFun (congrFun ho c) x
      funext c x
      simp only [FieldMap.e, Fdtd.step]
      rw [hε', mul_add, he', mul_add, ← mul_div_assoc, hj]
      ring
    | injM j =>
      have hj : ∀ c x, T.sH c * j (T.comp c) (T.iH c x) = t * j c x := fun c x => congrFun (congrFun ho c) x
      cases μ with
      | none =>
        refine ih _ he ?_ hrest
        funext c x
        simp only [FieldMap.h, Fdtd.step]
        rw [mul_sub, hh', hj, mul_sub]
      | some m =>
        refine ih _ he ?_ hrest
        funext c x
        have hm : m (T.comp c) (T.iH c x) = m c x := congrFun (congrFun (hμ m rfl) c) x
        simp only [FieldMap.h, Fdtd.step]
        rw [hm, mul_sub, hh', mul_sub, ← mul_div_assoc, hj]
        ring

/-- C91: in a symmetric structure, symmetric fields driven by symmetric currents stay symmetric; with `E(-r) = -E(r)` the same. -/
theorem C91_symmetric_run (a : Fin 3) (t : K) (dt : K) (d : Fdtd.Dxes sh K) (ε : VField sh K) (μ : Option (VField sh K))
    (s : Fdtd.State sh K) (ops : List (Fdtd.Op sh K)) (hd : mirDx a d = d)
    (hε : (mirMap sh K a).eps ε = ε) (hμ : ∀ m, μ = some m → (mirMap sh K a).mu m = m)
    (he : (mirMap sh K a).e s.e = fun c x => t * s.e c x) (hh : (mirMap sh K a).h s.h = fun c x => t * s.h c x)
    (hops : ∀ o ∈ ops, match o with
      | .stepE => True
      | .stepH => True
      | .injJ j => (mirMap sh K a).e j = fun c x => t * j c x
      | .injM m => (mirMap sh K a).h m = fun c x => t * m c x) :
    (mirMap sh K a).e (Fdtd.run ⟨dt, some d, ε, μ⟩ s ops).e = (fun c x => t * (Fdtd.run ⟨dt, some d, ε, μ⟩ s ops).e c x) ∧
    (mirMap sh K a).h (Fdtd.run ⟨dt, some d, ε, μ⟩ s ops).h = fun c x => t * (Fdtd.run ⟨dt, some d, ε, μ⟩ s ops).h c x := by
  have hT : (mirMap sh K a).Respects d d := by have := mir_respects a d; rwa [hd] at this
  exact (mirMap sh K a).symmetric_run t dt d hT ε μ s ops hε hμ he hh hops

/-- C90, C91, concrete case: a 4×3×2 grid. Exchanging x and y gives a 3×4×2 grid and changes the sign of H; the uniform grid with a
permittivity that depends on y only is symmetric under `x ↦ -x`, and `E_y = 1` at the cells `x = 1, 3` is a symmetric field on it. -/
example :
    let sh : Fin 3 → ℕ := ![4, 3, 2]
    (fun a => sh (Equiv.swap 0 1 a)) = ![3, 4, 2] ∧ (permMap sh ℚ (Equiv.swap 0 1)).sH 0 = -1 ∧
    mirDx 0 ((fun _ _ => 1, fun _ _ => 1) : Fdtd.Dxes sh ℚ) = (fun _ _ => 1, fun _ _ => 1) ∧
    (mirMap sh ℚ 0).eps (fun _ x => (2 + (x 1 : ℕ) : ℚ)) = (fun _ x => (2 + (x 1 : ℕ) : ℚ)) ∧
    (mirMap sh ℚ 0).e (fun c x => ![0, (((x 0 : ℕ) % 2 : ℕ) : ℚ), 0] c)
      = (fun c x => 1 * ![0, (((x 0 : ℕ) % 2 : ℕ) : ℚ), 0] c) := by
  refine ⟨?_, ?_, ?_, ?_, ?_⟩
  · funext a; revert a; decide
  · simp [permMap]
  · simp [mirDx]
  · funext c x
    simp only [FieldMap.eps, mirMap]
    rw [mirIdx_of_ne (by decide)]
  · funext c x
    have h4 : ∀ i : Fin 4, ((mir 0 i : Fin 4) : ℕ) % 2 = (i : ℕ) % 2 := by decide
    fin_cases c
    · simp [FieldMap.e, mirMap]
    · have := h4 (x 0)
      simp only [FieldMap.e, mirMap, mirIdx_same]
      simp +decide
      exact_mod_cast this
    · simp [FieldMap.e, mirMap]

end Meanas.Props
