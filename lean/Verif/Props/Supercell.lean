/-
C157: a supercell of identical unit cells.
-/
import Verif.Props.GridInvariance
import Verif.Props.FdfdSolvers
import Verif.Props.FdfdSystem
import Mathlib.Logic.Equiv.Fin.Basic

namespace Meanas.Props

open Matrix Complex Fdfd Spec Solvers Functional Fdtd

variable {sh : Fin 3 → ℕ} {N : Fin 3 → ℕ} {K : Type*}

/-- Shape of an array of `N a` unit cells along each axis. -/
abbrev superShape (N sh : Fin 3 → ℕ) : Fin 3 → ℕ := fun a => N a * sh a

/-- Position inside its unit cell. -/
def cellOf (x : Idx (superShape N sh)) : Idx sh := fun a => (x a).modNat

/-- `numpy.tile` of a vector field. -/
def tileV (N : Fin 3 → ℕ) (F : VField sh K) : VField (superShape N sh) K := fun c x => F c (cellOf x)

/-- `numpy.tile` of the cell widths. -/
def tileDx (N : Fin 3 → ℕ) (dx : DxList sh K) : DxList (superShape N sh) K := fun a i => dx a i.modNat

/-- `numpy.tile` of a vectorised field or mask. -/
def tileVec (N : Fin 3 → ℕ) (v : Pos sh → K) : Pos (superShape N sh) → K := fun p => v (p.1, cellOf p.2)

/-- Sum of a vector field over all unit cells. -/
def foldV [AddCommMonoid K] (F : VField (superShape N sh) K) : VField sh K := fun c x => ∑ y, if cellOf y = x then F c y else 0

/-- Sum of a vectorised field over all unit cells. -/
def foldVec (v : Vec (superShape N sh)) : Vec sh := fun p => ∑ y, if cellOf y = p.2 then v (p.1, y) else 0

namespace SuperAux

theorem modNat_wrap {m n : ℕ} (i : Fin (m * n)) (s : ℤ) : (wrap i s).modNat = wrap i.modNat s := by
  apply Fin.ext
  have hn : (0 : ℤ) < (n : ℤ) := by exact_mod_cast (i.modNat).pos
  have hmn : (0 : ℤ) < ((m * n : ℕ) : ℤ) := by exact_mod_cast i.pos
  have h1 : ((wrap i s : Fin (m * n)) : ℤ) = ((i : ℤ) + s) % ((m * n : ℕ) : ℤ) := by
    simp only [wrap]; rw [Int.toNat_of_nonneg (Int.emod_nonneg _ hmn.ne')]
  have h2 : ((wrap i.modNat s : Fin n) : ℤ) = (((i.modNat : Fin n) : ℤ) + s) % (n : ℤ) := by
    simp only [wrap]; rw [Int.toNat_of_nonneg (Int.emod_nonneg _ hn.ne')]
  have h3 : (((wrap i s).modNat : Fin n) : ℤ) = ((wrap i s : Fin (m * n)) : ℤ) % (n : ℤ) := by
    simp [Fin.modNat]
  have h4 : ((i.modNat : Fin n) : ℤ) = (i : ℤ) % (n : ℤ) := by simp [Fin.modNat]
  have : (((wrap i s).modNat : Fin n) : ℤ) = ((wrap i.modNat s : Fin n) : ℤ) := by
    rw [h3, h1, h2, h4, Int.emod_emod_of_dvd _ (by push_cast; exact Dvd.intro_left _ rfl), Int.emod_add_emod]
  exact_mod_cast this

theorem cellOf_shift (b : Fin 3) (s : ℤ) (x : Idx (superShape N sh)) : cellOf (shiftIdx b s x) = shiftIdx b s (cellOf x) := by
  funext a
  by_cases h : a = b
  · subst h
    simp only [cellOf, shiftIdx, Function.update_self, modNat_wrap]
  · simp only [cellOf, shiftIdx, Function.update_of_ne h]

theorem cellOf_surj (hN : ∀ a, 0 < N a) (x : Idx sh) : ∃ y : Idx (superShape N sh), cellOf y = x := by
  refine ⟨fun a => finProdFinEquiv (⟨0, hN a⟩, x a), funext fun a => ?_⟩
  have := congrArg Prod.snd (finProdFinEquiv.symm_apply_apply ((⟨0, hN a⟩, x a) : Fin (N a) × Fin (sh a)))
  exact this

/-- Unit cell and position in it. -/
def splitIdx (N sh : Fin 3 → ℕ) : Idx (superShape N sh) ≃ (Idx N × Idx sh) :=
  (Equiv.piCongrRight fun a => (finProdFinEquiv (m := N a) (n := sh a)).symm).trans (Equiv.arrowProdEquivProdArrow _ (fun a => Fin (N a)) fun a => Fin (sh a))

theorem splitIdx_snd (y : Idx (superShape N sh)) : (splitIdx N sh y).2 = cellOf y := rfl

theorem fold_tile [Field K] (F : VField sh K) (c : Fin 3) (x : Idx sh) : foldV (tileV N F) c x = ((∏ a, N a : ℕ) : K) * F c x := by
  unfold foldV tileV
  have h1 : ∑ y : Idx (superShape N sh), (if cellOf y = x then F c (cellOf y) else 0) = ∑ q : Idx N × Idx sh, if q.2 = x then F c x else 0 := by
    refine Fintype.sum_equiv (splitIdx N sh) _ _ fun y => ?_
    by_cases h : cellOf y = x
    · rw [if_pos h, if_pos (show (splitIdx N sh y).2 = x from h), h]
    · rw [if_neg h, if_neg (show ¬ (splitIdx N sh y).2 = x from h)]
  rw [h1, Fintype.sum_prod_type]
  simp only [Finset.sum_ite_eq', Finset.mem_univ, if_true, Finset.sum_const, Finset.card_univ, nsmul_eq_mul]
  congr 2
  simp [Idx, Fintype.card_pi]

section
variable [Field K]

theorem wOf_tile (dx : Option (DxList sh K)) (a : Fin 3) (x : Idx (superShape N sh)) : wOf (dx.map (tileDx N)) a (x a) = wOf dx a (cellOf x a) := by
  cases dx <;> rfl

theorem curlBack_tile (dx : Option (DxList sh K)) (F : VField sh K) (c : Fin 3) (x : Idx (superShape N sh)) :
    curlBack (dx.map (tileDx N)) (tileV N F) c x = curlBack dx F c (cellOf x) := by
  revert c; apply forall_fin3 <;>
    simp only [curlBack_0, curlBack_1, curlBack_2, derivBack_eq, wOf_tile, tileV, cellOf_shift]

theorem curlForward_tile (dx : Option (DxList sh K)) (F : VField sh K) (c : Fin 3) (x : Idx (superShape N sh)) :
    curlForward (dx.map (tileDx N)) (tileV N F) c x = curlForward dx F c (cellOf x) := by
  revert c; apply forall_fin3 <;>
    simp only [curlForward_0, curlForward_1, curlForward_2, derivForward_eq, wOf_tile, tileV, cellOf_shift]

/-- Fold of a scalar array. -/
def foldA (f : Arr (superShape N sh) K) : Arr sh K := fun x => ∑ y, if cellOf y = x then f y else 0

theorem foldA_shift (f : Arr (superShape N sh) K) (b : Fin 3) (s : ℤ) (x : Idx sh) :
    foldA (fun y => f (shiftIdx b s y)) x = foldA f (shiftIdx b s x) := by
  unfold foldA
  rw [← sum_shiftIdx b s fun y => if cellOf y = shiftIdx b s x then f y else 0]
  refine Finset.sum_congr rfl fun y _ => ?_
  rw [cellOf_shift]
  refine if_congr ⟨fun h => by rw [h], fun h => ?_⟩ rfl rfl
  have := congrArg (shiftIdx b (-s)) h
  simpa [shiftIdx_shiftIdx] using this

theorem foldA_sub (f g : Arr (superShape N sh) K) (x : Idx sh) : foldA (fun y => f y - g y) x = foldA f x - foldA g x := by
  unfold foldA; rw [← Finset.sum_sub_distrib]
  exact Finset.sum_congr rfl fun y _ => by split_ifs <;> simp

theorem foldA_add (f g : Arr (superShape N sh) K) (x : Idx sh) : foldA (fun y => f y + g y) x = foldA f x + foldA g x := by
  unfold foldA; rw [← Finset.sum_add_distrib]
  exact Finset.sum_congr rfl fun y _ => by split_ifs <;> simp

theorem foldA_mul (g : Arr sh K) (f : Arr (superShape N sh) K) (x : Idx sh) : foldA (fun y => g (cellOf y) * f y) x = g x * foldA f x := by
  unfold foldA; rw [Finset.mul_sum]
  exact Finset.sum_congr rfl fun y _ => by split_ifs with h <;> simp [h]

theorem foldA_div (g : Arr sh K) (f : Arr (superShape N sh) K) (x : Idx sh) : foldA (fun y => f y / g (cellOf y)) x = foldA f x / g x := by
  simp only [div_eq_inv_mul]
  exact foldA_mul (fun x => (g x)⁻¹) f x

theorem derivF_fold (dx : Option (DxList sh K)) (a : Fin 3) (f : Arr (superShape N sh) K) (x : Idx sh) :
    foldA (Functional.derivForward (dx.map (tileDx N)) a f) x = Functional.derivForward dx a (foldA f) x := by
  have : Functional.derivForward (dx.map (tileDx N)) a f = fun y => (f (shiftIdx a 1 y) - f y) / (fun x => wOf dx a (x a)) (cellOf y) := by
    funext y; simp only [derivForward_eq, wOf_tile]
  rw [this, foldA_div (fun x => wOf dx a (x a)) (fun y => f (shiftIdx a 1 y) - f y), foldA_sub, foldA_shift, derivForward_eq]

theorem derivB_fold (dx : Option (DxList sh K)) (a : Fin 3) (f : Arr (superShape N sh) K) (x : Idx sh) :
    foldA (Functional.derivBack (dx.map (tileDx N)) a f) x = Functional.derivBack dx a (foldA f) x := by
  have : Functional.derivBack (dx.map (tileDx N)) a f = fun y => (f y - f (shiftIdx a (-1) y)) / (fun x => wOf dx a (x a)) (cellOf y) := by
    funext y; simp only [derivBack_eq, wOf_tile]
  rw [this, foldA_div (fun x => wOf dx a (x a)) (fun y => f y - f (shiftIdx a (-1) y)), foldA_sub, foldA_shift, derivBack_eq]

theorem foldV_eq (F : VField (superShape N sh) K) (c : Fin 3) : foldV F c = foldA (F c) := rfl

theorem curlForward_fold (dx : Option (DxList sh K)) (F : VField (superShape N sh) K) (c : Fin 3) (x : Idx sh) :
    foldV (curlForward (dx.map (tileDx N)) F) c x = curlForward dx (foldV F) c x := by
  rw [foldV_eq]
  revert c; apply forall_fin3
  · rw [curlForward_0, show curlForward (dx.map (tileDx N)) F 0 = fun y => _ - _ from funext fun y => curlForward_0 _ _ _, foldA_sub, derivF_fold, derivF_fold]; rfl
  · rw [curlForward_1, show curlForward (dx.map (tileDx N)) F 1 = fun y => _ - _ from funext fun y => curlForward_1 _ _ _, foldA_sub, derivF_fold, derivF_fold]; rfl
  · rw [curlForward_2, show curlForward (dx.map (tileDx N)) F 2 = fun y => _ - _ from funext fun y => curlForward_2 _ _ _, foldA_sub, derivF_fold, derivF_fold]; rfl

theorem curlBack_fold (dx : Option (DxList sh K)) (F : VField (superShape N sh) K) (c : Fin 3) (x : Idx sh) :
    foldV (curlBack (dx.map (tileDx N)) F) c x = curlBack dx (foldV F) c x := by
  rw [foldV_eq]
  revert c; apply forall_fin3
  · rw [curlBack_0, show curlBack (dx.map (tileDx N)) F 0 = fun y => _ - _ from funext fun y => curlBack_0 _ _ _, foldA_sub, derivB_fold, derivB_fold]; rfl
  · rw [curlBack_1, show curlBack (dx.map (tileDx N)) F 1 = fun y => _ - _ from funext fun y => curlBack_1 _ _ _, foldA_sub, derivB_fold, derivB_fold]; rfl
  · rw [curlBack_2, show curlBack (dx.map (tileDx N)) F 2 = fun y => _ - _ from funext fun y => curlBack_2 _ _ _, foldA_sub, derivB_fold, derivB_fold]; rfl

end

end SuperAux

open SuperAux

/-- Tile grid and materials. -/
def tileSys [Field K] (N : Fin 3 → ℕ) (S : Sys sh K) : Sys (superShape N sh) K :=
  ⟨S.dt, S.dxes.map fun d => (tileDx N d.1, tileDx N d.2), tileV N S.eps, S.mu.map (tileV N)⟩

/-- Tile the fields. -/
def tileState (N : Fin 3 → ℕ) (s : State sh K) : State (superShape N sh) K := ⟨tileV N s.e, tileV N s.h⟩

/-- Tile the injected currents. -/
def tileOp (N : Fin 3 → ℕ) : Op sh K → Op (superShape N sh) K
  | .stepE => .stepE
  | .stepH => .stepH
  | .injJ j => .injJ (tileV N j)
  | .injM m => .injM (tileV N m)

/-- Sum of the fields over the unit cells. -/
def foldState [AddCommMonoid K] (s : State (superShape N sh) K) : State sh K := ⟨foldV s.e, foldV s.h⟩

/-- Sum of the injected currents over the unit cells. -/
def foldOp [AddCommMonoid K] : Op (superShape N sh) K → Op sh K
  | .stepE => .stepE
  | .stepH => .stepH
  | .injJ j => .injJ (foldV j)
  | .injM m => .injM (foldV m)

namespace SuperAux

variable [Field K]

theorem mu_tile (S : Sys sh K) : muOr (tileSys N S).mu = tileV N (muOr S.mu) := by
  unfold tileSys muOr; cases S.mu <;> rfl
theorem dxH_tile (S : Sys sh K) : (tileSys N S).dxes.map (·.2) = (S.dxes.map (·.2)).map (tileDx N) := by
  unfold tileSys; cases S.dxes <;> rfl
theorem dxE_tile (S : Sys sh K) : (tileSys N S).dxes.map (·.1) = (S.dxes.map (·.1)).map (tileDx N) := by
  unfold tileSys; cases S.dxes <;> rfl

end SuperAux

/-- **C157 (FDTD).** A run on an array of identical unit cells that starts from, and is driven by, the same fields in all of them is the tiling of the run on one unit cell with periodic boundaries. -/
theorem C157_fdtd_tile [Field K] (S : Sys sh K) (s : State sh K) (ops : List (Op sh K)) :
    run (tileSys N S) (tileState N s) (ops.map (tileOp N)) = tileState N (run S s ops) := by
  induction ops generalizing s with
  | nil => rfl
  | cons op ops ih =>
    have key : step (tileSys N S) (tileState N s) (tileOp N op) = tileState N (step S s op) := by
      cases op with
      | stepE =>
        apply State.ext' <;> intro c x
        · simp only [tileOp, step, tileState, maxwellE_eq, dxH_tile, curlBack_tile]
          simp only [tileV, maxwellE_eq]
          rfl
        · rfl
      | stepH =>
        apply State.ext' <;> intro c x
        · rfl
        · simp only [tileOp, step, tileState, maxwellH_eq, dxE_tile, mu_tile, curlForward_tile]
          simp only [tileV, maxwellH_eq]
          rfl
      | injJ j => rfl
      | injM m =>
        apply State.ext' <;> intro c x
        · simp only [tileOp, step_injM_e, tileState]
        · simp only [tileOp, step_injM_h, mu_tile, tileState, tileV]
    have := ih (step S s op)
    simp only [List.map_cons, run, List.foldl_cons] at this ⊢
    rw [key, this]

/-- **C157 (FDTD, any fields).** Whatever the fields and currents on the array are, their sums over the unit cells evolve like the fields of one unit cell. -/
theorem C157_fdtd_fold [Field K] (S : Sys sh K) (s : State (superShape N sh) K) (ops : List (Op (superShape N sh) K)) :
    foldState (run (tileSys N S) s ops) = run S (foldState s) (ops.map foldOp) := by
  induction ops generalizing s with
  | nil => rfl
  | cons op ops ih =>
    have key : foldState (step (tileSys N S) s op) = step S (foldState s) (foldOp op) := by
      cases op with
      | stepE =>
        apply State.ext' <;> intro c x
        · simp only [foldOp, step, foldState, maxwellE_eq, foldV_eq]
          have : (maxwellE (tileSys N S).dt (tileSys N S).dxes s.e s.h (tileSys N S).eps c : Arr _ K) =
              fun y => s.e c y + (fun y => (fun _ => S.dt) (cellOf y) * curlBack ((S.dxes.map (·.2)).map (tileDx N)) s.h c y) y / S.eps c (cellOf y) := by
            funext y; rw [maxwellE_eq, dxH_tile]; rfl
          rw [this, foldA_add, foldA_div (S.eps c) (fun y => (fun _ => S.dt) (cellOf y) * curlBack ((S.dxes.map (·.2)).map (tileDx N)) s.h c y),
            foldA_mul (fun _ => S.dt) (curlBack ((S.dxes.map (·.2)).map (tileDx N)) s.h c), ← foldV_eq, ← foldV_eq, curlBack_fold]
        · rfl
      | stepH =>
        apply State.ext' <;> intro c x
        · rfl
        · simp only [foldOp, step, foldState, maxwellH_eq, foldV_eq]
          have : (maxwellH (tileSys N S).dt (tileSys N S).dxes s.e s.h (tileSys N S).mu c : Arr _ K) =
              fun y => s.h c y - (fun y => (fun _ => S.dt) (cellOf y) * curlForward ((S.dxes.map (·.1)).map (tileDx N)) s.e c y) y / muOr S.mu c (cellOf y) := by
            funext y; rw [maxwellH_eq, dxE_tile, mu_tile]; rfl
          rw [this, foldA_sub, foldA_div (muOr S.mu c) (fun y => (fun _ => S.dt) (cellOf y) * curlForward ((S.dxes.map (·.1)).map (tileDx N)) s.e c y),
            foldA_mul (fun _ => S.dt) (curlForward ((S.dxes.map (·.1)).map (tileDx N)) s.e c), ← foldV_eq, ← foldV_eq, curlForward_fold]
      | injJ j =>
        apply State.ext' <;> intro c x
        · show foldA (fun y => s.e c y + j c y / S.eps c (cellOf y)) x = _
          rw [foldA_add, foldA_div]; rfl
        · rfl
      | injM m =>
        apply State.ext' <;> intro c x
        · simp only [foldOp, step_injM_e, foldState]
        · simp only [foldOp, step_injM_h, foldState, foldV_eq]
          have : ((step (tileSys N S) s (.injM m)).h c : Arr _ K) = fun y => s.h c y - m c y / muOr S.mu c (cellOf y) := by
            funext y; rw [step_injM_h, mu_tile]; rfl
          rw [this, foldA_sub, foldA_div]
    have := ih (step (tileSys N S) s op)
    simp only [List.map_cons, run, List.foldl_cons] at this ⊢
    rw [this, key]

/-- Tile the two width lists. -/
def tileDx2 (N : Fin 3 → ℕ) (d : Dx sh) : Dx (superShape N sh) := (tileDx N d.1, tileDx N d.2)

namespace SuperAux

theorem openAt_tile (m : Option (Pos sh → Bool)) (p : Pos (superShape N sh)) : openAt (m.map (tileVec N)) p = openAt m (p.1, cellOf p.2) := by cases m <;> rfl
theorem muV_tile (mu : Option (Vec sh)) (p : Pos (superShape N sh)) : muV (mu.map (tileVec N)) p = muV mu (p.1, cellOf p.2) := by cases mu <;> rfl
theorem cE_tile (d : Dx sh) (u : Vec sh) (p : Pos (superShape N sh)) : cE (tileDx2 N d) (tileVec N u) p = cE d u (p.1, cellOf p.2) :=
  curlForward_tile (some d.1) (unS u) p.1 p.2
theorem cH_tile (d : Dx sh) (u : Vec sh) (p : Pos (superShape N sh)) : cH (tileDx2 N d) (tileVec N u) p = cH d u (p.1, cellOf p.2) :=
  curlBack_tile (some d.2) (unS u) p.1 p.2
theorem cE_fold (d : Dx sh) (u : Vec (superShape N sh)) (p : Pos sh) : foldVec (cE (tileDx2 N d) u) p = cE d (foldVec u) p :=
  curlForward_fold (some d.1) (unS u) p.1 p.2
theorem cH_fold (d : Dx sh) (u : Vec (superShape N sh)) (p : Pos sh) : foldVec (cH (tileDx2 N d) u) p = cH d (foldVec u) p :=
  curlBack_fold (some d.2) (unS u) p.1 p.2
theorem foldVec_mul (g : Vec sh) (u : Vec (superShape N sh)) (p : Pos sh) : foldVec (fun q => g (q.1, cellOf q.2) * u q) p = g p * foldVec u p :=
  foldA_mul (fun x => g (p.1, x)) (fun y => u (p.1, y)) p.2
theorem foldVec_div (g : Vec sh) (u : Vec (superShape N sh)) (p : Pos sh) : foldVec (fun q => u q / g (q.1, cellOf q.2)) p = foldVec u p / g p :=
  foldA_div (fun x => g (p.1, x)) (fun y => u (p.1, y)) p.2
theorem foldVec_sub (u v : Vec (superShape N sh)) (p : Pos sh) : foldVec (fun q => u q - v q) p = foldVec u p - foldVec v p :=
  foldA_sub (fun y => u (p.1, y)) (fun y => v (p.1, y)) p.2
theorem foldVec_tile (v : Vec sh) (p : Pos sh) : foldVec (tileVec N v) p = ((∏ a, N a : ℕ) : ℂ) * v p := fold_tile (unS v) p.1 p.2

end SuperAux

/-- **C157 (wave operator).** On an array of identical unit cells (grid, materials and conductors tiled), `e_full` of a tiled field is the tiling of `e_full` on one unit cell, and `e2h` likewise. -/
theorem C157_e_full_tile (ω : ℂ) (d : Dx sh) (eps : Vec sh) (mu : Option (Vec sh)) (pec pmc : Option (Pos sh → Bool)) (E : Vec sh) :
    eFull ω (tileDx2 N d) (tileVec N eps) (mu.map (tileVec N)) (pec.map (tileVec N)) (pmc.map (tileVec N)) *ᵥ tileVec N E = tileVec N (eFull ω d eps mu pec pmc *ᵥ E) ∧
    Fdfd.e2h ω (tileDx2 N d) (mu.map (tileVec N)) (pmc.map (tileVec N)) *ᵥ tileVec N E = tileVec N (Fdfd.e2h ω d mu pmc *ᵥ E) := by
  constructor
  · funext p
    show _ = (eFull ω d eps mu pec pmc *ᵥ E) (p.1, cellOf p.2)
    rw [eFull_mulVec_masks, eFull_mulVec_masks]
    have e1 : (fun r => (openAt (pec.map (tileVec N)) r : ℂ) * tileVec N E r) = tileVec N fun r => openAt pec r * E r := by
      funext r; rw [openAt_tile]; rfl
    have e2 : (fun q => (openAt (pmc.map (tileVec N)) q : ℂ) * (cE (tileDx2 N d) (tileVec N fun r => openAt pec r * E r) q
        / muV (mu.map (tileVec N)) q)) = tileVec N fun q => openAt pmc q * (cE d (fun r => openAt pec r * E r) q / muV mu q) := by
      funext q; rw [openAt_tile, muV_tile, cE_tile]; rfl
    rw [e1, e2, cH_tile, openAt_tile]; rfl
  · funext p
    show _ = (Fdfd.e2h ω d mu pmc *ᵥ E) (p.1, cellOf p.2)
    rw [e2h_mulVec_masks, e2h_mulVec_masks, cE_tile, muV_tile, openAt_tile]

/-- **C157 (wave operator, any fields).** For any field on the array, the sum of `e_full @ E` over the unit cells is `e_full` of the unit cell applied to the sum of the field. -/
theorem C157_e_full_fold (ω : ℂ) (d : Dx sh) (eps : Vec sh) (mu : Option (Vec sh)) (pec pmc : Option (Pos sh → Bool)) (E : Vec (superShape N sh)) :
    foldVec (eFull ω (tileDx2 N d) (tileVec N eps) (mu.map (tileVec N)) (pec.map (tileVec N)) (pmc.map (tileVec N)) *ᵥ E) = eFull ω d eps mu pec pmc *ᵥ foldVec E := by
  funext p
  rw [eFull_mulVec_masks]
  have e0 : eFull ω (tileDx2 N d) (tileVec N eps) (mu.map (tileVec N)) (pec.map (tileVec N)) (pmc.map (tileVec N)) *ᵥ E =
      fun q => (fun p => (openAt pec p : ℂ)) (q.1, cellOf q.2) * ((fun q => cH (tileDx2 N d) (fun q => (fun p => (openAt pmc p : ℂ)) (q.1, cellOf q.2) *
        (cE (tileDx2 N d) (fun r => (fun p => (openAt pec p : ℂ)) (r.1, cellOf r.2) * E r) q / muV mu (q.1, cellOf q.2))) q
        - (fun p => ω ^ 2 * (eps p * openAt pec p)) (q.1, cellOf q.2) * E q) q) := by
    funext q
    rw [eFull_mulVec_masks]
    simp only [openAt_tile, muV_tile, tileVec]
    ring
  have e1 : foldVec (fun q : Pos (superShape N sh) => (fun p => (openAt pmc p : ℂ)) (q.1, cellOf q.2) *
        (cE (tileDx2 N d) (fun r => (fun p => (openAt pec p : ℂ)) (r.1, cellOf r.2) * E r) q / muV mu (q.1, cellOf q.2))) =
      fun q => openAt pmc q * (cE d (fun r => openAt pec r * foldVec E r) q / muV mu q) := by
    funext q
    rw [foldVec_mul (fun p => (openAt pmc p : ℂ)) (fun q => cE (tileDx2 N d) (fun r => (fun p => (openAt pec p : ℂ)) (r.1, cellOf r.2) * E r) q / muV mu (q.1, cellOf q.2)),
      foldVec_div (muV mu) (cE (tileDx2 N d) fun r => (fun p => (openAt pec p : ℂ)) (r.1, cellOf r.2) * E r), cE_fold]
    have : foldVec (fun r : Pos (superShape N sh) => (fun p => (openAt pec p : ℂ)) (r.1, cellOf r.2) * E r) = fun r => openAt pec r * foldVec E r := by
      funext r; exact foldVec_mul (fun p => (openAt pec p : ℂ)) E r
    rw [this]
  rw [e0, foldVec_mul (fun p => (openAt pec p : ℂ)) (fun q => cH (tileDx2 N d) (fun q => (fun p => (openAt pmc p : ℂ)) (q.1, cellOf q.2) *
        (cE (tileDx2 N d) (fun r => (fun p => (openAt pec p : ℂ)) (r.1, cellOf r.2) * E r) q / muV mu (q.1, cellOf q.2))) q
        - (fun p => ω ^ 2 * (eps p * openAt pec p)) (q.1, cellOf q.2) * E q),
    foldVec_sub (cH (tileDx2 N d) fun q => (fun p => (openAt pmc p : ℂ)) (q.1, cellOf q.2) *
        (cE (tileDx2 N d) (fun r => (fun p => (openAt pec p : ℂ)) (r.1, cellOf r.2) * E r) q / muV mu (q.1, cellOf q.2))),
    cH_fold, e1, foldVec_mul (fun p => ω ^ 2 * (eps p * openAt pec p)) E]
  ring

/-- **C157 (solutions).** The driven problem on the array with a tiled current is solvable exactly if the problem on the unit cell is; a solution on the unit cell tiles to one on the array, and the mean over the
cells of any solution on the array solves the unit cell. If the solution on the array is unique, it is the tiled solution of the unit cell. -/
theorem C157_solutions (hN : ∀ a, 0 < N a) (ω : ℂ) (d : Dx sh) (eps : Vec sh) (mu : Option (Vec sh)) (pec pmc : Option (Pos sh → Bool)) (J : Vec sh) :
    let A := eFull ω d eps mu pec pmc
    let A' := eFull ω (tileDx2 N d) (tileVec N eps) (mu.map (tileVec N)) (pec.map (tileVec N)) (pmc.map (tileVec N))
    (∀ E, A *ᵥ E = (-I * ω) • J → A' *ᵥ tileVec N E = (-I * ω) • tileVec N J) ∧
    (∀ E', A' *ᵥ E' = (-I * ω) • tileVec N J → A *ᵥ (((∏ a, N a : ℕ) : ℂ)⁻¹ • foldVec E') = (-I * ω) • J) ∧
    (∀ E', (∀ E'', A' *ᵥ E'' = (-I * ω) • tileVec N J ↔ E'' = E') → ∃ E, E' = tileVec N E ∧ ∀ E₁, A *ᵥ E₁ = (-I * ω) • J ↔ E₁ = E) := by
  intro A A'
  have hp : ((∏ a, N a : ℕ) : ℂ) ≠ 0 := by
    rw [Nat.cast_ne_zero]; exact Finset.prod_ne_zero_iff.2 fun a _ => (hN a).ne'
  have h1 : ∀ E, A *ᵥ E = (-I * ω) • J → A' *ᵥ tileVec N E = (-I * ω) • tileVec N J := by
    intro E h
    rw [(C157_e_full_tile ω d eps mu pec pmc E).1, h]; rfl
  have h2 : ∀ E', A' *ᵥ E' = (-I * ω) • tileVec N J → A *ᵥ (((∏ a, N a : ℕ) : ℂ)⁻¹ • foldVec E') = (-I * ω) • J := by
    intro E' h
    rw [mulVec_smul, ← C157_e_full_fold, h]
    funext p
    have : foldVec ((-I * ω) • tileVec N J) p = (-I * ω) * (((∏ a, N a : ℕ) : ℂ) * J p) := by
      rw [← foldVec_tile, ← foldVec_mul (fun _ => -I * ω)]; rfl
    simp only [Pi.smul_apply, smul_eq_mul, this]
    field_simp
  refine ⟨h1, h2, fun E' hu => ?_⟩
  have hE' := (hu E').2 rfl
  have ht : ∀ E₁, A *ᵥ E₁ = (-I * ω) • J → E' = tileVec N E₁ := fun E₁ h => ((hu _).1 (h1 E₁ h)).symm
  refine ⟨_, ht _ (h2 E' hE'), fun E₁ => ⟨fun h => ?_, fun h => h ▸ h2 E' hE'⟩⟩
  have e := (ht E₁ h).symm.trans (ht _ (h2 E' hE'))
  funext p
  obtain ⟨y, hy⟩ := cellOf_surj hN p.2
  have := congrFun e (p.1, y)
  simpa [tileVec, hy] using this

/-- **C157 (resonances).** Every resonance of the unit cell (a frequency and a nonzero field with `e_full @ E = 0`) is one of the array. -/
theorem C157_resonances (hN : ∀ a, 0 < N a) (ω : ℂ) (d : Dx sh) (eps : Vec sh) (mu : Option (Vec sh)) (pec pmc : Option (Pos sh → Bool)) (E : Vec sh) (hE : E ≠ 0)
    (h : eFull ω d eps mu pec pmc *ᵥ E = 0) :
    tileVec N E ≠ 0 ∧ eFull ω (tileDx2 N d) (tileVec N eps) (mu.map (tileVec N)) (pec.map (tileVec N)) (pmc.map (tileVec N)) *ᵥ tileVec N E = 0 := by
  constructor
  · intro h0
    apply hE
    funext p
    obtain ⟨y, hy⟩ := cellOf_surj hN p.2
    have := congrFun h0 (p.1, y)
    simpa [tileVec, hy] using this
  · rw [(C157_e_full_tile ω d eps mu pec pmc E).1, h]; rfl

/-- **C157 (solver).** In lossy media without perfect conductors, `generic` with an exact matrix solver returns on the array the tiling of what it returns on the unit cell. -/
theorem C157_generic {R R' : Type} (hasH : Bool) (solve : Mat sh → Vec sh → Opts sh R → Vec sh) (hs : Exact solve) (opts : Opts sh R)
    (solve' : Mat (superShape N sh) → Vec (superShape N sh) → Opts (superShape N sh) R' → Vec (superShape N sh)) (hs' : Exact solve') (opts' : Opts (superShape N sh) R')
    (P : Problem sh) (P' : Problem (superShape N sh)) (d : DxList sh ℝ × DxList sh ℝ) (hd : PosGrid d) (hdx : P.dxes = cDx d) (mu : Option (Pos sh → ℝ))
    (hmu : ∀ m, mu = some m → ∀ p, m p ≠ 0) (hPmu : P.mu = realMu mu) (hpec : P.pec = none) (hadj : P.adjoint = false)
    (hloss : (∀ p, (P.ω ^ 2 * P.eps p).im < 0) ∨ ∀ p, 0 < (P.ω ^ 2 * P.eps p).im)
    (hω : P'.ω = P.ω) (hdx' : P'.dxes = tileDx2 N P.dxes) (hJ : P'.J = tileVec N P.J) (heps : P'.eps = tileVec N P.eps) (hmu' : P'.mu = P.mu.map (tileVec N))
    (hpec' : P'.pec = none) (hpmc : P'.pmc = P.pmc.map (tileVec N)) (hadj' : P'.adjoint = false) :
    ∃ E, (generic hasH solve opts P).1 = .ok E ∧ (generic hasH solve' opts' P').1 = .ok (tileVec N E) := by
  obtain ⟨E, h1, h2, -⟩ := C83_solver hasH solve hs opts P d hd hdx mu hmu hPmu hpec hadj hloss
  have hd' : PosGrid (tileDx N d.1, tileDx N d.2) := ⟨fun a i => hd.1 a _, fun a i => hd.2 a _⟩
  have hmu2 : P'.mu = realMu (mu.map (tileVec N)) := by rw [hmu', hPmu]; cases mu <;> rfl
  obtain ⟨E', h1', h2', h3'⟩ := C83_solver hasH solve' hs' opts' P' (tileDx N d.1, tileDx N d.2) hd' (by rw [hdx', hdx]; rfl) (mu.map (tileVec N))
    (fun m hm p => by
      cases mu with
      | none => simp at hm
      | some q => simp at hm; subst hm; exact hmu q rfl _) hmu2 hpec' hadj'
    (by rw [hω, heps]; exact hloss.imp (fun h p => h _) fun h p => h _)
  refine ⟨E, h1, ?_⟩
  rw [h1', h3' (tileVec N E) ?_]
  have := (C157_e_full_tile (N := N) P.ω P.dxes P.eps P.mu none P.pmc E).1
  rw [h2] at this
  rw [hω, hdx', heps, hmu', hpmc, hJ]
  exact this

/-- A 2×1×3 array of 2×3×1 cells: index 5 along axis 0 is not there, index 3 is position 1 of the second cell. -/
example : cellOf (N := ![2, 1, 3]) (sh := ![2, 3, 1]) (fun a => match a with | 0 => (3 : Fin 4) | 1 => (2 : Fin 3) | 2 => (2 : Fin 3)) =
    (fun a => match a with | 0 => (1 : Fin 2) | 1 => (2 : Fin 3) | 2 => (0 : Fin 1)) := by
  funext a; fin_cases a <;> rfl
example : ∀ a, 0 < (![2, 1, 3] : Fin 3 → ℕ) a := by decide

end Meanas.Props
