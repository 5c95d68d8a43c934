/-
Helper lemmas about the FDTD model.
-/
import Verif.Model.Fdtd
import Verif.Lemmas.Functional

namespace Meanas.Fdtd

open Functional Spec

variable {sh : Fin 3 → ℕ} {K : Type*} [Field K]

/-- Permeability with its default 1. -/
def muOr (mu : Option (VField sh K)) : VField sh K :=
  match mu with
  | some m => m
  | none => fun _ _ => 1

theorem maxwellE_eq (dt : K) (dxes : Option (Dxes sh K)) (e h eps : VField sh K) (c : Fin 3) (x : Idx sh) :
    maxwellE dt dxes e h eps c x = e c x + dt * curlBack (dxes.map (·.2)) h c x / eps c x := by
  cases dxes <;> rfl

theorem maxwellH_eq (dt : K) (dxes : Option (Dxes sh K)) (e h : VField sh K) (mu : Option (VField sh K)) (c : Fin 3)
    (x : Idx sh) :
    maxwellH dt dxes e h mu c x = h c x - dt * curlForward (dxes.map (·.1)) e c x / muOr mu c x := by
  cases dxes <;> cases mu <;> simp [maxwellH, muOr]

theorem step_injM_h (S : Sys sh K) (s : State sh K) (m : VField sh K) (c : Fin 3) (x : Idx sh) :
    (step S s (.injM m)).h c x = s.h c x - m c x / muOr S.mu c x := by
  unfold step muOr
  cases S.mu <;> simp

theorem step_injM_e (S : Sys sh K) (s : State sh K) (m : VField sh K) : (step S s (.injM m)).e = s.e := by
  unfold step
  cases S.mu <;> simp

omit [Field K] in
theorem State.ext' {s t : State sh K} (he : ∀ c x, s.e c x = t.e c x) (hh : ∀ c x, s.h c x = t.h c x) : s = t := by
  cases s; cases t
  congr
  · funext c x; exact he c x
  · funext c x; exact hh c x

theorem undoE (dt : K) (dxes : Option (Dxes sh K)) (e h eps : VField sh K) :
    maxwellE (-dt) dxes (maxwellE dt dxes e h eps) h eps = e := by
  funext c x; simp only [maxwellE_eq]; ring

theorem undoH (dt : K) (dxes : Option (Dxes sh K)) (e h : VField sh K) (mu : Option (VField sh K)) :
    maxwellH (-dt) dxes e (maxwellH dt dxes e h mu) mu = h := by
  funext c x; simp only [maxwellH_eq]; ring

theorem divBack_add {d : ℕ} {sh : Fin d → ℕ} (dx : Option (DxList sh K)) (F G : Fin d → Arr sh K) (x : Idx sh) :
    divBack dx (fun c y => F c y + G c y) x = divBack dx F x + divBack dx G x := by
  simp only [divBack, ← Finset.sum_add_distrib]
  exact Finset.sum_congr rfl fun a _ => by ring

theorem divBack_smul {d : ℕ} {sh : Fin d → ℕ} (dx : Option (DxList sh K)) (k : K) (F : Fin d → Arr sh K) (x : Idx sh) :
    divBack dx (fun c y => k * F c y) x = k * divBack dx F x := by
  simp only [divBack, Finset.mul_sum]
  exact Finset.sum_congr rfl fun a _ => by ring

theorem divForward_sub {d : ℕ} {sh : Fin d → ℕ} (dx : Option (DxList sh K)) (F G : Fin d → Arr sh K) (x : Idx sh) :
    divForward dx (fun c y => F c y - G c y) x = divForward dx F x - divForward dx G x := by
  simp only [divForward, ← Finset.sum_sub_distrib]
  exact Finset.sum_congr rfl fun a _ => by ring

theorem divForward_smul {d : ℕ} {sh : Fin d → ℕ} (dx : Option (DxList sh K)) (k : K) (F : Fin d → Arr sh K)
    (x : Idx sh) : divForward dx (fun c y => k * F c y) x = k * divForward dx F x := by
  simp only [divForward, Finset.mul_sum]
  exact Finset.sum_congr rfl fun a _ => by ring

end Meanas.Fdtd
