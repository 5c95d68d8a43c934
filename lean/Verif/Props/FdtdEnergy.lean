/-
Properties of the FDTD energy functions (meanas/fdtd/energy.py): C10 local Poynting theorem, C11 total energy,
C17 no power from the periodic boundary.
-/
import Verif.Lemmas.Fdtd

namespace Meanas.Props

open Functional Spec Fdtd

variable {sh : Fin 3 → ℕ} {K : Type*} [Field K]

/-- The divergence computed by `poynting_divergence(s)`. -/
def divS (s : VField sh K) : Arr sh K :=
  fun x => ∑ a, (s a x - s a (shiftIdx a (-1) x))

theorem poyntingDivergence_some (s : VField sh K) (e h : Option (VField sh K)) (dxes : Option (Dxes sh K)) :
    poyntingDivergence (some s) e h dxes = .ok (divS s) := by
  have : (fun x => derivBack none 0 (s 0) x + derivBack none 1 (s 1) x + derivBack none 2 (s 2) x) = divS s := by
    funext x
    simp only [divS, Fin.sum_univ_three, derivBack_eq, wOf_none, div_one]
  rw [← this]; rfl

/-! ## C17 -/

/-- C17: argument handling. With `s` given it is used; otherwise all of `e`, `h`, `dxes` are needed and the result is
that of `s = poynting(e, h, dxes)`; otherwise the call is rejected. -/
theorem C17_arguments (e h : Option (VField sh K)) (dxes : Option (Dxes sh K)) :
    (∀ s, poyntingDivergence (some s) e h dxes = .ok (divS s)) ∧
    (∀ e' h' d, e = some e' → h = some h' → dxes = some d →
      poyntingDivergence none e h dxes = poyntingDivergence (some (poynting e' h' (some d))) none none none) ∧
    ((e = none ∨ h = none ∨ dxes = none) ↔ ∃ msg, poyntingDivergence none e h dxes = .error msg) := by
  refine ⟨fun s => poyntingDivergence_some s e h dxes, ?_, ?_⟩
  · rintro e' h' d rfl rfl rfl; rfl
  · rcases e with _ | e <;> rcases h with _ | h <;> rcases dxes with _ | d <;>
      simp [poyntingDivergence, bind, Except.bind, pure, Except.pure, throw, throwThe, MonadExceptOf.throw]

/-- C17: the divergence of any `s`, in particular of every Poynting vector, sums to zero over the periodic grid. -/
theorem C17_sum_zero (s : VField sh K) (e h : Option (VField sh K)) (dxes : Option (Dxes sh K)) (ds : Arr sh K)
    (hds : poyntingDivergence (some s) e h dxes = .ok ds) : ∑ x, ds x = 0 := by
  rw [poyntingDivergence_some] at hds
  cases hds
  unfold divS
  rw [Finset.sum_comm]
  refine Finset.sum_eq_zero fun a _ => ?_
  rw [Finset.sum_sub_distrib, sum_shiftIdx a (-1) (fun x => s a x), sub_self]

theorem C17_sum_zero_eh (e h : VField sh K) (d : Dxes sh K) (ds : Arr sh K)
    (hds : poyntingDivergence none (some e) (some h) (some d) = .ok ds) : ∑ x, ds x = 0 :=
  C17_sum_zero (poynting e h (some d)) none none none ds hds

/-! ## C10 -/

theorem shiftIdx_fwd_back {d : ℕ} {sh : Fin d → ℕ} (a : Fin d) (x : Idx sh) : shiftIdx a 1 (shiftIdx a (-1) x) = x := by
  simp

/-- Widths used by the energy functions: 1 by default. -/
theorem wOf_dxesOrOnes (dxes : Option (Dxes sh K)) (a : Fin 3) (i : Fin (sh a)) :
    (dxesOrOnes dxes).1 a i = wOf (dxes.map (·.1)) a i ∧ (dxesOrOnes dxes).2 a i = wOf (dxes.map (·.2)) a i := by
  cases dxes <;> exact ⟨rfl, rfl⟩

theorem poynting_0 (e h : VField sh K) (dxes : Option (Dxes sh K)) (x : Idx sh) :
    poynting e h dxes 0 x = e 1 (shiftIdx 0 1 x) * (dxesOrOnes dxes).1 1 (x 1) * (h 2 x * (dxesOrOnes dxes).2 2 (x 2))
      - e 2 (shiftIdx 0 1 x) * (dxesOrOnes dxes).1 2 (x 2) * (h 1 x * (dxesOrOnes dxes).2 1 (x 1)) := by
  have h1 : shiftIdx 0 1 x 1 = x 1 := shiftIdx_of_ne (by decide) _ _
  have h2 : shiftIdx 0 1 x 2 = x 2 := shiftIdx_of_ne (by decide) _ _
  have key : poynting e h dxes 0 x
      = roll (fun x => e 1 x * (dxesOrOnes dxes).1 1 (x 1)) (-1) 0 x * (h 2 x * (dxesOrOnes dxes).2 2 (x 2))
        - roll (fun x => e 2 x * (dxesOrOnes dxes).1 2 (x 2)) (-1) 0 x * (h 1 x * (dxesOrOnes dxes).2 1 (x 1)) := rfl
  rw [key]
  simp only [roll_apply, neg_neg, h1, h2]

theorem poynting_1 (e h : VField sh K) (dxes : Option (Dxes sh K)) (x : Idx sh) :
    poynting e h dxes 1 x = e 2 (shiftIdx 1 1 x) * (dxesOrOnes dxes).1 2 (x 2) * (h 0 x * (dxesOrOnes dxes).2 0 (x 0))
      - e 0 (shiftIdx 1 1 x) * (dxesOrOnes dxes).1 0 (x 0) * (h 2 x * (dxesOrOnes dxes).2 2 (x 2)) := by
  have h1 : shiftIdx 1 1 x 0 = x 0 := shiftIdx_of_ne (by decide) _ _
  have h2 : shiftIdx 1 1 x 2 = x 2 := shiftIdx_of_ne (by decide) _ _
  have key : poynting e h dxes 1 x
      = roll (fun x => e 2 x * (dxesOrOnes dxes).1 2 (x 2)) (-1) 1 x * (h 0 x * (dxesOrOnes dxes).2 0 (x 0))
        - roll (fun x => e 0 x * (dxesOrOnes dxes).1 0 (x 0)) (-1) 1 x * (h 2 x * (dxesOrOnes dxes).2 2 (x 2)) := rfl
  rw [key]
  simp only [roll_apply, neg_neg, h1, h2]

theorem poynting_2 (e h : VField sh K) (dxes : Option (Dxes sh K)) (x : Idx sh) :
    poynting e h dxes 2 x = e 0 (shiftIdx 2 1 x) * (dxesOrOnes dxes).1 0 (x 0) * (h 1 x * (dxesOrOnes dxes).2 1 (x 1))
      - e 1 (shiftIdx 2 1 x) * (dxesOrOnes dxes).1 1 (x 1) * (h 0 x * (dxesOrOnes dxes).2 0 (x 0)) := by
  have h1 : shiftIdx 2 1 x 0 = x 0 := shiftIdx_of_ne (by decide) _ _
  have h2 : shiftIdx 2 1 x 1 = x 1 := shiftIdx_of_ne (by decide) _ _
  have key : poynting e h dxes 2 x
      = roll (fun x => e 0 x * (dxesOrOnes dxes).1 0 (x 0)) (-1) 2 x * (h 1 x * (dxesOrOnes dxes).2 1 (x 1))
        - roll (fun x => e 1 x * (dxesOrOnes dxes).1 1 (x 1)) (-1) 2 x * (h 0 x * (dxesOrOnes dxes).2 0 (x 0)) := rfl
  rw [key]
  simp only [roll_apply, neg_neg, h1, h2]

/-- The Poynting identity in one cell, all grids: `e·curl_b h` weighted with the Yee volumes of E minus `h·curl_f e`
weighted with the Yee volumes of H is minus the Poynting divergence. -/
theorem poynting_local (dxes : Option (Dxes sh K)) (hE : Nonzero (dxesOrOnes dxes).1) (hH : Nonzero (dxesOrOnes dxes).2)
    (e h : VField sh K) (x : Idx sh) :
    ∑ c, volE (dxesOrOnes dxes).1 (dxesOrOnes dxes).2 c x * (e c x * curlBack (dxes.map (·.2)) h c x)
      - ∑ c, volH (dxesOrOnes dxes).1 (dxesOrOnes dxes).2 c x * (h c x * curlForward (dxes.map (·.1)) e c x)
      = - divS (poynting e h dxes) x := by
  have n01 : (0 : Fin 3) ≠ 1 := by decide
  have n02 : (0 : Fin 3) ≠ 2 := by decide
  have n12 : (1 : Fin 3) ≠ 2 := by decide
  simp only [divS, Fin.sum_univ_three, curlBack_0, curlBack_1, curlBack_2, curlForward_0, curlForward_1, curlForward_2,
    volE_0, volE_1, volE_2, volH_0, volH_1, volH_2, derivForward_eq, derivBack_eq, ← (wOf_dxesOrOnes _ _ _).1,
    ← (wOf_dxesOrOnes _ _ _).2, poynting_0, poynting_1, poynting_2, shiftIdx_fwd_back,
    shiftIdx_of_ne n01, shiftIdx_of_ne n02, shiftIdx_of_ne n12, shiftIdx_of_ne n01.symm, shiftIdx_of_ne n02.symm,
    shiftIdx_of_ne n12.symm]
  have a0 := hE 0 (x 0)
  have a1 := hE 1 (x 1)
  have a2 := hE 2 (x 2)
  have b0 := hH 0 (x 0)
  have b1 := hH 1 (x 1)
  have b2 := hH 2 (x 2)
  generalize (dxesOrOnes dxes).1 0 (x 0) = p0 at *
  generalize (dxesOrOnes dxes).1 1 (x 1) = p1 at *
  generalize (dxesOrOnes dxes).1 2 (x 2) = p2 at *
  generalize (dxesOrOnes dxes).2 0 (x 0) = q0 at *
  generalize (dxesOrOnes dxes).2 1 (x 1) = q1 at *
  generalize (dxesOrOnes dxes).2 2 (x 2) = q2 at *
  field_simp
  ring

/-- Energy of one cell with the volumes of the Yee cells around each component (the weights for which the discrete
Poynting theorem is exact on every grid). -/
def yeeEnergy (d : Dxes sh K) (eps mu : VField sh K) (ee hh : VField sh K) : Arr sh K :=
  fun x => ∑ c, volE d.1 d.2 c x * (eps c x * ee c x) + ∑ c, volH d.1 d.2 c x * (mu c x * hh c x)

/-- Work done in one cell: electric currents with the E volumes, magnetic currents with the H volumes. -/
def yeeWork (d : Dxes sh K) (j m e h : VField sh K) : Arr sh K :=
  fun x => ∑ c, volE d.1 d.2 c x * (j c x * e c x) - ∑ c, volH d.1 d.2 c x * (m c x * h c x)

/-- Both width lists of the system are nonzero. -/
def GridOk (S : Sys sh K) : Prop := ∀ d, S.dxes = some d → Nonzero d.1 ∧ Nonzero d.2

/-- Material values are nonzero. -/
def MatOk (S : Sys sh K) : Prop := (∀ c x, S.eps c x ≠ 0) ∧ ∀ m, S.mu = some m → ∀ c x, m c x ≠ 0

/-- The two lattices have the same widths. -/
def SameLattices (S : Sys sh K) : Prop := ∀ d, S.dxes = some d → d.1 = d.2

theorem GridOk.nz {S : Sys sh K} (h : GridOk S) :
    Nonzero (dxesOrOnes S.dxes).1 ∧ Nonzero (dxesOrOnes S.dxes).2 := by
  cases hd : S.dxes with
  | none => exact ⟨fun _ _ => one_ne_zero, fun _ _ => one_ne_zero⟩
  | some d => exact h d hd

theorem MatOk.mu_ne {S : Sys sh K} (h : MatOk S) (c : Fin 3) (x : Idx sh) : muOr S.mu c x ≠ 0 := by
  cases hm : S.mu with
  | none => exact one_ne_zero
  | some m => exact h.2 m hm c x

theorem SameLattices.eq {S : Sys sh K} (h : SameLattices S) : (dxesOrOnes S.dxes).1 = (dxesOrOnes S.dxes).2 := by
  cases hd : S.dxes with
  | none => rfl
  | some d => exact h d hd

/-- C10, all grids: with the Yee-cell volumes as weights, the change of the energy from an H time to the next E time
is minus `dt` times the `poynting_divergence` of the two fields, plus the work of the injected currents. -/
theorem C10_poynting_h2e_yee (S : Sys sh K) (hg : GridOk S) (hm : MatOk S) (s s1 s2 : State sh K) (j m : VField sh K)
    (h1 : s1 = run S s [.stepE, .injJ j]) (h2 : s2 = run S s1 [.stepH, .injM m]) (ds : Arr sh K)
    (hds : poyntingDivergence (some (poynting s1.e s.h S.dxes)) none none none = .ok ds) (x : Idx sh) :
    yeeEnergy (dxesOrOnes S.dxes) S.eps (S.mu.getD fun _ _ => 1) (fun c x => s1.e c x * s1.e c x) (fun c x => s.h c x * s2.h c x) x
      - yeeEnergy (dxesOrOnes S.dxes) S.eps (S.mu.getD fun _ _ => 1) (fun c x => s.e c x * s1.e c x) (fun c x => s.h c x * s.h c x) x
      = -S.dt * ds x + yeeWork (dxesOrOnes S.dxes) j m s1.e s.h x := by
  rw [poyntingDivergence_some] at hds
  cases hds
  have hmu : (S.mu.getD fun _ _ => 1) = muOr S.mu := by cases S.mu <;> rfl
  have key := poynting_local S.dxes hg.nz.1 hg.nz.2 s1.e s.h x
  have e1 : ∀ c, S.eps c x * (s1.e c x - s.e c x) = S.dt * curlBack (S.dxes.map (·.2)) s.h c x + j c x := by
    intro c
    have := hm.1 c x
    rw [h1]; simp only [run, List.foldl, step, maxwellE_eq]; field_simp; ring
  have e2 : ∀ c, muOr S.mu c x * (s2.h c x - s.h c x)
      = -(S.dt * curlForward (S.dxes.map (·.1)) s1.e c x) - m c x := by
    intro c
    have := hm.mu_ne c x
    have hh : s1.h = s.h := by rw [h1]; rfl
    rw [h2]; simp only [run, List.foldl, step_injM_h]; simp only [step, maxwellH_eq, hh]; field_simp; ring
  rw [hmu]
  simp only [yeeEnergy, yeeWork, Fin.sum_univ_three] at key ⊢
  linear_combination S.dt * key
    + volE (dxesOrOnes S.dxes).1 (dxesOrOnes S.dxes).2 0 x * s1.e 0 x * e1 0
    + volE (dxesOrOnes S.dxes).1 (dxesOrOnes S.dxes).2 1 x * s1.e 1 x * e1 1
    + volE (dxesOrOnes S.dxes).1 (dxesOrOnes S.dxes).2 2 x * s1.e 2 x * e1 2
    + volH (dxesOrOnes S.dxes).1 (dxesOrOnes S.dxes).2 0 x * s.h 0 x * e2 0
    + volH (dxesOrOnes S.dxes).1 (dxesOrOnes S.dxes).2 1 x * s.h 1 x * e2 1
    + volH (dxesOrOnes S.dxes).1 (dxesOrOnes S.dxes).2 2 x * s.h 2 x * e2 2

/-- C10, all grids, the half-step from an E time to the next H time. -/
theorem C10_poynting_e2h_yee (S : Sys sh K) (hg : GridOk S) (hm : MatOk S) (s s1 s2 : State sh K) (j m : VField sh K)
    (h1 : s1 = run S s [.stepH, .injM m]) (h2 : s2 = run S s1 [.stepE, .injJ j]) (ds : Arr sh K)
    (hds : poyntingDivergence (some (poynting s.e s1.h S.dxes)) none none none = .ok ds) (x : Idx sh) :
    yeeEnergy (dxesOrOnes S.dxes) S.eps (S.mu.getD fun _ _ => 1) (fun c x => s.e c x * s2.e c x) (fun c x => s1.h c x * s1.h c x) x
      - yeeEnergy (dxesOrOnes S.dxes) S.eps (S.mu.getD fun _ _ => 1) (fun c x => s.e c x * s.e c x) (fun c x => s.h c x * s1.h c x) x
      = -S.dt * ds x + yeeWork (dxesOrOnes S.dxes) j m s.e s1.h x := by
  rw [poyntingDivergence_some] at hds
  cases hds
  have hmu : (S.mu.getD fun _ _ => 1) = muOr S.mu := by cases S.mu <;> rfl
  have key := poynting_local S.dxes hg.nz.1 hg.nz.2 s.e s1.h x
  have he : s1.e = s.e := by rw [h1]; simp only [run, List.foldl, step_injM_e]; rfl
  have e1 : ∀ c, S.eps c x * (s2.e c x - s.e c x) = S.dt * curlBack (S.dxes.map (·.2)) s1.h c x + j c x := by
    intro c
    have := hm.1 c x
    rw [h2]; simp only [run, List.foldl, step, maxwellE_eq, he]; field_simp; ring
  have e2 : ∀ c, muOr S.mu c x * (s1.h c x - s.h c x)
      = -(S.dt * curlForward (S.dxes.map (·.1)) s.e c x) - m c x := by
    intro c
    have := hm.mu_ne c x
    rw [h1]; simp only [run, List.foldl, step_injM_h]; simp only [step, maxwellH_eq]; field_simp; ring
  rw [hmu]
  simp only [yeeEnergy, yeeWork, Fin.sum_univ_three] at key ⊢
  linear_combination S.dt * key
    + volE (dxesOrOnes S.dxes).1 (dxesOrOnes S.dxes).2 0 x * s.e 0 x * e1 0
    + volE (dxesOrOnes S.dxes).1 (dxesOrOnes S.dxes).2 1 x * s.e 1 x * e1 1
    + volE (dxesOrOnes S.dxes).1 (dxesOrOnes S.dxes).2 2 x * s.e 2 x * e1 2
    + volH (dxesOrOnes S.dxes).1 (dxesOrOnes S.dxes).2 0 x * s1.h 0 x * e2 0
    + volH (dxesOrOnes S.dxes).1 (dxesOrOnes S.dxes).2 1 x * s1.h 1 x * e2 1
    + volH (dxesOrOnes S.dxes).1 (dxesOrOnes S.dxes).2 2 x * s1.h 2 x * e2 2

/-- On grids with equal lattices the code's energy weights are the Yee volumes. -/
theorem dxmul_eq_yee (S : Sys sh K) (hs : SameLattices S) (ee hh : VField sh K) (x : Idx sh) :
    dxmul ee hh (some S.eps) S.mu S.dxes x
      = yeeEnergy (dxesOrOnes S.dxes) S.eps (S.mu.getD fun _ _ => 1) ee hh x := by
  have h := hs.eq
  cases hmu : S.mu <;>
  · simp only [dxmul, yeeEnergy, Fin.sum_univ_three, volE_0, volE_1, volE_2, volH_0, volH_1, volH_2, h, Option.getD]
    ring

theorem deltaEnergyJ_eq_yee (S : Sys sh K) (hs : SameLattices S) (j m e h : VField sh K) (x : Idx sh) :
    deltaEnergyJ j e S.dxes x - deltaEnergyJ m h S.dxes x = yeeWork (dxesOrOnes S.dxes) j m e h x := by
  simp only [deltaEnergyJ, yeeWork, Fin.sum_univ_three, volE_0, volE_1, volE_2, volH_0, volH_1, volH_2, hs.eq]
  ring

/-- C10 for the code's own energy functions (partial: only grids whose E and H widths coincide; on other grids the
claim is false, see `C10_unequal_lattices_partial`). -/
theorem C10_poynting_h2e_partial (S : Sys sh K) (hg : GridOk S) (hm : MatOk S) (hs : SameLattices S)
    (s s1 s2 : State sh K) (j m : VField sh K)
    (h1 : s1 = run S s [.stepE, .injJ j]) (h2 : s2 = run S s1 [.stepH, .injM m]) (ds : Arr sh K)
    (hds : poyntingDivergence (some (poynting s1.e s.h S.dxes)) none none none = .ok ds) (x : Idx sh) :
    energyEstep s.h s1.e s2.h (some S.eps) S.mu S.dxes x - energyHstep s.e s.h s1.e (some S.eps) S.mu S.dxes x
      = -S.dt * ds x + deltaEnergyJ j s1.e S.dxes x - deltaEnergyJ m s.h S.dxes x := by
  have := C10_poynting_h2e_yee S hg hm s s1 s2 j m h1 h2 ds hds x
  rw [energyEstep, energyHstep, dxmul_eq_yee S hs, dxmul_eq_yee S hs, this, ← deltaEnergyJ_eq_yee S hs]
  ring

theorem C10_poynting_e2h_partial (S : Sys sh K) (hg : GridOk S) (hm : MatOk S) (hs : SameLattices S)
    (s s1 s2 : State sh K) (j m : VField sh K)
    (h1 : s1 = run S s [.stepH, .injM m]) (h2 : s2 = run S s1 [.stepE, .injJ j]) (ds : Arr sh K)
    (hds : poyntingDivergence (some (poynting s.e s1.h S.dxes)) none none none = .ok ds) (x : Idx sh) :
    energyHstep s.e s1.h s2.e (some S.eps) S.mu S.dxes x - energyEstep s.h s.e s1.h (some S.eps) S.mu S.dxes x
      = -S.dt * ds x + deltaEnergyJ j s.e S.dxes x - deltaEnergyJ m s1.h S.dxes x := by
  have := C10_poynting_e2h_yee S hg hm s s1 s2 j m h1 h2 ds hds x
  rw [energyEstep, energyHstep, dxmul_eq_yee S hs, dxmul_eq_yee S hs, this, ← deltaEnergyJ_eq_yee S hs]
  ring

/-- C10, sources, on every grid: injecting a current changes the energy given by `energy_hstep` by `delta_energy_j` of the current and the other E field. -/
theorem C10_source_work (S : Sys sh K) (hm : MatOk S) (s : State sh K) (e0 h1 j : VField sh K) (x : Idx sh) :
    energyHstep e0 h1 (run S s [.injJ j]).e (some S.eps) S.mu S.dxes x - energyHstep e0 h1 s.e (some S.eps) S.mu S.dxes x = deltaEnergyJ j e0 S.dxes x := by
  have he : ∀ c, (run S s [.injJ j]).e c x * S.eps c x = s.e c x * S.eps c x + j c x := fun c => by
    have := hm.1 c x
    simp only [run, List.foldl, step]
    field_simp
  have h0 := he 0
  have h1 := he 1
  have h2 := he 2
  simp only [energyHstep, dxmul, deltaEnergyJ, Fin.sum_univ_three]
  linear_combination (e0 0 x * h0 + e0 1 x * h1 + e0 2 x * h2) * ((dxesOrOnes S.dxes).1 0 (x 0) * (dxesOrOnes S.dxes).1 1 (x 1) * (dxesOrOnes S.dxes).1 2 (x 2))

/-- C10, all grids: by how much the code's energy functions miss the balance. Every component is weighted with the volume of the cell instead of its own
Yee volume, and the difference of the two volumes multiplies the change of the component. -/
theorem C10_excess_h2e_partial (S : Sys sh K) (hg : GridOk S) (hm : MatOk S) (s s1 s2 : State sh K) (j m : VField sh K)
    (h1 : s1 = run S s [.stepE, .injJ j]) (h2 : s2 = run S s1 [.stepH, .injM m]) (ds : Arr sh K)
    (hds : poyntingDivergence (some (poynting s1.e s.h S.dxes)) none none none = .ok ds) (x : Idx sh) :
    energyEstep s.h s1.e s2.h (some S.eps) S.mu S.dxes x - energyHstep s.e s.h s1.e (some S.eps) S.mu S.dxes x
      = -S.dt * ds x + yeeWork (dxesOrOnes S.dxes) j m s1.e s.h x
        + ∑ c, ((∏ a, (dxesOrOnes S.dxes).1 a (x a)) - volE (dxesOrOnes S.dxes).1 (dxesOrOnes S.dxes).2 c x) * S.eps c x * (s1.e c x * (s1.e c x - s.e c x))
        + ∑ c, ((∏ a, (dxesOrOnes S.dxes).2 a (x a)) - volH (dxesOrOnes S.dxes).1 (dxesOrOnes S.dxes).2 c x) * (S.mu.getD fun _ _ => 1) c x
            * (s.h c x * (s2.h c x - s.h c x)) := by
  have := C10_poynting_h2e_yee S hg hm s s1 s2 j m h1 h2 ds hds x
  rw [← this]
  cases hmu : S.mu <;>
  · simp only [energyEstep, energyHstep, dxmul, yeeEnergy, Option.getD, Fin.sum_univ_three, Fin.prod_univ_three]
    ring

theorem C10_excess_e2h_partial (S : Sys sh K) (hg : GridOk S) (hm : MatOk S) (s s1 s2 : State sh K) (j m : VField sh K)
    (h1 : s1 = run S s [.stepH, .injM m]) (h2 : s2 = run S s1 [.stepE, .injJ j]) (ds : Arr sh K)
    (hds : poyntingDivergence (some (poynting s.e s1.h S.dxes)) none none none = .ok ds) (x : Idx sh) :
    energyHstep s.e s1.h s2.e (some S.eps) S.mu S.dxes x - energyEstep s.h s.e s1.h (some S.eps) S.mu S.dxes x
      = -S.dt * ds x + yeeWork (dxesOrOnes S.dxes) j m s.e s1.h x
        + ∑ c, ((∏ a, (dxesOrOnes S.dxes).1 a (x a)) - volE (dxesOrOnes S.dxes).1 (dxesOrOnes S.dxes).2 c x) * S.eps c x * (s.e c x * (s2.e c x - s.e c x))
        + ∑ c, ((∏ a, (dxesOrOnes S.dxes).2 a (x a)) - volH (dxesOrOnes S.dxes).1 (dxesOrOnes S.dxes).2 c x) * (S.mu.getD fun _ _ => 1) c x
            * (s1.h c x * (s1.h c x - s.h c x)) := by
  have := C10_poynting_e2h_yee S hg hm s s1 s2 j m h1 h2 ds hds x
  rw [← this]
  cases hmu : S.mu <;>
  · simp only [energyEstep, energyHstep, dxmul, yeeEnergy, Option.getD, Fin.sum_univ_three, Fin.prod_univ_three]
    ring

/-- C10: the `delta_energy_*` functions are these energy differences per time step (every grid, every four fields). -/
theorem C10_delta_energy (dt : K) (hdt : dt ≠ 0) (a b c d : VField sh K) (eps mu : Option (VField sh K))
    (dxes : Option (Dxes sh K)) (x : Idx sh) :
    dt * deltaEnergyH2e dt a b c d eps mu dxes x
        = energyEstep b c d eps mu dxes x - energyHstep a b c eps mu dxes x ∧
    dt * deltaEnergyE2h dt a b c d eps mu dxes x
        = energyHstep b c d eps mu dxes x - energyEstep a b c eps mu dxes x := by
  simp only [deltaEnergyH2e, deltaEnergyE2h, energyEstep, energyHstep, dxmul, Fin.sum_univ_three]
  constructor <;> field_simp <;> ring

/-- C10 fails on grids with different E and H widths: a 2×1×1 grid with `dx_e = (1, 3)`, `dx_h = (2, 2)` along x
(a valid non-uniform grid: `dx_h` are the distances between cell centres), unit materials, one H half-step. The change of the energy functions differs
from the Poynting flux in cell 0. -/
theorem C10_unequal_lattices_partial : ∃ (S : Sys ![2, 1, 1] ℚ) (s s1 s2 : State ![2, 1, 1] ℚ) (ds : Arr ![2, 1, 1] ℚ)
    (x : Idx ![2, 1, 1]), GridOk S ∧ MatOk S ∧ s1 = run S s [.stepE] ∧ s2 = run S s1 [.stepH] ∧
    poyntingDivergence (some (poynting s1.e s.h S.dxes)) none none none = .ok ds ∧
    energyEstep s.h s1.e s2.h (some S.eps) S.mu S.dxes x - energyHstep s.e s.h s1.e (some S.eps) S.mu S.dxes x
      ≠ -S.dt * ds x := by
  let dE : DxList ![2, 1, 1] ℚ := fun a i => if a = 0 then (if (i : ℕ) = 0 then 1 else 3) else 1
  let dH : DxList ![2, 1, 1] ℚ := fun a _ => if a = 0 then 2 else 1
  let S : Sys ![2, 1, 1] ℚ := ⟨1/2, some (dE, dH), fun _ _ => 1, none⟩
  let s : State ![2, 1, 1] ℚ := ⟨fun c x => if c = 1 ∧ (x 0 : ℕ) = 0 then 1 else 0, fun c x => if c = 2 ∧ (x 0 : ℕ) = 0 then 1 else 0⟩
  refine ⟨S, s, _, _, _, (fun a => ⟨0, by fin_cases a <;> decide⟩), ?_, ⟨?_, ?_⟩, rfl, rfl,
    poyntingDivergence_some _ _ _ _, ?_⟩
  · rintro d ⟨⟩
    constructor
    · intro a i; simp only [dE]; split_ifs <;> norm_num
    · intro a i; simp only [dH]; split_ifs <;> norm_num
  · intro c x; exact one_ne_zero
  · rintro m ⟨⟩
  · decide +kernel

/-! ## C11 -/

/-- State before step `n` of a run in which step `k` is: E update, inject `j k`, H update, inject `m k`. -/
def driven (S : Sys sh K) (j m : ℕ → VField sh K) (s : State sh K) : ℕ → State sh K
  | 0 => s
  | n + 1 => run S (driven S j m s n) [.stepE, .injJ (j n), .stepH, .injM (m n)]

/-- E field between the E update (with injection) and the H update of step `n`. -/
def midE (S : Sys sh K) (j m : ℕ → VField sh K) (s : State sh K) (n : ℕ) : VField sh K :=
  (run S (driven S j m s n) [.stepE, .injJ (j n)]).e

/-- C11: total energies over a whole run (partial as C10 in that the lattices coincide, which is the quantifier of
C11): at every step, total `energy_estep` and total `energy_hstep` differ from the initial total by exactly the accumulated
work `delta_energy_j`. -/
theorem C11_total_energy (S : Sys sh K) (hg : GridOk S) (hm : MatOk S) (hs : SameLattices S)
    (j m : ℕ → VField sh K) (s : State sh K) (n : ℕ) :
    (∑ x, energyHstep (driven S j m s n).e (driven S j m s n).h (midE S j m s n) (some S.eps) S.mu S.dxes x
      = ∑ x, energyHstep s.e s.h (midE S j m s 0) (some S.eps) S.mu S.dxes x
        + ∑ k ∈ Finset.range n, ∑ x, (deltaEnergyJ (j k) (midE S j m s k) S.dxes x
              - deltaEnergyJ (m k) (driven S j m s k).h S.dxes x
              + deltaEnergyJ (j (k+1)) (midE S j m s k) S.dxes x
              - deltaEnergyJ (m k) (driven S j m s (k+1)).h S.dxes x)) ∧
    (∑ x, energyEstep (driven S j m s n).h (midE S j m s n) (driven S j m s (n+1)).h (some S.eps) S.mu S.dxes x
      = ∑ x, energyHstep (driven S j m s n).e (driven S j m s n).h (midE S j m s n) (some S.eps) S.mu S.dxes x
        + ∑ x, (deltaEnergyJ (j n) (midE S j m s n) S.dxes x - deltaEnergyJ (m n) (driven S j m s n).h S.dxes x)) := by
  have hE : ∀ n, (∑ x, energyEstep (driven S j m s n).h (midE S j m s n) (driven S j m s (n+1)).h (some S.eps) S.mu S.dxes x
      = ∑ x, energyHstep (driven S j m s n).e (driven S j m s n).h (midE S j m s n) (some S.eps) S.mu S.dxes x
        + ∑ x, (deltaEnergyJ (j n) (midE S j m s n) S.dxes x - deltaEnergyJ (m n) (driven S j m s n).h S.dxes x)) := by
    intro n
    have hd := poyntingDivergence_some (poynting (midE S j m s n) (driven S j m s n).h S.dxes) none none none
    have h0 := C17_sum_zero _ _ _ _ _ hd
    have := fun x => C10_poynting_h2e_partial S hg hm hs (driven S j m s n) _ _ (j n) (m n) rfl rfl _ hd x
    have t := Finset.sum_congr (rfl : Finset.univ = Finset.univ) fun x _ => this x
    simp only [Finset.sum_sub_distrib, Finset.sum_add_distrib, ← Finset.mul_sum, h0, mul_zero, zero_add] at t ⊢
    exact eq_add_of_sub_eq' t
  have hH : ∀ n, ∑ x, energyHstep (driven S j m s (n+1)).e (driven S j m s (n+1)).h (midE S j m s (n+1)) (some S.eps) S.mu S.dxes x
      = ∑ x, energyEstep (driven S j m s n).h (midE S j m s n) (driven S j m s (n+1)).h (some S.eps) S.mu S.dxes x
        + ∑ x, (deltaEnergyJ (j (n+1)) (midE S j m s n) S.dxes x - deltaEnergyJ (m n) (driven S j m s (n+1)).h S.dxes x) := by
    intro n
    have he : (driven S j m s (n+1)).e = midE S j m s n := by
      show (step S _ (.injM (m n))).e = _
      rw [step_injM_e]; rfl
    have hd := poyntingDivergence_some (poynting (midE S j m s n) (driven S j m s (n+1)).h S.dxes) none none none
    have h0 := C17_sum_zero _ _ _ _ _ hd
    have := fun x => C10_poynting_e2h_partial S hg hm hs (run S (driven S j m s n) [.stepE, .injJ (j n)]) _ _
      (j (n+1)) (m n) rfl rfl _ hd x
    have t := Finset.sum_congr (rfl : Finset.univ = Finset.univ) fun x _ => this x
    simp only [Finset.sum_sub_distrib, Finset.sum_add_distrib, ← Finset.mul_sum, h0, mul_zero, zero_add] at t ⊢
    rw [he]
    exact eq_add_of_sub_eq' t
  refine ⟨?_, hE n⟩
  induction n with
  | zero => simp [driven]
  | succ n ih =>
    rw [Finset.sum_range_succ, hH n, hE n, ih]
    simp only [Finset.sum_sub_distrib, Finset.sum_add_distrib]
    ring

/-- C11, source-free: total `energy_hstep` and `energy_estep` never change and are equal to each other. -/
theorem C11_source_free (S : Sys sh K) (hg : GridOk S) (hm : MatOk S) (hs : SameLattices S)
    (s : State sh K) (st : ℕ → State sh K) (h0 : st 0 = s) (hstep : ∀ n, st (n+1) = run S (st n) [.stepE, .stepH]) (n : ℕ) :
    (∑ x, energyHstep (st n).e (st n).h (st (n+1)).e (some S.eps) S.mu S.dxes x
      = ∑ x, energyHstep (st 0).e (st 0).h (st 1).e (some S.eps) S.mu S.dxes x) ∧
    (∑ x, energyEstep (st n).h (st (n+1)).e (st (n+1)).h (some S.eps) S.mu S.dxes x
      = ∑ x, energyHstep (st 0).e (st 0).h (st 1).e (some S.eps) S.mu S.dxes x) := by
  have hrun : ∀ t : State sh K, run S t [.stepE, .injJ fun _ _ => 0, .stepH, .injM fun _ _ => 0] = run S t [.stepE, .stepH] := by
    intro t
    apply State.ext' <;> intro c x <;> simp only [run, List.foldl, step_injM_e, step_injM_h] <;> simp [step]
  have hst : ∀ n, st n = driven S (fun _ _ _ => 0) (fun _ _ _ => 0) s n := by
    intro n
    induction n with
    | zero => exact h0
    | succ n ih => rw [hstep, ih, driven, hrun]
  have hmid : ∀ n, midE S (fun _ _ _ => 0) (fun _ _ _ => 0) s n = (st (n+1)).e := by
    intro n
    rw [hstep, hst, midE]
    funext c x
    simp [run, step]
  have key := C11_total_energy S hg hm hs (fun _ _ _ => 0) (fun _ _ _ => 0) s n
  simp only [← hst, hmid, deltaEnergyJ, zero_mul, Finset.sum_const_zero, sub_self, add_zero] at key
  rw [h0]
  exact ⟨key.1, key.2.trans key.1⟩

-- Non-vacuous: a lossless inhomogeneous system with equal, non-uniform widths.
example : ∃ S : Sys ![3, 2, 2] ℚ, GridOk S ∧ MatOk S ∧ SameLattices S ∧ S.dxes ≠ none ∧ S.mu ≠ none := by
  refine ⟨⟨1/3, some (fun _ i => (i : ℚ) + 1, fun _ i => (i : ℚ) + 1), fun c x => (c : ℕ) + 1 + (x 0 : ℕ),
    some fun _ x => (x 1 : ℕ) + 1⟩, ?_, ⟨?_, ?_⟩, ?_, by simp, by simp⟩
  · rintro d ⟨⟩; exact ⟨fun a i => by positivity, fun a i => by positivity⟩
  · intro c x; positivity
  · rintro m ⟨⟩ c x; positivity
  · rintro d ⟨⟩; rfl

end Meanas.Props
