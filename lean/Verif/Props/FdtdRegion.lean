/-
C107 (energy balance of any region over a whole FDTD run).
-/
import Verif.Props.FdtdEnergy

namespace Meanas.Props

open Functional Spec Fdtd

variable {sh : Fin 3 → ℕ} {K : Type*} [Field K]

/-- What leaves a set of cells through the faces between the set and the rest, for a vector stored on the + faces of the cells. -/
def outflow (s : VField sh K) (R : Finset (Idx sh)) : K :=
  ∑ a, ((∑ x with x ∈ R ∧ shiftIdx a 1 x ∉ R, s a x) - ∑ x with x ∉ R ∧ shiftIdx a 1 x ∈ R, s a x)

/-- The contributions of inner faces to `poynting_divergence` cancel. -/
theorem sum_divS (s : VField sh K) (R : Finset (Idx sh)) : ∑ x ∈ R, divS s x = outflow s R := by
  unfold divS outflow
  rw [Finset.sum_comm]
  refine Finset.sum_congr rfl fun a _ => ?_
  have hR : ∀ f : Idx sh → K, ∑ x ∈ R, f x = ∑ x, if x ∈ R then f x else 0 := fun f => by rw [Finset.sum_ite_mem, Finset.univ_inter]
  have h1 : ∑ x ∈ R, s a (shiftIdx a (-1) x) = ∑ x, if shiftIdx a 1 x ∈ R then s a x else 0 := by
    rw [hR, ← sum_shiftIdx a 1]
    exact Finset.sum_congr rfl fun x _ => by simp
  rw [Finset.sum_sub_distrib, h1, hR, Finset.sum_filter, Finset.sum_filter, ← Finset.sum_sub_distrib, ← Finset.sum_sub_distrib]
  refine Finset.sum_congr rfl fun x _ => ?_
  by_cases h2 : x ∈ R <;> by_cases h3 : shiftIdx a 1 x ∈ R <;> simp [h2, h3]

/-- **C107.** Flux monitors: `poynting_divergence` summed over any set of cells is what `poynting` gives on the faces of its surface. -/
theorem C107_divergence (e h : VField sh K) (d : Dxes sh K) (R : Finset (Idx sh)) (ds : Arr sh K)
    (hds : poyntingDivergence none (some e) (some h) (some d) = .ok ds) :
    ∑ x ∈ R, ds x = outflow (poynting e h (some d)) R := by
  have h1 : poyntingDivergence none (some e) (some h) (some d) = .ok (divS (poynting e h (some d))) :=
    poyntingDivergence_some (poynting e h (some d)) none none none
  rw [h1] at hds
  cases hds
  exact sum_divS _ R

/-- Energy of the cells of `R` at the H time of step `n`: E from before and after the E update, H of that time. -/
def regionEnergy (S : Sys sh K) (j m : ℕ → VField sh K) (s : State sh K) (R : Finset (Idx sh)) (n : ℕ) : K :=
  ∑ x ∈ R, yeeEnergy (dxesOrOnes S.dxes) S.eps (S.mu.getD fun _ _ => 1) (fun c x => (driven S j m s n).e c x * midE S j m s n c x)
    (fun c x => (driven S j m s n).h c x * (driven S j m s n).h c x) x

theorem driven_e_succ (S : Sys sh K) (j m : ℕ → VField sh K) (s : State sh K) (n : ℕ) :
    (driven S j m s (n + 1)).e = midE S j m s n := by
  show (step S _ (.injM (m n))).e = _
  rw [step_injM_e]; rfl

/-- One full step. -/
theorem regionEnergy_step (S : Sys sh K) (hg : GridOk S) (hm : MatOk S) (j m : ℕ → VField sh K) (s : State sh K)
    (R : Finset (Idx sh)) (n : ℕ) :
    regionEnergy S j m s R (n + 1) = regionEnergy S j m s R n
      - S.dt * (outflow (poynting (midE S j m s n) (driven S j m s n).h S.dxes) R
        + outflow (poynting (midE S j m s n) (driven S j m s (n + 1)).h S.dxes) R)
      + ∑ x ∈ R, (yeeWork (dxesOrOnes S.dxes) (j n) (m n) (midE S j m s n) (driven S j m s n).h x
        + yeeWork (dxesOrOnes S.dxes) (j (n + 1)) (m n) (midE S j m s n) (driven S j m s (n + 1)).h x) := by
  have hd1 := poyntingDivergence_some (poynting (midE S j m s n) (driven S j m s n).h S.dxes) none none none
  have hd2 := poyntingDivergence_some (poynting (midE S j m s n) (driven S j m s (n+1)).h S.dxes) none none none
  have k1 : ∀ x, yeeEnergy (dxesOrOnes S.dxes) S.eps (S.mu.getD fun _ _ => 1)
        (fun c x => midE S j m s n c x * midE S j m s n c x) (fun c x => (driven S j m s n).h c x * (driven S j m s (n+1)).h c x) x
      - yeeEnergy (dxesOrOnes S.dxes) S.eps (S.mu.getD fun _ _ => 1)
        (fun c x => (driven S j m s n).e c x * midE S j m s n c x) (fun c x => (driven S j m s n).h c x * (driven S j m s n).h c x) x
      = _ := fun x => C10_poynting_h2e_yee S hg hm (driven S j m s n) _ _ (j n) (m n) rfl rfl _ hd1 x
  have k2 : ∀ x, yeeEnergy (dxesOrOnes S.dxes) S.eps (S.mu.getD fun _ _ => 1)
        (fun c x => midE S j m s n c x * midE S j m s (n+1) c x)
        (fun c x => (driven S j m s (n+1)).h c x * (driven S j m s (n+1)).h c x) x
      - yeeEnergy (dxesOrOnes S.dxes) S.eps (S.mu.getD fun _ _ => 1)
        (fun c x => midE S j m s n c x * midE S j m s n c x) (fun c x => (driven S j m s n).h c x * (driven S j m s (n+1)).h c x) x
      = -S.dt * divS (poynting (midE S j m s n) (driven S j m s (n+1)).h S.dxes) x
        + yeeWork (dxesOrOnes S.dxes) (j (n+1)) (m n) (midE S j m s n) (driven S j m s (n+1)).h x :=
    fun x => C10_poynting_e2h_yee S hg hm (run S (driven S j m s n) [.stepE, .injJ (j n)]) _ _ (j (n+1)) (m n) rfl rfl _ hd2 x
  rw [← sum_divS, ← sum_divS, regionEnergy, regionEnergy, driven_e_succ, ← Finset.sum_add_distrib, Finset.mul_sum,
    ← Finset.sum_sub_distrib, ← Finset.sum_add_distrib]
  refine Finset.sum_congr rfl fun x _ => ?_
  have k1' := k1 x
  change _ = -S.dt * _ + yeeWork _ _ _ (midE S j m s n) _ x at k1'
  linear_combination k1' + k2 x

/-- **C107.** Energy balance of any set of cells over a whole run, on every grid: the energy at step `n` is the initial one, less `dt` times what
`poynting` says has left through the surface in the `2n` half steps, plus the work of the currents injected inside. -/
theorem C107_region_yee (S : Sys sh K) (hg : GridOk S) (hm : MatOk S) (j m : ℕ → VField sh K) (s : State sh K)
    (R : Finset (Idx sh)) (n : ℕ) :
    regionEnergy S j m s R n = regionEnergy S j m s R 0
      - S.dt * ∑ k ∈ Finset.range n, (outflow (poynting (midE S j m s k) (driven S j m s k).h S.dxes) R
        + outflow (poynting (midE S j m s k) (driven S j m s (k + 1)).h S.dxes) R)
      + ∑ k ∈ Finset.range n, ∑ x ∈ R, (yeeWork (dxesOrOnes S.dxes) (j k) (m k) (midE S j m s k) (driven S j m s k).h x
        + yeeWork (dxesOrOnes S.dxes) (j (k + 1)) (m k) (midE S j m s k) (driven S j m s (k + 1)).h x) := by
  induction n with
  | zero => simp
  | succ n ih =>
    rw [regionEnergy_step S hg hm, ih, Finset.sum_range_succ, Finset.sum_range_succ]
    ring

/-- **C107.** The same with the functions of meanas/fdtd/energy.py, where the two lattices have the same widths. -/
theorem C107_region (S : Sys sh K) (hg : GridOk S) (hm : MatOk S) (hs : SameLattices S) (j m : ℕ → VField sh K) (s : State sh K)
    (R : Finset (Idx sh)) (n : ℕ) :
    ∑ x ∈ R, energyHstep (driven S j m s n).e (driven S j m s n).h (midE S j m s n) (some S.eps) S.mu S.dxes x
      = ∑ x ∈ R, energyHstep s.e s.h (midE S j m s 0) (some S.eps) S.mu S.dxes x
        - S.dt * ∑ k ∈ Finset.range n, (outflow (poynting (midE S j m s k) (driven S j m s k).h S.dxes) R
          + outflow (poynting (midE S j m s k) (driven S j m s (k + 1)).h S.dxes) R)
        + ∑ k ∈ Finset.range n, ∑ x ∈ R, (deltaEnergyJ (j k) (midE S j m s k) S.dxes x
              - deltaEnergyJ (m k) (driven S j m s k).h S.dxes x
              + deltaEnergyJ (j (k+1)) (midE S j m s k) S.dxes x
              - deltaEnergyJ (m k) (driven S j m s (k+1)).h S.dxes x) := by
  have h := C107_region_yee S hg hm j m s R n
  simp only [← deltaEnergyJ_eq_yee S hs] at h
  have e : ∀ n, regionEnergy S j m s R n
      = ∑ x ∈ R, energyHstep (driven S j m s n).e (driven S j m s n).h (midE S j m s n) (some S.eps) S.mu S.dxes x := by
    intro n
    exact Finset.sum_congr rfl fun x _ => by rw [energyHstep, dxmul_eq_yee S hs]
  rw [e, e] at h
  rw [h]
  congr 1
  refine Finset.sum_congr rfl fun k _ => Finset.sum_congr rfl fun x _ => ?_
  ring

/-- **C107.** Two surfaces around the same sources: between sets `R ⊆ R'` without currents in between, the time-integrated flux differs by the change
of the energy stored in between. -/
theorem C107_two_surfaces (S : Sys sh K) (hg : GridOk S) (hm : MatOk S) (j m : ℕ → VField sh K) (s : State sh K)
    {R R' : Finset (Idx sh)} (hR : R ⊆ R') (hfree : ∀ x ∈ R' \ R, ∀ k c, j k c x = 0 ∧ m k c x = 0) (n : ℕ) :
    S.dt * ∑ k ∈ Finset.range n, (outflow (poynting (midE S j m s k) (driven S j m s k).h S.dxes) R'
        + outflow (poynting (midE S j m s k) (driven S j m s (k + 1)).h S.dxes) R')
      = S.dt * ∑ k ∈ Finset.range n, (outflow (poynting (midE S j m s k) (driven S j m s k).h S.dxes) R
        + outflow (poynting (midE S j m s k) (driven S j m s (k + 1)).h S.dxes) R)
        - (regionEnergy S j m s (R' \ R) n - regionEnergy S j m s (R' \ R) 0) := by
  have h := C107_region_yee S hg hm j m s (R' \ R) n
  have z : ∑ k ∈ Finset.range n, ∑ x ∈ R' \ R, (yeeWork (dxesOrOnes S.dxes) (j k) (m k) (midE S j m s k) (driven S j m s k).h x
        + yeeWork (dxesOrOnes S.dxes) (j (k + 1)) (m k) (midE S j m s k) (driven S j m s (k + 1)).h x) = 0 := by
    refine Finset.sum_eq_zero fun k _ => Finset.sum_eq_zero fun x hx => ?_
    simp only [yeeWork, hfree x hx]
    simp
  have o : ∀ t : VField sh K, outflow t R' = outflow t (R' \ R) + outflow t R := by
    intro t
    rw [← sum_divS, ← sum_divS, ← sum_divS, Finset.sum_sdiff hR]
  rw [z, add_zero] at h
  rw [h]
  simp only [o, Finset.sum_add_distrib]
  ring

/-- A case with flux through a surface: one of two cells along x, a field that carries power across the face. -/
example : ∃ (e h : VField ![2, 1, 1] ℚ) (R : Finset (Idx ![2, 1, 1])), outflow (poynting e h none) R ≠ 0 := by
  refine ⟨fun c x => if c = 1 ∧ (x 0 : ℕ) = 1 then 1 else 0, fun c x => if c = 2 ∧ (x 0 : ℕ) = 0 then 1 else 0,
    {fun a => ⟨0, by fin_cases a <;> decide⟩}, ?_⟩
  rw [← sum_divS, Finset.sum_singleton]
  decide +kernel

end Meanas.Props
