/-
C94: `waveguide_3d.solve_mode` from the mode number to the 3D field.
-/
import Verif.Model.Waveguide3dSolve
import Verif.Props.Waveguide3dExamples
import Verif.Props.WgModes

namespace Meanas.Props

open Matrix Complex Fdfd Spec Wg3 Eig

variable {sh : Fin 3 → ℕ} {axis : Fin 3}

/-- The data of a lossless waveguide, uniform along the axis, as passed to `solve_mode` with a slice that covers the cross-section. -/
structure LosslessGuide (S : Slices sh axis) (ω : ℂ) (dxes : Dx sh) (d : ℝ) (eps : VField sh ℂ) (mu : Option (VField sh ℂ)) : Prop where
  full : FullWindow S
  hd : d ≠ 0
  dE : ∀ i, dxes.1 axis i = d
  dH : ∀ i, dxes.2 axis i = d
  epsA : Along axis eps
  muA : Along axis (mu.getD fun _ _ => 1)
  hω : ω ≠ 0
  heps : ∀ c x, eps c x ≠ 0
  hmu : ∀ c x, (mu.getD fun _ _ => 1) c x ≠ 0
  rω : ω.im = 0
  rE : ∀ a i, (dxes.1 a i).im = 0
  rH : ∀ a i, (dxes.2 a i).im = 0
  reps : ∀ c x, (eps c x).im = 0
  rmu : ∀ c x, ((mu.getD fun _ _ => 1) c x).im = 0

/-- The transverse operator of the cross-section selected by the slice. -/
noncomputable def crossOp (S : Slices sh axis) (ω : ℂ) (dxes : Dx sh) (eps : VField sh ℂ) (mu : Option (VField sh ℂ)) : Wg2.M 2 2 (sh2 S) :=
  Wg2.operatorE ω (dx2d S dxes.1, dx2d S dxes.2) (reduce2d S eps) (some (reduce2d S (mu.getD fun _ _ => 1)))

/-- C94: on a lossless uniform guide, with ARPACK and the power iteration meeting their contracts (as in C46), `solve_mode(m, …)` for a mode number
with a positive eigenvalue works on the mode of the `m`-th largest eigenvalue of the cross-section: a returned mode has
`wavenumber_2d² =` that eigenvalue, `wavenumber_2d > 0`, a `wavenumber` corrected for the cell length, and for polarity +1 its expansion
along the axis solves the source-free 3D wave equation away from the seam. -/
theorem C94_end_to_end (eigs : ∀ s2 : Fin 2 → ℕ, Wg2.M 2 2 s2 → ℕ → List (ℂ × Wg2.V 2 s2)) (guess : ∀ s2 : Fin 2 → ℕ, Wg2.V 2 s2)
    (solver : ∀ s2 : Fin 2 → ℕ, Wg2.M 2 2 s2 → Wg2.V 2 s2 → Option (Wg2.V 2 s2)) (n : ℕ) (S : Slices sh axis) (ω : ℂ) (dxes : Dx sh) (d : ℝ)
    (eps : VField sh ℂ) (mu : Option (VField sh ℂ)) (G : LosslessGuide S ω dxes d eps mu) (lm : ℂ) (u : Wg2.V 2 (sh2 S))
    (hp : powerIteration (crossOp S ω dxes eps mu) (guess (sh2 S)) 20 = some (lm, u))
    (hn : 2 * (n + 2) + 50 ≤ Fintype.card (Fin 2 × Idx (sh2 S)))
    (heigs : ∀ r : ℝ, IsEigs (crossOp S ω dxes eps mu + (r : ℂ) • (1 : Wg2.M 2 2 (sh2 S))) (n + 2)
      (eigs (sh2 S) (crossOp S ω dxes eps mu + (r : ℂ) • (1 : Wg2.M 2 2 (sh2 S))) (n + 2)))
    (hreal : ∀ μ ∈ (crossOp S ω dxes eps mu).charpoly.roots, μ.im = 0)
    (hbound : ∀ μ ∈ (crossOp S ω dxes eps mu).charpoly.roots, ‖μ‖ ≤ ‖lm‖)
    (hpos : 0 < nthEig (crossOp S ω dxes eps mu) n) :
    (∀ pol : ℤ, solveModeFull eigs guess solver n S ω dxes pol eps mu ≠ .ok none) ∧
    ∀ (pol : ℤ) (m : Mode sh), solveModeFull eigs guess solver n S ω dxes pol eps mu = .ok (some m) →
      m.k2d ^ 2 = (nthEig (crossOp S ω dxes eps mu) n : ℂ) ∧ 0 < m.k2d.re ∧ m.k2d.im = 0 ∧
      2 / (d : ℂ) * sin (m.k * d / 2) = m.k2d ∧
      (pol = 1 → ∀ (c : Fin 3) (x : Idx sh), 0 < (x axis : ℕ) → (x axis : ℕ) + 1 < sh axis →
        (eFull ω dxes (vecS eps) (mu.map vecS) none none *ᵥ vecS (expandE m.E m.k dxes pol S)) (c, x) = 0) := by
  obtain ⟨out, raw, hs, hperm, hraw, -⟩ := C46_lossless_partial (eigs (sh2 S)) (guess (sh2 S)) (solver (sh2 S)) [n] ω
    (dx2d S dxes.1, dx2d S dxes.2) (reduce2d S eps) (some (reduce2d S (mu.getD fun _ _ => 1))) 2 n G.rω (fun _ _ => G.rE _ _)
    (fun _ _ => G.rH _ _) (fun _ => G.reps _ _) (fun m hm => by cases hm; exact fun _ => G.rmu _ _) rfl (by norm_num) lm u hp hn heigs hreal hbound
  obtain ⟨q, hq, rfl⟩ : ∃ q, IsRequestedMode id (crossOp S ω dxes eps mu) n q ∧ raw = [q] := by
    cases hraw with
    | cons h t => cases t; exact ⟨_, h, rfl⟩
  obtain rfl := List.perm_singleton.1 hperm
  obtain ⟨k1, k2, k3⟩ := C46_propagating_partial _ _ _ hq hpos
  have hk : q.2 ≠ 0 := fun h => by rw [h] at k2; simp at k2
  have h2 : Wg2.solveMode (eigs (sh2 S)) (guess (sh2 S)) (solver (sh2 S)) n [] (args2d S ω dxes eps (mu.getD fun _ _ => 1)) = .ok (some q) := by
    simp [Wg2.solveMode, Wg2.bindArgs, Wg2.solveModesParams, Wg2.callSolveModes, args2d, List.lookup, hs]
  have hfull : ∀ pol : ℤ, solveModeFull eigs guess solver n S ω dxes pol eps mu = (solveMode S ω dxes pol eps mu q.1 q.2).map some := by
    intro pol
    rw [solveModeFull, h2]
    exact if_neg hk
  have U : UniformGuide S ω dxes d eps mu q.1 q.2 := ⟨G.full, G.hd, G.dE, G.dH, G.epsA, G.muA, G.hω, hk, G.heps, G.hmu, by
    rw [k1]; exact hq.2.1⟩
  have hd0 : (d : ℂ) ≠ 0 := by exact_mod_cast G.hd
  refine ⟨fun pol h => ?_, fun pol m h => ?_⟩
  · rw [hfull] at h
    cases hm : solveMode S ω dxes pol eps mu q.1 q.2 <;> rw [hm] at h <;> simp [Except.map] at h
  · rw [hfull] at h
    have hm : solveMode S ω dxes pol eps mu q.1 q.2 = .ok m := by
      cases hm : solveMode S ω dxes pol eps mu q.1 q.2 <;> rw [hm] at h <;> simp [Except.map] at h
      rw [h]
    obtain ⟨a1, a2, -⟩ := C50_solve_mode S ω dxes pol eps mu q.1 q.2 (d := d) (by rw [G.dE, G.dH]; ring) hm
    refine ⟨by rw [a1, k1], by rw [a1]; exact k2, by rw [a1]; exact k3, by rw [a1]; exact a2 hd0, ?_⟩
    rintro rfl
    exact (C51_forward_partial U hm).1

/-! ### A guide that meets the hypotheses -/

theorem nthEig_zero_ge {ι : Type} [Fintype ι] [DecidableEq ι] (A : Matrix ι ι ℂ) {μ : ℂ} (h : μ ∈ A.charpoly.roots) : μ.re ≤ nthEig A 0 := by
  rw [nthEig]
  have hm : μ.re ∈ (A.charpoly.roots.map Complex.re).sort (· ≥ ·) := (Multiset.mem_sort _).2 (Multiset.mem_map_of_mem _ h)
  have hs := Multiset.pairwise_sort (A.charpoly.roots.map Complex.re) (· ≥ ·)
  revert hm hs
  generalize (A.charpoly.roots.map Complex.re).sort (· ≥ ·) = l
  intro hm hs
  cases l with
  | nil => simp at hm
  | cons a t =>
    rw [List.getD_cons_zero]
    rcases List.mem_cons.1 hm with h | h
    · exact h.le
    · exact (List.pairwise_cons.1 hs).1 _ h

/-- A 6 × 6 × 4 grid, the cross-section at plane 1. -/
def solSh : Fin 3 → ℕ := ![6, 6, 4]
/-- The whole cross-section at plane 1. -/
def solS : Slices solSh 2 where
  start := fun a => if a = 2 then 1 else 0
  stop := fun a => if a = 2 then 2 else 6
  lt := by decide
  le := by decide
  one := rfl

/-- C94, hypotheses are met by the fundamental mode of a 6 × 6 homogeneous cross-section. -/
example : ∃ (guess : ∀ s2 : Fin 2 → ℕ, Wg2.V 2 s2), ∀ (pol : ℤ) (m : Mode solSh),
    solveModeFull (fun _ => eigsOracle) guess (fun _ => exactSolve) 0 solS 1 (fun _ _ => 1, fun _ _ => 1) pol (fun _ _ => 1) none = .ok (some m) →
      0 < m.k2d.re := by
  set A := crossOp solS 1 (fun _ _ => 1, fun _ _ => 1) (fun _ _ => 1) none with hA
  have hAo : A = Wg2.operatorE 1 (oneDx : Wg2.Dx2 (sh2 solS)) 1 none := rfl
  have hsh : sh2 solS = fun _ => 6 := by funext j; revert j; decide
  have hcard : Fintype.card (Fin 2 × Idx (sh2 solS)) = 72 := by rw [hsh]; simp [Idx]
  have h1 : A *ᵥ (1 : Wg2.V 2 (sh2 solS)) = (1 : ℂ) • 1 := by
    rw [one_smul]
    funext ⟨c, x⟩
    fin_cases c
    · change (A *ᵥ 1) (0, x) = 1
      rw [hAo, Wg2.operatorE_0]; simp [Wg2.part, derivForward_eq, derivBack_eq]
    · change (A *ᵥ 1) (1, x) = 1
      rw [hAo, Wg2.operatorE_1]; simp [Wg2.part, derivForward_eq, derivBack_eq]
  have hne : (1 : Wg2.V 2 (sh2 solS)) ≠ 0 := fun h => one_ne_zero (congrFun h (0, fun _ => ⟨0, by rw [hsh]; norm_num⟩))
  have hmem : (1 : ℂ) ∈ A.charpoly.roots.toFinset := Multiset.mem_toFinset.2 (eig_mem_roots hne h1)
  obtain ⟨lm, hlm, hmax⟩ := Finset.exists_max_image A.charpoly.roots.toFinset (fun μ => ‖μ‖) ⟨1, hmem⟩
  obtain ⟨v, hv, hev⟩ := root_eigenvector (Multiset.mem_toFinset.1 hlm)
  have hlm0 : lm ≠ 0 := by
    intro h
    have := hmax 1 hmem
    rw [h] at this
    simp at this
    linarith
  have hpow := C65_power_eigenvector A v 20 lm hlm0 hv hev
  refine ⟨Function.update (fun _ => 0) (sh2 solS) v, fun pol m hm => ?_⟩
  refine ((C94_end_to_end (fun _ => eigsOracle) _ (fun _ => exactSolve) 0 solS 1 (fun _ _ => 1, fun _ _ => 1) 1 (fun _ _ => 1) none
    ⟨by intro b; revert b; decide, one_ne_zero, fun _ => by simp, fun _ => by simp, fun _ _ _ _ => rfl, fun _ _ _ _ => rfl, one_ne_zero,
      fun _ _ => one_ne_zero, fun _ _ => one_ne_zero, rfl, fun _ _ => rfl, fun _ _ => rfl, fun _ _ => rfl, fun _ _ => rfl⟩
    lm _ (by rw [Function.update_self]; exact hpow) ?_ ?_ ?_ ?_ ?_).2 pol m hm).2.1
  · rw [hcard]; norm_num
  · exact fun r => eigsOracle_spec _ _ (by rw [hcard]; norm_num)
  · exact fun μ hμ => vac_real 1 (by simp) hμ
  · exact fun μ hμ => hmax μ (Multiset.mem_toFinset.2 hμ)
  · exact lt_of_lt_of_le (by simp) (nthEig_zero_ge A (Multiset.mem_toFinset.1 hmem))

end Meanas.Props
