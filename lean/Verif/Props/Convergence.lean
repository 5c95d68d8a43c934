/-
C105: FDTD runs converge to the solutions of Maxwell's equations, to second order in the time step and the cell size (periodic uniform grids).
-/
import Verif.Props.Consistency
import Verif.Props.FdtdStability
import Mathlib.Algebra.QuadraticDiscriminant
import Mathlib.Analysis.SpecialFunctions.Trigonometric.Deriv
import Mathlib.Analysis.SpecialFunctions.Trigonometric.Basic

namespace Meanas.Props

open Functional Spec Fdtd

section stability
variable {sh : Fin 3 → ℕ}

/-- Square of the energy norm of a pair of fields: `Σ V_E ε e² + V_H μ h²`. -/
noncomputable def wNormSq (S : Sys sh ℝ) (s : State sh ℝ) : ℝ :=
  ∑ x, ∑ c, (volE (dxesOrOnes S.dxes).1 (dxesOrOnes S.dxes).2 c x * (S.eps c x * s.e c x ^ 2)
    + volH (dxesOrOnes S.dxes).1 (dxesOrOnes S.dxes).2 c x * ((S.mu.getD fun _ _ => 1) c x * s.h c x ^ 2))

/-- The ratio of the squared time step to the bound of C12. -/
noncomputable def courantRatio (S : Sys sh ℝ) (m : Fin 3 → ℝ) (εm μm : ℝ) : ℝ := S.dt ^ 2 * (∑ a, 1 / m a ^ 2) / (εm * μm)

theorem Courant.facts {S : Sys sh ℝ} {m : Fin 3 → ℝ} {εm μm : ℝ} (hC : Courant S m εm μm) :
    (∀ c x, 0 ≤ volE (dxesOrOnes S.dxes).1 (dxesOrOnes S.dxes).2 c x * S.eps c x) ∧
    (∀ c x, 0 ≤ volH (dxesOrOnes S.dxes).1 (dxesOrOnes S.dxes).2 c x * (S.mu.getD fun _ _ => 1) c x) ∧
    GridOk S ∧ MatOk S ∧ 0 ≤ courantRatio S m εm μm ∧ courantRatio S m εm μm < 1 := by
  have pE : ∀ a i, 0 < (dxesOrOnes S.dxes).1 a i := fun a i => by
    rw [(wOf_dxesOrOnes S.dxes a i).1]; exact lt_of_lt_of_le (hC.m_pos a) (hC.dxE a i)
  have pH : ∀ a i, 0 < (dxesOrOnes S.dxes).2 a i := fun a i => by
    rw [(wOf_dxesOrOnes S.dxes a i).2]; exact lt_of_lt_of_le (hC.m_pos a) (hC.dxH a i)
  refine ⟨fun c x => mul_nonneg (Finset.prod_nonneg fun a _ => by split_ifs; exacts [(pE _ _).le, (pH _ _).le])
      (hC.eps_pos.le.trans (hC.eps c x)),
    fun c x => mul_nonneg (Finset.prod_nonneg fun a _ => by split_ifs; exacts [(pH _ _).le, (pE _ _).le])
      (hC.mu_pos.le.trans (hC.mu c x)), fun d hd => ?_, ⟨fun c x => (lt_of_lt_of_le hC.eps_pos (hC.eps c x)).ne', fun mu hmu c x => ?_⟩, ?_, ?_⟩
  · have : dxesOrOnes S.dxes = d := by rw [hd]; rfl
    rw [this] at pE pH
    exact ⟨fun a i => (pE a i).ne', fun a i => (pH a i).ne'⟩
  · have := hC.mu c x
    rw [hmu] at this
    exact (lt_of_lt_of_le hC.mu_pos this).ne'
  · have := hC.eps_pos; have := hC.mu_pos
    exact div_nonneg (mul_nonneg (sq_nonneg _) (Finset.sum_nonneg fun a _ => by have := hC.m_pos a; positivity)) (by positivity)
  · rw [courantRatio, div_lt_one (mul_pos hC.eps_pos hC.mu_pos)]; exact hC.dt

/-- The conserved energy against the energy norm, before and after the H update. -/
theorem energy_norm {S : Sys sh ℝ} {m : Fin 3 → ℝ} {εm μm : ℝ} (hC : Courant S m εm μm) (t : State sh ℝ) :
    stateEnergy S t ≤ 2 * wNormSq S t ∧ stateEnergy S t ≤ 2 * wNormSq S (run S t [.stepH]) ∧
    (1 - courantRatio S m εm μm) * wNormSq S (run S t [.stepH]) ≤ 3 * stateEnergy S t ∧ 0 ≤ stateEnergy S t := by
  obtain ⟨vE, vH, -, -, q0, q1⟩ := hC.facts
  obtain ⟨h1, h2, -⟩ := energy_lower_bound S m εm μm hC t
  rw [← courantRatio] at h2
  obtain ⟨h', hh'⟩ : ∃ h', h' = (run S t [.stepH]).h := ⟨_, rfl⟩
  have he' : (run S t [.stepH]).e = t.e := rfl
  rw [← hh'] at h1 h2
  set A := ∑ x, ∑ c, volE (dxesOrOnes S.dxes).1 (dxesOrOnes S.dxes).2 c x * (S.eps c x * t.e c x ^ 2) with hA
  set M := ∑ x, ∑ c, volH (dxesOrOnes S.dxes).1 (dxesOrOnes S.dxes).2 c x
    * ((S.mu.getD fun _ _ => 1) c x * ((t.h c x + h' c x) / 2) ^ 2) with hM
  set D := ∑ x, ∑ c, volH (dxesOrOnes S.dxes).1 (dxesOrOnes S.dxes).2 c x
    * ((S.mu.getD fun _ _ => 1) c x * ((t.h c x - h' c x) / 2) ^ 2) with hD
  obtain ⟨N, hN⟩ : ∃ N, N = fun f : VField sh ℝ => ∑ x, ∑ c, volH (dxesOrOnes S.dxes).1 (dxesOrOnes S.dxes).2 c x
    * ((S.mu.getD fun _ _ => 1) c x * f c x ^ 2) := ⟨_, rfl⟩
  have w1 : wNormSq S t = A + N t.h := by
    rw [wNormSq, hA, hN, ← Finset.sum_add_distrib]
    exact Finset.sum_congr rfl fun x _ => by rw [← Finset.sum_add_distrib]
  have w2 : wNormSq S (run S t [.stepH]) = A + N h' := by
    rw [wNormSq, hA, hN, ← Finset.sum_add_distrib]
    exact Finset.sum_congr rfl fun x _ => by rw [← Finset.sum_add_distrib, ← hh', he']
  have A0 : 0 ≤ A := Finset.sum_nonneg fun x _ => Finset.sum_nonneg fun c _ => by
    rw [← mul_assoc]; exact mul_nonneg (vE c x) (sq_nonneg _)
  have N0 : ∀ f, 0 ≤ N f := fun f => by
    rw [hN]
    exact Finset.sum_nonneg fun x _ => Finset.sum_nonneg fun c _ => by rw [← mul_assoc]; exact mul_nonneg (vH c x) (sq_nonneg _)
  have hMN : M = N fun c x => (t.h c x + h' c x) / 2 := by rw [hN]
  have hDN : D = N fun c x => (t.h c x - h' c x) / 2 := by rw [hN]
  have M0 : 0 ≤ M := hMN ▸ N0 _
  have comb : ∀ (f g k : VField sh ℝ) (β γ : ℝ), (∀ c x, f c x ^ 2 ≤ β * g c x ^ 2 + γ * k c x ^ 2) →
      N f ≤ β * N g + γ * N k := by
    intro f g k β γ hfg
    simp only [hN, Finset.mul_sum, ← Finset.sum_add_distrib]
    refine Finset.sum_le_sum fun x _ => Finset.sum_le_sum fun c _ => ?_
    have := mul_le_mul_of_nonneg_left (hfg c x) (vH c x)
    calc _ = volH (dxesOrOnes S.dxes).1 (dxesOrOnes S.dxes).2 c x * (S.mu.getD fun _ _ => 1) c x * f c x ^ 2 := by ring
      _ ≤ _ := this
      _ = _ := by ring
  have c1 : M ≤ 2 * N t.h + 2 * D := by
    rw [hMN, hDN]; refine comb _ _ _ 2 2 fun c x => ?_
    nlinarith [sq_nonneg (t.h c x + (t.h c x - h' c x) / 2)]
  have c2 : M ≤ 2 * N h' + 2 * D := by
    rw [hMN, hDN]; refine comb _ _ _ 2 2 fun c x => ?_
    nlinarith [sq_nonneg (h' c x - (t.h c x - h' c x) / 2)]
  have c3 : N h' ≤ 2 * M + 2 * D := by
    rw [hMN, hDN]; refine comb _ _ _ 2 2 fun c x => ?_
    nlinarith [sq_nonneg ((t.h c x + h' c x) / 2 + (t.h c x - h' c x) / 2)]
  have qA : courantRatio S m εm μm * A ≤ A := by nlinarith
  have qA0 : 0 ≤ courantRatio S m εm μm * A := mul_nonneg q0 A0
  have D0 : 0 ≤ D := hDN ▸ N0 _
  rw [w1, w2, h1]
  refine ⟨by linarith, by linarith, ?_, by linarith⟩
  have p1 : 0 ≤ 1 - courantRatio S m εm μm := by linarith
  have := mul_le_mul_of_nonneg_left c3 p1
  have z1 : 0 ≤ courantRatio S m εm μm * M := mul_nonneg q0 M0
  have z2 : 0 ≤ courantRatio S m εm μm * D := mul_nonneg q0 D0
  have z3 : (1 - courantRatio S m εm μm) * (courantRatio S m εm μm * A) ≤ (1 - courantRatio S m εm μm) * A := mul_le_mul_of_nonneg_left qA p1
  have z4 : (1 - courantRatio S m εm μm) * D ≤ (1 - courantRatio S m εm μm) * (courantRatio S m εm μm * A) := mul_le_mul_of_nonneg_left h2 p1
  nlinarith

/-- Sum of two states. -/
def addState (s r : State sh ℝ) : State sh ℝ := ⟨fun c x => s.e c x + r.e c x, fun c x => s.h c x + r.h c x⟩

/-- The root of the energy satisfies the triangle inequality. -/
theorem sqrt_energy_add {S : Sys sh ℝ} {m : Fin 3 → ℝ} {εm μm : ℝ} (hC : Courant S m εm μm) (s r : State sh ℝ) :
    √(stateEnergy S (addState s r)) ≤ √(stateEnergy S s) + √(stateEnergy S r) := by
  obtain ⟨b, hb⟩ : ∃ b, ∀ l : ℝ, stateEnergy S ⟨fun c x => s.e c x + l * r.e c x, fun c x => s.h c x + l * r.h c x⟩
      = stateEnergy S s + l * b + l * l * stateEnergy S r := by
    refine ⟨∑ x, (∑ c, volE (dxesOrOnes S.dxes).1 (dxesOrOnes S.dxes).2 c x * (S.eps c x * (2 * s.e c x * r.e c x))
      + ∑ c, volH (dxesOrOnes S.dxes).1 (dxesOrOnes S.dxes).2 c x * ((S.mu.getD fun _ _ => 1) c x
        * (s.h c x * (run S r [.stepH]).h c x + r.h c x * (run S s [.stepH]).h c x))), fun l => ?_⟩
    have hl : ∀ c x, (run S ⟨fun c x => s.e c x + l * r.e c x, fun c x => s.h c x + l * r.h c x⟩ [.stepH]).h c x
        = (run S s [.stepH]).h c x + l * (run S r [.stepH]).h c x := by
      intro c x
      simp only [run, List.foldl, step, maxwellH_eq]
      rw [curlForward_add (S.dxes.map (·.1)) s.e (fun c x => l * r.e c x), curlForward_smul]
      ring
    simp only [stateEnergy, hl, yeeEnergy]
    rw [Finset.mul_sum, Finset.mul_sum, ← Finset.sum_add_distrib, ← Finset.sum_add_distrib]
    refine Finset.sum_congr rfl fun x _ => ?_
    simp only [Fin.sum_univ_three]
    ring
  have hs : ∀ u, 0 ≤ stateEnergy S u := fun u => (energy_norm hC u).2.2.2
  have hd : discrim (stateEnergy S r) b (stateEnergy S s) ≤ 0 := discrim_le_zero fun l => by
    have := hs ⟨fun c x => s.e c x + l * r.e c x, fun c x => s.h c x + l * r.h c x⟩
    rw [hb l] at this
    linarith
  have h1 := hb 1
  have e1 : stateEnergy S (addState s r) = stateEnergy S s + b + stateEnergy S r := by
    simpa [addState] using h1
  have hs' := hs s
  have hr' := hs r
  have hb' : b ≤ 2 * (√(stateEnergy S s) * √(stateEnergy S r)) := by
    apply le_of_sq_le_sq _ (by positivity)
    rw [discrim] at hd
    have := Real.sq_sqrt hs'
    have := Real.sq_sqrt hr'
    have : (2 * (√(stateEnergy S s) * √(stateEnergy S r))) ^ 2 = 4 * (stateEnergy S s * stateEnergy S r) := by
      rw [mul_pow, mul_pow, Real.sq_sqrt hs', Real.sq_sqrt hr']; ring
    rw [this]; linarith
  apply Real.sqrt_le_iff.2
  refine ⟨by positivity, ?_⟩
  rw [e1, add_sq, Real.sq_sqrt hs', Real.sq_sqrt hr']
  linarith

/-- C105: stability under perturbations of any kind. If in every step the E field is changed by `ρe n` after its update and the H field by
`ρh n` after its update (source terms, rounding, defects), the energy norm of the result is at most `√(6 / (1 - q))` times the norm of the start
plus the norms of all perturbations, `q < 1` the squared ratio of the time step to the bound of C12. -/
theorem C105_perturbed_run {S : Sys sh ℝ} {m : Fin 3 → ℝ} {εm μm : ℝ} (hC : Courant S m εm μm) (d : ℕ → State sh ℝ) (ρ : ℕ → State sh ℝ)
    (hE : ∀ n c x, (d (n + 1)).e c x = (run S (d n) [.stepE]).e c x + (ρ n).e c x)
    (hH : ∀ n c x, (d (n + 1)).h c x = (run S ⟨(d (n + 1)).e, (d n).h⟩ [.stepH]).h c x + (ρ n).h c x) (n : ℕ) :
    √(wNormSq S (d n)) ≤ √(6 / (1 - courantRatio S m εm μm)) * (√(wNormSq S (d 0)) + ∑ k ∈ Finset.range n, √(wNormSq S (ρ k))) := by
  obtain ⟨-, -, hg, hmat, q0, q1⟩ := hC.facts
  set t : ℕ → State sh ℝ := fun n => ⟨(d n).e, fun c x => (d n).h c x + S.dt * curlForward (S.dxes.map (·.1)) (d n).e c x / muOr S.mu c x⟩ with ht
  have td : ∀ n, run S (t n) [.stepH] = d n := fun n => by
    apply State.ext' <;> intro c x
    · rfl
    · simp only [ht, run, List.foldl, step, maxwellH_eq]; ring
  have ts : ∀ n, t (n + 1) = addState (run S (t n) [.stepH, .stepE]) (ρ n) := fun n => by
    have h2 : run S (t n) [.stepH, .stepE] = run S (d n) [.stepE] := by
      rw [← td n]; rfl
    rw [h2]
    apply State.ext' <;> intro c x
    · simp only [ht, addState, hE]
    · simp only [ht, addState, hH, run, List.foldl, step, maxwellH_eq]; ring
  have grow : ∀ n, √(stateEnergy S (t n)) ≤ √2 * (√(wNormSq S (d 0)) + ∑ k ∈ Finset.range n, √(wNormSq S (ρ k))) := by
    intro n
    induction n with
    | zero =>
      have := (energy_norm hC (t 0)).2.1
      rw [td] at this
      rw [Finset.range_zero, Finset.sum_empty, add_zero, ← Real.sqrt_mul (by norm_num)]
      exact Real.sqrt_le_sqrt this
    | succ n ih =>
      rw [ts, Finset.sum_range_succ]
      refine (sqrt_energy_add hC _ _).trans ?_
      rw [stateEnergy_conserved S hg hmat]
      have : √(stateEnergy S (ρ n)) ≤ √2 * √(wNormSq S (ρ n)) := by
        rw [← Real.sqrt_mul (by norm_num)]
        exact Real.sqrt_le_sqrt (energy_norm hC (ρ n)).1
      linarith
  have low := (energy_norm hC (t n)).2.2.1
  rw [td] at low
  have p1 : 0 < 1 - courantRatio S m εm μm := by linarith
  have e1 : wNormSq S (d n) ≤ 3 / (1 - courantRatio S m εm μm) * stateEnergy S (t n) := by
    rw [div_mul_eq_mul_div, le_div_iff₀ p1]; linarith
  refine (Real.sqrt_le_sqrt e1).trans ?_
  rw [Real.sqrt_mul (by positivity)]
  refine (mul_le_mul_of_nonneg_left (grow n) (Real.sqrt_nonneg _)).trans (le_of_eq ?_)
  rw [← mul_assoc, ← Real.sqrt_mul (by positivity)]
  congr 2
  ring

end stability

section convergence
variable {sh : Fin 3 → ℕ}

/-- The simulation of a driven solution: E update, electric current of the middle of the step, H update, magnetic current. -/
noncomputable def drivenRun (sh : Fin 3 → ℕ) (dt : ℝ) (h : Pt) (ε μ : Fin 3 → Pt → ℝ) (J Mc : ℝ → Fin 3 → Pt → ℝ) (s : State sh ℝ) : ℕ → State sh ℝ
  | 0 => s
  | n + 1 => run (uniformSys sh dt h ε μ) (drivenRun sh dt h ε μ J Mc s n)
      [.stepE, .injJ (fun c x => -dt * sampleE h (J (n * dt + dt / 2)) c x), .stepH, .injM (fun c x => dt * sampleH h (Mc (n * dt + dt)) c x)]

/-- C105: convergence of second order. For a smooth solution of Maxwell's equations on a periodic box, any number of cells, any time step
below the bound of C12: after `n` steps the simulation differs from the samples of the solution (energy norm) by at most `√(6 / (1 - q))` times the
initial difference plus `n dt · √(6 κ' V) · (Mt dt² + Mx Σ h² / κ) / 24`, where `κ ≤ ε, μ ≤ κ'` and `V` is the volume of the box. -/
theorem C105_convergence {L h : Pt} (hL : ∀ a, L a = sh a * h a) (hh : ∀ a, 0 < h a) {dt : ℝ} (hdt : 0 ≤ dt) {ε μ : Fin 3 → Pt → ℝ}
    {κ κ' : ℝ} (hκ : 0 < κ) (hε : ∀ c r, κ ≤ ε c r ∧ ε c r ≤ κ') (hμ : ∀ c r, κ ≤ μ c r ∧ μ c r ≤ κ') {J Mc E H : ℝ → Fin 3 → Pt → ℝ} {Mt Mx : ℝ}
    (hsol : MaxwellSolution L ε μ J Mc E H Mt Mx) (hcfl : dt ^ 2 * (∑ a, 1 / h a ^ 2) < κ * κ) (s : State sh ℝ) (n : ℕ) :
    let q := dt ^ 2 * (∑ a, 1 / h a ^ 2) / (κ * κ)
    let S := uniformSys sh dt h ε μ
    let err := fun n : ℕ => (⟨(drivenRun sh dt h ε μ J Mc s n).e - (exactState dt h E H (n * dt)).e,
      (drivenRun sh dt h ε μ J Mc s n).h - (exactState dt h E H (n * dt)).h⟩ : State sh ℝ)
    √(wNormSq S (err n)) ≤ √(6 / (1 - q)) * (√(wNormSq S (err 0))
      + n * dt * (√(6 * κ' * ∏ a, L a) * ((Mt * dt ^ 2 + Mx * (∑ a, h a ^ 2) / κ) / 24))) := by
  intro q S err
  have hC : Courant S h κ κ := by
    refine ⟨hh, fun a i => le_refl _, fun a i => le_refl _, hκ, hκ, fun c x => (hε c _).1, fun c x => (hμ c _).1, hcfl⟩
  have hεp : ∀ c r, 0 < ε c r := fun c r => lt_of_lt_of_le hκ (hε c r).1
  have hμp : ∀ c r, 0 < μ c r := fun c r => lt_of_lt_of_le hκ (hμ c r).1
  set δ := (Mt * dt ^ 2 + Mx * (∑ a, h a ^ 2) / κ) / 24 with hδ
  have Mx0 : 0 ≤ Mx := (norm_nonneg _).trans ((hsol.spaceE 0 0 0 0).2 0)
  have Mt0 : 0 ≤ Mt := (norm_nonneg _).trans ((hsol.timeE 0 0).2 0)
  have δ0 : 0 ≤ δ := by
    have : 0 ≤ ∑ a, h a ^ 2 := Finset.sum_nonneg fun a _ => sq_nonneg _
    positivity
  -- defects
  set ρ : ℕ → State sh ℝ := fun n => ⟨fun c x =>
    (run S (exactState dt h E H (n * dt)) [.stepE, .injJ fun c x => -dt * sampleE h (J (n * dt + dt / 2)) c x]).e c x
      - (exactState dt h E H (n * dt + dt)).e c x, fun c x =>
    (run S ⟨(exactState dt h E H (n * dt + dt)).e, (exactState dt h E H (n * dt)).h⟩
          [.stepH, .injM fun c x => dt * sampleH h (Mc (n * dt + dt)) c x]).h c x
        - (exactState dt h E H (n * dt + dt)).h c x⟩ with hρ
  have pairs : ∀ c : Fin 3, h (c + 1) ^ 2 + h (c + 2) ^ 2 ≤ ∑ a, h a ^ 2 := by
    intro c
    rw [Fin.sum_univ_three]
    fin_cases c <;> simp <;> nlinarith [sq_nonneg (h 0), sq_nonneg (h 1), sq_nonneg (h 2)]
  have small : ∀ (c : Fin 3) (k : ℝ), κ ≤ k → dt * (Mt * dt ^ 2 + Mx * (h (c + 1) ^ 2 + h (c + 2) ^ 2) / k) / 24 ≤ dt * δ := by
    intro c k hk
    have : Mx * (h (c + 1) ^ 2 + h (c + 2) ^ 2) / k ≤ Mx * (∑ a, h a ^ 2) / κ :=
      div_le_div₀ (mul_nonneg Mx0 (Finset.sum_nonneg fun a _ => sq_nonneg _)) (mul_le_mul_of_nonneg_left (pairs c) Mx0) hκ hk
    have := mul_le_mul_of_nonneg_left this hdt
    rw [hδ]
    linarith
  have defect : ∀ n c x, |(ρ n).e c x| ≤ dt * δ ∧ |(ρ n).h c x| ≤ dt * δ := by
    intro n c x
    have := C104_step hL hh hdt hεp hμp hsol (n * dt) c x
    exact ⟨this.1.trans (small c _ (hε c _).1), this.2.trans (small c _ (hμ c _).1)⟩
  have κ'0 : 0 < κ' := lt_of_lt_of_le (hεp 0 0) (hε 0 0).2
  have cells : (∑ _x : Idx sh, ∏ a, h a) = ∏ a, L a := by
    rw [Finset.sum_const, Finset.card_univ, Fintype.card_pi, nsmul_eq_mul]
    push_cast
    simp only [Fintype.card_fin]
    rw [← Finset.prod_mul_distrib]
    exact Finset.prod_congr rfl fun a _ => (hL a).symm
  have hP : 0 < ∏ a, h a := Finset.prod_pos fun a _ => hh a
  have nρ : ∀ n, √(wNormSq S (ρ n)) ≤ dt * (√(6 * κ' * ∏ a, L a) * δ) := by
    intro n
    rw [Real.sqrt_le_iff]
    refine ⟨by positivity, ?_⟩
    have h6 : (dt * (√(6 * κ' * ∏ a, L a) * δ)) ^ 2 = ∑ _x : Idx sh, ∑ _c : Fin 3, (2 * κ' * (∏ a, h a) * (dt * δ) ^ 2) := by
      have : 0 ≤ 6 * κ' * ∏ a, L a := by
        rw [← cells]; exact mul_nonneg (by positivity) (Finset.sum_nonneg fun _ _ => hP.le)
      rw [mul_pow, mul_pow, Real.sq_sqrt this, ← cells]
      simp only [Finset.sum_const, Finset.card_univ, Fintype.card_fin, nsmul_eq_mul]
      push_cast; ring
    rw [h6, wNormSq]
    refine Finset.sum_le_sum fun x _ => Finset.sum_le_sum fun c _ => ?_
    obtain ⟨d1, d2⟩ := defect n c x
    have s1 : (ρ n).e c x ^ 2 ≤ (dt * δ) ^ 2 := by rw [← sq_abs]; exact pow_le_pow_left₀ (abs_nonneg _) d1 2
    have s2 : (ρ n).h c x ^ 2 ≤ (dt * δ) ^ 2 := by rw [← sq_abs]; exact pow_le_pow_left₀ (abs_nonneg _) d2 2
    have v1 : volE (dxesOrOnes S.dxes).1 (dxesOrOnes S.dxes).2 c x = ∏ a, h a := by
      simp only [volE, S, uniformSys, dxesOrOnes, ite_self]
    have v2 : volH (dxesOrOnes S.dxes).1 (dxesOrOnes S.dxes).2 c x = ∏ a, h a := by
      simp only [volH, S, uniformSys, dxesOrOnes, ite_self]
    rw [v1, v2]
    have t1 : S.eps c x * (ρ n).e c x ^ 2 ≤ κ' * (dt * δ) ^ 2 := mul_le_mul (hε c _).2 s1 (sq_nonneg _) κ'0.le
    have t2 : (S.mu.getD fun _ _ => 1) c x * (ρ n).h c x ^ 2 ≤ κ' * (dt * δ) ^ 2 := mul_le_mul (hμ c _).2 s2 (sq_nonneg _) κ'0.le
    have := mul_le_mul_of_nonneg_left t1 hP.le
    have := mul_le_mul_of_nonneg_left t2 hP.le
    linarith
  have key := C105_perturbed_run hC err ρ (fun n c x => ?_) (fun n c x => ?_) n
  · refine key.trans (mul_le_mul_of_nonneg_left ?_ (Real.sqrt_nonneg _))
    have : ∑ k ∈ Finset.range n, √(wNormSq S (ρ k)) ≤ ∑ _k ∈ Finset.range n, dt * (√(6 * κ' * ∏ a, L a) * δ) :=
      Finset.sum_le_sum fun k _ => nρ k
    rw [Finset.sum_const, Finset.card_range, nsmul_eq_mul] at this
    linarith
  · have hn : ((n + 1 : ℕ) : ℝ) * dt = n * dt + dt := by push_cast; ring
    simp only [err, hρ, drivenRun, hn, run, List.foldl, step, maxwellE_eq, Pi.sub_apply, S, uniformSys]
    rw [show ((drivenRun sh dt h ε μ J Mc s n).h - (exactState dt h E H (↑n * dt)).h)
      = fun c x => (drivenRun sh dt h ε μ J Mc s n).h c x + (-1) * (exactState dt h E H (↑n * dt)).h c x by funext c x; simp [sub_eq_add_neg],
      curlBack_add _ (drivenRun sh dt h ε μ J Mc s n).h (fun c x => (-1) * (exactState dt h E H (↑n * dt)).h c x), curlBack_smul]
    ring
  · have hn : ((n + 1 : ℕ) : ℝ) * dt = n * dt + dt := by push_cast; ring
    have hdr : (drivenRun sh dt h ε μ J Mc s (n + 1)).h c x = (drivenRun sh dt h ε μ J Mc s n).h c x
        - dt * curlForward (some fun a _ => h a) (drivenRun sh dt h ε μ J Mc s (n + 1)).e c x / sampleH h μ c x
        - dt * sampleH h (Mc (n * dt + dt)) c x / sampleH h μ c x := by
      simp only [drivenRun, run, List.foldl, step, maxwellH_eq, uniformSys, Option.map, muOr]
    obtain ⟨e1, he1⟩ : ∃ e1, e1 = (drivenRun sh dt h ε μ J Mc s (n + 1)).e := ⟨_, rfl⟩
    rw [← he1] at hdr
    simp only [err, hρ, hdr, ← he1, hn, run, List.foldl, step, maxwellH_eq, Pi.sub_apply, S, uniformSys, Option.map, muOr]
    rw [show (e1 - (exactState dt h E H (↑n * dt + dt)).e)
      = fun c x => e1 c x + (-1) * (exactState dt h E H (↑n * dt + dt)).e c x by funext c x; simp [sub_eq_add_neg],
      curlForward_add _ e1 (fun c x => (-1) * (exactState dt h E H (↑n * dt + dt)).e c x), curlForward_smul]
    ring

/-- C105: one constant for all grids. For a given smooth solution in a given box, a final time `T` and a margin `q < 1` from the stability bound there is
a `C` such that on every periodic uniform grid of the box, started from the samples of the solution, the simulation stays within
`C (dt² + Σ h²)` of it up to time `T`. -/
theorem C105_second_order {L : Pt} {ε μ : Fin 3 → Pt → ℝ} {κ κ' : ℝ} (hκ : 0 < κ) (hε : ∀ c r, κ ≤ ε c r ∧ ε c r ≤ κ')
    (hμ : ∀ c r, κ ≤ μ c r ∧ μ c r ≤ κ') {J Mc E H : ℝ → Fin 3 → Pt → ℝ} {Mt Mx : ℝ} (hsol : MaxwellSolution L ε μ J Mc E H Mt Mx)
    (T q : ℝ) (hq : q < 1) : ∃ C : ℝ, ∀ (sh : Fin 3 → ℕ) (h : Pt) (dt : ℝ) (n : ℕ), (∀ a, L a = sh a * h a) → (∀ a, 0 < h a) → 0 ≤ dt →
      dt ^ 2 * (∑ a, 1 / h a ^ 2) ≤ q * (κ * κ) → n * dt ≤ T →
      √(wNormSq (uniformSys sh dt h ε μ)
        ⟨(drivenRun sh dt h ε μ J Mc (exactState dt h E H 0) n).e - (exactState dt h E H (n * dt)).e,
          (drivenRun sh dt h ε μ J Mc (exactState dt h E H 0) n).h - (exactState dt h E H (n * dt)).h⟩)
        ≤ C * (dt ^ 2 + ∑ a, h a ^ 2) := by
  have Mx0 : 0 ≤ Mx := (norm_nonneg _).trans ((hsol.spaceE 0 0 0 0).2 0)
  have Mt0 : 0 ≤ Mt := (norm_nonneg _).trans ((hsol.timeE 0 0).2 0)
  refine ⟨√(6 / (1 - q)) * (T * (√(6 * κ' * ∏ a, L a) * ((Mt + Mx / κ) / 24))), fun sh h dt n hL hh hdt hcfl hT => ?_⟩
  have hκ2 : 0 < κ * κ := mul_pos hκ hκ
  have hcfl' : dt ^ 2 * (∑ a, 1 / h a ^ 2) < κ * κ := by nlinarith
  have key := C105_convergence hL hh hdt hκ hε hμ hsol hcfl' (exactState dt h E H 0) n
  dsimp only at key
  have z : wNormSq (uniformSys sh dt h ε μ)
      ⟨(drivenRun sh dt h ε μ J Mc (exactState dt h E H 0) 0).e - (exactState dt h E H ((0 : ℕ) * dt)).e,
        (drivenRun sh dt h ε μ J Mc (exactState dt h E H 0) 0).h - (exactState dt h E H ((0 : ℕ) * dt)).h⟩ = 0 := by
    simp [wNormSq, drivenRun]
  rw [z, Real.sqrt_zero, zero_add] at key
  refine key.trans ?_
  have hs : 0 ≤ ∑ a, h a ^ 2 := Finset.sum_nonneg fun a _ => sq_nonneg _
  have hqq : dt ^ 2 * (∑ a, 1 / h a ^ 2) / (κ * κ) ≤ q := by rw [div_le_iff₀ hκ2]; exact hcfl
  have r1 : √(6 / (1 - dt ^ 2 * (∑ a, 1 / h a ^ 2) / (κ * κ))) ≤ √(6 / (1 - q)) :=
    Real.sqrt_le_sqrt (div_le_div_of_nonneg_left (by norm_num) (by linarith) (by linarith))
  have r2 : (Mt * dt ^ 2 + Mx * (∑ a, h a ^ 2) / κ) / 24 ≤ (Mt + Mx / κ) / 24 * (dt ^ 2 + ∑ a, h a ^ 2) := by
    have : 0 ≤ Mx / κ := div_nonneg Mx0 hκ.le
    have e : (Mt + Mx / κ) / 24 * (dt ^ 2 + ∑ a, h a ^ 2) - (Mt * dt ^ 2 + Mx * (∑ a, h a ^ 2) / κ) / 24
        = (Mt * (∑ a, h a ^ 2) + Mx / κ * dt ^ 2) / 24 := by field_simp; ring
    have : 0 ≤ (Mt * (∑ a, h a ^ 2) + Mx / κ * dt ^ 2) / 24 := by positivity
    linarith
  have hn : 0 ≤ (n : ℝ) * dt := mul_nonneg (Nat.cast_nonneg _) hdt
  have p0 : 0 ≤ (Mt * dt ^ 2 + Mx * (∑ a, h a ^ 2) / κ) / 24 := by positivity
  calc _ ≤ √(6 / (1 - q)) * (T * (√(6 * κ' * ∏ a, L a) * ((Mt + Mx / κ) / 24 * (dt ^ 2 + ∑ a, h a ^ 2)))) := by
        refine mul_le_mul r1 ?_ (mul_nonneg hn (mul_nonneg (Real.sqrt_nonneg _) p0)) (Real.sqrt_nonneg _)
        exact mul_le_mul hT (mul_le_mul_of_nonneg_left r2 (Real.sqrt_nonneg _)) (mul_nonneg (Real.sqrt_nonneg _) p0) (hn.trans hT)
    _ = _ := by ring

-- Non-vacuous: a plane wave along z in empty space, without currents, in a periodic box.
example : MaxwellSolution (fun _ => 2 * Real.pi) (fun _ _ => 1) (fun _ _ => 1) (fun _ _ _ => 0) (fun _ _ _ => 0)
    (fun t c r => if c = 0 then Real.cos (r 2 - t) else 0) (fun t c r => if c = 1 then Real.cos (r 2 - t) else 0) 1 1 := by
  have d1 : ∀ b : ℝ, deriv (fun s => Real.cos (s - b)) = fun s => -Real.sin (s - b) := fun b => by
    funext s; rw [deriv_comp_sub_const (f := Real.cos)]; simp
  have shift : ∀ b : ℝ, Smooth3 1 (fun s => Real.cos (s - b)) := by
    intro b
    refine ⟨Real.contDiff_cos.comp (contDiff_id.sub contDiff_const), fun s => ?_⟩
    have i3 : iteratedDeriv 3 (fun s => Real.cos (s - b)) = fun s => Real.sin (s - b) := by
      rw [iteratedDeriv_succ', iteratedDeriv_succ', iteratedDeriv_succ', iteratedDeriv_zero, d1]
      have d2 : deriv (fun s => -Real.sin (s - b)) = fun s => -Real.cos (s - b) := by
        funext s; rw [deriv.fun_neg, deriv_comp_sub_const (f := Real.sin)]; simp
      rw [d2]
      funext s
      rw [deriv.fun_neg, d1]; simp
    rw [i3, Real.norm_eq_abs]; exact Real.abs_sin_le_one _
  have shift' : ∀ b : ℝ, Smooth3 1 (fun s => Real.cos (b - s)) := fun b => by
    have : (fun s => Real.cos (b - s)) = fun s => Real.cos (s - b) := by funext s; rw [← Real.cos_neg]; congr 1; ring
    rw [this]; exact shift b
  have const : ∀ k : ℝ, Smooth3 1 (fun _ => k) := fun k => by
    refine ⟨contDiff_const, fun s => ?_⟩
    rw [iteratedDeriv_succ', iteratedDeriv_succ', iteratedDeriv_succ', iteratedDeriv_zero]; simp
  have dt1 : ∀ b t : ℝ, deriv (fun s => Real.cos (b - s)) t = Real.sin (b - t) := fun b t => by
    rw [deriv_comp_const_sub (f := Real.cos)]; simp
  have lines : ∀ (c' : Fin 3) (t : ℝ) (c a : Fin 3) (r : Pt), line (fun r : Pt => if c = c' then Real.cos (r 2 - t) else 0) a r
      = if c = c' then if a = 2 then fun s => Real.cos (s - t) else fun _ => Real.cos (r 2 - t) else fun _ => 0 := by
    intro c' t c a r
    funext s
    by_cases hc : c = c'
    · by_cases ha : a = 2
      · subst ha; simp [line, hc]
      · simp [line, hc, ha, Function.update_of_ne (Ne.symm ha)]
    · simp [line, hc]
  have per : ∀ (c' : Fin 3) (t : ℝ) (c : Fin 3), Periodic (fun _ => 2 * Real.pi) (fun r : Pt => if c = c' then Real.cos (r 2 - t) else 0) := by
    intro c' t c a r
    by_cases hc : c = c'
    · by_cases ha : a = 2
      · subst ha; simp only [hc, if_true, Function.update_self]
        rw [show r 2 + 2 * Real.pi - t = r 2 - t + 2 * Real.pi by ring, Real.cos_add_two_pi]
      · simp [Function.update_of_ne (Ne.symm ha)]
    · simp [hc]
  constructor
  · intro t c r
    simp only [curl, pd, lines]
    fin_cases c <;> simp [dt1]
  · intro t c r
    simp only [curl, pd, lines]
    fin_cases c <;> simp [dt1]
  · exact per 0
  · exact per 1
  · intro c r; by_cases hc : c = 0 <;> simp only [hc, if_true, if_false]
    exacts [shift' _, const 0]
  · intro c r; by_cases hc : c = 1 <;> simp only [hc, if_true, if_false]
    exacts [shift' _, const 0]
  · intro t c a r; rw [lines]; split_ifs
    exacts [shift _, const _, const 0]
  · intro t c a r; rw [lines]; split_ifs
    exacts [shift _, const _, const 0]

end convergence

end Meanas.Props
