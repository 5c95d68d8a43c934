/-
C115: the Fourier transform of an FDTD run solves the FDFD system.
-/
import Verif.Props.FdfdWaves
import Verif.Props.FdtdStability
import Mathlib.Analysis.SpecificLimits.Normed
import Mathlib.Analysis.SpecialFunctions.Trigonometric.Complex
import Mathlib.Algebra.BigOperators.Field

namespace Meanas.Props

open Matrix Complex Fdfd Spec Fdtd

variable {sh : Fin 3 → ℕ}

/-- A script of `n` iterations: H update, magnetic current, E update, electric current. The currents are densities, so each update
injects `dt` times the density: `∂B/∂t = -curl E - M`, `∂D/∂t = curl H - J`. -/
def sourced {K : Type*} [Field K] (dt : K) (J M : ℕ → VField sh K) : ℕ → List (Op sh K)
  | 0 => []
  | n + 1 => sourced dt J M n ++
      [.stepH, .injM fun c x => dt * M n c x, .stepE, .injJ fun c x => -(dt * J n c x)]

/-- The first `N` terms of the discrete-time transform `dt Σ e^{-iωt} f(t)` of a record whose sample `n` is taken at `(n + τ) dt`. -/
noncomputable def transform (w dt τ : ℂ) (N : ℕ) (f : ℕ → VField sh ℂ) : VField sh ℂ := fun c x =>
  dt * ∑ n ∈ Finset.range N, exp (-I * w * ((n + τ) * dt)) * f n c x

/-- First-order equations with electric and magnetic sources give the second-order equation and the recovery formula. -/
theorem second_of_first (Ω : ℂ) (hΩ : Ω ≠ 0) (d : Dx sh) (eps : VField sh ℂ) (mu : Option (VField sh ℂ))
    (hmu : ∀ m, mu = some m → ∀ c x, m c x ≠ 0) (E H J M : VField sh ℂ)
    (h1 : ∀ c x, Functional.curlForward (some d.1) E c x + I * Ω * (muOr mu c x * H c x) = -M c x)
    (h2 : ∀ c x, Functional.curlBack (some d.2) H c x - I * Ω * (eps c x * E c x) = J c x) :
    eFull Ω d (vecS eps) (mu.map vecS) none none *ᵥ vecS E = (-I * Ω) • (vecS J + Fdfd.m2j Ω d (mu.map vecS) *ᵥ vecS M) ∧
      vecS H = Fdfd.e2h Ω d (mu.map vecS) none *ᵥ vecS E + fun p => M p.1 p.2 / (-I * Ω * muOr mu p.1 p.2) := by
  have hI : (I : ℂ) ≠ 0 := I_ne_zero
  have hII : (I : ℂ) ^ 2 = -1 := I_sq
  have hm : ∀ c x, muV (mu.map vecS) (c, x) = muOr mu c x := by intro c x; cases mu <;> rfl
  have hmne : ∀ c x, muOr mu c x ≠ 0 := by
    intro c x
    cases h : mu with
    | none => exact one_ne_zero
    | some m => exact hmu m h c x
  have key : vecS H = Fdfd.e2h Ω d (mu.map vecS) none *ᵥ vecS E + fun p => M p.1 p.2 / (-I * Ω * muOr mu p.1 p.2) := by
    funext p; obtain ⟨c, x⟩ := p
    have h := hmne c x
    rw [Pi.add_apply, e2h_mulVec, hm, div_div, ← add_div, eq_div_iff (by simp [hI, hΩ, h]), vecS_apply]
    have h5 : cE d (vecS E) (c, x) = Functional.curlForward (some d.1) E c x := rfl
    rw [h5]
    linear_combination -(h1 c x)
  refine ⟨?_, key⟩
  funext p; obtain ⟨c, x⟩ := p
  have hHH : (fun q => (vecS H) q) = fun q => (-(1 / (I * Ω))) * (cE d (vecS E) q / muV (mu.map vecS) q)
      + (-(1 / (I * Ω))) * (vecS M q / muV (mu.map vecS) q) := by
    funext q; obtain ⟨c, x⟩ := q
    have h := hmne c x
    rw [key, Pi.add_apply, e2h_mulVec, hm]
    simp only [vecS_apply]
    field_simp
  have h6 : Functional.curlBack (some d.2) H c x = cH d (vecS H) (c, x) := rfl
  have h3 := h2 c x
  rw [h6, show vecS H = fun q => vecS H q from rfl, hHH, cH_add, cH_smul, cH_smul] at h3
  rw [eFull_mulVec, Pi.smul_apply, Pi.add_apply, m2j_mulVec, smul_eq_mul]
  have h7 : (vecS J) (c, x) = J c x := rfl
  rw [h7, ← h3]
  generalize cH d (fun q => cE d (vecS E) q / muV (mu.map vecS) q) (c, x) = a
  generalize cH d (fun q => vecS M q / muV (mu.map vecS) q) (c, x) = b
  simp only [vecS_apply]
  field_simp
  linear_combination -(Ω ^ 2 * eps c x * E c x) * hII

theorem curlForward_sum {K ι : Type*} [Field K] (dx : Option (DxList sh K)) (s : Finset ι) (w : ι → K) (F : ι → VField sh K)
    (c : Fin 3) (x : Idx sh) :
    Functional.curlForward dx (fun c x => ∑ n ∈ s, w n * F n c x) c x = ∑ n ∈ s, w n * Functional.curlForward dx (F n) c x := by
  classical
  induction s using Finset.induction_on with
  | empty =>
    have := Meanas.curlForward_smul dx 0 (fun _ _ => 0 : VField sh K) c x
    simpa using this
  | insert n s hn ih =>
    simp only [Finset.sum_insert hn]
    rw [Meanas.curlForward_add, Meanas.curlForward_smul, ih]

theorem curlBack_sum {K ι : Type*} [Field K] (dx : Option (DxList sh K)) (s : Finset ι) (w : ι → K) (F : ι → VField sh K)
    (c : Fin 3) (x : Idx sh) :
    Functional.curlBack dx (fun c x => ∑ n ∈ s, w n * F n c x) c x = ∑ n ∈ s, w n * Functional.curlBack dx (F n) c x := by
  classical
  induction s using Finset.induction_on with
  | empty =>
    have := Meanas.curlBack_smul dx 0 (fun _ _ => 0 : VField sh K) c x
    simpa using this
  | insert n s hn ih =>
    simp only [Finset.sum_insert hn]
    rw [Meanas.curlBack_add, Meanas.curlBack_smul, ih]

/-- One iteration of the script. -/
theorem sourced_step {K : Type*} [Field K] (S : Sys sh K) (d : Dxes sh K) (hS : S.dxes = some d) (s : State sh K)
    (J M : ℕ → VField sh K) (n : ℕ) (c : Fin 3) (x : Idx sh) :
    (run S s (sourced S.dt J M (n + 1))).h c x = (run S s (sourced S.dt J M n)).h c x
        - S.dt * (Functional.curlForward (some d.1) (run S s (sourced S.dt J M n)).e c x + M n c x) / muOr S.mu c x ∧
    (run S s (sourced S.dt J M (n + 1))).e c x = (run S s (sourced S.dt J M n)).e c x
        + S.dt * (Functional.curlBack (some d.2) (run S s (sourced S.dt J M (n + 1))).h c x - J n c x) / S.eps c x := by
  have hr : run S s (sourced S.dt J M (n + 1)) = run S (run S s (sourced S.dt J M n))
      [.stepH, .injM fun c x => S.dt * M n c x, .stepE, .injJ fun c x => -(S.dt * J n c x)] := by
    rw [sourced, run_append]
  generalize run S s (sourced S.dt J M n) = t at hr ⊢
  rw [hr]
  cases hm : S.mu with
  | none =>
    simp only [run, List.foldl, step, hm, maxwellE_eq, maxwellH_eq, hS, Option.map_some, muOr]
    constructor <;> ring
  | some m =>
    simp only [run, List.foldl, step, hm, maxwellE_eq, maxwellH_eq, hS, Option.map_some, muOr]
    constructor <;> ring

/-- Telescoping of a transformed difference. -/
theorem sum_shift (q : ℂ) (f : ℕ → ℂ) (N : ℕ) :
    ∑ n ∈ Finset.range N, q ^ n * (f (n + 1) - f n) =
      (q ^ N * f N - f 0) + ∑ n ∈ Finset.range N, (q ^ n - q ^ (n + 1)) * f (n + 1) := by
  induction N with
  | zero => simp
  | succ N ih => rw [Finset.sum_range_succ, Finset.sum_range_succ, ih]; ring

/-- The other telescoping. -/
theorem sum_shift' (q : ℂ) (f : ℕ → ℂ) (N : ℕ) :
    q * ∑ n ∈ Finset.range N, q ^ n * (f (n + 1) - f n) =
      (q ^ N * f N - f 0) + (1 - q) * ∑ n ∈ Finset.range N, q ^ n * f n := by
  induction N with
  | zero => simp
  | succ N ih => rw [Finset.sum_range_succ, Finset.sum_range_succ, mul_add, ih]; ring

/-- C115: for every run, every (complex) frequency and every number of steps, the transforms of the recorded E and H fields satisfy the
FDFD system at `Ω = 2 sin(ω dt/2)/dt` with the transforms of the currents as sources, up to a remainder that contains only the first
and the last fields of the run. -/
theorem C115_finite (S : Sys sh ℂ) (d : Dx sh) (hS : S.dxes = some d) (heps : ∀ c x, S.eps c x ≠ 0)
    (hmu : ∀ m, S.mu = some m → ∀ c x, m c x ≠ 0) (hdt : S.dt ≠ 0) (w : ℂ) (hΩ : 2 * Complex.sin (w * S.dt / 2) / S.dt ≠ 0)
    (s : State sh ℂ) (J M : ℕ → VField sh ℂ) (N : ℕ) :
    let st : ℕ → State sh ℂ := fun n => run S s (sourced S.dt J M n)
    let Ω := 2 * Complex.sin (w * S.dt / 2) / S.dt
    let E := transform w S.dt 0 N fun n => (st n).e
    let H := transform w S.dt (1 / 2) N fun n => (st (n + 1)).h
    let J' : VField sh ℂ := fun c x => transform w S.dt (1 / 2) N J c x
      + S.eps c x * (exp (-I * w * ((N - 1 / 2) * S.dt)) * (st N).e c x - exp (-I * w * ((-1 / 2) * S.dt)) * s.e c x)
    let M' : VField sh ℂ := fun c x => transform w S.dt 0 N M c x
      + muOr S.mu c x * (exp (-I * w * (N * S.dt)) * (st N).h c x - s.h c x)
    eFull Ω d (vecS S.eps) (S.mu.map vecS) none none *ᵥ vecS E = (-I * Ω) • (vecS J' + Fdfd.m2j Ω d (S.mu.map vecS) *ᵥ vecS M') ∧
      vecS H = Fdfd.e2h Ω d (S.mu.map vecS) none *ᵥ vecS E + fun p => M' p.1 p.2 / (-I * Ω * muOr S.mu p.1 p.2) := by
  intro st Ω E H J' M'
  have hmne : ∀ c x, muOr S.mu c x ≠ 0 := by
    intro c x
    cases h : S.mu with
    | none => exact one_ne_zero
    | some m => exact hmu m h c x
  set q := exp (-I * w * (1 / 2 * S.dt)) with hq
  have hq0 : q ≠ 0 := exp_ne_zero _
  have hqi : q⁻¹ - q = I * Ω * S.dt := by
    have := half_step w S.dt hdt 1 (Or.inl rfl)
    have e1 : exp (1 * I * w * S.dt / 2) = q⁻¹ := by rw [hq, ← exp_neg]; congr 1; ring
    rw [e1, inv_inv] at this
    rw [this]; simp only [Ω, Omega]; ring
  have hp : ∀ n : ℕ, exp (-I * w * ((n + 0) * S.dt)) = (q ^ 2) ^ n := by
    intro n; rw [hq, ← exp_nat_mul, ← exp_nat_mul]; congr 1; push_cast; ring
  have hph : ∀ n : ℕ, exp (-I * w * ((n + 1 / 2) * S.dt)) = q * (q ^ 2) ^ n := by
    intro n; rw [hq, ← exp_nat_mul, ← exp_nat_mul, ← exp_add]; congr 1; push_cast; ring
  have hpN : exp (-I * w * ((N - 1 / 2) * S.dt)) = q⁻¹ * (q ^ 2) ^ N := by
    rw [hq, ← exp_neg, ← exp_nat_mul, ← exp_nat_mul, ← exp_add]; congr 1; push_cast; ring
  have hp0 : exp (-I * w * ((-1 / 2) * S.dt)) = q⁻¹ := by rw [hq, ← exp_neg]; congr 1; ring
  have hpN' : exp (-I * w * (N * S.dt)) = (q ^ 2) ^ N := by rw [← hp, add_zero]
  have hst0 : st 0 = s := rfl
  have hE : E = fun c x => ∑ n ∈ Finset.range N, (S.dt * (q ^ 2) ^ n) * (st n).e c x := by
    funext c x; simp only [E, transform, Finset.mul_sum, hp]; exact Finset.sum_congr rfl fun n _ => by ring
  have hH : H = fun c x => ∑ n ∈ Finset.range N, (S.dt * (q * (q ^ 2) ^ n)) * (st (n + 1)).h c x := by
    funext c x; simp only [H, transform, Finset.mul_sum, hph]; exact Finset.sum_congr rfl fun n _ => by ring
  refine second_of_first Ω hΩ d S.eps S.mu hmu E H J' M' (fun c x => ?_) (fun c x => ?_)
  · have h1 := sum_shift (q ^ 2) (fun n => (st n).h c x) N
    have h2 : ∀ n, (st (n + 1)).h c x - (st n).h c x
        = -(S.dt * (Functional.curlForward (some d.1) (st n).e c x + M n c x) / muOr S.mu c x) := by
      intro n
      have := (sourced_step S d hS s J M n c x).1
      simp only [st]; rw [this]; ring
    simp only [h2] at h1
    rw [hE, curlForward_sum, hH]
    simp only [M', transform, hp, hpN']
    have h3 : ∑ n ∈ Finset.range N, ((q ^ 2) ^ n - (q ^ 2) ^ (n + 1)) * (st (n + 1)).h c x
        = (I * Ω) * ∑ n ∈ Finset.range N, (S.dt * (q * (q ^ 2) ^ n)) * (st (n + 1)).h c x := by
      rw [Finset.mul_sum]
      refine Finset.sum_congr rfl fun n _ => ?_
      have : (q ^ 2) ^ n - (q ^ 2) ^ (n + 1) = (q⁻¹ - q) * (q * (q ^ 2) ^ n) := by field_simp; ring
      rw [this, hqi]; ring
    rw [h3] at h1
    have h4 : ∑ n ∈ Finset.range N, (q ^ 2) ^ n *
          -(S.dt * (Functional.curlForward (some d.1) (st n).e c x + M n c x) / muOr S.mu c x)
        = -((∑ n ∈ Finset.range N, S.dt * (q ^ 2) ^ n * Functional.curlForward (some d.1) (st n).e c x)
          + S.dt * ∑ n ∈ Finset.range N, (q ^ 2) ^ n * M n c x) / muOr S.mu c x := by
      rw [Finset.mul_sum, ← Finset.sum_add_distrib, neg_div, Finset.sum_div, ← Finset.sum_neg_distrib]
      refine Finset.sum_congr rfl fun n _ => ?_
      ring
    rw [h4, div_eq_iff (hmne c x), hst0] at h1
    linear_combination -h1
  · have h1 := sum_shift' (q ^ 2) (fun n => (st n).e c x) N
    have h2 : ∀ n, (st (n + 1)).e c x - (st n).e c x
        = S.dt * (Functional.curlBack (some d.2) (st (n + 1)).h c x - J n c x) / S.eps c x := by
      intro n
      have := (sourced_step S d hS s J M n c x).2
      simp only [st]; rw [this]; ring
    simp only [h2] at h1
    have h4 : ∑ n ∈ Finset.range N, (q ^ 2) ^ n *
          (S.dt * (Functional.curlBack (some d.2) (st (n + 1)).h c x - J n c x) / S.eps c x)
        = ((∑ n ∈ Finset.range N, S.dt * (q * (q ^ 2) ^ n) * Functional.curlBack (some d.2) (st (n + 1)).h c x)
          - S.dt * ∑ n ∈ Finset.range N, q * (q ^ 2) ^ n * J n c x) / (q * S.eps c x) := by
      rw [Finset.mul_sum, ← Finset.sum_sub_distrib, Finset.sum_div]
      refine Finset.sum_congr rfl fun n _ => ?_
      field_simp
    have h5 : S.dt * ∑ n ∈ Finset.range N, (q ^ 2) ^ n * (st n).e c x
        = ∑ n ∈ Finset.range N, (S.dt * (q ^ 2) ^ n) * (st n).e c x := by
      rw [Finset.mul_sum]; exact Finset.sum_congr rfl fun n _ => by ring
    have h6 : 1 - q ^ 2 = q * (I * Ω * S.dt) := by rw [← hqi]; field_simp
    rw [h4, h6, hst0] at h1
    rw [hH, curlBack_sum, hE]
    simp only [J', transform, hph, hpN, hp0]
    rw [← h5]
    have he := heps c x
    clear_value q Ω
    generalize (∑ n ∈ Finset.range N, S.dt * (q * (q ^ 2) ^ n) * Functional.curlBack (some d.2) (st (n + 1)).h c x) = a at h1 ⊢
    generalize (∑ n ∈ Finset.range N, q * (q ^ 2) ^ n * J n c x) = b at h1 ⊢
    generalize (∑ n ∈ Finset.range N, (q ^ 2) ^ n * (st n).e c x) = e at h1 ⊢
    generalize (q ^ 2) ^ N = z at h1 ⊢
    field_simp at h1
    field_simp
    linear_combination h1

/-- C115: a run that starts and ends at rest gives an exact FDFD solution, `e_full E = -iΩ(J + m2j M)`, whatever happened in between. -/
theorem C115_at_rest (S : Sys sh ℂ) (d : Dx sh) (hS : S.dxes = some d) (heps : ∀ c x, S.eps c x ≠ 0)
    (hmu : ∀ m, S.mu = some m → ∀ c x, m c x ≠ 0) (hdt : S.dt ≠ 0) (w : ℂ) (hΩ : 2 * Complex.sin (w * S.dt / 2) / S.dt ≠ 0)
    (s : State sh ℂ) (J M : ℕ → VField sh ℂ) (N : ℕ)
    (h0 : ∀ c x, s.e c x = 0 ∧ s.h c x = 0)
    (hN : ∀ c x, (run S s (sourced S.dt J M N)).e c x = 0 ∧ (run S s (sourced S.dt J M N)).h c x = 0) :
    let E := transform w S.dt 0 N fun n => (run S s (sourced S.dt J M n)).e
    eFull (2 * Complex.sin (w * S.dt / 2) / S.dt) d (vecS S.eps) (S.mu.map vecS) none none *ᵥ vecS E
      = (-I * (2 * Complex.sin (w * S.dt / 2) / S.dt)) • (vecS (transform w S.dt (1 / 2) N J)
        + Fdfd.m2j (2 * Complex.sin (w * S.dt / 2) / S.dt) d (S.mu.map vecS) *ᵥ vecS (transform w S.dt 0 N M)) := by
  intro E
  have h := (C115_finite S d hS heps hmu hdt w hΩ s J M N).1
  simp only [h0, hN, mul_zero, sub_zero, add_zero] at h
  exact h

/-! ### Real simulations -/

/-- A real simulation, its numbers read as complex numbers. -/
noncomputable def toC (S : Sys sh ℝ) : Sys sh ℂ :=
  ⟨S.dt, S.dxes.map cDx, fun c x => S.eps c x, S.mu.map fun m c x => (m c x : ℂ)⟩

theorem curlForward_ofReal (dx : Option (DxList sh ℝ × DxList sh ℝ)) (F : VField sh ℝ) (c : Fin 3) (x : Idx sh) :
    Functional.curlForward ((dx.map cDx).map (·.1)) (fun c x => (F c x : ℂ)) c x
      = (Functional.curlForward (dx.map (·.1)) F c x : ℝ) := by
  revert c
  cases dx <;> refine forall_fin3 ?_ ?_ ?_ <;>
    simp [curlForward_0, curlForward_1, curlForward_2, derivForward_eq, cDx, wOf]

theorem curlBack_ofReal (dx : Option (DxList sh ℝ × DxList sh ℝ)) (F : VField sh ℝ) (c : Fin 3) (x : Idx sh) :
    Functional.curlBack ((dx.map cDx).map (·.2)) (fun c x => (F c x : ℂ)) c x
      = (Functional.curlBack (dx.map (·.2)) F c x : ℝ) := by
  revert c
  cases dx <;> refine forall_fin3 ?_ ?_ ?_ <;>
    simp [curlBack_0, curlBack_1, curlBack_2, derivBack_eq, cDx, wOf]

theorem muOr_toC (S : Sys sh ℝ) (c : Fin 3) (x : Idx sh) : muOr (toC S).mu c x = (muOr S.mu c x : ℝ) := by
  simp only [toC]; cases S.mu <;> simp [muOr]

theorem run_toC (S : Sys sh ℝ) (s : State sh ℝ) (ops : List (Op sh ℝ)) :
    run (toC S) (mapState ofReal s) (ops.map (mapOp ofReal)) = mapState ofReal (run S s ops) := by
  induction ops generalizing s with
  | nil => rfl
  | cons op ops ih =>
    have : step (toC S) (mapState ofReal s) (mapOp ofReal op) = mapState ofReal (step S s op) := by
      cases op with
      | stepE =>
        refine State.ext' (fun c x => ?_) fun c x => rfl
        simp only [step, mapOp, mapState, maxwellE_eq]
        have := curlBack_ofReal S.dxes s.h c x
        simp only [toC] at this ⊢
        rw [this]; push_cast; rfl
      | stepH =>
        refine State.ext' (fun c x => rfl) fun c x => ?_
        simp only [step, mapOp, mapState, maxwellH_eq, muOr_toC]
        have := curlForward_ofReal S.dxes s.e c x
        simp only [toC] at this ⊢
        rw [this]; push_cast; rfl
      | injJ j =>
        refine State.ext' (fun c x => ?_) fun c x => rfl
        simp only [step, mapOp, mapState, toC]; push_cast; rfl
      | injM j =>
        have h1 : (toC S).mu = S.mu.map fun m c x => (m c x : ℂ) := rfl
        cases hm : S.mu with
        | none =>
          refine State.ext' (fun c x => ?_) fun c x => ?_ <;>
            simp only [step, mapOp, mapState, h1, hm, Option.map_none] <;> push_cast <;> rfl
        | some m =>
          refine State.ext' (fun c x => ?_) fun c x => ?_ <;>
            simp only [step, mapOp, mapState, h1, hm, Option.map_some] <;> push_cast <;> rfl
    have h2 := ih (step S s op)
    rw [← this] at h2
    exact h2

theorem sourced_toC (dt : ℝ) (J M : ℕ → VField sh ℝ) (n : ℕ) :
    (sourced dt J M n).map (mapOp ofReal) = sourced (dt : ℂ) (fun n c x => (J n c x : ℂ)) (fun n c x => (M n c x : ℂ)) n := by
  induction n with
  | zero => rfl
  | succ n ih =>
    simp only [sourced, List.map_append, ih, List.map_cons, List.map_nil, mapOp]
    push_cast; rfl

/-- A real part functional (`re` or `im`) commutes with the curls of a real grid. -/
theorem re_curls (φ : ℂ →ₗ[ℝ] ℝ) (dx : Option (DxList sh ℝ × DxList sh ℝ)) (F : VField sh ℂ) (c : Fin 3) (x : Idx sh) :
    φ (Functional.curlForward ((dx.map cDx).map (·.1)) F c x) = Functional.curlForward (dx.map (·.1)) (fun c x => φ (F c x)) c x ∧
    φ (Functional.curlBack ((dx.map cDx).map (·.2)) F c x) = Functional.curlBack (dx.map (·.2)) (fun c x => φ (F c x)) c x := by
  have hdiv : ∀ (z : ℂ) (r : ℝ), φ (z / r) = φ z / r := fun z r => by
    rw [div_eq_inv_mul, ← ofReal_inv, ← real_smul, map_smul, smul_eq_mul, div_eq_inv_mul]
  revert c
  cases dx with
  | none =>
    refine forall_fin3 ?_ ?_ ?_ <;>
    simp [curlForward_0, curlForward_1, curlForward_2, derivForward_eq, curlBack_0, curlBack_1, curlBack_2, derivBack_eq, wOf]
  | some dx =>
    refine forall_fin3 ?_ ?_ ?_ <;>
    simp [curlForward_0, curlForward_1, curlForward_2, derivForward_eq, curlBack_0, curlBack_1, curlBack_2, derivBack_eq, wOf,
      cDx, hdiv]

/-- Source-free runs of real systems act on real and imaginary parts separately. -/
theorem run_part (φ : ℂ →ₗ[ℝ] ℝ) (S : Sys sh ℝ) (s : State sh ℂ) (n : ℕ) :
    mapState φ (run (toC S) s (leapfrogRev n)) = run S (mapState φ s) (leapfrogRev n) := by
  have hdiv : ∀ (z : ℂ) (r : ℝ), φ (z / r) = φ z / r := fun z r => by
    rw [div_eq_inv_mul, ← ofReal_inv, ← real_smul, map_smul, smul_eq_mul, div_eq_inv_mul]
  have hmul : ∀ (z : ℂ) (r : ℝ), φ (r * z) = r * φ z := fun z r => by
    rw [← real_smul, map_smul, smul_eq_mul]
  induction n with
  | zero => rfl
  | succ n ih =>
    rw [leapfrogRev_succ', leapfrogRev_succ', run_append, run_append, ← ih]
    generalize run (toC S) s (leapfrogRev n) = t
    have hH : ∀ t : State sh ℂ, mapState φ (run (toC S) t [.stepH]) = run S (mapState φ t) [.stepH] := by
      intro t
      refine State.ext' (fun c x => rfl) fun c x => ?_
      simp only [run, List.foldl, step, mapState, maxwellH_eq, muOr_toC]
      have := (re_curls φ S.dxes t.e c x).1
      rw [map_sub, hdiv]
      simp only [toC]
      rw [hmul, this]
    have hE : ∀ t : State sh ℂ, mapState φ (run (toC S) t [.stepE]) = run S (mapState φ t) [.stepE] := by
      intro t
      refine State.ext' (fun c x => ?_) fun c x => rfl
      simp only [run, List.foldl, step, mapState, maxwellE_eq]
      have := (re_curls φ S.dxes t.h c x).2
      simp only [toC]
      rw [map_add, hdiv, hmul, this]
    have h1 : ∀ {K : Type} [Field K] (S : Sys sh K) (t : State sh K), run S t [.stepH, .stepE] = run S (run S t [.stepH]) [.stepE] :=
      fun S t => rfl
    rw [h1, h1, hE, hH]

/-- Below the stability limit source-free runs in the order H, E are bounded too. -/
theorem bounded_rev (S : Sys sh ℝ) (m : Fin 3 → ℝ) (εm μm : ℝ) (hC : Courant S m εm μm) (s : State sh ℝ) :
    ∃ C : ℝ, ∀ n c x, |(run S s (leapfrogRev n)).e c x| ≤ C ∧ |(run S s (leapfrogRev n)).h c x| ≤ C := by
  obtain ⟨C, hCb⟩ := C12_stability S m εm μm hC (run S s [.stepH])
  have key : ∀ n, run S (run S s (leapfrogRev n)) [.stepH] = run S (run S s [.stepH]) (leapfrog n) := by
    intro n
    induction n with
    | zero => rfl
    | succ n ih =>
      have e1 : leapfrog (sh := sh) (K := ℝ) (n + 1) = leapfrog n ++ [.stepE, .stepH] := by simp [leapfrog, List.replicate_succ']
      rw [leapfrogRev_succ', run_append, e1, run_append, ← ih]; rfl
  refine ⟨max C (∑ c, ∑ x, |s.h c x|), fun n c x => ⟨?_, ?_⟩⟩
  · have := (hCb n c x).1
    rw [← key] at this
    exact le_trans this (le_max_left _ _)
  · cases n with
    | zero =>
      refine le_trans ?_ (le_max_right _ _)
      refine le_trans (Finset.single_le_sum (f := fun x => |s.h c x|) (fun x _ => abs_nonneg _) (Finset.mem_univ x)) ?_
      exact Finset.single_le_sum (f := fun c => ∑ x, |s.h c x|) (fun c _ => Finset.sum_nonneg fun x _ => abs_nonneg _) (Finset.mem_univ c)
    | succ n =>
      have := (hCb n c x).2
      rw [← key] at this
      rw [leapfrogRev_succ', run_append]
      exact le_trans this (le_max_left _ _)

/-- A bound for the fields of a simulation whose currents stop. -/
theorem bounded_pulse (S : Sys sh ℝ) (m : Fin 3 → ℝ) (εm μm : ℝ) (hC : Courant S m εm μm) (s : State sh ℝ)
    (J M : ℕ → VField sh ℝ) (N₀ : ℕ) (hJ : ∀ n, N₀ ≤ n → J n = fun _ _ => 0) (hM : ∀ n, N₀ ≤ n → M n = fun _ _ => 0) :
    ∃ C : ℝ, ∀ n c x, |(run S s (sourced S.dt J M n)).e c x| ≤ C ∧ |(run S s (sourced S.dt J M n)).h c x| ≤ C := by
  obtain ⟨C, hCb⟩ := bounded_rev S m εm μm hC (run S s (sourced S.dt J M N₀))
  have key : ∀ k, run S s (sourced S.dt J M (N₀ + k)) = run S (run S s (sourced S.dt J M N₀)) (leapfrogRev k) := by
    intro k
    induction k with
    | zero => rfl
    | succ k ih =>
      rw [← Nat.add_assoc, sourced, run_append, ih, hJ _ (by omega), hM _ (by omega), leapfrogRev_succ', run_append]
      generalize run S (run S s (sourced S.dt J M N₀)) (leapfrogRev k) = t
      simp only [run, List.foldl, step]
      cases S.mu <;> simp
  set B : ℕ → ℝ := fun n => ∑ c, ∑ x, (|(run S s (sourced S.dt J M n)).e c x| + |(run S s (sourced S.dt J M n)).h c x|) with hB
  have hB0 : ∀ n, 0 ≤ B n := fun n => Finset.sum_nonneg fun c _ => Finset.sum_nonneg fun x _ => by positivity
  have hle : ∀ n c x, |(run S s (sourced S.dt J M n)).e c x| ≤ B n ∧ |(run S s (sourced S.dt J M n)).h c x| ≤ B n := by
    intro n c x
    have h1 : |(run S s (sourced S.dt J M n)).e c x| + |(run S s (sourced S.dt J M n)).h c x| ≤ B n := by
      refine le_trans (Finset.single_le_sum (f := fun x => |(run S s (sourced S.dt J M n)).e c x|
        + |(run S s (sourced S.dt J M n)).h c x|) (fun x _ => by positivity) (Finset.mem_univ x)) ?_
      exact Finset.single_le_sum (f := fun c => ∑ x, (|(run S s (sourced S.dt J M n)).e c x|
        + |(run S s (sourced S.dt J M n)).h c x|)) (fun c _ => Finset.sum_nonneg fun x _ => by positivity) (Finset.mem_univ c)
    have := abs_nonneg ((run S s (sourced S.dt J M n)).e c x)
    have := abs_nonneg ((run S s (sourced S.dt J M n)).h c x)
    constructor <;> linarith
  refine ⟨max C (∑ n ∈ Finset.range N₀, B n), fun n c x => ?_⟩
  by_cases hn : n < N₀
  · have h1 : B n ≤ ∑ n ∈ Finset.range N₀, B n :=
      Finset.single_le_sum (fun n _ => hB0 n) (Finset.mem_range.2 hn)
    exact ⟨le_trans ((hle n c x).1.trans h1) (le_max_right _ _), le_trans ((hle n c x).2.trans h1) (le_max_right _ _)⟩
  · obtain ⟨k, rfl⟩ := Nat.exists_eq_add_of_le (not_lt.1 hn)
    rw [key]
    exact ⟨(hCb k c x).1.trans (le_max_left _ _), (hCb k c x).2.trans (le_max_left _ _)⟩

/-- `|e^{-iωt}| < 1` for a positive time when `Im ω < 0`. -/
theorem norm_decay (w : ℂ) (dt : ℝ) : ‖exp (-I * w * dt)‖ = Real.exp (w.im * dt) := by
  rw [norm_exp]; simp

theorem Omega_ne_zero (w : ℂ) (hw : w.im ≠ 0) (dt : ℝ) (hdt : dt ≠ 0) : 2 * Complex.sin (w * dt / 2) / dt ≠ 0 := by
  refine div_ne_zero (mul_ne_zero two_ne_zero ?_) (ofReal_ne_zero.2 hdt)
  rw [Ne, Complex.sin_eq_zero_iff]
  rintro ⟨k, hk⟩
  have := congrArg Complex.im hk
  simp [hdt] at this
  exact hw this

theorem toC_dt (S : Sys sh ℝ) : (toC S).dt = S.dt := rfl

/-- C115: below the stability limit the FDFD operator of a real (lossless) system has no null vector at `Ω = 2 sin(ω dt/2)/dt` for
any `ω` with `Im ω < 0`: a null vector would be an exponentially growing run. -/
theorem C115_no_resonance (S : Sys sh ℝ) (d : DxList sh ℝ × DxList sh ℝ) (hS : S.dxes = some d) (m : Fin 3 → ℝ) (εm μm : ℝ)
    (hC : Courant S m εm μm) (hdt : 0 < S.dt) (w : ℂ) (hw : w.im < 0) (V : Vec sh)
    (hV : eFull (2 * Complex.sin (w * S.dt / 2) / S.dt) (cDx d) (vecS fun c x => (S.eps c x : ℂ))
      (S.mu.map fun m => vecS fun c x => (m c x : ℂ)) none none *ᵥ V = 0) : V = 0 := by
  have hΩ := Omega_ne_zero w hw.ne S.dt hdt.ne'
  have heps : ∀ c x, (toC S).eps c x ≠ 0 := fun c x => ofReal_ne_zero.2 (lt_of_lt_of_le hC.eps_pos (hC.eps c x)).ne'
  have hmu : ∀ m, (toC S).mu = some m → ∀ c x, m c x ≠ 0 := by
    intro m hm c x
    obtain ⟨m', h1, rfl⟩ := Option.map_eq_some_iff.1 hm
    have := hC.mu c x
    rw [h1] at this
    exact ofReal_ne_zero.2 (lt_of_lt_of_le hC.mu_pos this).ne'
  have hSC : (toC S).dxes = some (cDx d) := by simp [toC, hS]
  have hdtC : (toC S).dt ≠ 0 := ofReal_ne_zero.2 hdt.ne'
  have hmuC : (toC S).mu.map vecS = S.mu.map fun m => vecS fun c x => (m c x : ℂ) := by
    simp only [toC, Option.map_map]; rfl
  set A := Fdfd.e2h (Omega w (toC S).dt) (cDx d) ((toC S).mu.map vecS) none *ᵥ V with hA
  have hrun := (harmonic_iff (toC S) (cDx d) hSC heps hmu hdtC w 1 (Or.inl rfl) hΩ (unS V) (unS A) (fun _ _ => 0)).2
    ⟨by
      have hz : (vecS fun _ _ => 0 : Vec sh) = 0 := rfl
      rw [hz, smul_zero, vecS_unS, hmuC]; exact hV, by rw [one_smul, vecS_unS, vecS_unS]⟩
  set q := exp (1 * I * w * (toC S).dt / 2) with hq
  have hrun' : ∀ n : ℕ, run (toC S) (harmonic q (unS V) (unS A) 0) (leapfrogRev n) = harmonic q (unS V) (unS A) n := by
    intro n
    induction n with
    | zero => rfl
    | succ n ih =>
      rw [leapfrogRev_succ', run_append, ih]
      have := hrun n
      have e1 : ∀ t : State sh ℂ, run (toC S) t [.stepH, .stepE, .injJ fun c x => -((toC S).dt * (q ^ (2 * (n : ℤ) + 1) * 0))]
          = run (toC S) t [.stepH, .stepE] := by
        intro t; simp only [run, List.foldl, step, mul_zero, neg_zero, zero_div, add_zero]
      rw [e1] at this
      rw [this]; push_cast; rfl
  obtain ⟨C₁, h₁⟩ := bounded_rev S m εm μm hC (mapState Complex.reLm (harmonic q (unS V) (unS A) 0))
  obtain ⟨C₂, h₂⟩ := bounded_rev S m εm μm hC (mapState Complex.imLm (harmonic q (unS V) (unS A) 0))
  have hq1 : 1 < ‖q‖ := by
    rw [hq, norm_exp, toC_dt]
    apply Real.one_lt_exp_iff.2
    have : (1 * I * w * (S.dt : ℂ) / 2).re = -(w.im * S.dt) / 2 := by
      rw [show 1 * I * w * (S.dt : ℂ) / 2 = ((S.dt / 2 : ℝ) : ℂ) * (I * w) by push_cast; ring, re_ofReal_mul]
      simp; ring
    rw [this]
    have := mul_neg_of_neg_of_pos hw hdt
    linarith
  funext p; obtain ⟨c, x⟩ := p
  by_contra hne
  have hpos : 0 < ‖V (c, x)‖ := norm_pos_iff.2 hne
  have hb : ∀ n : ℕ, (‖q‖ ^ 2) ^ n * ‖V (c, x)‖ ≤ C₁ + C₂ := by
    intro n
    have a1 := (h₁ n c x).1
    have a2 := (h₂ n c x).1
    rw [← run_part, hrun'] at a1 a2
    have e2 : (harmonic q (unS V) (unS A) n).e c x = (q ^ 2) ^ n * V (c, x) := by
      simp only [harmonic, unS]; congr 1; rw [zpow_mul]; rfl
    simp only [mapState, reLm_coe, imLm_coe, e2] at a1 a2
    have a3 := Complex.norm_le_abs_re_add_abs_im ((q ^ 2) ^ n * V (c, x))
    rw [norm_mul, norm_pow, norm_pow] at a3
    linarith
  have hq2 : 1 < ‖q‖ ^ 2 := one_lt_pow₀ hq1 two_ne_zero
  obtain ⟨n, hn⟩ := pow_unbounded_of_one_lt ((C₁ + C₂) / ‖V (c, x)‖) hq2
  rw [div_lt_iff₀ hpos] at hn
  exact absurd (hb n) (not_le.2 hn)

theorem tendsto_mulVec (A : Mat sh) (v : ℕ → Vec sh) (u : Vec sh)
    (h : ∀ p, Filter.Tendsto (fun N => v N p) Filter.atTop (nhds (u p))) (p : Pos sh) :
    Filter.Tendsto (fun N => (A *ᵥ v N) p) Filter.atTop (nhds ((A *ᵥ u) p)) := by
  simp only [mulVec, dotProduct]
  exact tendsto_finsetSum _ fun q _ => (h q).const_mul _

/-- C115: **the Fourier transform of an FDTD simulation is the FDFD solution.** A real simulation below the stability limit starts at
rest and is driven by currents that stop after `N₀` steps. For every complex frequency with `Im ω < 0` the transforms of its recorded
E and H fields converge, the transform of E is the one and only solution of the FDFD system at `Ω = 2 sin(ω dt/2)/dt` whose sources
are the transforms of the currents, and the transform of H is the magnetic field that belongs to it. -/
theorem C115_pulse (S : Sys sh ℝ) (d : DxList sh ℝ × DxList sh ℝ) (hS : S.dxes = some d) (m : Fin 3 → ℝ) (εm μm : ℝ)
    (hC : Courant S m εm μm) (hdt : 0 < S.dt) (w : ℂ) (hw : w.im < 0) (J M : ℕ → VField sh ℝ) (N₀ : ℕ)
    (hJ : ∀ n, N₀ ≤ n → J n = fun _ _ => 0) (hM : ∀ n, N₀ ≤ n → M n = fun _ _ => 0) :
    let st : ℕ → State sh ℝ := fun n => run S ⟨fun _ _ => 0, fun _ _ => 0⟩ (sourced S.dt J M n)
    let Ω := 2 * Complex.sin (w * S.dt / 2) / S.dt
    let eps : Vec sh := vecS fun c x => (S.eps c x : ℂ)
    let mu : Option (Vec sh) := S.mu.map fun m => vecS fun c x => (m c x : ℂ)
    let E : VField sh ℂ := fun c x => S.dt * ∑' n : ℕ, exp (-I * w * (n * S.dt)) * (st n).e c x
    let H : VField sh ℂ := fun c x => S.dt * ∑' n : ℕ, exp (-I * w * ((n + 1 / 2) * S.dt)) * (st (n + 1)).h c x
    let J' : VField sh ℂ := fun c x => S.dt * ∑ n ∈ Finset.range N₀, exp (-I * w * ((n + 1 / 2) * S.dt)) * J n c x
    let M' : VField sh ℂ := fun c x => S.dt * ∑ n ∈ Finset.range N₀, exp (-I * w * (n * S.dt)) * M n c x
    (∀ c x, Summable (fun n : ℕ => exp (-I * w * (n * S.dt)) * ((st n).e c x : ℂ)) ∧
      Summable (fun n : ℕ => exp (-I * w * ((n + 1 / 2) * S.dt)) * ((st (n + 1)).h c x : ℂ))) ∧
    (∀ F : Vec sh, eFull Ω (cDx d) eps mu none none *ᵥ F = (-I * Ω) • (vecS J' + Fdfd.m2j Ω (cDx d) mu *ᵥ vecS M') ↔ F = vecS E) ∧
    vecS H = Fdfd.e2h Ω (cDx d) mu none *ᵥ vecS E + fun p => vecS M' p / (-I * Ω * muV mu p) := by
  intro st Ω eps mu E H J' M'
  have hΩ : Ω ≠ 0 := Omega_ne_zero w hw.ne S.dt hdt.ne'
  have heps : ∀ c x, (toC S).eps c x ≠ 0 := fun c x => ofReal_ne_zero.2 (lt_of_lt_of_le hC.eps_pos (hC.eps c x)).ne'
  have hmu : ∀ m, (toC S).mu = some m → ∀ c x, m c x ≠ 0 := by
    intro m hm c x
    obtain ⟨m', h1, rfl⟩ := Option.map_eq_some_iff.1 hm
    have := hC.mu c x
    rw [h1] at this
    exact ofReal_ne_zero.2 (lt_of_lt_of_le hC.mu_pos this).ne'
  have hSC : (toC S).dxes = some (cDx d) := by simp [toC, hS]
  have hdtC : (toC S).dt ≠ 0 := ofReal_ne_zero.2 hdt.ne'
  have hmuC : (toC S).mu.map vecS = mu := by simp only [toC, Option.map_map, mu]; rfl
  have hmuV : ∀ p, muV mu p = muOr (toC S).mu p.1 p.2 := by
    intro p; rw [← hmuC]; simp only [toC]; cases S.mu <;> rfl
  obtain ⟨C, hb⟩ := bounded_pulse S m εm μm hC ⟨fun _ _ => 0, fun _ _ => 0⟩ J M N₀ hJ hM
  set z := exp (-I * w * S.dt) with hz
  have hz1 : ‖z‖ < 1 := by
    rw [hz, norm_decay]; exact Real.exp_lt_one_iff.2 (mul_neg_of_neg_of_pos hw hdt)
  have hzn : ∀ n : ℕ, exp (-I * w * (n * S.dt)) = z ^ n := by
    intro n; rw [hz, ← exp_nat_mul]; congr 1; ring
  have hznh : ∀ n : ℕ, exp (-I * w * ((n + 1 / 2) * S.dt)) = exp (-I * w * (1 / 2 * S.dt)) * z ^ n := by
    intro n; rw [← hzn, ← exp_add]; congr 1; ring
  have hsum : ∀ f : ℕ → ℝ, (∀ n, |f n| ≤ C) → Summable fun n : ℕ => z ^ n * (f n : ℂ) := by
    intro f hf
    refine Summable.of_norm_bounded (g := fun n => C * ‖z‖ ^ n) ((summable_geometric_of_lt_one (norm_nonneg _) hz1).mul_left _) ?_
    intro n
    rw [norm_mul, norm_pow, norm_real, Real.norm_eq_abs, mul_comm]
    exact mul_le_mul_of_nonneg_right (hf n) (by positivity)
  have sE : ∀ c x, Summable (fun n : ℕ => exp (-I * w * (n * S.dt)) * ((st n).e c x : ℂ)) := by
    intro c x; simp only [hzn]; exact hsum _ fun n => (hb n c x).1
  have sH : ∀ c x, Summable (fun n : ℕ => exp (-I * w * ((n + 1 / 2) * S.dt)) * ((st (n + 1)).h c x : ℂ)) := by
    intro c x
    have := (hsum (fun n => (st (n + 1)).h c x) fun n => (hb (n + 1) c x).2).mul_left (exp (-I * w * (1 / 2 * S.dt)))
    refine this.congr fun n => ?_
    rw [hznh]; exact (mul_assoc _ _ _).symm
  -- the remainders vanish
  have hz0 : ∀ f : ℕ → ℝ, (∀ n, |f n| ≤ C) → Filter.Tendsto (fun n : ℕ => z ^ n * (f n : ℂ)) Filter.atTop (nhds 0) :=
    fun f hf => (hsum f hf).tendsto_atTop_zero
  -- the finite identity for every N
  set Jc : ℕ → VField sh ℂ := fun n c x => (J n c x : ℂ)
  set Mc : ℕ → VField sh ℂ := fun n c x => (M n c x : ℂ)
  set s0 : State sh ℂ := ⟨fun _ _ => 0, fun _ _ => 0⟩ with hs0
  have hst : ∀ n, run (toC S) s0 (sourced (toC S).dt Jc Mc n) = mapState ofReal (st n) := by
    intro n
    have h1 := run_toC S ⟨fun _ _ => 0, fun _ _ => 0⟩ (sourced S.dt J M n)
    rw [sourced_toC] at h1
    have h2 : mapState ofReal (⟨fun _ _ => 0, fun _ _ => 0⟩ : State sh ℝ) = s0 := by simp [mapState, hs0]
    rw [h2] at h1
    exact h1
  have hfin := fun N => C115_finite (toC S) (cDx d) hSC heps hmu hdtC w hΩ s0 Jc Mc N
  simp only [hst, hmuC] at hfin
  have tE : ∀ p, Filter.Tendsto (fun N => vecS (transform w (toC S).dt 0 N fun n => (mapState ofReal (st n)).e) p) Filter.atTop
      (nhds (vecS E p)) := by
    rintro ⟨c, x⟩
    have := ((sE c x).hasSum.tendsto_sum_nat).const_mul (S.dt : ℂ)
    simp only [vecS_apply, transform, mapState, toC_dt, add_zero]
    exact this
  have tH : ∀ p, Filter.Tendsto (fun N => vecS (transform w (toC S).dt (1 / 2) N fun n => (mapState ofReal (st (n + 1))).h) p)
      Filter.atTop (nhds (vecS H p)) := by
    rintro ⟨c, x⟩
    have := ((sH c x).hasSum.tendsto_sum_nat).const_mul (S.dt : ℂ)
    simp only [vecS_apply, transform, mapState, toC_dt]
    exact this
  have tail : ∀ (g : ℕ → ℂ) (f : ℕ → VField sh ℝ), (∀ n, N₀ ≤ n → f n = fun _ _ => 0) → ∀ c x,
      Filter.Tendsto (fun N => ∑ n ∈ Finset.range N, g n * (f n c x : ℂ)) Filter.atTop
        (nhds (∑ n ∈ Finset.range N₀, g n * (f n c x : ℂ))) := by
    intro g f hf c x
    refine tendsto_const_nhds.congr' ?_
    filter_upwards [Filter.eventually_ge_atTop N₀] with N hN
    refine Finset.sum_subset (Finset.range_mono hN) fun n _ hn => ?_
    rw [hf n (not_lt.1 fun h => hn (Finset.mem_range.2 h))]; simp
  have tJ : ∀ p, Filter.Tendsto (fun N : ℕ => vecS (fun c x => transform w (toC S).dt (1 / 2) N Jc c x
      + (toC S).eps c x * (exp (-I * w * ((N - 1 / 2) * (toC S).dt)) * (mapState ofReal (st N)).e c x
        - exp (-I * w * ((-1 / 2) * (toC S).dt)) * s0.e c x)) p) Filter.atTop (nhds (vecS J' p)) := by
    rintro ⟨c, x⟩
    have h1 := (tail (fun n => exp (-I * w * ((n + 1 / 2) * S.dt))) J hJ c x).const_mul (S.dt : ℂ)
    have h2 := ((hz0 (fun n => (st n).e c x) fun n => (hb n c x).1).const_mul (exp (-I * w * ((-1 / 2) * S.dt)))).const_mul
      (S.eps c x : ℂ)
    have h3 := h1.add h2
    rw [mul_zero, mul_zero, add_zero] at h3
    refine h3.congr fun N => ?_
    have e1 : exp (-I * w * ((N - 1 / 2) * S.dt)) = exp (-I * w * ((-1 / 2) * S.dt)) * z ^ N := by
      rw [← hzn, ← exp_add]; congr 1; ring
    simp only [vecS_apply, transform, mapState, toC_dt, hs0, mul_zero, sub_zero, e1]
    rw [mul_assoc (exp _) (z ^ N)]; rfl
  have tM : ∀ p, Filter.Tendsto (fun N : ℕ => vecS (fun c x => transform w (toC S).dt 0 N Mc c x
      + muOr (toC S).mu c x * (exp (-I * w * (N * (toC S).dt)) * (mapState ofReal (st N)).h c x - s0.h c x)) p) Filter.atTop
      (nhds (vecS M' p)) := by
    rintro ⟨c, x⟩
    have h1 := (tail (fun n => exp (-I * w * (n * S.dt))) M hM c x).const_mul (S.dt : ℂ)
    have h2 := (hz0 (fun n => (st n).h c x) fun n => (hb n c x).2).const_mul (muOr (toC S).mu c x)
    have h3 := h1.add h2
    rw [mul_zero, add_zero] at h3
    refine h3.congr fun N => ?_
    simp only [vecS_apply, transform, mapState, toC_dt, hs0, sub_zero, add_zero, hzn]
    rfl
  have hsol : eFull Ω (cDx d) eps mu none none *ᵥ vecS E = (-I * Ω) • (vecS J' + Fdfd.m2j Ω (cDx d) mu *ᵥ vecS M') := by
    funext p
    refine tendsto_nhds_unique (tendsto_mulVec _ _ _ tE p) ?_
    have h1 := ((tJ p).add (tendsto_mulVec (Fdfd.m2j Ω (cDx d) mu) _ _ tM p)).const_mul (-I * Ω)
    refine h1.congr fun N => ?_
    exact (congrFun (hfin N).1 p).symm
  refine ⟨fun c x => ⟨sE c x, sH c x⟩, fun F => ⟨fun hF => ?_, fun hF => by rw [hF]; exact hsol⟩, ?_⟩
  · have hd : eFull Ω (cDx d) eps mu none none *ᵥ (F - vecS E) = 0 := by rw [mulVec_sub, hF, hsol, sub_self]
    exact sub_eq_zero.1 (C115_no_resonance S d hS m εm μm hC hdt w hw _ hd)
  · funext p
    refine tendsto_nhds_unique (tH p) ?_
    have h1 := (tendsto_mulVec (Fdfd.e2h Ω (cDx d) mu none) _ _ tE p).add ((tM p).div_const (-I * Ω * muV mu p))
    refine h1.congr fun N => ?_
    rw [hmuV]
    exact (congrFun (hfin N).2 p).symm

-- Non-vacuous: on a 2×2×2 grid, a uniform current during the first step and the opposite one during the second start and end at rest
-- with a nonzero field in between; and a system with a pulse meets the hypotheses of `C115_pulse`.
example : ∃ (S : Sys ![2, 2, 2] ℂ) (d : Dx ![2, 2, 2]) (J M : ℕ → VField ![2, 2, 2] ℂ), S.dxes = some d ∧ (∀ c x, S.eps c x ≠ 0)
    ∧ S.dt ≠ 0 ∧
    (∀ c x, (run S ⟨fun _ _ => 0, fun _ _ => 0⟩ (sourced S.dt J M 1)).e c x ≠ 0) ∧
    ∀ c x, (run S ⟨fun _ _ => 0, fun _ _ => 0⟩ (sourced S.dt J M 2)).e c x = 0
      ∧ (run S ⟨fun _ _ => 0, fun _ _ => 0⟩ (sourced S.dt J M 2)).h c x = 0 := by
  let S : Sys ![2, 2, 2] ℂ := ⟨1, some (fun _ _ => 1, fun _ _ => 1), fun _ _ => 2, none⟩
  let J : ℕ → VField ![2, 2, 2] ℂ := fun n _ _ => if n = 0 then 1 else -1
  let M : ℕ → VField ![2, 2, 2] ℂ := fun _ _ _ => 0
  have hcF : ∀ (k : ℂ) c x, Functional.curlForward (some (fun _ _ => 1 : DxList ![2, 2, 2] ℂ)) (fun _ _ => k) c x = 0 := by
    intro k c x; revert c
    refine forall_fin3 ?_ ?_ ?_ <;> simp [curlForward_0, curlForward_1, curlForward_2, derivForward_eq]
  have hcB : ∀ (k : ℂ) c x, Functional.curlBack (some (fun _ _ => 1 : DxList ![2, 2, 2] ℂ)) (fun _ _ => k) c x = 0 := by
    intro k c x; revert c
    refine forall_fin3 ?_ ?_ ?_ <;> simp [curlBack_0, curlBack_1, curlBack_2, derivBack_eq]
  have st := fun n => sourced_step S _ rfl ⟨fun _ _ => 0, fun _ _ => 0⟩ J M n
  have h0 : run S ⟨fun _ _ => 0, fun _ _ => 0⟩ (sourced S.dt J M 0) = ⟨fun _ _ => 0, fun _ _ => 0⟩ := rfl
  have h1 : run S ⟨fun _ _ => 0, fun _ _ => 0⟩ (sourced S.dt J M 1) = ⟨fun _ _ => -(1 / 2), fun _ _ => 0⟩ := by
    have hh : (run S ⟨fun _ _ => 0, fun _ _ => 0⟩ (sourced S.dt J M 1)).h = fun _ _ => 0 := by
      funext c x; rw [(st 0 c x).1, h0]; simp only [hcF]; simp [M]
    refine State.ext' (fun c x => ?_) fun c x => by rw [hh]
    rw [(st 0 c x).2, hh, h0]; simp only [hcB]; simp [S, J]; norm_num
  have hh : (run S ⟨fun _ _ => 0, fun _ _ => 0⟩ (sourced S.dt J M 2)).h = fun _ _ => 0 := by
    funext c x; rw [(st 1 c x).1, h1]; simp only [hcF]; simp [M]
  refine ⟨S, _, J, M, rfl, fun _ _ => two_ne_zero, one_ne_zero, fun c x => by rw [h1]; norm_num, fun c x => ⟨?_, by rw [hh]⟩⟩
  rw [(st 1 c x).2, hh, h1]; simp only [hcB]; simp [S, J]

example : ∃ (S : Sys ![3, 2, 2] ℝ) (d : DxList ![3, 2, 2] ℝ × DxList ![3, 2, 2] ℝ) (m : Fin 3 → ℝ) (J : ℕ → VField ![3, 2, 2] ℝ),
    S.dxes = some d ∧ Courant S m 1 1 ∧ 0 < S.dt ∧ (∃ c x, J 0 c x ≠ 0) ∧ ∀ n, 1 ≤ n → J n = fun _ _ => 0 := by
  refine ⟨⟨1 / 2, some (fun _ _ => 1, fun _ _ => 1), fun _ _ => 2, none⟩, _, fun _ => 1,
    fun n _ _ => if n = 0 then 1 else 0, rfl, ⟨fun _ => one_pos, fun _ _ => le_refl _, fun _ _ => le_refl _, one_pos, one_pos,
      fun _ _ => one_le_two, fun _ _ => le_refl _, ?_⟩, by norm_num, ⟨0, fun a => ⟨0, by fin_cases a <;> simp⟩, by simp⟩,
      fun n hn => by funext c x; simp [Nat.one_le_iff_ne_zero.1 hn]⟩
  norm_num

end Meanas.Props
