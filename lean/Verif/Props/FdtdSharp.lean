/-
C92: the time-step bound of C12 is sharp on uniform grids (meanas/fdtd/base.py).
-/
import Verif.Props.FdtdStability

namespace Meanas.Props

open Functional Spec Fdtd

variable {sh : Fin 3 → ℕ}

/-- Alternating sign along an axis. -/
private noncomputable def sg (i : ℕ) : ℝ := if i % 2 = 0 then 1 else -1

/-- Alternating sign on the grid (checkerboard). -/
private noncomputable def chk (x : Idx sh) : ℝ := sg (x 0) * sg (x 1) * sg (x 2)

private theorem sg_wrap {n : ℕ} (hn : Even n) (i : Fin n) (s : ℤ) (hs : s = 1 ∨ s = -1) : sg (wrap i s) = -sg i := by
  have h2 : (2 : ℤ) ∣ n := by exact_mod_cast hn.two_dvd
  have hpos : (0 : ℤ) < n := by exact_mod_cast i.pos
  have h1 := Int.emod_nonneg ((i : ℤ) + s) hpos.ne'
  have h3 := Int.emod_emod_of_dvd ((i : ℤ) + s) h2
  have hw : ((wrap i s : ℕ) : ℤ) = ((i : ℤ) + s) % (n : ℤ) := by unfold wrap; simp only; omega
  rw [← hw] at h3
  unfold sg
  generalize (wrap i s : ℕ) = q at *
  rcases hs with rfl | rfl
  · split_ifs <;> first | (exfalso; omega) | norm_num
  · split_ifs <;> first | (exfalso; omega) | norm_num

private theorem sg_sq (i : ℕ) : sg i * sg i = 1 := by unfold sg; split_ifs <;> norm_num

private theorem chk_sq (x : Idx sh) : chk x * chk x = 1 := by
  unfold chk
  have := sg_sq (x 0); have := sg_sq (x 1); have := sg_sq (x 2)
  calc _ = (sg (x 0) * sg (x 0)) * (sg (x 1) * sg (x 1)) * (sg (x 2) * sg (x 2)) := by ring
    _ = 1 := by simp [*]

private theorem chk_shift (hn : ∀ a, Even (sh a)) (a : Fin 3) (s : ℤ) (hs : s = 1 ∨ s = -1) (x : Idx sh) :
    chk (shiftIdx a s x) = -chk x := by
  unfold chk
  revert a
  apply forall_fin3
  · rw [shiftIdx_same, shiftIdx_of_ne (by decide), shiftIdx_of_ne (by decide), sg_wrap (hn 0) _ s hs]; ring
  · rw [shiftIdx_same, shiftIdx_of_ne (by decide), shiftIdx_of_ne (by decide), sg_wrap (hn 1) _ s hs]; ring
  · rw [shiftIdx_same, shiftIdx_of_ne (by decide), shiftIdx_of_ne (by decide), sg_wrap (hn 2) _ s hs]; ring

/-- A uniform grid (cell widths `m`, the same for E and H) filled with one material. -/
structure Uniform (S : Sys sh ℝ) (m : Fin 3 → ℝ) (ε μ : ℝ) : Prop where
  m_pos : ∀ a, 0 < m a
  dxE : ∀ a i, wOf (S.dxes.map (·.1)) a i = m a
  dxH : ∀ a i, wOf (S.dxes.map (·.2)) a i = m a
  eps_pos : 0 < ε
  mu_pos : 0 < μ
  eps : ∀ c x, S.eps c x = ε
  mu : ∀ c x, (S.mu.getD fun _ _ => 1) c x = μ

/-- Polarisation of the test mode. -/
private noncomputable def polE (m : Fin 3 → ℝ) : Fin 3 → ℝ := ![2 / m 1, -(2 / m 0), 0]

/-- Curl of the test mode. -/
private noncomputable def polH (m : Fin 3 → ℝ) : Fin 3 → ℝ :=
  ![-(2 / m 2 * (2 / m 0)), -(2 / m 2 * (2 / m 1)), (2 / m 0) ^ 2 + (2 / m 1) ^ 2]

private noncomputable def modeState (m : Fin 3 → ℝ) (α β : ℝ) : State sh ℝ :=
  ⟨fun c x => α * (chk x * polE m c), fun c x => β * (chk x * polH m c)⟩

private theorem mode_step (S : Sys sh ℝ) (m : Fin 3 → ℝ) (ε μ : ℝ) (hU : Uniform S m ε μ) (hn : ∀ a, Even (sh a)) (α β : ℝ) :
    let α' := α + S.dt / ε * (∑ a, (2 / m a) ^ 2) * β
    run S (modeState m α β) [.stepE, .stepH] = modeState m α' (β - S.dt / μ * α') := by
  intro α'
  have f1 := fun a x => chk_shift (sh := sh) hn a 1 (Or.inl rfl) x
  have f2 := fun a x => chk_shift (sh := sh) hn a (-1) (Or.inr rfl) x
  have hmu : ∀ c x, muOr S.mu c x = μ := fun c x => by
    have := hU.mu c x
    cases h : S.mu <;> simp_all [muOr]
  have hE : (step S (modeState m α β) .stepE) = modeState m α' β := by
    refine State.ext' ?_ (fun _ _ => rfl)
    intro c x
    simp only [step, modeState, maxwellE_eq, hU.eps, α', Fin.sum_univ_three]
    revert c
    apply forall_fin3
    all_goals
      simp only [curlBack_0, curlBack_1, curlBack_2, derivBack_eq, hU.dxH, f2, polE, polH, Matrix.cons_val_zero, Matrix.cons_val_one,
        Matrix.cons_val]
      ring
  have hH : step S (modeState m α' β) .stepH = modeState m α' (β - S.dt / μ * α') := by
    refine State.ext' (fun _ _ => rfl) ?_
    intro c x
    simp only [step, modeState, maxwellH_eq, hmu]
    revert c
    apply forall_fin3
    all_goals
      simp only [curlForward_0, curlForward_1, curlForward_2, derivForward_eq, hU.dxE, f1, polE, polH, Matrix.cons_val_zero,
        Matrix.cons_val_one, Matrix.cons_val]
      ring
  show step S (step S (modeState m α β) .stepE) .stepH = _
  rw [hE, hH]

private theorem polE_0_ne (m : Fin 3 → ℝ) (hm : ∀ a, 0 < m a) : polE m 0 ≠ 0 := by
  have := hm 1
  simp only [polE, Matrix.cons_val_zero]
  positivity

private theorem chk_ne (x : Idx sh) : chk x ≠ 0 := fun h => by have := chk_sq x; simp [h] at this

/-- C92: above the bound the run has a mode that grows exponentially: after `n` steps both fields are `rⁿ` times the initial ones, with `r < -1`. -/
theorem C92_unstable (S : Sys sh ℝ) (m : Fin 3 → ℝ) (ε μ : ℝ) (hU : Uniform S m ε μ) (hn : ∀ a, Even (sh a) ∧ 0 < sh a)
    (hdt : ε * μ < S.dt ^ 2 * ∑ a, 1 / m a ^ 2) :
    ∃ r : ℝ, r < -1 ∧ ∃ s : State sh ℝ, (∀ x, s.e 0 x ≠ 0) ∧
      ∀ n, run S s (leapfrog n) = ⟨fun c x => r ^ n * s.e c x, fun c x => r ^ n * s.h c x⟩ := by
  have hε := hU.eps_pos
  have hμ := hU.mu_pos
  set K := ∑ a, (2 / m a) ^ 2 with hK
  have hKe : K = 4 * ∑ a, 1 / m a ^ 2 := by
    rw [hK, Finset.mul_sum]; exact Finset.sum_congr rfl fun a _ => by rw [div_pow]; ring
  set A := S.dt / ε * K with hA
  set B := S.dt / μ with hB
  have hAB : 4 < A * B := by
    have e : A * B = (4 * (S.dt ^ 2 * ∑ a, 1 / m a ^ 2)) / (ε * μ) := by rw [hA, hB, hKe]; field_simp
    rw [e, lt_div_iff₀ (by positivity)]; linarith
  have hA0 : A ≠ 0 := fun h => by rw [h] at hAB; linarith
  set D := (A * B - 2) ^ 2 - 4 with hD
  have hD0 : 0 < D := by rw [hD]; nlinarith
  set r := (2 - A * B - Real.sqrt D) / 2 with hr
  have hs2 : Real.sqrt D ^ 2 = D := Real.sq_sqrt hD0.le
  have hr1 : r < -1 := by have := Real.sqrt_pos.mpr hD0; rw [hr]; linarith
  have hreq : (r - 1) ^ 2 = -(A * B) * r := by
    have : r ^ 2 + (A * B - 2) * r + 1 = 0 := by
      rw [hr]; rw [hD] at hs2 ⊢; ring_nf at hs2 ⊢; rw [hs2]; ring
    linarith
  refine ⟨r, hr1, modeState m 1 ((r - 1) / A), ?_, ?_⟩
  · intro x
    simp only [modeState, one_mul]
    exact mul_ne_zero (chk_ne x) (polE_0_ne m hU.m_pos)
  · have key : ∀ α, run S (modeState m α ((r - 1) / A * α)) [.stepE, .stepH] = modeState m (r * α) ((r - 1) / A * (r * α)) := by
      intro α
      rw [mode_step S m ε μ hU (fun a => (hn a).1)]
      have e1 : α + S.dt / ε * (∑ a, (2 / m a) ^ 2) * ((r - 1) / A * α) = r * α := by
        rw [← hK, ← hA]; field_simp; ring
      have e2 : (r - 1) / A * α - S.dt / μ * (r * α) = (r - 1) / A * (r * α) := by
        rw [← hB]
        have : (r - 1) / A - B * r = (r - 1) / A * r := by
          field_simp
          linear_combination -hreq
        linear_combination α * this
      rw [e1, e2]
    intro n
    have hrun : ∀ (n : ℕ) (α : ℝ), run S (modeState m α ((r - 1) / A * α)) (leapfrog n)
        = modeState m (r ^ n * α) ((r - 1) / A * (r ^ n * α)) := by
      intro n
      induction n with
      | zero => intro α; simp [leapfrog, run]
      | succ n ih =>
        intro α
        rw [leapfrog_succ, run_append, key, ih, pow_succ, mul_assoc]
    have h1 := hrun n 1
    simp only [mul_one] at h1
    rw [h1]
    refine State.ext' ?_ ?_ <;> intro c x <;> simp only [modeState] <;> ring

/-- C92: exactly at the bound there is a run whose fields grow linearly. -/
theorem C92_marginal (S : Sys sh ℝ) (m : Fin 3 → ℝ) (ε μ : ℝ) (hU : Uniform S m ε μ) (hn : ∀ a, Even (sh a) ∧ 0 < sh a)
    (hdt : S.dt ^ 2 * ∑ a, 1 / m a ^ 2 = ε * μ) :
    ∃ s : State sh ℝ, ∃ g : ℝ, 0 < g ∧ ∀ (n : ℕ) x, g * n ≤ |(run S s (leapfrog n)).e 0 x| := by
  have hε := hU.eps_pos
  have hμ := hU.mu_pos
  set K := ∑ a, (2 / m a) ^ 2 with hK
  have hKe : K = 4 * ∑ a, 1 / m a ^ 2 := by
    rw [hK, Finset.mul_sum]; exact Finset.sum_congr rfl fun a _ => by rw [div_pow]; ring
  set A := S.dt / ε * K with hA
  set B := S.dt / μ with hB
  have hAB : A * B = 4 := by
    have e : A * B = (4 * (S.dt ^ 2 * ∑ a, 1 / m a ^ 2)) / (ε * μ) := by rw [hA, hB, hKe]; field_simp
    rw [e, hdt]; field_simp
  have hA0 : A ≠ 0 := fun h => by rw [h] at hAB; linarith
  have hrun : ∀ n : ℕ, run S (modeState m 0 1) (leapfrog n) = modeState m ((-1) ^ (n + 1) * n * A) ((-1) ^ n * (2 * n + 1)) := by
    intro n
    induction n with
    | zero => simp [leapfrog, run]
    | succ n ih =>
      have leap' : leapfrog (sh := sh) (K := ℝ) (n + 1) = leapfrog n ++ [.stepE, .stepH] := by
        simp [leapfrog, List.replicate_succ']
      rw [leap', run_append, ih, mode_step S m ε μ hU (fun a => (hn a).1)]
      have e1 : (-1) ^ (n + 1) * (n : ℝ) * A + S.dt / ε * (∑ a, (2 / m a) ^ 2) * ((-1) ^ n * (2 * n + 1))
          = (-1) ^ (n + 1 + 1) * ((n + 1 : ℕ) : ℝ) * A := by
        rw [← hK, ← hA]; push_cast; ring
      have e2 : (-1) ^ n * (2 * (n : ℝ) + 1) - S.dt / μ * ((-1) ^ (n + 1 + 1) * ((n + 1 : ℕ) : ℝ) * A)
          = (-1) ^ (n + 1) * (2 * ((n + 1 : ℕ) : ℝ) + 1) := by
        rw [← hB]; push_cast
        linear_combination (-(-1) ^ n * ((n : ℝ) + 1)) * hAB
      rw [e1, e2]
  refine ⟨modeState m 0 1, |A * polE m 0|, abs_pos.mpr (mul_ne_zero hA0 (polE_0_ne m hU.m_pos)), ?_⟩
  intro n x
  have hc : |chk x| = 1 := by
    have := chk_sq x
    rw [← abs_mul_abs_self] at this
    nlinarith [abs_nonneg (chk x)]
  rw [hrun]
  simp only [modeState, abs_mul, abs_pow, abs_neg, abs_one, one_pow, one_mul, hc, Nat.abs_cast]
  apply le_of_eq; ring

/-- C92: on a uniform grid with even sizes, all source-free runs stay bounded if and only if `dt² Σ 1/m_a² < ε μ`. -/
theorem C92_sharp (S : Sys sh ℝ) (m : Fin 3 → ℝ) (ε μ : ℝ) (hU : Uniform S m ε μ) (hn : ∀ a, Even (sh a) ∧ 0 < sh a) :
    (∀ s : State sh ℝ, ∃ C : ℝ, ∀ n c x, |(run S s (leapfrog n)).e c x| ≤ C ∧ |(run S s (leapfrog n)).h c x| ≤ C)
      ↔ S.dt ^ 2 * (∑ a, 1 / m a ^ 2) < ε * μ := by
  constructor
  · intro h
    by_contra hdt
    push Not at hdt
    let x0 : Idx sh := fun a => ⟨0, (hn a).2⟩
    rcases eq_or_lt_of_le hdt with heq | hlt
    · obtain ⟨s, g, hg, hs⟩ := C92_marginal S m ε μ hU hn heq.symm
      obtain ⟨C, hC⟩ := h s
      obtain ⟨n, hn'⟩ := exists_nat_gt (C / g)
      rw [div_lt_iff₀ hg] at hn'
      have := (hC n 0 x0).1
      have := hs n x0
      linarith
    · obtain ⟨r, hr, s, hs0, hs⟩ := C92_unstable S m ε μ hU hn hlt
      obtain ⟨C, hC⟩ := h s
      have hr1 : 1 < |r| := by rw [abs_of_neg (by linarith)]; linarith
      have hpos : 0 < |s.e 0 x0| := abs_pos.mpr (hs0 x0)
      obtain ⟨n, hn'⟩ := pow_unbounded_of_one_lt (C / |s.e 0 x0|) hr1
      rw [div_lt_iff₀ hpos] at hn'
      have := (hC n 0 x0).1
      rw [hs] at this
      simp only [abs_mul, abs_pow] at this
      linarith
  · intro hdt s
    exact C12_stability S m ε μ ⟨hU.m_pos, fun a i => (hU.dxE a i).ge, fun a i => (hU.dxH a i).ge, hU.eps_pos, hU.mu_pos,
      fun c x => (hU.eps c x).ge, fun c x => (hU.mu c x).ge, hdt⟩ s

/-- C92, concrete case: the default unit grid of 2×4×2 cells in vacuum with `dt = 1` is above the bound. -/
example : ∃ S : Sys ![2, 4, 2] ℝ, Uniform S (fun _ => 1) 1 1 ∧ (∀ a, Even (![2, 4, 2] a) ∧ 0 < ![2, 4, 2] a) ∧
    (1 : ℝ) * 1 < S.dt ^ 2 * ∑ _a : Fin 3, 1 / (1 : ℝ) ^ 2 := by
  refine ⟨⟨1, none, fun _ _ => 1, none⟩, ⟨?_, ?_, ?_, ?_, ?_, ?_, ?_⟩, ?_, ?_⟩
  any_goals simp [wOf]
  · decide

end Meanas.Props
