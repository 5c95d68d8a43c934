/-
Properties C162 and C163: how the main loop of `eigsolve` ends, and where its runs tend to (meanas/fdfd/bloch.py:591-739).
-/
import Verif.Props.BlochConjugate
import Mathlib.Topology.Sequences
import Mathlib.Topology.Order.MonotoneConvergence

set_option linter.unusedSectionVars false

namespace Meanas.Props

open Complex Matrix Meanas.Bloch
open scoped ComplexOrder MatrixOrder

variable {N : Type} [Fintype N] {M : ℕ}

/-! ### C162: the stopping test -/

/-- A pass after the first one that does not end the loop failed the stopping test. -/
theorem step_test {op iop : (N → ℂ) → N → ℂ} {A : Matrix N N ℂ} (hop : ∀ v, op v = A *ᵥ v) {lib : SolveLib M}
    {tol : ℝ} {ri i : ℕ} {st st' : SolveState N M} (h : solveStep op iop lib tol ri i st = .ok (false, st')) :
    st'.prevE = objective A st.Z
      ∧ (0 < i → tol * 0.5 * (objective A st.Z + st.prevE + 1e-7) ≤ |objective A st.Z - st.prevE|) := by
  unfold solveStep at h
  simp only at h
  cases hU : Bloch.inv (st.Zᴴ * st.Z) with
  | error e => rw [hU] at h; cases h
  | ok U =>
    obtain ⟨hd, rfl⟩ := inv_eq_ok hU
    rw [hU] at h
    simp only [bind, Except.bind, pure, Except.pure, throw, throwThe, MonadExceptOf.throw, cols_eq hop, ← Matrix.mul_assoc st.Zᴴ A st.Z] at h
    by_cases h1 : 0 < i ∧ |(|(trace (st.Zᴴ * A * st.Z * (st.Zᴴ * st.Z)⁻¹)).re| - st.prevE)|
        < tol * 0.5 * (|(trace (st.Zᴴ * A * st.Z * (st.Zᴴ * st.Z)⁻¹)).re| + st.prevE + 1e-7)
    · rw [if_pos h1] at h
      cases h
    · rw [if_neg h1] at h
      split_ifs at h
      all_goals
        revert h
        generalize hm : lib.minimize _ = r
        intro h
        cases r with
        | error e => cases h
        | ok theta =>
          obtain ⟨-, rfl⟩ := Prod.mk.inj (Except.ok.inj h)
          refine ⟨rfl, fun hi => ?_⟩
          have := fun hc => h1 ⟨hi, hc⟩
          exact not_lt.1 this

/-- A loop that runs out of passes has made each of them. -/
theorem loop_exhausted {op iop : (N → ℂ) → N → ℂ} {lib : SolveLib M} {tol : ℝ} {ri : ℕ} :
    ∀ {n i : ℕ} {st st' : SolveState N M}, solveLoop op iop lib tol ri n i st = .ok (false, st') →
      ∃ s : ℕ → SolveState N M, s 0 = st ∧ s n = st' ∧ ∀ j < n, solveStep op iop lib tol ri (i + j) (s j) = .ok (false, s (j + 1)) := by
  intro n
  induction n with
  | zero =>
    intro i st st' h
    rw [solveLoop] at h
    obtain ⟨-, rfl⟩ := Prod.mk.inj (Except.ok.inj h)
    exact ⟨fun _ => st, rfl, rfl, fun j hj => absurd hj (Nat.not_lt_zero j)⟩
  | succ n ih =>
    intro i st st' h
    rw [solveLoop] at h
    simp only [bind, Except.bind, pure, Except.pure] at h
    cases hs : solveStep op iop lib tol ri i st with
    | error e => rw [hs] at h; cases h
    | ok r =>
      obtain ⟨stop, st1⟩ := r
      rw [hs] at h
      cases stop with
      | true =>
        simp only [if_true] at h
        cases h
      | false =>
        simp only [Bool.false_eq_true, if_false] at h
        obtain ⟨s, h0, hn, hst⟩ := ih h
        refine ⟨fun j => Nat.casesOn j st s, rfl, hn, fun j hj => ?_⟩
        cases j with
        | zero =>
          show solveStep op iop lib tol ri (i + 0) st = .ok (false, s 0)
          rw [h0, Nat.add_zero]; exact hs
        | succ j =>
          have := hst j (by omega)
          rw [show i + (j + 1) = i + 1 + j by omega]
          exact this

/-- **C162, the decay forced by the stopping test.** If the line search never does worse than standing still and the loop runs out of its `n + 1` passes,
the objective of the last block it examined has dropped by the factor `(1 - tol/2) / (1 + tol/2)` at each pass, up to the constant `5e-8` of the test. -/
theorem C162_decay {op iop : (N → ℂ) → N → ℂ} {A : Matrix N N ℂ} (hop : ∀ v, op v = A *ᵥ v) (hA : A.IsHermitian) {lib : SolveLib M}
    (hmin : ∀ f theta a b, lib.minimize f = .ok theta → f theta = .ok a → f 0 = .ok b → a ≤ b) {tol : ℝ} (htol : 0 < tol) {ri n : ℕ}
    {st st' : SolveState N M} (h : solveLoop op iop lib tol ri (n + 1) 0 st = .ok (false, st')) :
    (1 + tol / 2) ^ n * (st'.prevE + 5e-8) ≤ (1 - tol / 2) ^ n * (objective A st.Z + 5e-8) := by
  obtain ⟨s, h0, hn, hst⟩ := loop_exhausted h
  have hst' : ∀ j < n + 1, solveStep op iop lib tol ri j (s j) = .ok (false, s (j + 1)) := fun j hj => by
    have := hst j hj
    rwa [Nat.zero_add] at this
  have hpos : ∀ j, 0 < objective A (s j).Z + 5e-8 := fun j => by
    have : 0 ≤ objective A (s j).Z := abs_nonneg _
    linarith
  have hone : ∀ j < n, (1 + tol / 2) * (objective A (s (j + 1)).Z + 5e-8) ≤ (1 - tol / 2) * (objective A (s j).Z + 5e-8) := by
    intro j hj
    have e1 := (step_test hop (hst' j (by omega))).1
    have e2 := (step_test hop (hst' (j + 1) (by omega))).2 (Nat.succ_pos j)
    have e3 := C77_descent hop hA hmin (hst' j (by omega)) (step_eq (hst' (j + 1) (by omega))).1
    rw [e1, abs_of_nonpos (by linarith)] at e2
    nlinarith
  have key : ∀ j ≤ n, (1 + tol / 2) ^ j * (objective A (s j).Z + 5e-8) ≤ (1 - tol / 2) ^ j * (objective A (s 0).Z + 5e-8) := by
    intro j
    induction j with
    | zero => intro _; simp
    | succ j ih =>
      intro hj
      have h1 := ih (by omega)
      have h2 := hone j (by omega)
      have hq : 0 ≤ 1 - tol / 2 := by
        have h3 : 0 < (1 + tol / 2) * (objective A (s (j + 1)).Z + 5e-8) := mul_pos (by linarith) (hpos _)
        by_contra hc
        push Not at hc
        have := mul_neg_of_neg_of_pos hc (hpos j)
        linarith
      have hp : 0 ≤ (1 + tol / 2) ^ j := by positivity
      calc (1 + tol / 2) ^ (j + 1) * (objective A (s (j + 1)).Z + 5e-8)
          = (1 + tol / 2) ^ j * ((1 + tol / 2) * (objective A (s (j + 1)).Z + 5e-8)) := by ring
        _ ≤ (1 + tol / 2) ^ j * ((1 - tol / 2) * (objective A (s j).Z + 5e-8)) := mul_le_mul_of_nonneg_left h2 hp
        _ = (1 - tol / 2) * ((1 + tol / 2) ^ j * (objective A (s j).Z + 5e-8)) := by ring
        _ ≤ (1 - tol / 2) * ((1 - tol / 2) ^ j * (objective A (s 0).Z + 5e-8)) := mul_le_mul_of_nonneg_left h1 hq
        _ = _ := by ring
  have e := (step_test hop (hst' n (by omega))).1
  rw [hn] at e
  rw [e, ← h0]
  exact key n le_rfl

/-- **C162, the number of passes.** Under the same hypotheses the loop stops by its test within `1 + (1/tol + 1/2) log (1 + 2e7 E)` passes, where `E` is the
objective of the block it starts from. -/
theorem C162_passes {op iop : (N → ℂ) → N → ℂ} {A : Matrix N N ℂ} (hop : ∀ v, op v = A *ᵥ v) (hA : A.IsHermitian) {lib : SolveLib M}
    (hmin : ∀ f theta a b, lib.minimize f = .ok theta → f theta = .ok a → f 0 = .ok b → a ≤ b) {tol : ℝ} (htol : 0 < tol) {ri n : ℕ}
    {st st' : SolveState N M} (h : solveLoop op iop lib tol ri (n + 1) 0 st = .ok (false, st')) :
    (n : ℝ) ≤ (1 / tol + 1 / 2) * Real.log (1 + 2e7 * objective A st.Z) := by
  have h1 := C162_decay hop hA hmin htol h
  obtain ⟨s, h0, hn, hst⟩ := loop_exhausted h
  have hE : 0 ≤ st'.prevE := by
    have := hst n (by omega)
    rw [hn] at this
    rw [(step_test hop this).1]
    exact abs_nonneg _
  have hE0 : 0 ≤ objective A st.Z := abs_nonneg _
  have hp : 0 < 1 + tol / 2 := by linarith
  have h2 : (1 + tol / 2) ^ n ≤ (1 - tol / 2) ^ n * (1 + 2e7 * objective A st.Z) := by
    have h3 : (1 + tol / 2) ^ n * 5e-8 ≤ (1 + tol / 2) ^ n * (st'.prevE + 5e-8) := mul_le_mul_of_nonneg_left (by linarith) (by positivity)
    nlinarith
  have hlog : 0 ≤ Real.log (1 + 2e7 * objective A st.Z) := Real.log_nonneg (by linarith)
  rcases Nat.eq_zero_or_pos n with rfl | hpos
  · rw [Nat.cast_zero]
    positivity
  have hq : 0 < 1 - tol / 2 := by
    by_contra hc
    push Not at hc
    -- the first of the inequalities already fails
    have h4 := C162_decay hop hA hmin htol (n := 1) (ri := ri) (lib := lib) (op := op) (iop := iop) (st := st) (st' := s 2) (by
      have e0 := hst 0 (by omega)
      have e1 := hst 1 (by omega)
      rw [Nat.zero_add] at e0 e1
      rw [h0] at e0
      simp only [solveLoop, bind, Except.bind, pure, Except.pure, e0, Bool.false_eq_true, if_false]
      simp only [Nat.zero_add] at e1 ⊢
      rw [e1]
      simp)
    rw [pow_one, pow_one] at h4
    have h5 : (1 - tol / 2) * (objective A st.Z + 5e-8) ≤ 0 := mul_nonpos_of_nonpos_of_nonneg hc (by linarith)
    have h6 : 0 ≤ (s 2).prevE := by
      have := hst 1 (by omega)
      rw [(step_test hop this).1]
      exact abs_nonneg _
    have h7 : 0 < (1 + tol / 2) * ((s 2).prevE + 5e-8) := mul_pos hp (by linarith)
    linarith
  have h8 : (1 - tol / 2) ≤ (1 + tol / 2) * Real.exp (-(tol / (1 + tol / 2))) := by
    have := Real.add_one_le_exp (-(tol / (1 + tol / 2)))
    have h9 : (1 + tol / 2) * (-(tol / (1 + tol / 2)) + 1) = 1 - tol / 2 := by field_simp; ring
    rw [← h9]
    exact mul_le_mul_of_nonneg_left this hp.le
  have h10 : (1 - tol / 2) ^ n ≤ (1 + tol / 2) ^ n * Real.exp (-(n * (tol / (1 + tol / 2)))) := by
    calc (1 - tol / 2) ^ n ≤ ((1 + tol / 2) * Real.exp (-(tol / (1 + tol / 2)))) ^ n := pow_le_pow_left₀ hq.le h8 n
      _ = _ := by rw [mul_pow, ← Real.exp_nat_mul]; congr 2; ring
  have hpn : 0 < (1 + tol / 2) ^ n := by positivity
  have h11 : 1 ≤ Real.exp (-(n * (tol / (1 + tol / 2)))) * (1 + 2e7 * objective A st.Z) := by
    have hX : 0 < 1 + 2e7 * objective A st.Z := by linarith
    have := h2.trans (mul_le_mul_of_nonneg_right h10 hX.le)
    rw [mul_assoc] at this
    exact le_of_mul_le_mul_left (by rwa [mul_one]) hpn
  have h12 : Real.exp (n * (tol / (1 + tol / 2))) ≤ 1 + 2e7 * objective A st.Z := by
    rw [Real.exp_neg, inv_mul_eq_div, le_div_iff₀ (Real.exp_pos _), one_mul] at h11
    exact h11
  have h13 : n * (tol / (1 + tol / 2)) ≤ Real.log (1 + 2e7 * objective A st.Z) := by
    rw [Real.le_log_iff_exp_le (by linarith)]
    exact h12
  have h14 : (1 / tol + 1 / 2) * (n * (tol / (1 + tol / 2))) = n := by field_simp
  rw [← h14]
  exact mul_le_mul_of_nonneg_left h13 (by positivity)

/-- **C162, the whole function.** From independent trial vectors, with a line search that never does worse than standing still and a positive tolerance, a
call of `eigsolve` that returns has stopped by its test if `max_iters` exceeds `1 + (1/tol + 1/2) log (1 + 2e7 E)`, where `E` is the objective of the guess. -/
theorem C162_eigsolve {op iop : (N → ℂ) → N → ℂ} {A : Matrix N N ℂ} (hop : ∀ v, op v = A *ᵥ v) (hA : A.IsHermitian) {lib : SolveLib M}
    (hl : SolveLibOk lib) (hM : 0 < M) (hmin : ∀ f theta a b, lib.minimize f = .ok theta → f theta = .ok a → f 0 = .ok b → a ≤ b)
    {draw : ℕ → Matrix N (Fin M) ℂ} {fuel : ℕ} {tol : ℝ} (htol : 0 < tol) {mi ri : ℕ} {Z0 : Matrix N (Fin M) ℂ} (hd : (Z0ᴴ * Z0).det ≠ 0)
    (hmi : 1 + (1 / tol + 1 / 2) * Real.log (1 + 2e7 * |(trace (Z0ᴴ * A * Z0 * (Z0ᴴ * Z0)⁻¹)).re|) < mi)
    {stop : Bool} {vals : Fin M → ℂ} {vecs : Fin M → N → ℂ} (h : eigsolve op iop lib draw (fuel + 2) tol mi ri Z0 = .ok (stop, vals, vecs)) :
    stop = true := by
  obtain ⟨own, Z, st, hI, hL, hf⟩ := eigsolve_ok h
  obtain ⟨own', Z', W, hI', hZW, hW, -⟩ := C99_independent_guess hl hM draw fuel 0 true Z0 hd
  rw [hI'] at hI
  obtain ⟨-, rfl⟩ := Prod.mk.inj (Except.ok.inj hI)
  cases stop with
  | true => rfl
  | false =>
    exfalso
    cases mi with
    | zero =>
      have : 0 ≤ (1 / tol + 1 / 2) * Real.log (1 + 2e7 * |(trace (Z0ᴴ * A * Z0 * (Z0ᴴ * Z0)⁻¹)).re|) :=
        mul_nonneg (by positivity) (Real.log_nonneg (by linarith [abs_nonneg (trace (Z0ᴴ * A * Z0 * (Z0ᴴ * Z0)⁻¹)).re]))
      rw [Nat.cast_zero] at hmi
      linarith
    | succ n =>
      have h1 := C162_passes hop hA hmin htol hL
      simp only at h1
      rw [hZW, objective_mul A Z0 W hW] at h1
      rw [Nat.cast_succ] at hmi
      unfold objective at h1
      linarith

/-- What a pass does for one mode. -/
theorem one_mode_pass {op iop : (N → ℂ) → N → ℂ} {A : Matrix N N ℂ} (hop : ∀ v, op v = A *ᵥ v) (hA : A.IsHermitian)
    (hN : ∀ v, v ≠ 0 → (star v ⬝ᵥ (A *ᵥ v)).re < 0) (hi0 : iop 0 = 0) (hK : ∀ v, v ≠ 0 → 0 < (star v ⬝ᵥ iop v).re) {lib : SolveLib 1}
    (hmin : ExactSearch lib)
    (hfind : ∀ f, (∃ theta ∈ Set.Icc 0 Real.pi, ∃ a, f theta = .ok a ∧ ∀ phi ∈ Set.Icc 0 Real.pi, ∀ b, f phi = .ok b → a ≤ b) → ∃ theta, lib.minimize f = .ok theta)
    (tol : ℝ) (ri i : ℕ) {st : SolveState N 1} (hd : (st.Zᴴ * st.Z).det ≠ 0)
    (hdir : st.prevTr = 0 ∨ ∀ G, IsGradient (objective A) st.Z G → (trace (Gᴴ * st.D)).re = 0) :
    solveStep op iop lib tol ri i st = .ok (true, { st with ZtZ := st.Zᴴ * st.Z })
      ∨ ((∃ C : Matrix (Fin 1) (Fin 1) ℂ, A * st.Z = st.Z * C) ∧ solveStep op iop lib tol ri i st = .error "nan")
      ∨ ∃ st', solveStep op iop lib tol ri i st = .ok (false, st') ∧ (st'.Zᴴ * st'.Z).det ≠ 0
        ∧ ∀ G, IsGradient (objective A) st'.Z G → (trace (Gᴴ * st'.D)).re = 0 := by
  have h0 : objective A st.Z ≠ 0 := abs_ne_zero.2 (ritz_neg hN one_pos hd).ne
  by_cases htest : 0 < i ∧ |objective A st.Z - st.prevE| < tol * 0.5 * (objective A st.Z + st.prevE + 1e-7)
  · left
    unfold solveStep
    simp only [inv_ok hd, bind, Except.bind, pure, Except.pure, cols_eq hop, ← Matrix.mul_assoc st.Zᴴ A st.Z]
    exact if_pos htest
  · right
    by_cases hinv : ∃ C : Matrix (Fin 1) (Fin 1) ℂ, A * st.Z = st.Z * C
    · refine Or.inl ⟨hinv, ?_⟩
      obtain ⟨G, hg, -, hiff⟩ := C128_stationary hA st.Z hd h0
      have hge : ((SignType.sign (trace (st.Zᴴ * A * st.Z * (st.Zᴴ * st.Z)⁻¹)).re : ℝ) : ℂ) •
          (A * st.Z * (st.Zᴴ * st.Z)⁻¹ - st.Z * (st.Zᴴ * st.Z)⁻¹ * (st.Zᴴ * A * st.Z * (st.Zᴴ * st.Z)⁻¹)) = 0 :=
        (hg.unique (isGradient_objective hA st.Z hd h0)).symm.trans (hiff.2 hinv)
      have hK0 : cols iop (0 : Matrix N (Fin 1) ℂ) = 0 := by
        ext a b
        exact congrFun hi0 a
      have htr : rtraceAtB (0 : Matrix N (Fin 1) ℂ) 0 = 0 := by simp [rtraceAtB]
      have hns : ¬ (0 < i ∧ |(|(trace (st.Zᴴ * A * st.Z * (st.Zᴴ * st.Z)⁻¹)).re| - st.prevE)|
        < tol * 0.5 * (|(trace (st.Zᴴ * A * st.Z * (st.Zᴴ * st.Z)⁻¹)).re| + st.prevE + 1e-7)) := htest
      unfold solveStep
      simp only [inv_ok hd, bind, Except.bind, pure, Except.pure, throw, throwThe, MonadExceptOf.throw, cols_eq hop, ← Matrix.mul_assoc st.Zᴴ A st.Z, hge, hK0,
        htr, if_neg hns, zero_div, ite_self, ofReal_zero, zero_smul, add_zero, fnorm_eq_zero.2 rfl, if_true]
    · right
      obtain ⟨st', h1, h2, -⟩ := C128_defined hop hA hK hfind htest h0 hinv (hdir.imp Or.inl id)
      exact ⟨st', h1, h2, fun G hG => (C128_conjugate hop hA hmin h1 h0 h2 hG).1⟩

/-- If the loop returns a block of full rank, `eigsolve` returns, and says that its test was met. -/
theorem C162_returns {op iop : (N → ℂ) → N → ℂ} {A : Matrix N N ℂ} (hop : ∀ v, op v = A *ᵥ v) (hA : A.IsHermitian) {lib : SolveLib M}
    (hl : SolveLibOk lib) (hmin : ∀ f theta a b, lib.minimize f = .ok theta → f theta = .ok a → f 0 = .ok b → a ≤ b)
    {draw : ℕ → Matrix N (Fin M) ℂ} {fuel : ℕ} {tol : ℝ} (htol : 0 < tol) {mi ri : ℕ} {Z0 : Matrix N (Fin M) ℂ}
    (hmi : 1 + (1 / tol + 1 / 2) * Real.log (1 + 2e7 * |(trace (Z0ᴴ * A * Z0 * (Z0ᴴ * Z0)⁻¹)).re|) < mi) {own : Bool} {Z : Matrix N (Fin M) ℂ}
    {W : Matrix (Fin M) (Fin M) ℂ} (hI : initLoop lib draw (fuel + 2) 0 true Z0 = .ok (own, Z)) (hZW : Z = Z0 * W) (hW : W.det ≠ 0)
    {stop : Bool} {st' : SolveState N M}
    (hL : solveLoop op iop lib tol ri mi 0 { Z := Z, D := 0, ZtZ := Zᴴ * Z, prevE := 0, prevTr := 0, dScale := 1 } = .ok (stop, st'))
    (hst : (st'.Zᴴ * st'.Z).det ≠ 0) : ∃ vals vecs, eigsolve op iop lib draw (fuel + 2) tol mi ri Z0 = .ok (true, vals, vecs) := by
  have hstop : stop = true := by
    cases stop with
    | true => rfl
    | false =>
      exfalso
      cases mi with
      | zero =>
        have : 0 ≤ (1 / tol + 1 / 2) * Real.log (1 + 2e7 * |(trace (Z0ᴴ * A * Z0 * (Z0ᴴ * Z0)⁻¹)).re|) :=
          mul_nonneg (by positivity) (Real.log_nonneg (by linarith [abs_nonneg (trace (Z0ᴴ * A * Z0 * (Z0ᴴ * Z0)⁻¹)).re]))
        rw [Nat.cast_zero] at hmi
        linarith
      | succ n =>
        have h1 := C162_passes hop hA hmin htol hL
        simp only at h1
        rw [hZW, objective_mul A Z0 W hW] at h1
        rw [Nat.cast_succ] at hmi
        unfold objective at h1
        linarith
  subst hstop
  obtain ⟨⟨vals, vecs⟩, hf⟩ := finish_total hop hA hl hst
  refine ⟨vals, vecs, ?_⟩
  unfold eigsolve eigsolveFull
  rw [hI]
  simp only [bind, Except.bind, pure, Except.pure, hL, loop_break hL, hf]

/-- **C162, one mode.** For one mode, a negative definite operator, a preconditioner with a positive quadratic form, an exact line search and a positive
tolerance, the search from a nonzero guess ends with its test within `2 + (1/tol + 1/2) log (1 + 2e7 E)` passes, or a trial vector has become an exact
eigenvector and the code divides by zero. -/
theorem C162_one_mode {op iop : (N → ℂ) → N → ℂ} {A : Matrix N N ℂ} (hop : ∀ v, op v = A *ᵥ v) (hA : A.IsHermitian)
    (hN : ∀ v, v ≠ 0 → (star v ⬝ᵥ (A *ᵥ v)).re < 0) (hi0 : iop 0 = 0) (hK : ∀ v, v ≠ 0 → 0 < (star v ⬝ᵥ iop v).re) {lib : SolveLib 1}
    (hl : SolveLibOk lib) (hmin : ExactSearch lib)
    (hfind : ∀ f, (∃ theta ∈ Set.Icc 0 Real.pi, ∃ a, f theta = .ok a ∧ ∀ phi ∈ Set.Icc 0 Real.pi, ∀ b, f phi = .ok b → a ≤ b) → ∃ theta, lib.minimize f = .ok theta)
    (draw : ℕ → Matrix N (Fin 1) ℂ) (fuel : ℕ) {tol : ℝ} (htol : 0 < tol) {mi : ℕ} (ri : ℕ) {Z0 : Matrix N (Fin 1) ℂ} (hd : (Z0ᴴ * Z0).det ≠ 0)
    (hmi : 1 + (1 / tol + 1 / 2) * Real.log (1 + 2e7 * |(trace (Z0ᴴ * A * Z0 * (Z0ᴴ * Z0)⁻¹)).re|) < mi) :
    (∃ vals vecs, eigsolve op iop lib draw (fuel + 2) tol mi ri Z0 = .ok (true, vals, vecs))
      ∨ eigsolve op iop lib draw (fuel + 2) tol mi ri Z0 = .error "nan" := by
  have hmin0 : ∀ f theta a b, lib.minimize f = .ok theta → f theta = .ok a → f 0 = .ok b → a ≤ b := fun f theta a b h1 h2 h3 =>
    hmin f theta h1 0 ⟨le_rfl, Real.pi_pos.le⟩ a b h2 h3
  have hloop : ∀ (n i : ℕ) (st : SolveState N 1), (st.Zᴴ * st.Z).det ≠ 0 →
      (st.prevTr = 0 ∨ ∀ G, IsGradient (objective A) st.Z G → (trace (Gᴴ * st.D)).re = 0) →
      (∃ stop st', solveLoop op iop lib tol ri n i st = .ok (stop, st') ∧ (st'.Zᴴ * st'.Z).det ≠ 0) ∨ solveLoop op iop lib tol ri n i st = .error "nan" := by
    intro n
    induction n with
    | zero => exact fun i st h _ => Or.inl ⟨false, st, rfl, h⟩
    | succ n ih =>
      intro i st h1 h2
      rw [solveLoop]
      rcases one_mode_pass hop hA hN hi0 hK hmin hfind tol ri i h1 h2 with h | ⟨-, h⟩ | ⟨st', h, h3, h4⟩
      · refine Or.inl ⟨true, { st with ZtZ := st.Zᴴ * st.Z }, ?_, h1⟩
        rw [h]; rfl
      · right
        rw [h]; rfl
      · rw [h]
        simp only [bind, Except.bind, pure, Except.pure, Bool.false_eq_true, if_false]
        exact ih (i + 1) st' h3 (Or.inr h4)
  obtain ⟨own, Z, W, hI, hZW, hW, -⟩ := C99_independent_guess hl one_pos draw fuel 0 true Z0 hd
  have hdZ : (Zᴴ * Z).det ≠ 0 := by
    have e1 : (Z0 * W)ᴴ * (Z0 * W) = Wᴴ * (Z0ᴴ * Z0) * W := by rw [conjTranspose_mul]; simp only [Matrix.mul_assoc]
    rw [hZW, e1, det_mul, det_mul, det_conjTranspose]
    exact mul_ne_zero (mul_ne_zero (star_ne_zero.2 hW) hd) hW
  rcases hloop mi 0 { Z := Z, D := 0, ZtZ := Zᴴ * Z, prevE := 0, prevTr := 0, dScale := 1 } hdZ (Or.inl rfl) with ⟨stop, st', hL, hst⟩ | hL
  · exact Or.inl (C162_returns hop hA hl hmin0 htol hmi hI hZW hW hL hst)
  · right
    unfold eigsolve eigsolveFull
    rw [hI]
    simp only [bind, Except.bind, hL]

/-! ### C163: the limit of a run -/

/-- The gradient of the objective of a negative definite operator at a block of full rank. -/
noncomputable def blockGrad (A : Matrix N N ℂ) (Z : Matrix N (Fin M) ℂ) : Matrix N (Fin M) ℂ :=
  (-1 : ℂ) • (A * Z * (Zᴴ * Z)⁻¹ - Z * (Zᴴ * Z)⁻¹ * (Zᴴ * A * Z * (Zᴴ * Z)⁻¹))

theorem blockGrad_isGradient {A : Matrix N N ℂ} (hA : A.IsHermitian) (hN : ∀ v, v ≠ 0 → (star v ⬝ᵥ (A *ᵥ v)).re < 0) (hM : 0 < M)
    {Z : Matrix N (Fin M) ℂ} (hd : (Zᴴ * Z).det ≠ 0) : IsGradient (objective A) Z (blockGrad A Z) := by
  have hn := ritz_neg hN hM hd
  have := isGradient_objective hA Z hd (abs_ne_zero.2 hn.ne)
  rw [sign_neg hn] at this
  simpa [blockGrad] using this

theorem gram_smul_inv (Z : Matrix N (Fin M) ℂ) {r : ℝ} (hr : r ≠ 0) (hd : (Zᴴ * Z).det ≠ 0) :
    (((r : ℂ) • Z)ᴴ * ((r : ℂ) • Z))⁻¹ = (((r ^ 2)⁻¹ : ℝ) : ℂ) • (Zᴴ * Z)⁻¹ := by
  refine inv_eq_left_inv ?_
  rw [gram_smul, Matrix.smul_mul, Matrix.mul_smul, nonsing_inv_mul _ (isUnit_iff_ne_zero.2 hd), smul_smul, ← ofReal_mul,
    inv_mul_cancel₀ (pow_ne_zero 2 hr), ofReal_one, one_smul]

theorem blockGrad_smul (A : Matrix N N ℂ) (Z : Matrix N (Fin M) ℂ) {r : ℝ} (hr : r ≠ 0) (hd : (Zᴴ * Z).det ≠ 0) :
    blockGrad A ((r : ℂ) • Z) = ((r⁻¹ : ℝ) : ℂ) • blockGrad A Z := by
  have hc : ((r : ℝ) : ℂ) ≠ 0 := ofReal_ne_zero.2 hr
  unfold blockGrad
  rw [gram_smul_inv Z hr hd, conjTranspose_smul, star_def, conj_ofReal]
  simp only [Matrix.mul_smul, Matrix.smul_mul, smul_smul, smul_sub]
  have e1 : (-1 : ℂ) * ((((r ^ 2)⁻¹ : ℝ) : ℂ) * r) = ((r⁻¹ : ℝ) : ℂ) * -1 := by push_cast; field_simp
  have e2 : (-1 : ℂ) * ((((r ^ 2)⁻¹ : ℝ) : ℂ) * (r * r) * ((((r ^ 2)⁻¹ : ℝ) : ℂ) * r)) = ((r⁻¹ : ℝ) : ℂ) * -1 := by push_cast; field_simp
  congr 1
  · congr 1
  · congr 1

theorem continuous_fullRank {f : {Z : Matrix N (Fin M) ℂ // (Zᴴ * Z).det ≠ 0} → Matrix N (Fin M) ℂ} (hf : Continuous f)
    (hd : ∀ z, ((f z)ᴴ * f z).det ≠ 0) : Continuous fun z => ((f z)ᴴ * f z)⁻¹ := by
  classical
  have hQ : Continuous fun z => (f z)ᴴ * f z := hf.matrix_conjTranspose.matrix_mul hf
  simp only [Matrix.inv_def, Ring.inverse_eq_inv']
  exact (hQ.matrix_det.inv₀ hd).smul hQ.matrix_adjugate

theorem continuous_blockGrad (A : Matrix N N ℂ) : Continuous fun z : {Z : Matrix N (Fin M) ℂ // (Zᴴ * Z).det ≠ 0} => blockGrad A z.1 := by
  have hZ : Continuous fun z : {Z : Matrix N (Fin M) ℂ // (Zᴴ * Z).det ≠ 0} => z.1 := continuous_subtype_val
  have hU := continuous_fullRank hZ fun z => z.2
  have hAZ : Continuous fun z : {Z : Matrix N (Fin M) ℂ // (Zᴴ * Z).det ≠ 0} => A * z.1 := continuous_const.matrix_mul hZ
  unfold blockGrad
  exact Continuous.const_smul ((hAZ.matrix_mul hU).sub ((hZ.matrix_mul hU).matrix_mul (((hZ.matrix_conjTranspose.matrix_mul continuous_const).matrix_mul hZ).matrix_mul hU))) (-1 : ℂ)

theorem isOpen_fullRank : IsOpen {Z : Matrix N (Fin M) ℂ | (Zᴴ * Z).det ≠ 0} := by
  classical
  have hQ : Continuous fun Z : Matrix N (Fin M) ℂ => (Zᴴ * Z).det := (continuous_id.matrix_conjTranspose.matrix_mul continuous_id).matrix_det
  exact isOpen_ne.preimage hQ

theorem continuousAt_objective (A : Matrix N N ℂ) {Z : Matrix N (Fin M) ℂ} (hd : (Zᴴ * Z).det ≠ 0) : ContinuousAt (objective A) Z := by
  have hZ : Continuous fun z : {Z : Matrix N (Fin M) ℂ // (Zᴴ * Z).det ≠ 0} => z.1 := continuous_subtype_val
  have hU := continuous_fullRank hZ fun z => z.2
  have h : Continuous fun z : {Z : Matrix N (Fin M) ℂ // (Zᴴ * Z).det ≠ 0} => objective A z.1 := by
    unfold objective
    exact (continuous_re.comp ((((hZ.matrix_conjTranspose.matrix_mul continuous_const).matrix_mul hZ).matrix_mul hU).matrix_trace)).abs
  have h2 : ContinuousOn (objective A) {Z : Matrix N (Fin M) ℂ | (Zᴴ * Z).det ≠ 0} := continuousOn_iff_continuous_domRestrict.2 h
  exact h2.continuousAt (isOpen_fullRank.mem_nhds hd)

/-- **C163, limit points.** In an infinite run with an exact line search, a negative definite operator and a positive definite preconditioner, every limit of
multiples of the blocks at resets that has full rank spans an invariant subspace of the operator. -/
theorem C163_limit_points {op iop : (N → ℂ) → N → ℂ} {A B : Matrix N N ℂ} (hop : ∀ v, op v = A *ᵥ v) (hA : A.IsHermitian)
    (hN : ∀ v, v ≠ 0 → (star v ⬝ᵥ (A *ᵥ v)).re < 0) (hiop : ∀ v, iop v = B *ᵥ v) (hK : ∀ v, v ≠ 0 → 0 < (star v ⬝ᵥ (B *ᵥ v)).re)
    (hM : 0 < M) {lib : SolveLib M} (hmin : ExactSearch lib) {tol : ℝ} {ri : ℕ} (st : ℕ → SolveState N M)
    (hstep : ∀ i, solveStep op iop lib tol ri i (st i) = .ok (false, st (i + 1))) {φ : ℕ → ℕ} (hφ : Filter.Tendsto φ Filter.atTop Filter.atTop)
    (hreset : ∀ n, φ n % ri = 0) {r : ℕ → ℝ} (hr : ∀ n, r n ≠ 0) {Y : Matrix N (Fin M) ℂ}
    (hlim : Filter.Tendsto (fun n => (r n : ℂ) • (st (φ n)).Z) Filter.atTop (nhds Y)) (hY : (Yᴴ * Y).det ≠ 0) :
    (∃ C : Matrix (Fin M) (Fin M) ℂ, A * Y = Y * C) ∧ Filter.Tendsto (fun i => objective A (st i).Z) Filter.atTop (nhds (objective A Y)) := by
  have hd : ∀ i, ((st i).Zᴴ * (st i).Z).det ≠ 0 := fun i => (step_eq (hstep i)).1
  have hob : ∀ i, objective A (st i).Z ≠ 0 := fun i => abs_ne_zero.2 (ritz_neg hN hM (hd i)).ne
  have hmin0 : ∀ f theta a b, lib.minimize f = .ok theta → f theta = .ok a → f 0 = .ok b → a ≤ b := fun f theta a b h1 h2 h3 =>
    hmin f theta h1 0 ⟨le_rfl, Real.pi_pos.le⟩ a b h2 h3
  have hanti : Antitone fun i => objective A (st i).Z := antitone_nat_of_succ_le fun i => C77_descent hop hA hmin0 (hstep i) (hd (i + 1))
  -- the objectives converge to that of the limit
  have hbd : BddBelow (Set.range fun i => objective A (st i).Z) := ⟨0, by rintro _ ⟨i, rfl⟩; exact abs_nonneg _⟩
  have hconv := tendsto_atTop_ciInf hanti hbd
  have hsub : Filter.Tendsto (fun n => objective A (st (φ n)).Z) Filter.atTop (nhds (objective A Y)) := by
    have h1 := (continuousAt_objective A hY).tendsto.comp hlim
    refine h1.congr fun n => ?_
    exact objective_smul A _ (hr n)
  have hEq : (⨅ i, objective A (st i).Z) = objective A Y := tendsto_nhds_unique (hconv.comp hφ) hsub
  rw [hEq] at hconv
  refine ⟨?_, hconv⟩
  have hge : ∀ i, objective A Y ≤ objective A (st i).Z := fun i => by rw [← hEq]; exact ciInf_le hbd i
  by_contra hinv
  -- the search from the limit would do better
  obtain ⟨G, hg, -, hiff⟩ := C128_stationary hA Y hY (abs_ne_zero.2 (ritz_neg hN hM hY).ne)
  obtain rfl := hg.unique (blockGrad_isGradient hA hN hM hY)
  have hG : blockGrad A Y ≠ 0 := fun hc => hinv (hiff.1 hc)
  have hpos : 0 < (trace ((blockGrad A Y)ᴴ * (B * blockGrad A Y))).re := by
    have := trace_pos_of_form (iop := fun v => B *ᵥ v) hK hG
    rwa [cols_eq (fun v => rfl)] at this
  obtain ⟨t, ht, hrank⟩ : ∃ t : ℝ, objective A (Y + (t : ℂ) • (B * blockGrad A Y)) < objective A Y
      ∧ ((Y + (t : ℂ) • (B * blockGrad A Y))ᴴ * (Y + (t : ℂ) • (B * blockGrad A Y))).det ≠ 0 := by
    by_contra hc
    push Not at hc
    have hloc : IsLocalMin (fun t : ℝ => objective A (Y + (t : ℂ) • (B * blockGrad A Y))) 0 := by
      filter_upwards [gram_det_near Y (B * blockGrad A Y) hY] with t ht
      simp only [ofReal_zero, zero_smul, add_zero]
      by_contra h1
      exact ht (hc t (not_le.1 h1))
    have := hloc.hasDerivAt_eq_zero (hg _)
    linarith
  -- and so would the search from nearby blocks
  let F : {Z : Matrix N (Fin M) ℂ // (Zᴴ * Z).det ≠ 0} → Matrix N (Fin M) ℂ := fun z => z.1 + (t : ℂ) • (B * blockGrad A z.1)
  have hF : Continuous F := continuous_subtype_val.add (Continuous.const_smul (continuous_const.matrix_mul (continuous_blockGrad A)) (t : ℂ))
  have hdr : ∀ n, (((r n : ℂ) • (st (φ n)).Z)ᴴ * ((r n : ℂ) • (st (φ n)).Z)).det ≠ 0 := fun n => (gram_smul_det _ (hr n)).2 (hd _)
  have hz : Filter.Tendsto (fun n => (⟨(r n : ℂ) • (st (φ n)).Z, hdr n⟩ : {Z : Matrix N (Fin M) ℂ // (Zᴴ * Z).det ≠ 0})) Filter.atTop (nhds ⟨Y, hY⟩) :=
    tendsto_subtype_rng.2 hlim
  have hFz := (hF.tendsto ⟨Y, hY⟩).comp hz
  have h1 := ((continuousAt_objective A hrank).tendsto.comp hFz).eventually (gt_mem_nhds ht)
  have h2 := hFz.eventually (isOpen_fullRank.mem_nhds hrank)
  obtain ⟨n, h3, h4⟩ := (h1.and h2).exists
  simp only [Function.comp, F] at h3 h4
  -- the search at that reset has tried this block
  obtain ⟨G', hg', γ, D0, theta, hγ, -, hD0, hf, hsc, hD, -, -, hm, hzz⟩ := C128_direction hop hA (hstep (φ n)) (hob _)
  obtain rfl := hg'.unique (blockGrad_isGradient hA hN hM (hd (φ n)))
  rw [hγ (Or.inr (hreset n)), zero_div, ofReal_zero, zero_smul, zero_add, cols_eq hiop] at hD0
  have hs : (st (φ n + 1)).dScale ≠ 0 := by
    rw [hsc]
    exact div_ne_zero (Nat.cast_ne_zero.2 hM.ne') hf
  have hcomb : (r n : ℂ) • (st (φ n)).Z + (t : ℂ) • (B * blockGrad A ((r n : ℂ) • (st (φ n)).Z))
      = (r n : ℂ) • (st (φ n)).Z + ((t * (r n)⁻¹ * ((st (φ n + 1)).dScale)⁻¹ : ℝ) : ℂ) • (st (φ n + 1)).D := by
    rw [blockGrad_smul A _ (hr n) (hd _), hD, hD0, Matrix.mul_smul, smul_smul, smul_smul, ← ofReal_mul, ← ofReal_mul, inv_mul_cancel_right₀ hs]
  have hdn := hd (φ n + 1)
  rw [hcomb] at h3 h4
  have hbest := exact_best hop hA hmin hm (by rw [← hzz]; exact hdn) (Or.inl (hr n)) h4
  rw [← hzz] at hbest
  have := hge (φ n + 1)
  linarith

/-- **C163, the limit.** If moreover the blocks stay well conditioned, the sum of the Ritz values tends to the sum of the eigenvalues of the operator on an
invariant subspace of `num_modes` dimensions: to the trace of the matrix `C` by which it acts on a basis of the subspace. -/
theorem C163_limit {op iop : (N → ℂ) → N → ℂ} {A B : Matrix N N ℂ} (hop : ∀ v, op v = A *ᵥ v) (hA : A.IsHermitian)
    (hN : ∀ v, v ≠ 0 → (star v ⬝ᵥ (A *ᵥ v)).re < 0) (hiop : ∀ v, iop v = B *ᵥ v) (hK : ∀ v, v ≠ 0 → 0 < (star v ⬝ᵥ (B *ᵥ v)).re)
    (hM : 0 < M) {lib : SolveLib M} (hmin : ExactSearch lib) {tol : ℝ} {ri : ℕ} (hri : 0 < ri) (st : ℕ → SolveState N M)
    (hstep : ∀ i, solveStep op iop lib tol ri i (st i) = .ok (false, st (i + 1)))
    {δ : ℝ} (hδ : 0 < δ) (hcond : ∀ i, δ * (fnorm (st i).Z ^ 2) ^ M ≤ ((st i).Zᴴ * (st i).Z).det.re) :
    ∃ (Y : Matrix N (Fin M) ℂ) (C : Matrix (Fin M) (Fin M) ℂ), (Yᴴ * Y).det ≠ 0 ∧ A * Y = Y * C
      ∧ Filter.Tendsto (fun i => (trace ((st i).Zᴴ * A * (st i).Z * ((st i).Zᴴ * (st i).Z)⁻¹)).re) Filter.atTop (nhds (trace C).re) := by
  classical
  have hd : ∀ i, ((st i).Zᴴ * (st i).Z).det ≠ 0 := fun i => (step_eq (hstep i)).1
  have hfn : ∀ i, fnorm (st i).Z ≠ 0 := by
    intro i hc
    have h1 := hd i
    rw [fnorm_eq_zero.1 hc] at h1
    have : Nonempty (Fin M) := ⟨⟨0, hM⟩⟩
    simp at h1
  have hfsq : ∀ Z : Matrix N (Fin M) ℂ, fnorm Z ^ 2 = ∑ i, ∑ j, normSq (Z i j) := fun Z => by
    have h : 0 ≤ ∑ i, ∑ j, normSq (Z i j) := Finset.sum_nonneg fun i _ => Finset.sum_nonneg fun j _ => normSq_nonneg _
    rw [fnorm, Real.sq_sqrt h]
  let K : Set (Matrix N (Fin M) ℂ) := {Z | (∀ i j, ‖Z i j‖ ≤ 1) ∧ δ ≤ (Zᴴ * Z).det.re}
  have hKc : IsCompact K := by
    have hbox : IsCompact (Set.pi Set.univ fun _ : N => Set.pi Set.univ fun _ : Fin M => Metric.closedBall (0 : ℂ) 1) :=
      isCompact_univ_pi fun _ => isCompact_univ_pi fun _ => isCompact_closedBall _ _
    have hcl : IsClosed {Z : Matrix N (Fin M) ℂ | δ ≤ (Zᴴ * Z).det.re} :=
      isClosed_le continuous_const (continuous_re.comp (continuous_id.matrix_conjTranspose.matrix_mul continuous_id).matrix_det)
    have : K = (Set.pi Set.univ fun _ : N => Set.pi Set.univ fun _ : Fin M => Metric.closedBall (0 : ℂ) 1) ∩ {Z : Matrix N (Fin M) ℂ | δ ≤ (Zᴴ * Z).det.re} := by
      ext Z
      refine and_congr_left fun _ => ⟨fun h i _ j _ => mem_closedBall_zero_iff.2 (h i j), fun h i j => mem_closedBall_zero_iff.1 (h i trivial j trivial)⟩
    rw [this]
    exact hbox.inter_right hcl
  have hmem : ∀ n, (((fnorm (st (n * ri)).Z)⁻¹ : ℝ) : ℂ) • (st (n * ri)).Z ∈ K := by
    intro n
    set Z := (st (n * ri)).Z with hZ
    have hf := hfn (n * ri)
    rw [← hZ] at hf
    refine ⟨fun i j => ?_, ?_⟩
    · have h1 : normSq (Z i j) ≤ fnorm Z ^ 2 := by
        rw [hfsq]
        exact (Finset.single_le_sum (f := fun j => normSq (Z i j)) (fun j _ => normSq_nonneg _) (Finset.mem_univ j)).trans
          (Finset.single_le_sum (f := fun i => ∑ j, normSq (Z i j)) (fun i _ => Finset.sum_nonneg fun j _ => normSq_nonneg _) (Finset.mem_univ i))
      have hfp : 0 < fnorm Z := lt_of_le_of_ne (Real.sqrt_nonneg _) (Ne.symm hf)
      rw [normSq_eq_norm_sq] at h1
      have h2 : ‖Z i j‖ ≤ fnorm Z := le_of_sq_le_sq h1 hfp.le
      rw [Matrix.smul_apply, smul_eq_mul, norm_mul, norm_real, Real.norm_eq_abs, abs_of_pos (inv_pos.2 hfp), inv_mul_eq_div, div_le_one hfp]
      exact h2
    · have h1 := hcond (n * ri)
      rw [← hZ] at h1
      have hp : 0 < (fnorm Z ^ 2) ^ M := by positivity
      rw [gram_smul, det_smul, Fintype.card_fin, ← ofReal_pow, re_ofReal_mul]
      rw [inv_pow, inv_pow, inv_mul_eq_div, le_div_iff₀ hp]
      exact h1
  have : FirstCountableTopology (Matrix N (Fin M) ℂ) := inferInstanceAs (FirstCountableTopology (N → Fin M → ℂ))
  obtain ⟨Y, hYK, φ, hφ, hlim⟩ := hKc.tendsto_subseq hmem
  have hY : (Yᴴ * Y).det ≠ 0 := by
    intro hc
    have := hYK.2
    rw [hc, zero_re] at this
    linarith
  obtain ⟨⟨C, hC⟩, hconv⟩ := C163_limit_points hop hA hN hiop hK hM hmin st hstep (φ := fun n => φ n * ri)
    (Filter.tendsto_atTop_mono (fun n => Nat.le_mul_of_pos_right (φ n) hri) hφ.tendsto_atTop) (fun n => Nat.mul_mod_left _ _) (fun n => inv_ne_zero (hfn _)) hlim hY
  refine ⟨Y, C, hY, hC, ?_⟩
  have htr : trace (Yᴴ * A * Y * (Yᴴ * Y)⁻¹) = trace C := by
    rw [Matrix.mul_assoc Yᴴ, hC, ← Matrix.mul_assoc, trace_mul_comm, ← Matrix.mul_assoc, nonsing_inv_mul _ (isUnit_iff_ne_zero.2 hY), Matrix.one_mul]
  have h1 := hconv.neg
  rw [objective, abs_of_neg (ritz_neg hN hM hY), neg_neg, htr] at h1
  refine h1.congr fun i => ?_
  rw [objective, abs_of_neg (ritz_neg hN hM (hd i)), neg_neg]

/-- **C163, one mode.** For one mode the conditioning is automatic: the Rayleigh quotients of an infinite run tend to an eigenvalue of the operator. -/
theorem C163_one_mode {op iop : (N → ℂ) → N → ℂ} {A B : Matrix N N ℂ} (hop : ∀ v, op v = A *ᵥ v) (hA : A.IsHermitian)
    (hN : ∀ v, v ≠ 0 → (star v ⬝ᵥ (A *ᵥ v)).re < 0) (hiop : ∀ v, iop v = B *ᵥ v) (hK : ∀ v, v ≠ 0 → 0 < (star v ⬝ᵥ (B *ᵥ v)).re)
    {lib : SolveLib 1} (hmin : ExactSearch lib) {tol : ℝ} {ri : ℕ} (hri : 0 < ri) (st : ℕ → SolveState N 1)
    (hstep : ∀ i, solveStep op iop lib tol ri i (st i) = .ok (false, st (i + 1))) :
    ∃ (lam : ℝ) (v : N → ℂ), v ≠ 0 ∧ A *ᵥ v = (lam : ℂ) • v
      ∧ Filter.Tendsto (fun i => (star (fun x => (st i).Z x 0) ⬝ᵥ (A *ᵥ fun x => (st i).Z x 0)).re / ∑ x, normSq ((st i).Z x 0)) Filter.atTop (nhds lam) := by
  have hgram : ∀ Z : Matrix N (Fin 1) ℂ, (Zᴴ * Z) 0 0 = ((fnorm Z ^ 2 : ℝ) : ℂ) := by
    intro Z
    have h1 := trace_gram_re Z
    rw [trace_fin_one] at h1
    have h2 : ((Zᴴ * Z) 0 0).im = 0 := by
      have := (isHermitian_conjTranspose_mul_self Z).apply 0 0
      rw [star_def, conj_eq_iff_im] at this
      exact this
    apply Complex.ext
    · rw [h1, ofReal_re]
    · rw [h2, ofReal_im]
  obtain ⟨Y, C, hY, hC, hconv⟩ := C163_limit hop hA hN hiop hK one_pos hmin hri st hstep one_pos (fun i => by
    rw [pow_one, one_mul, det_fin_one, hgram, ofReal_re])
  have hcol : A *ᵥ (fun x => Y x 0) = C 0 0 • fun x => Y x 0 := by
    funext x
    have := congrFun (congrFun hC x) 0
    rw [mul_apply (M := Y), Fin.sum_univ_one] at this
    rw [Pi.smul_apply, smul_eq_mul, mul_comm]
    exact this
  have hne : (fun x => Y x 0) ≠ 0 := by
    intro hc
    apply hY
    have : Y = 0 := by
      ext x j
      rw [Subsingleton.elim j 0]
      exact congrFun hc x
    rw [this, det_fin_one]
    simp
  have hreal : ((C 0 0).re : ℂ) = C 0 0 := by
    have h1 := (hA.im_star_dotProduct_mulVec_self (fun x => Y x 0))
    rw [hcol, dotProduct_smul, smul_eq_mul] at h1
    have h2 : star (fun x => Y x 0) ⬝ᵥ (fun x => Y x 0) = ((∑ x, normSq (Y x 0) : ℝ) : ℂ) := by
      rw [dotProduct, ofReal_sum]
      refine Finset.sum_congr rfl fun x _ => ?_
      rw [Pi.star_apply, star_def, ← normSq_eq_conj_mul_self]
    rw [h2, RCLike.im_eq_complex_im, im_mul_ofReal] at h1
    have h3 : (∑ x, normSq (Y x 0)) ≠ 0 := by
      intro hc
      apply hne
      funext x
      exact normSq_eq_zero.1 ((Finset.sum_eq_zero_iff_of_nonneg fun x _ => normSq_nonneg _).1 hc x (Finset.mem_univ x))
    apply Complex.ext
    · rw [ofReal_re]
    · rw [ofReal_im, (mul_eq_zero.1 h1).resolve_right h3]
  refine ⟨(C 0 0).re, fun x => Y x 0, hne, by rw [hreal]; exact hcol, ?_⟩
  rw [trace_fin_one] at hconv
  refine hconv.congr fun i => ?_
  have hd : ((st i).Zᴴ * (st i).Z).det ≠ 0 := (step_eq (hstep i)).1
  have hf0 : fnorm (st i).Z ^ 2 ≠ 0 := by
    intro hc
    apply hd
    rw [det_fin_one, hgram, hc, ofReal_zero]
  have hinv : ((st i).Zᴴ * (st i).Z)⁻¹ 0 0 = (((fnorm (st i).Z ^ 2)⁻¹ : ℝ) : ℂ) := by
    have h1 := congrFun (congrFun (nonsing_inv_mul _ (isUnit_iff_ne_zero.2 hd)) 0) 0
    rw [mul_apply, Fin.sum_univ_one, hgram, one_apply_eq] at h1
    rw [ofReal_inv]
    exact eq_inv_of_mul_eq_one_left h1
  rw [trace_fin_one, mul_apply, Fin.sum_univ_one, hinv, re_mul_ofReal, ← div_eq_mul_inv]
  have hfs : fnorm (st i).Z ^ 2 = ∑ x, normSq ((st i).Z x 0) := by
    have h : 0 ≤ ∑ x, ∑ j, normSq ((st i).Z x j) := Finset.sum_nonneg fun i _ => Finset.sum_nonneg fun j _ => normSq_nonneg _
    rw [fnorm, Real.sq_sqrt h]
    exact Finset.sum_congr rfl fun x _ => Fin.sum_univ_one _
  rw [hfs, Matrix.mul_assoc]
  rfl

/-- **C163, the preconditioner.** If no wave vector of the grid is along y or zero and `epsilon` is real and positive, `inverse_maxwell_operator_approx` is
multiplication by a Hermitian, positive definite matrix. -/
theorem C163_preconditioner {sh : Fin 3 → ℕ} (k0 : Fin 3 → ℝ) (G : Matrix (Fin 3) (Fin 3) ℝ) (hr : Regular k0 G sh)
    (hk : ∀ (x : Idx sh) (k : Fin 3 → ℝ), IsWave k0 G k x → k ≠ 0) {eps : VField sh ℂ} (he : PosReal eps) :
    ∃ B : Matrix (Fin 2 × Idx sh) (Fin 2 × Idx sh) ℂ, B.IsHermitian ∧ (∀ v, v ≠ 0 → 0 < (star v ⬝ᵥ (B *ᵥ v)).re)
      ∧ ∀ h : Hmn sh, inverseMaxwellOperatorApprox k0 G eps h = some fun i x => (B *ᵥ fun p => h p.1 p.2) (i, x) := by
  classical
  obtain ⟨op, hop, -, hpos, hh⟩ := inverse_form_pos k0 G hr hk he
  let dl : Fin 2 × Idx sh → Hmn sh := fun p i x => if p = (i, x) then 1 else 0
  let A : Matrix (Fin 2 × Idx sh) (Fin 2 × Idx sh) ℂ := of fun p q => (starRingEnd ℂ) (op (dl p) q.1 q.2)
  have hd : ∀ p (u : Hmn sh), hip (dl p) u = u p.1 p.2 := by
    rintro ⟨i, x⟩ u
    unfold hip
    rw [← Fintype.sum_prod_type']
    simp only [dl, apply_ite (starRingEnd ℂ), map_one, map_zero, ite_mul, one_mul, zero_mul]
    simp
  have hA : ∀ u p, op u p.1 p.2 = (A *ᵥ fun q => u q.1 q.2) p := by
    intro u p
    rw [← hd p (op u), hh]
    unfold hip
    rw [← Fintype.sum_prod_type']
    rfl
  have hq : ∀ u : Hmn sh, hip u (op u) = star (fun q : Fin 2 × Idx sh => u q.1 q.2) ⬝ᵥ (A *ᵥ fun q => u q.1 q.2) := by
    intro u
    unfold hip
    rw [← Fintype.sum_prod_type']
    exact Finset.sum_congr rfl fun p _ => by rw [hA u p]; rfl
  refine ⟨A, ?_, fun v hv => ?_, fun h => ?_⟩
  · ext p q
    rw [conjTranspose_apply]
    show star ((starRingEnd ℂ) (op (dl q) p.1 p.2)) = (starRingEnd ℂ) (op (dl p) q.1 q.2)
    rw [← hd q (op (dl p)), hh, ← hd p (op (dl q))]
    unfold hip
    simp only [map_sum, map_mul, conj_conj, star_def, mul_comm]
  · have h := hpos (fun i x => v (i, x)) fun hc => hv (by
      funext p
      exact congrFun (congrFun hc p.1) p.2)
    rw [hq] at h
    exact h
  · rw [hop]
    congr 1
    funext i x
    exact hA h (i, x)

/-- **C163, for the Maxwell operator.** If no wave vector of the grid is along y or zero, `epsilon` is real and positive and the line search is exact, the
Rayleigh quotients of an infinite run for one mode tend to the eigenvalue `-lam` of an eigenmode of the grid: a band at this Bloch vector. -/
theorem C163_bloch {sh : Fin 3 → ℕ} (k0 : Fin 3 → ℝ) (G : Matrix (Fin 3) (Fin 3) ℝ) (hr : Regular k0 G sh)
    (hk : ∀ (x : Idx sh) (k : Fin 3 → ℝ), IsWave k0 G k x → k ≠ 0) {eps : VField sh ℂ} (he : PosReal eps) {op iop : Hmn sh → Hmn sh}
    (hop : ∀ h, maxwellOperator k0 G eps h = some (op h)) (hiop : ∀ h, inverseMaxwellOperatorApprox k0 G eps h = some (iop h)) {lib : SolveLib 1}
    (hmin : ExactSearch lib) {tol : ℝ} {ri : ℕ} (hri : 0 < ri) (st : ℕ → SolveState (Fin 2 × Idx sh) 1)
    (hstep : ∀ i, solveStep (flat op) (flat iop) lib tol ri i (st i) = .ok (false, st (i + 1))) :
    ∃ (lam : ℝ) (h : Hmn sh), 0 < lam ∧ h ≠ 0 ∧ maxwellOperator k0 G eps h = some (fun i x => -(lam : ℂ) * h i x)
      ∧ Filter.Tendsto (fun i => (hip (fun a x => (st i).Z (a, x) 0) (op fun a x => (st i).Z (a, x) 0)).re
          / ∑ p, normSq ((st i).Z p 0)) Filter.atTop (nhds (-lam)) := by
  obtain ⟨A, hA, hAop⟩ := C59_matrix_partial k0 G hr he
  have hfl : ∀ v, flat op v = A *ᵥ v := by
    intro v
    have h1 := (hop fun i x => v (i, x)).symm.trans (hAop _)
    funext p
    exact congrFun (congrFun (Option.some.inj h1) p.1) p.2
  have hAh : A.IsHermitian := by
    have := hA.1.neg
    rwa [neg_neg] at this
  obtain ⟨B, -, hK, hBop⟩ := C163_preconditioner k0 G hr hk he
  have hifl : ∀ v, flat iop v = B *ᵥ v := by
    intro v
    have h1 := (hiop fun i x => v (i, x)).symm.trans (hBop _)
    funext p
    exact congrFun (congrFun (Option.some.inj h1) p.1) p.2
  have hN : ∀ v, v ≠ 0 → (star v ⬝ᵥ (A *ᵥ v)).re < 0 := fun v hv => by
    rw [← hfl, flat_form]
    exact maxwell_form_neg k0 G hr hk he hop fun hc => hv (by
      funext p
      exact congrFun (congrFun hc p.1) p.2)
  obtain ⟨lam, v, hv, hev, hconv⟩ := C163_one_mode hfl hAh hN hifl hK hmin hri st hstep
  have hvs : star v ⬝ᵥ v = ((∑ x, normSq (v x) : ℝ) : ℂ) := by
    rw [dotProduct, ofReal_sum]
    refine Finset.sum_congr rfl fun x _ => ?_
    rw [Pi.star_apply, star_def, ← normSq_eq_conj_mul_self]
  have hlam : lam < 0 := by
    have h1 := hN v hv
    rw [hev, dotProduct_smul, hvs, smul_eq_mul, ← ofReal_mul, ofReal_re] at h1
    have h2 : 0 ≤ ∑ x, normSq (v x) := Finset.sum_nonneg fun x _ => normSq_nonneg _
    by_contra hc
    push Not at hc
    exact absurd h1 (not_lt.2 (mul_nonneg hc h2))
  refine ⟨-lam, fun i x => v (i, x), by linarith, fun hc => hv (by
      funext p
      exact congrFun (congrFun hc p.1) p.2), ?_, ?_⟩
  · rw [hAop]
    congr 1
    funext i x
    have := congrFun hev (i, x)
    rw [Pi.smul_apply, smul_eq_mul] at this
    rw [ofReal_neg, neg_neg]
    exact this
  · rw [neg_neg]
    refine hconv.congr fun i => ?_
    rw [← hfl, flat_form]

/-! ### Concrete cases -/

section
variable {N : Type} [Fintype N] [DecidableEq N]

/-- The gradient for one mode, up to a factor. -/
theorem diag_gradient {d : N → ℝ} (hN : ∀ v : N → ℂ, v ≠ 0 → (star v ⬝ᵥ ((diagonal fun i => (d i : ℂ)) *ᵥ v)).re < 0) {Z : Matrix N (Fin 1) ℂ}
    (hd : (Zᴴ * Z).det ≠ 0) : ∃ κ m : ℝ, κ ≠ 0 ∧ m ≠ 0 ∧ ∀ i, blockGrad (diagonal fun i => (d i : ℂ)) Z i 0 = (κ : ℂ) * (((d i - m : ℝ) : ℂ) * Z i 0) := by
  have hA : (diagonal fun i => (d i : ℂ)).IsHermitian := by
    rw [IsHermitian, diagonal_conjTranspose]
    congr 1
    funext i
    simp
  have hgram : ∃ g : ℝ, (Zᴴ * Z) 0 0 = (g : ℂ) := by
    refine ⟨((Zᴴ * Z) 0 0).re, ?_⟩
    have := (isHermitian_conjTranspose_mul_self Z).apply 0 0
    rw [star_def, conj_eq_iff_re] at this
    exact this.symm
  obtain ⟨g, hg⟩ := hgram
  have hg0 : (g : ℂ) ≠ 0 := by
    rw [← hg, ← det_fin_one (Zᴴ * Z)]
    exact hd
  have hu : (Zᴴ * Z)⁻¹ 0 0 = ((g⁻¹ : ℝ) : ℂ) := by
    have h1 := congrFun (congrFun (nonsing_inv_mul _ (isUnit_iff_ne_zero.2 hd)) 0) 0
    rw [mul_apply, Fin.sum_univ_one, hg, one_apply_eq] at h1
    rw [ofReal_inv]
    exact eq_inv_of_mul_eq_one_left h1
  have hneg := ritz_neg hN one_pos hd
  have hmr : ∃ m : ℝ, (Zᴴ * (diagonal fun i => (d i : ℂ)) * Z * (Zᴴ * Z)⁻¹) 0 0 = (m : ℂ) := by
    have h1 : (Zᴴ * (diagonal fun i => (d i : ℂ)) * Z).IsHermitian := isHermitian_conjTranspose_mul_mul Z hA
    have h2 := h1.apply 0 0
    rw [star_def, conj_eq_iff_re] at h2
    refine ⟨((Zᴴ * (diagonal fun i => (d i : ℂ)) * Z) 0 0).re * g⁻¹, ?_⟩
    rw [mul_apply, Fin.sum_univ_one, hu, ofReal_mul, h2]
  obtain ⟨m, hm⟩ := hmr
  rw [trace_fin_one, hm, ofReal_re] at hneg
  refine ⟨-g⁻¹, m, neg_ne_zero.2 (inv_ne_zero (by exact_mod_cast hg0)), hneg.ne, fun i => ?_⟩
  unfold blockGrad
  rw [Matrix.smul_apply, Matrix.sub_apply, mul_apply, mul_apply (M := Z * _), Fin.sum_univ_one, Fin.sum_univ_one, mul_apply (M := Z) (N := (Zᴴ * Z)⁻¹), Fin.sum_univ_one, diagonal_mul, hu, hm,
    smul_eq_mul]
  push_cast
  ring

/-- A pass that resets the directions, from a sum of three plane waves with different eigenvalues and preconditioned with the inverse of the operator, leads to
such a sum again. -/
theorem three_waves_pass {d : N → ℝ} (hd : ∀ i, d i < 0) {p q r : N} (hpq : d p ≠ d q) (hpr : d p ≠ d r) (hqr : d q ≠ d r)
    (hN : ∀ v : N → ℂ, v ≠ 0 → (star v ⬝ᵥ ((diagonal fun i => (d i : ℂ)) *ᵥ v)).re < 0) {lib : SolveLib 1} (hmin : ExactSearch lib) {tol : ℝ} {i : ℕ}
    {st st' : SolveState N 1} (hsup : ∀ x, st.Z x 0 ≠ 0 ↔ x = p ∨ x = q ∨ x = r)
    (h : solveStep (fun v i => (d i : ℂ) * v i) (fun v i => ((-(d i)⁻¹ : ℝ) : ℂ) * v i) lib tol 1 i st = .ok (false, st')) (hfull : (st'.Zᴴ * st'.Z).det ≠ 0) :
    ∀ x, st'.Z x 0 ≠ 0 ↔ x = p ∨ x = q ∨ x = r := by
  have hop : ∀ v : N → ℂ, (fun i => (d i : ℂ) * v i) = (diagonal fun i => (d i : ℂ)) *ᵥ v := fun v => by
    funext i; rw [mulVec_diagonal]
  have hA : (diagonal fun i => (d i : ℂ)).IsHermitian := by
    rw [IsHermitian, diagonal_conjTranspose]
    congr 1
    funext i
    simp
  have hdet := (step_eq h).1
  have hob : objective (diagonal fun i => (d i : ℂ)) st.Z ≠ 0 := abs_ne_zero.2 (ritz_neg hN one_pos hdet).ne
  obtain ⟨G, hg, γ, D0, theta, hγ0, -, hD0, hf, hsc, hD, -, -, -, hz⟩ := C128_direction hop hA h hob
  obtain rfl := hg.unique (blockGrad_isGradient hA hN one_pos hdet)
  rw [hγ0 (Or.inr (Nat.mod_one i)), zero_div, ofReal_zero, zero_smul, zero_add] at hD0
  obtain ⟨κ, m, hκ, hm, hG⟩ := diag_gradient hN hdet
  have hd0 : ∀ i, (d i : ℂ) ≠ 0 := fun i => ofReal_ne_zero.2 (hd i).ne
  -- the new block is an affine function of 1/d times the old one
  have hDe : ∀ x, st'.D x 0 = (((st'.dScale * κ) * (m / d x - 1) : ℝ) : ℂ) * st.Z x 0 := by
    intro x
    rw [hD, Matrix.smul_apply, hD0, smul_eq_mul]
    show (st'.dScale : ℂ) * (((-(d x)⁻¹ : ℝ) : ℂ) * blockGrad _ st.Z x 0) = _
    rw [hG]
    have := hd0 x
    push_cast
    field_simp
    ring
  set a : ℝ := Real.cos theta - Real.sin theta * (st'.dScale * κ) with ha
  set b : ℝ := Real.sin theta * (st'.dScale * κ) * m with hb
  have hs0 : st'.dScale ≠ 0 := by
    rw [hsc]
    exact div_ne_zero (by norm_num) hf
  have hent : ∀ x, st'.Z x 0 = ((a + b / d x : ℝ) : ℂ) * st.Z x 0 := by
    intro x
    rw [hz, trial, Matrix.add_apply, Matrix.smul_apply, Matrix.smul_apply, hDe, smul_eq_mul, smul_eq_mul, ha, hb]
    push_cast
    ring
  -- the gradient at the new block is orthogonal to the old block and to the direction
  obtain ⟨κ', m', hκ', -, hG'⟩ := diag_gradient hN hfull
  obtain ⟨c1, c2⟩ := C128_conjugate hop hA hmin h hob hfull (blockGrad_isGradient hA hN one_pos hfull)
  have hsum : ∀ w : N → ℝ, ∀ X : Matrix N (Fin 1) ℂ, (∀ x, X x 0 = (w x : ℂ) * st.Z x 0) →
      (trace ((blockGrad (diagonal fun i => (d i : ℂ)) st'.Z)ᴴ * X)).re = κ' * ∑ x, (d x - m') * (a + b / d x) * normSq (st.Z x 0) * w x := by
    intro w X hX
    rw [trace_fin_one, mul_apply, re_sum, Finset.mul_sum]
    refine Finset.sum_congr rfl fun x _ => ?_
    rw [conjTranspose_apply, hG', hent, hX, star_def]
    simp only [map_mul, conj_ofReal]
    have : (κ' : ℂ) * (((d x - m' : ℝ) : ℂ) * (((a + b / d x : ℝ) : ℂ) * (starRingEnd ℂ) (st.Z x 0))) * ((w x : ℂ) * st.Z x 0)
        = ((κ' * ((d x - m') * (a + b / d x) * normSq (st.Z x 0) * w x) : ℝ) : ℂ) := by
      rw [show (κ' : ℂ) * (((d x - m' : ℝ) : ℂ) * (((a + b / d x : ℝ) : ℂ) * (starRingEnd ℂ) (st.Z x 0))) * ((w x : ℂ) * st.Z x 0)
        = (κ' : ℂ) * (((d x - m' : ℝ) : ℂ) * ((a + b / d x : ℝ) : ℂ) * ((starRingEnd ℂ) (st.Z x 0) * st.Z x 0) * (w x : ℂ)) by ring,
        ← normSq_eq_conj_mul_self]
      push_cast
      ring
    rw [this, ofReal_re]
  rw [hsum (fun x => (st'.dScale * κ) * (m / d x - 1)) _ hDe] at c1
  rw [hsum (fun _ => 1) _ fun x => by rw [ofReal_one, one_mul]] at c2
  have c1 := (mul_eq_zero.1 c1).resolve_left hκ'
  have c2 := (mul_eq_zero.1 c2).resolve_left hκ'
  let T : N → ℝ := fun x => (d x - m') * (a + b / d x) * normSq (st.Z x 0)
  have s1 : ∑ x, T x = 0 := by simpa [T] using c2
  have s2 : ∑ x, T x / d x = 0 := by
    have h1 : ∑ x, (d x - m') * (a + b / d x) * normSq (st.Z x 0) * ((st'.dScale * κ) * (m / d x - 1))
        = (st'.dScale * κ) * (m * ∑ x, T x / d x - ∑ x, T x) := by
      rw [Finset.mul_sum, ← Finset.sum_sub_distrib, Finset.mul_sum]
      refine Finset.sum_congr rfl fun x _ => ?_
      simp only [T]
      ring
    rw [h1, s1, sub_zero] at c1
    exact (mul_eq_zero.1 ((mul_eq_zero.1 c1).resolve_left (mul_ne_zero hs0 hκ))).resolve_left hm
  have hT0 : ∀ x, ¬ (x = p ∨ x = q ∨ x = r) → T x = 0 := fun x hx => by
    have : st.Z x 0 = 0 := by
      by_contra hc
      exact hx ((hsup x).1 hc)
    simp [T, this]
  have npq : p ≠ q := fun h => hpq (by rw [h])
  have npr : p ≠ r := fun h => hpr (by rw [h])
  have nqr : q ≠ r := fun h => hqr (by rw [h])
  have hthree : ∀ f : N → ℝ, (∀ x, ¬ (x = p ∨ x = q ∨ x = r) → f x = 0) → ∑ x, f x = f p + f q + f r := by
    intro f hf0
    rw [← Finset.sum_subset (Finset.subset_univ {p, q, r}) fun x _ hx => hf0 x (by simpa using hx)]
    rw [Finset.sum_insert (by simp [npq, npr]), Finset.sum_insert (by simp [nqr]), Finset.sum_singleton, add_assoc]
  rw [hthree T hT0] at s1
  rw [hthree (fun x => T x / d x) fun x hx => by rw [hT0 x hx, zero_div]] at s2
  -- if one of the three vanished, the others would have the same eigenvalue
  have hab : a ≠ 0 ∨ b ≠ 0 := by
    by_contra hc
    push Not at hc
    apply hfull
    have : st'.Z = 0 := by
      ext x j
      rw [Subsingleton.elim j 0, hent, hc.1, hc.2]
      simp
    rw [this, det_fin_one]
    simp
  have hlin : ∀ x y, d x ≠ d y → a + b / d x = 0 → a + b / d y = 0 → False := by
    intro x y hxy h1 h2
    have hx := (hd x).ne
    have hy := (hd y).ne
    have h3 : b * (1 / d x - 1 / d y) = 0 := by linear_combination h1 - h2
    have h4 : 1 / d x - 1 / d y ≠ 0 := by
      rw [sub_ne_zero, one_div, one_div]
      exact fun hc => hxy (inv_injective hc)
    have hb0 := (mul_eq_zero.1 h3).resolve_right h4
    rw [hb0, zero_div, add_zero] at h1
    exact hab.elim (fun h => h h1) fun h => h hb0
  have htwo : ∀ x y z, d x ≠ d y → d x ≠ d z → d y ≠ d z → st.Z y 0 ≠ 0 → st.Z z 0 ≠ 0 → T x + T y + T z = 0 → T x / d x + T y / d y + T z / d z = 0 →
      a + b / d x ≠ 0 := by
    intro x y z hxy hxz hyz hy hz h1 h2 hc
    have e : T x = 0 := by simp [T, hc]
    rw [e, zero_add] at h1
    rw [e, zero_div, zero_add] at h2
    have dy := (hd y).ne
    have dz := (hd z).ne
    have h3 : T y * (1 / d y - 1 / d z) = 0 := by
      have : T z = -T y := by linarith
      rw [this] at h2
      linear_combination h2
    have h4 : 1 / d y - 1 / d z ≠ 0 := by
      rw [sub_ne_zero, one_div, one_div]
      exact fun hc => hyz (inv_injective hc)
    have hy0 := (mul_eq_zero.1 h3).resolve_right h4
    have hz0 : T z = 0 := by linarith
    have f1 : a + b / d y ≠ 0 := fun h => hlin x y hxy hc h
    have f2 : a + b / d z ≠ 0 := fun h => hlin x z hxz hc h
    have g1 : d y - m' = 0 := ((mul_eq_zero.1 ((mul_eq_zero.1 hy0).resolve_right (normSq_pos.2 hy).ne')).resolve_right f1)
    have g2 : d z - m' = 0 := ((mul_eq_zero.1 ((mul_eq_zero.1 hz0).resolve_right (normSq_pos.2 hz).ne')).resolve_right f2)
    exact hyz (by linarith)
  have zp := (hsup p).2 (Or.inl rfl)
  have zq := (hsup q).2 (Or.inr (Or.inl rfl))
  have zr := (hsup r).2 (Or.inr (Or.inr rfl))
  intro x
  rw [hent]
  constructor
  · intro hx
    exact (hsup x).1 (right_ne_zero_of_mul hx)
  · rintro (rfl | rfl | rfl)
    · exact mul_ne_zero (ofReal_ne_zero.2 (htwo x q r hpq hpr hqr zq zr s1 s2)) zp
    · exact mul_ne_zero (ofReal_ne_zero.2 (htwo x p r hpq.symm hqr hpr zp zr (by linarith) (by linarith))) zq
    · exact mul_ne_zero (ofReal_ne_zero.2 (htwo x p q hpr.symm hqr.symm hpq zp zq (by linarith) (by linarith))) zr
/-- The quadratic form of a diagonal operator. -/
theorem diag_form_pos {c : N → ℝ} (hc : ∀ i, 0 < c i) (v : N → ℂ) (hv : v ≠ 0) : 0 < (star v ⬝ᵥ fun i => (c i : ℂ) * v i).re := by
  have e : (star v ⬝ᵥ fun p => (c p : ℂ) * v p).re = ∑ p, c p * normSq (v p) := by
    rw [dotProduct, re_sum]
    refine Finset.sum_congr rfl fun p _ => ?_
    rw [Pi.star_apply, star_def, mul_left_comm, re_ofReal_mul, ← normSq_eq_conj_mul_self, ofReal_re]
  obtain ⟨p, hp⟩ := Function.ne_iff.1 hv
  rw [e]
  exact Finset.sum_pos' (fun p _ => mul_nonneg (hc p).le (normSq_nonneg _)) ⟨p, Finset.mem_univ _, mul_pos (hc p) (normSq_pos.2 hp)⟩

/-- A diagonal operator with negative entries is negative definite. -/
theorem diag_form_neg {d : N → ℝ} (hd : ∀ i, d i < 0) (v : N → ℂ) (hv : v ≠ 0) : (star v ⬝ᵥ ((diagonal fun i => (d i : ℂ)) *ᵥ v)).re < 0 := by
  have h := diag_form_pos (c := fun i => -d i) (fun i => neg_pos.2 (hd i)) v hv
  have e : (fun i => ((-d i : ℝ) : ℂ) * v i) = -((diagonal fun i => (d i : ℂ)) *ᵥ v) := by
    funext i
    rw [Pi.neg_apply, mulVec_diagonal, ofReal_neg, neg_mul]
  rw [e, dotProduct_neg, neg_re] at h
  linarith

/-- From a sum of three plane waves a pass ends the search with its test or leads to such a sum with a smaller objective. -/
theorem three_waves_step {d : N → ℝ} (hd : ∀ i, d i < 0) {p q r : N} (hpq : d p ≠ d q) (hpr : d p ≠ d r) (hqr : d q ≠ d r) {lib : SolveLib 1}
    (hmin : ExactSearch lib)
    (hfind : ∀ f, (∃ theta ∈ Set.Icc 0 Real.pi, ∃ a, f theta = .ok a ∧ ∀ phi ∈ Set.Icc 0 Real.pi, ∀ b, f phi = .ok b → a ≤ b) → ∃ theta, lib.minimize f = .ok theta)
    (tol : ℝ) (i : ℕ) {st : SolveState N 1} (hsup : ∀ x, st.Z x 0 ≠ 0 ↔ x = p ∨ x = q ∨ x = r) :
    ((0 < i ∧ |objective (diagonal fun i => (d i : ℂ)) st.Z - st.prevE| < tol * 0.5 * (objective (diagonal fun i => (d i : ℂ)) st.Z + st.prevE + 1e-7))
        ∧ solveStep (fun v i => (d i : ℂ) * v i) (fun v i => ((-(d i)⁻¹ : ℝ) : ℂ) * v i) lib tol 1 i st = .ok (true, { st with ZtZ := st.Zᴴ * st.Z }))
      ∨ ∃ st', solveStep (fun v i => (d i : ℂ) * v i) (fun v i => ((-(d i)⁻¹ : ℝ) : ℂ) * v i) lib tol 1 i st = .ok (false, st')
        ∧ st'.prevE = objective (diagonal fun i => (d i : ℂ)) st.Z
        ∧ objective (diagonal fun i => (d i : ℂ)) st'.Z < objective (diagonal fun i => (d i : ℂ)) st.Z
        ∧ ∀ x, st'.Z x 0 ≠ 0 ↔ x = p ∨ x = q ∨ x = r := by
  have hop : ∀ v : N → ℂ, (fun i => (d i : ℂ) * v i) = (diagonal fun i => (d i : ℂ)) *ᵥ v := fun v => by
    funext i; rw [mulVec_diagonal]
  have hA : (diagonal fun i => (d i : ℂ)).IsHermitian := by
    rw [IsHermitian, diagonal_conjTranspose]
    congr 1
    funext i
    simp
  have hN := diag_form_neg hd
  have hdet : (st.Zᴴ * st.Z).det ≠ 0 := by
    intro hc
    rw [det_fin_one] at hc
    have h1 := trace_gram_re st.Z
    rw [trace_fin_one, hc, zero_re] at h1
    exact (hsup p).2 (Or.inl rfl) (congrFun (congrFun (fnorm_eq_zero.1 (pow_eq_zero_iff two_ne_zero |>.1 h1.symm)) p) 0)
  have h0 : objective (diagonal fun i => (d i : ℂ)) st.Z ≠ 0 := abs_ne_zero.2 (ritz_neg hN one_pos hdet).ne
  have hob : 0 ≤ objective (diagonal fun i => (d i : ℂ)) st.Z := abs_nonneg _
  by_cases htest : 0 < i ∧ |objective (diagonal fun i => (d i : ℂ)) st.Z - st.prevE|
      < tol * 0.5 * (objective (diagonal fun i => (d i : ℂ)) st.Z + st.prevE + 1e-7)
  · left
    refine ⟨htest, ?_⟩
    unfold solveStep
    simp only [inv_ok hdet, bind, Except.bind, pure, Except.pure, cols_eq hop, ← Matrix.mul_assoc st.Zᴴ _ st.Z]
    exact if_pos htest
  · right
    have hinv : ¬ ∃ C : Matrix (Fin 1) (Fin 1) ℂ, (diagonal fun i => (d i : ℂ)) * st.Z = st.Z * C := by
      rintro ⟨C, hC⟩
      have g : ∀ x, st.Z x 0 ≠ 0 → (d x : ℂ) = C 0 0 := by
        intro x hx
        have g1 := congrFun (congrFun hC x) 0
        rw [diagonal_mul, mul_apply, Fin.sum_univ_one, mul_comm] at g1
        exact mul_left_cancel₀ hx g1
      exact hpq (by exact_mod_cast (g p ((hsup p).2 (Or.inl rfl))).trans (g q ((hsup q).2 (Or.inr (Or.inl rfl)))).symm)
    obtain ⟨st', h1, h2, -⟩ := C128_defined hop hA (diag_form_pos fun i => neg_pos.2 (inv_lt_zero.2 (hd i))) hfind (ri := 1) htest h0 hinv
      (Or.inl (Or.inr (Nat.mod_one i)))
    refine ⟨st', h1, ?_, ?_, three_waves_pass hd hpq hpr hqr hN hmin hsup h1 h2⟩
    · obtain ⟨-, -, -, -, -, -, -, -, -, -, -, -, h4, -⟩ := C128_direction hop hA h1 h0
      exact h4
    · obtain ⟨G, hg, γ, D0, theta, hγ, -, hD0, hf, hsc, hD, -⟩ := C128_direction hop hA h1 h0
      obtain ⟨G', hg', -, hiff⟩ := C128_stationary hA st.Z hdet h0
      obtain rfl := hg.unique hg'
      have hasc := direction_ascent (diag_form_pos fun i => neg_pos.2 (inv_lt_zero.2 (hd i))) (fun hc => hinv (hiff.1 hc)) (γ := γ) (s := st.dScale) (D := st.D)
        (Or.inl (hγ (Or.inr (Nat.mod_one i))))
      rw [← hD0] at hasc
      refine progress_of_ascent hop hA hmin h1 h0 h2 hg ?_
      rw [hD, Matrix.mul_smul, trace_smul, smul_eq_mul, re_ofReal_mul, hsc]
      exact mul_ne_zero (div_ne_zero (by norm_num) hf) hasc.ne'

/-- **The hypotheses of `C163_one_mode` are met**: without a tolerance and with a reset at every pass, the search from a sum of three plane waves with different
eigenvalues never ends. -/
theorem three_waves_run {d : N → ℝ} (hd : ∀ i, d i < 0) {p q r : N} (hpq : d p ≠ d q) (hpr : d p ≠ d r) (hqr : d q ≠ d r) :
    ∃ lib : SolveLib 1, SolveLibOk lib ∧ ExactSearch lib ∧ ∃ st : ℕ → SolveState N 1,
      ∀ i, solveStep (fun v i => (d i : ℂ) * v i) (fun v i => ((-(d i)⁻¹ : ℝ) : ℂ) * v i) lib 0 1 i (st i) = .ok (false, st (i + 1)) := by
  obtain ⟨lib, hl, hmin, hfind⟩ := exact_search_exists (M := 1)
  refine ⟨lib, hl, hmin, ?_⟩
  let S := {st : SolveState N 1 // ∀ x, st.Z x 0 ≠ 0 ↔ x = p ∨ x = q ∨ x = r}
  have hnext : ∀ (i : ℕ) (s : S), ∃ s' : S, solveStep (fun v i => (d i : ℂ) * v i) (fun v i => ((-(d i)⁻¹ : ℝ) : ℂ) * v i) lib 0 1 i s.1 = .ok (false, s'.1) := by
    intro i s
    rcases three_waves_step hd hpq hpr hqr hmin hfind 0 i s.2 with h | ⟨st', h, -, -, h2⟩
    · have := h.1.2
      rw [zero_mul, zero_mul] at this
      exact absurd this (not_lt.2 (abs_nonneg _))
    · exact ⟨⟨st', h2⟩, h⟩
  choose next hn using hnext
  let s0 : S := ⟨{ Z := of fun x _ => if x = p ∨ x = q ∨ x = r then 1 else 0, D := 0, ZtZ := 0, prevE := 0, prevTr := 0, dScale := 1 }, fun x => by simp; tauto⟩
  let s : ℕ → S := fun n => Nat.rec s0 next n
  exact ⟨fun n => (s n).1, fun i => hn i (s i)⟩

/-- **The hypotheses of `C162_eigsolve` are met**, and the first case of `C162_one_mode` is: with a reset at every pass, the search from a sum of three plane
waves with different eigenvalues ends with its test, at every positive tolerance. -/
theorem three_waves_stop {d : N → ℝ} (hd : ∀ i, d i < 0) {p q r : N} (hpq : d p ≠ d q) (hpr : d p ≠ d r) (hqr : d q ≠ d r) {lib : SolveLib 1}
    (hl : SolveLibOk lib) (hmin : ExactSearch lib)
    (hfind : ∀ f, (∃ theta ∈ Set.Icc 0 Real.pi, ∃ a, f theta = .ok a ∧ ∀ phi ∈ Set.Icc 0 Real.pi, ∀ b, f phi = .ok b → a ≤ b) → ∃ theta, lib.minimize f = .ok theta)
    (draw : ℕ → Matrix N (Fin 1) ℂ) (fuel : ℕ) {tol : ℝ} (htol : 0 < tol) {mi : ℕ} {Z0 : Matrix N (Fin 1) ℂ} (hsup : ∀ x, Z0 x 0 ≠ 0 ↔ x = p ∨ x = q ∨ x = r)
    (hmi : 1 + (1 / tol + 1 / 2) * Real.log (1 + 2e7 * |(trace (Z0ᴴ * (diagonal fun i => (d i : ℂ)) * Z0 * (Z0ᴴ * Z0)⁻¹)).re|) < mi) :
    ∃ vals vecs, eigsolve (fun v i => (d i : ℂ) * v i) (fun v i => ((-(d i)⁻¹ : ℝ) : ℂ) * v i) lib draw (fuel + 2) tol mi 1 Z0 = .ok (true, vals, vecs) := by
  have hop : ∀ v : N → ℂ, (fun i => (d i : ℂ) * v i) = (diagonal fun i => (d i : ℂ)) *ᵥ v := fun v => by
    funext i; rw [mulVec_diagonal]
  have hA : (diagonal fun i => (d i : ℂ)).IsHermitian := by
    rw [IsHermitian, diagonal_conjTranspose]
    congr 1
    funext i
    simp
  have hdet : (Z0ᴴ * Z0).det ≠ 0 := by
    intro hc
    rw [det_fin_one] at hc
    have h1 := trace_gram_re Z0
    rw [trace_fin_one, hc, zero_re] at h1
    exact (hsup p).2 (Or.inl rfl) (congrFun (congrFun (fnorm_eq_zero.1 (pow_eq_zero_iff two_ne_zero |>.1 h1.symm)) p) 0)
  have hloop : ∀ (n i : ℕ) (st : SolveState N 1), (∀ x, st.Z x 0 ≠ 0 ↔ x = p ∨ x = q ∨ x = r) →
      ∃ stop st', solveLoop (fun v i => (d i : ℂ) * v i) (fun v i => ((-(d i)⁻¹ : ℝ) : ℂ) * v i) lib tol 1 n i st = .ok (stop, st')
        ∧ ∀ x, st'.Z x 0 ≠ 0 ↔ x = p ∨ x = q ∨ x = r := by
    intro n
    induction n with
    | zero => exact fun i st h => ⟨false, st, rfl, h⟩
    | succ n ih =>
      intro i st h2
      rw [solveLoop]
      rcases three_waves_step hd hpq hpr hqr hmin hfind tol i h2 with ⟨-, h⟩ | ⟨st', h, -, -, h4⟩
      · refine ⟨true, { st with ZtZ := st.Zᴴ * st.Z }, ?_, h2⟩
        rw [h]; rfl
      · rw [h]
        simp only [bind, Except.bind, pure, Except.pure, Bool.false_eq_true, if_false]
        exact ih (i + 1) st' h4
  obtain ⟨own, Z, W, hI, hZW, hW, -⟩ := C99_independent_guess hl one_pos draw fuel 0 true Z0 hdet
  have hsupZ : ∀ x, Z x 0 ≠ 0 ↔ x = p ∨ x = q ∨ x = r := by
    intro x
    rw [hZW, mul_apply, Fin.sum_univ_one, mul_ne_zero_iff, and_iff_left (by rwa [det_fin_one] at hW), hsup]
  obtain ⟨stop, st', hL, h2⟩ := hloop mi 0 { Z := Z, D := 0, ZtZ := Zᴴ * Z, prevE := 0, prevTr := 0, dScale := 1 } hsupZ
  have hst : (st'.Zᴴ * st'.Z).det ≠ 0 := by
    intro hc
    rw [det_fin_one] at hc
    have h1 := trace_gram_re st'.Z
    rw [trace_fin_one, hc, zero_re] at h1
    exact (h2 p).2 (Or.inl rfl) (congrFun (congrFun (fnorm_eq_zero.1 (pow_eq_zero_iff two_ne_zero |>.1 h1.symm)) p) 0)
  exact C162_returns hop hA hl (fun f theta a b h1 h2 h3 => hmin f theta h1 0 ⟨le_rfl, Real.pi_pos.le⟩ a b h2 h3) htol hmi hI hZW hW hL hst

/-- The hypotheses of `C162_decay` and `C162_passes` are met: with a small enough tolerance the loop runs out of two passes. -/
theorem three_waves_two {d : N → ℝ} (hd : ∀ i, d i < 0) {p q r : N} (hpq : d p ≠ d q) (hpr : d p ≠ d r) (hqr : d q ≠ d r) {lib : SolveLib 1}
    (hmin : ExactSearch lib)
    (hfind : ∀ f, (∃ theta ∈ Set.Icc 0 Real.pi, ∃ a, f theta = .ok a ∧ ∀ phi ∈ Set.Icc 0 Real.pi, ∀ b, f phi = .ok b → a ≤ b) → ∃ theta, lib.minimize f = .ok theta)
    {st : SolveState N 1} (hsup : ∀ x, st.Z x 0 ≠ 0 ↔ x = p ∨ x = q ∨ x = r) :
    ∃ tol > 0, ∃ st', solveLoop (fun v i => (d i : ℂ) * v i) (fun v i => ((-(d i)⁻¹ : ℝ) : ℂ) * v i) lib tol 1 2 0 st = .ok (false, st') := by
  rcases three_waves_step hd hpq hpr hqr hmin hfind 0 0 hsup with h | ⟨s1, h1, hE, hlt, hs1⟩
  · exact absurd h.1.1 (lt_irrefl _)
  have hnn : 0 ≤ objective (diagonal fun i => (d i : ℂ)) s1.Z := abs_nonneg _
  set E0 := objective (diagonal fun i => (d i : ℂ)) st.Z
  set E1 := objective (diagonal fun i => (d i : ℂ)) s1.Z with hE1
  have hS : 0 < E1 + E0 + 1e-7 := by linarith
  have htol : 0 < (E0 - E1) / (E1 + E0 + 1e-7) := div_pos (by linarith) hS
  refine ⟨_, htol, ?_⟩
  have h1' : solveStep (fun v i => (d i : ℂ) * v i) (fun v i => ((-(d i)⁻¹ : ℝ) : ℂ) * v i) lib ((E0 - E1) / (E1 + E0 + 1e-7)) 1 0 st = .ok (false, s1) := by
    rw [← h1]
    unfold solveStep
    simp only [lt_self_iff_false, false_and, if_false]
  rcases three_waves_step hd hpq hpr hqr hmin hfind ((E0 - E1) / (E1 + E0 + 1e-7)) 1 hs1 with h | ⟨s2, h2, -, -, -⟩
  · exfalso
    have h3 := h.1.2
    rw [← hE1, hE, abs_sub_comm, abs_of_pos (by linarith)] at h3
    have h4 : (E0 - E1) / (E1 + E0 + 1e-7) * 0.5 * (E1 + E0 + 1e-7) = (E0 - E1) * 0.5 := by field_simp
    rw [h4] at h3
    linarith
  · refine ⟨s2, ?_⟩
    rw [solveLoop, h1']
    simp only [bind, Except.bind, pure, Except.pure, Bool.false_eq_true, if_false]
    rw [solveLoop, h2]
    simp only [bind, Except.bind, pure, Except.pure, Bool.false_eq_true, if_false]
    rfl
end

/-- **The hypotheses of `C163_bloch` are met** in vacuum, on every grid of three cells along x. -/
theorem C163_bloch_case {sh : Fin 3 → ℕ} (hx : sh 0 = 3) (hy : 0 < sh 1) (hz : 0 < sh 2) :
    let k0 : Fin 3 → ℝ := fun c => if c = 0 then 3 else 0
    Regular k0 1 sh ∧ (∀ (x : Idx sh) (k : Fin 3 → ℝ), IsWave k0 1 k x → k ≠ 0) ∧ PosReal (fun _ _ => 1 : VField sh ℂ) ∧ ∃ op iop : Hmn sh → Hmn sh,
      (∀ h, maxwellOperator k0 1 (fun _ _ => 1) h = some (op h)) ∧ (∀ h, inverseMaxwellOperatorApprox k0 1 (fun _ _ => 1) h = some (iop h))
      ∧ ∃ lib : SolveLib 1, SolveLibOk lib ∧ ExactSearch lib ∧ ∃ st : ℕ → SolveState (Fin 2 × Idx sh) 1,
        ∀ i, solveStep (flat op) (flat iop) lib 0 1 i (st i) = .ok (false, st (i + 1)) := by
  intro k0
  obtain ⟨hreg, hk, hp, op, iop, h1, h2, a, p0, p1, p2, hapos, a0, a1, a2, f1, f2⟩ := vacuum_waves hx hy hz
  obtain ⟨lib, hl, hmin, st, hst⟩ := three_waves_run (d := fun p => -a p) (fun p => neg_lt_zero.2 (hapos p)) (p := p0) (q := p1) (r := p2)
    (by rw [a0, a1]; norm_num) (by rw [a0, a2]; norm_num) (by rw [a1, a2]; norm_num)
  refine ⟨hreg, hk, hp, op, iop, h1, h2, lib, hl, hmin, st, ?_⟩
  rw [f1, f2]
  exact hst

end Meanas.Props
