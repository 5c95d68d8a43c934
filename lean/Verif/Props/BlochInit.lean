/-
Property C99: the initial guess of `eigsolve` in meanas/fdfd/bloch.py; the effect of `eigsolve` on the caller's guess (C95).
-/
import Verif.Props.BlochSolve
import Mathlib.LinearAlgebra.Matrix.Rank

set_option linter.unusedSectionVars false

namespace Meanas.Props

open Complex Matrix Meanas.Bloch
open scoped ComplexOrder MatrixOrder

variable {N : Type} [Fintype N] {M : ℕ}

theorem trace_gram (Z : Matrix N (Fin M) ℂ) : trace (Zᴴ * Z) = ((fnorm Z ^ 2 : ℝ) : ℂ) := by
  rw [fnorm_sq, trace]
  push_cast
  rw [Finset.sum_comm]
  refine Finset.sum_congr rfl fun j _ => ?_
  rw [diag_apply, mul_apply]
  exact Finset.sum_congr rfl fun i _ => by rw [conjTranspose_apply, star_def, ← normSq_eq_conj_mul_self]

theorem fnorm_nonneg (Z : Matrix N (Fin M) ℂ) : 0 ≤ fnorm Z := Real.sqrt_nonneg _

theorem fnorm_smul (c : ℝ) (hc : 0 ≤ c) (Z : Matrix N (Fin M) ℂ) : fnorm ((c : ℂ) • Z) = c * fnorm Z := by
  have h : fnorm ((c : ℂ) • Z) ^ 2 = (c * fnorm Z) ^ 2 := by
    rw [mul_pow, fnorm_sq, fnorm_sq, Finset.mul_sum]
    refine Finset.sum_congr rfl fun i _ => ?_
    rw [Finset.mul_sum]
    refine Finset.sum_congr rfl fun j _ => ?_
    rw [Matrix.smul_apply, smul_eq_mul, normSq_mul, normSq_ofReal]; ring
  exact (pow_left_inj₀ (fnorm_nonneg _) (mul_nonneg hc (fnorm_nonneg _)) two_ne_zero).1 h

theorem gram_smul (c : ℝ) (Z : Matrix N (Fin M) ℂ) : ((c : ℂ) • Z)ᴴ * ((c : ℂ) • Z) = ((c ^ 2 : ℝ) : ℂ) • (Zᴴ * Z) := by
  rw [conjTranspose_smul, Matrix.smul_mul, Matrix.mul_smul, smul_smul, star_def, conj_ofReal]
  push_cast
  rw [sq]

theorem fnorm_ne_zero (hM : 0 < M) {Z : Matrix N (Fin M) ℂ} (hd : (Zᴴ * Z).det ≠ 0) : fnorm Z ≠ 0 := by
  intro h
  apply hd
  have hz : Z = 0 := by
    ext i j
    have h0 : ∑ i, ∑ j, normSq (Z i j) = 0 := by rw [← fnorm_sq, h]; norm_num
    have h1 := (Finset.sum_eq_zero_iff_of_nonneg fun i _ => Finset.sum_nonneg fun j _ => normSq_nonneg _).1 h0 i (Finset.mem_univ i)
    exact normSq_eq_zero.1 ((Finset.sum_eq_zero_iff_of_nonneg fun j _ => normSq_nonneg _).1 h1 j (Finset.mem_univ j))
  rw [hz, Matrix.mul_zero]
  have : Nonempty (Fin M) := ⟨⟨0, hM⟩⟩
  exact det_zero

theorem scaled_gram (hM : 0 < M) {Z : Matrix N (Fin M) ℂ} (hd : (Zᴴ * Z).det ≠ 0) :
    fnorm ((M / fnorm Z : ℂ) • Z) = M ∧ (((M / fnorm Z : ℂ) • Z)ᴴ * ((M / fnorm Z : ℂ) • Z)).det ≠ 0 := by
  have hn := fnorm_ne_zero hM hd
  have hc : (M / fnorm Z : ℂ) = ((M / fnorm Z : ℝ) : ℂ) := by push_cast; rfl
  have hM0 : (M : ℝ) ≠ 0 := Nat.cast_ne_zero.2 hM.ne'
  rw [hc]
  constructor
  · rw [fnorm_smul _ (div_nonneg (Nat.cast_nonneg _) (fnorm_nonneg _)), div_mul_cancel₀ _ hn]
  · rw [gram_smul, det_smul]
    refine mul_ne_zero (pow_ne_zero _ ?_) hd
    exact ofReal_ne_zero.2 (pow_ne_zero _ (div_ne_zero hM0 hn))

/-- The block of line 580 is orthonormal. -/
theorem sqrtm_orthonormal {lib : SolveLib M} (hl : SolveLibOk lib) {Z : Matrix N (Fin M) ℂ} (hd1 : (Zᴴ * Z).det ≠ 0) :
    (Z * (lib.sqrtm (Zᴴ * Z)⁻¹)ᴴ)ᴴ * (Z * (lib.sqrtm (Zᴴ * Z)⁻¹)ᴴ) = 1 := by
  obtain ⟨hS, hSS⟩ := hl.sqrtm _ (posDef_gram hd1).inv
  set S := lib.sqrtm (Zᴴ * Z)⁻¹ with hSd
  have hSh : Sᴴ = S := hS.isHermitian
  have hu : IsUnit (Zᴴ * Z).det := isUnit_iff_ne_zero.2 hd1
  have hSu : IsUnit S.det := isUnit_iff_ne_zero.2 hS.det_pos.ne'
  have e : Zᴴ * Z = S⁻¹ * S⁻¹ := by
    rw [← Matrix.mul_inv_rev, hSS, nonsing_inv_nonsing_inv _ hu]
  rw [hSh, conjTranspose_mul, hSh]
  calc S * Zᴴ * (Z * S) = S * (Zᴴ * Z) * S := by simp only [Matrix.mul_assoc]
    _ = (S * S⁻¹) * (S⁻¹ * S) := by rw [e]; simp only [Matrix.mul_assoc]
    _ = 1 := by rw [mul_nonsing_inv _ hSu, nonsing_inv_mul _ hSu, Matrix.one_mul]

/-- An orthonormal block passes the test of line 579 after rescaling. -/
theorem orthonormal_trace (hM : 0 < M) {Y : Matrix N (Fin M) ℂ} (h : Yᴴ * Y = 1) :
    (trace (((M / fnorm Y : ℂ) • Y)ᴴ * ((M / fnorm Y : ℂ) • Y))⁻¹).re = 1 := by
  have hMc : (M : ℂ) ≠ 0 := Nat.cast_ne_zero.2 hM.ne'
  have hM0 : (M : ℝ) ≠ 0 := Nat.cast_ne_zero.2 hM.ne'
  have hf2 : fnorm Y ^ 2 = M := by
    have := trace_gram Y
    rw [h, trace_one, Fintype.card_fin] at this
    exact_mod_cast this.symm
  have hc : (M / fnorm Y : ℂ) = ((M / fnorm Y : ℝ) : ℂ) := by push_cast; rfl
  have hq : (M : ℝ) ^ 2 / M = M := by field_simp
  rw [hc, gram_smul, h, div_pow, hf2, hq]
  have hinv : (((M : ℝ) : ℂ) • (1 : Matrix (Fin M) (Fin M) ℂ))⁻¹ = (M : ℂ)⁻¹ • (1 : Matrix (Fin M) (Fin M) ℂ) := by
    refine Matrix.inv_eq_left_inv ?_
    rw [ofReal_natCast, Matrix.smul_mul, Matrix.one_mul, smul_smul, inv_mul_cancel₀ hMc, one_smul]
  rw [hinv, trace_smul, trace_one, Fintype.card_fin, smul_eq_mul, inv_mul_cancel₀ hMc, one_re]

theorem one_not_large (hM : 0 < M) : ¬(1 : ℝ) > 1e8 * M := by
  have : (1 : ℝ) ≤ M := by exact_mod_cast hM
  norm_num
  linarith

/-- **C99.** A guess with linearly independent columns is never replaced by random numbers: whatever they are, two passes suffice, and the main loop
starts from a block that spans the same space, has norm `num_modes` and is not nearly dependent. -/
theorem C99_independent_guess {lib : SolveLib M} (hl : SolveLibOk lib) (hM : 0 < M) (draw : ℕ → Matrix N (Fin M) ℂ) (fuel k : ℕ) (own : Bool)
    (Z0 : Matrix N (Fin M) ℂ) (hd : (Z0ᴴ * Z0).det ≠ 0) :
    ∃ own' Z W, initLoop lib draw (fuel + 2) k own Z0 = .ok (own', Z) ∧ Z = Z0 * W ∧ W.det ≠ 0 ∧ fnorm Z = M ∧ (Zᴴ * Z).det ≠ 0
      ∧ (trace (Zᴴ * Z)⁻¹).re ≤ 1e8 * M
      ∧ (own' = true → own = true) := by
  obtain ⟨hn1, hd1⟩ := scaled_gram hM hd
  have hf := fnorm_ne_zero hM hd
  have hM0 : (M : ℝ) ≠ 0 := Nat.cast_ne_zero.2 hM.ne'
  have hMc : (M : ℂ) ≠ 0 := Nat.cast_ne_zero.2 hM.ne'
  set Z := (M / fnorm Z0 : ℂ) • Z0 with hZ
  have hc0 : (M / fnorm Z0 : ℂ) ≠ 0 := div_ne_zero hMc (ofReal_ne_zero.2 hf)
  have hdetc : ∀ c : ℂ, c ≠ 0 → (c • (1 : Matrix (Fin M) (Fin M) ℂ)).det ≠ 0 := fun c hc => by
    rw [det_smul, det_one, mul_one]; exact pow_ne_zero _ hc
  rw [initLoop, if_neg hf]
  simp only
  rw [← hZ, if_neg hd1]
  by_cases ht : (trace (Zᴴ * Z)⁻¹).re > 1e8 * M
  · rw [if_pos ht]
    have horth := sqrtm_orthonormal hl hd1
    have htr := orthonormal_trace hM horth
    obtain ⟨hS, -⟩ := hl.sqrtm _ (posDef_gram hd1).inv
    set S := lib.sqrtm (Zᴴ * Z)⁻¹ with hSd
    have hSh : Sᴴ = S := hS.isHermitian
    have hd2 : ((Z * Sᴴ)ᴴ * (Z * Sᴴ)).det ≠ 0 := by rw [horth, det_one]; exact one_ne_zero
    obtain ⟨hn3, hd3⟩ := scaled_gram hM hd2
    have hf3 := fnorm_ne_zero hM hd2
    have hle := one_not_large hM
    rw [initLoop, if_neg hf3]
    simp only
    rw [if_neg hd3, htr, if_neg hle]
    refine ⟨false, _, (M / fnorm (Z * Sᴴ) : ℂ) • ((M / fnorm Z0 : ℂ) • Sᴴ), rfl, ?_, ?_, hn3, hd3, ?_, fun h => by cases h⟩
    · rw [hZ]; simp only [Matrix.mul_smul, Matrix.smul_mul]
    · rw [smul_smul, det_smul, show (Sᴴ).det = S.det by rw [hSh]]
      exact mul_ne_zero (pow_ne_zero _ (mul_ne_zero (div_ne_zero hMc (ofReal_ne_zero.2 hf3)) hc0)) hS.det_pos.ne'
    · rw [htr]; exact not_lt.1 hle
  · rw [if_neg ht]
    refine ⟨own, Z, (M / fnorm Z0 : ℂ) • 1, rfl, ?_, hdetc _ hc0, hn1, hd1, not_lt.1 ht, fun h => h⟩
    rw [Matrix.mul_smul, Matrix.mul_one]

open Classical in
theorem init_pass {lib : SolveLib M} (hM : 0 < M) (draw : ℕ → Matrix N (Fin M) ℂ) (fuel k : ℕ) (own : Bool) {Z : Matrix N (Fin M) ℂ}
    (hd : (Zᴴ * Z).det ≠ 0) :
    initLoop lib draw (fuel + 1) k own Z =
      if (trace (((M / fnorm Z : ℂ) • Z)ᴴ * ((M / fnorm Z : ℂ) • Z))⁻¹).re > 1e8 * M then
        initLoop lib draw fuel k false ((M / fnorm Z : ℂ) • Z * (lib.sqrtm (((M / fnorm Z : ℂ) • Z)ᴴ * ((M / fnorm Z : ℂ) • Z))⁻¹)ᴴ)
      else .ok (own, (M / fnorm Z : ℂ) • Z) := by
  rw [initLoop, if_neg (fnorm_ne_zero hM hd)]
  simp only
  rw [if_neg (scaled_gram hM hd).2]

/-- **C99.** The random numbers and the number of passes allowed do not matter for such a guess: `eigsolve` is a function of its arguments. -/
theorem C99_deterministic {lib : SolveLib M} (hl : SolveLibOk lib) (hM : 0 < M) (op iop : (N → ℂ) → N → ℂ) (draw draw' : ℕ → Matrix N (Fin M) ℂ)
    (fuel fuel' : ℕ) (tol : ℝ) (mi ri : ℕ) (Z0 : Matrix N (Fin M) ℂ) (hd : (Z0ᴴ * Z0).det ≠ 0) :
    eigsolve op iop lib draw (fuel + 2) tol mi ri Z0 = eigsolve op iop lib draw' (fuel' + 2) tol mi ri Z0 := by
  have h : initLoop lib draw (fuel + 2) 0 true Z0 = initLoop lib draw' (fuel' + 2) 0 true Z0 := by
    have key : ∀ (d : ℕ → Matrix N (Fin M) ℂ) (f : ℕ), initLoop lib d (f + 2) 0 true Z0 = initLoop lib (fun _ => 0) 2 0 true Z0 := by
      intro d f
      have hd1 := (scaled_gram hM hd).2
      have horth := sqrtm_orthonormal hl hd1
      have h2 : ∀ (Y : Matrix N (Fin M) ℂ), Yᴴ * Y = 1 → ∀ (d : ℕ → Matrix N (Fin M) ℂ) f k own,
          initLoop lib d (f + 1) k own Y = .ok (own, (M / fnorm Y : ℂ) • Y) := fun Y hY d f k own =>
        (init_pass (lib := lib) hM d f k own (by rw [hY, det_one]; exact one_ne_zero)).trans
          (if_neg (by rw [orthonormal_trace hM hY]; exact one_not_large hM))
      rw [init_pass hM d (f + 1) 0 true hd, init_pass hM _ 1 0 true hd, h2 _ horth, h2 _ horth]
    rw [key draw, key draw']
  rw [eigsolve, eigsolve, eigsolveFull, eigsolveFull, h]

/-- **C99.** More modes than unknowns: `eigsolve` never returns. -/
theorem C99_too_many_modes (hM : Fintype.card N < M) (op iop : (N → ℂ) → N → ℂ) (lib : SolveLib M) (draw : ℕ → Matrix N (Fin M) ℂ) (fuel : ℕ) (tol : ℝ)
    (mi ri : ℕ) (Z0 : Matrix N (Fin M) ℂ) (r) : eigsolve op iop lib draw fuel tol mi ri Z0 ≠ .ok r := by
  have hdet : ∀ Z : Matrix N (Fin M) ℂ, (Zᴴ * Z).det = 0 := by
    intro Z
    by_contra h
    have h1 := rank_of_isUnit (Zᴴ * Z) ((isUnit_iff_isUnit_det _).2 (isUnit_iff_ne_zero.2 h))
    have h2 := rank_mul_le_right Zᴴ Z
    have h3 := rank_le_card_height Z
    rw [Fintype.card_fin] at h1
    omega
  have hI : ∀ fuel k own Z r, initLoop lib draw fuel k own Z ≠ .ok r := by
    intro fuel
    induction fuel with
    | zero => intro k own Z r h; cases h
    | succ n ih =>
      intro k own Z r h
      rw [initLoop] at h
      split_ifs at h with h1
      simp only at h
      rw [if_pos (hdet _)] at h
      exact ih _ _ _ _ h
  intro h
  obtain ⟨stop, vals, vecs⟩ := r
  obtain ⟨own, Z, st, h1, -⟩ := eigsolve_ok h
  exact hI _ _ _ _ _ h1

/-! ### The whole run lowers the objective -/

theorem objective_mul (A : Matrix N N ℂ) (Z : Matrix N (Fin M) ℂ) (W : Matrix (Fin M) (Fin M) ℂ) (hW : W.det ≠ 0) :
    objective A (Z * W) = objective A Z := by
  have hu : IsUnit W.det := isUnit_iff_ne_zero.2 hW
  have hu' : IsUnit (Wᴴ).det := by rw [det_conjTranspose]; exact hu.star
  have e1 : (Z * W)ᴴ * (Z * W) = Wᴴ * (Zᴴ * Z) * W := by rw [conjTranspose_mul]; simp only [Matrix.mul_assoc]
  have e2 : (Z * W)ᴴ * A * (Z * W) = Wᴴ * (Zᴴ * A * Z) * W := by rw [conjTranspose_mul]; simp only [Matrix.mul_assoc]
  unfold objective
  rw [e1, e2, Matrix.mul_inv_rev, Matrix.mul_inv_rev]
  have e3 : Wᴴ * (Zᴴ * A * Z) * W * (W⁻¹ * ((Zᴴ * Z)⁻¹ * (Wᴴ)⁻¹)) = Wᴴ * ((Zᴴ * A * Z) * (Zᴴ * Z)⁻¹ * (Wᴴ)⁻¹) := by
    calc _ = Wᴴ * (Zᴴ * A * Z) * (W * W⁻¹) * ((Zᴴ * Z)⁻¹ * (Wᴴ)⁻¹) := by simp only [Matrix.mul_assoc]
      _ = _ := by rw [mul_nonsing_inv _ hu, Matrix.mul_one]; simp only [Matrix.mul_assoc]
  rw [e3, trace_mul_comm, Matrix.mul_assoc, nonsing_inv_mul _ hu', Matrix.mul_one]

theorem loop_rank {op iop : (N → ℂ) → N → ℂ} {lib : SolveLib M} {tol : ℝ} {ri : ℕ} {n i : ℕ} {st st' : SolveState N M}
    (h : solveLoop op iop lib tol ri n i st = .ok (true, st')) : (st.Zᴴ * st.Z).det ≠ 0 := by
  cases n with
  | zero => cases h
  | succ n =>
    rw [solveLoop] at h
    simp only [bind, Except.bind] at h
    cases hs : solveStep op iop lib tol ri i st with
    | error e => rw [hs] at h; cases h
    | ok r =>
      obtain ⟨stop, st1⟩ := r
      exact (step_eq hs).1

theorem loop_descent {op iop : (N → ℂ) → N → ℂ} {A : Matrix N N ℂ} (hop : ∀ v, op v = A *ᵥ v) (hA : A.IsHermitian) {lib : SolveLib M}
    (hmin : ∀ f theta a b, lib.minimize f = .ok theta → f theta = .ok a → f 0 = .ok b → a ≤ b) {tol : ℝ} {ri : ℕ} :
    ∀ {n i : ℕ} {st st' : SolveState N M}, solveLoop op iop lib tol ri n i st = .ok (true, st') → objective A st'.Z ≤ objective A st.Z := by
  intro n
  induction n with
  | zero => intro i st st' h; cases h
  | succ n ih =>
    intro i st st' h
    rw [solveLoop] at h
    simp only [bind, Except.bind, pure, Except.pure] at h
    cases hs : solveStep op iop lib tol ri i st with
    | error e => rw [hs] at h; cases h
    | ok r =>
      obtain ⟨stop, st1⟩ := r
      rw [hs] at h
      cases stop with
      | true =>
        simp only [if_true] at h
        obtain ⟨-, rfl⟩ := Prod.mk.inj (Except.ok.inj h)
        exact le_of_eq (by rw [(step_eq hs).2.2.1 rfl])
      | false =>
        simp only [Bool.false_eq_true, if_false] at h
        exact (ih h).trans (C77_descent hop hA hmin hs (loop_rank h))

/-- **C77, the whole run.** If the line search never returns a point worse than its start, then from a guess with independent columns a run that
converges returns eigenvalues whose sum is, in magnitude, at most the objective of the guess. -/
theorem C77_run_descent {op iop : (N → ℂ) → N → ℂ} {A : Matrix N N ℂ} (hop : ∀ v, op v = A *ᵥ v) (hA : A.IsHermitian) {lib : SolveLib M}
    (hl : SolveLibOk lib) (hM : 0 < M) (hmin : ∀ f theta a b, lib.minimize f = .ok theta → f theta = .ok a → f 0 = .ok b → a ≤ b)
    {draw : ℕ → Matrix N (Fin M) ℂ} {fuel : ℕ} {tol : ℝ} {mi ri : ℕ} {Z0 : Matrix N (Fin M) ℂ} (hd : (Z0ᴴ * Z0).det ≠ 0)
    {vals : Fin M → ℂ} {vecs : Fin M → N → ℂ} (h : eigsolve op iop lib draw (fuel + 2) tol mi ri Z0 = .ok (true, vals, vecs)) :
    |(∑ j, vals j).re| ≤ |(trace (Z0ᴴ * A * Z0 * (Z0ᴴ * Z0)⁻¹)).re| := by
  obtain ⟨own, Z, st, hI, hL, hf⟩ := eigsolve_ok h
  obtain ⟨own', Z', W, hI', hZW, hW, -⟩ := C99_independent_guess hl hM draw fuel 0 true Z0 hd
  rw [hI'] at hI
  obtain ⟨-, rfl⟩ := Prod.mk.inj (Except.ok.inj hI)
  rw [loop_break hL] at hf
  obtain ⟨-, -, -, -, -, ht⟩ := finish_ritz hop hA hl hf
  have h1 := loop_descent hop hA hmin hL
  simp only at h1
  rw [hZW, objective_mul A Z0 W hW] at h1
  rw [ht]
  exact h1

/-! ### The caller's guess (C95) -/

/-- **C95 for `eigsolve`.** A guess that passes the tests of the initial loop is overwritten: when the function returns after convergence, the array holds
a block of full rank whose span contains the returned vectors. -/
theorem C95_bloch_effect {op iop : (N → ℂ) → N → ℂ} {A : Matrix N N ℂ} (hop : ∀ v, op v = A *ᵥ v) (hA : A.IsHermitian) {lib : SolveLib M}
    (hl : SolveLibOk lib) (hM : 0 < M) {draw : ℕ → Matrix N (Fin M) ℂ} {fuel : ℕ} {tol : ℝ} {mi ri : ℕ} {Z0 Y : Matrix N (Fin M) ℂ}
    (hd : (Z0ᴴ * Z0).det ≠ 0) (ht : (fnorm Z0 / M) ^ 2 * (trace (Z0ᴴ * Z0)⁻¹).re ≤ 1e8 * M) {vals : Fin M → ℂ} {vecs : Fin M → N → ℂ}
    (h : eigsolveFull op iop lib draw fuel tol mi ri Z0 = .ok (true, Y, vals, vecs)) :
    (Yᴴ * Y).det ≠ 0 ∧ ∀ j, ∃ w, vecs j = Y *ᵥ w := by
  have hn := fnorm_ne_zero hM hd
  have hM0 : (M : ℝ) ≠ 0 := Nat.cast_ne_zero.2 hM.ne'
  have htr : ¬(trace (((M / fnorm Z0 : ℂ) • Z0)ᴴ * ((M / fnorm Z0 : ℂ) • Z0))⁻¹).re > 1e8 * M := by
    have hc : (M / fnorm Z0 : ℂ) = ((M / fnorm Z0 : ℝ) : ℂ) := by push_cast; rfl
    have hq : (M / fnorm Z0) ^ 2 ≠ 0 := pow_ne_zero _ (div_ne_zero hM0 hn)
    have hinv : (((((M / fnorm Z0) ^ 2 : ℝ) : ℂ)) • (Z0ᴴ * Z0))⁻¹ = (((fnorm Z0 / M) ^ 2 : ℝ) : ℂ) • (Z0ᴴ * Z0)⁻¹ := by
      refine Matrix.inv_eq_left_inv ?_
      rw [Matrix.smul_mul, Matrix.mul_smul, nonsing_inv_mul _ (isUnit_iff_ne_zero.2 hd), smul_smul, ← ofReal_mul]
      have : (fnorm Z0 / M) ^ 2 * (M / fnorm Z0) ^ 2 = 1 := by field_simp
      rw [this, ofReal_one, one_smul]
    rw [hc, gram_smul, hinv, trace_smul, smul_eq_mul, re_ofReal_mul]
    exact not_lt.2 ht
  cases fuel with
  | zero => unfold eigsolveFull initLoop at h; cases h
  | succ fuel =>
    unfold eigsolveFull at h
    rw [init_pass hM draw fuel 0 true hd, if_neg htr] at h
    simp only [bind, Except.bind, pure, Except.pure, if_true] at h
    revert h
    generalize hL : solveLoop op iop lib tol ri mi 0 _ = r
    intro h
    cases r with
    | error e => cases h
    | ok r =>
      obtain ⟨stop', st⟩ := r
      simp only at h
      cases hf : solveFinish op lib st.Z st.ZtZ with
      | error e => rw [hf] at h; cases h
      | ok p =>
        rw [hf] at h
        obtain ⟨e1, e2⟩ := Prod.mk.inj (Except.ok.inj h)
        subst e1
        obtain ⟨rfl, e3⟩ := Prod.mk.inj e2
        obtain ⟨rfl, rfl⟩ := Prod.mk.inj e3
        rw [loop_break hL] at hf
        obtain ⟨hd', -, hs, -⟩ := finish_ritz hop hA hl hf
        exact ⟨hd', hs⟩

/-- **C95 is false for `eigsolve`:** the guess passed as `y0` does not survive the call. On every grid with two cells along x, with `epsilon = 1` and Bloch
vector `(1, 0, 0)`, there is a guess of norm 1 that differs after the call, whatever angle other than a multiple of a right angle the line search
returns. `find_k` passes the eigenvectors of the previous call as the guess, and so overwrites those it has handed to `solve_callback`. -/
theorem C95_bloch_guess_overwritten_partial {sh : Fin 3 → ℕ} (hx : sh 0 = 2) (hy : 0 < sh 1) (hz : 0 < sh 2)
    {lib : SolveLib 1} (hl : SolveLibOk lib) {theta : ℝ} (hth : Real.sin theta * Real.cos theta ≠ 0) (hm : ∀ f, lib.minimize f = .ok theta)
    (draw : ℕ → Matrix (Fin 2 × Idx sh) (Fin 1) ℂ) (fuel : ℕ) (tol : ℝ) (ri : ℕ) :
    ∃ op iop : Hmn sh → Hmn sh, (∀ h, maxwellOperator (fun c => if c = 0 then 1 else 0) 1 (fun _ _ => 1) h = some (op h))
      ∧ (∀ h, inverseMaxwellOperatorApprox (fun c => if c = 0 then 1 else 0) 1 (fun _ _ => 1) h = some (iop h))
      ∧ ∃ Z0 Y vals vecs, fnorm Z0 = 1 ∧ eigsolveFull (flat op) (flat iop) lib draw (fuel + 1) tol 1 ri Z0 = .ok (false, Y, vals, vecs) ∧ fnorm Y ≠ 1
        ∧ Y ≠ Z0 := by
  obtain ⟨op, iop, h1, h2, Z0, Y, vals, vecs, h3, h4, h5, -⟩ := stale_witness hx hy hz hl hth hm draw fuel tol ri
  exact ⟨op, iop, h1, h2, Z0, Y, vals, vecs, h4, h3, h5, fun h => h5 (by rw [h, h4])⟩

/-- The scaled block has a singular Gram matrix if the block has. -/
theorem scaled_gram_zero (c : ℂ) {Z : Matrix N (Fin M) ℂ} (h : (Zᴴ * Z).det = 0) : ((c • Z)ᴴ * (c • Z)).det = 0 := by
  rw [conjTranspose_smul, Matrix.smul_mul, Matrix.mul_smul, smul_smul, det_smul, h, mul_zero]

/-- **C99.** A guess with linearly dependent columns is dropped, and so is every random block with dependent columns: each pass takes a fresh block, until
one is independent. The main loop then starts from a block that spans the same space as this one, whatever the guess was. -/
theorem C99_redraw {lib : SolveLib M} (hl : SolveLibOk lib) (hM : 0 < M) (draw : ℕ → Matrix N (Fin M) ℂ) (fuel k j : ℕ) (own : Bool)
    (Z0 : Matrix N (Fin M) ℂ) (h0 : Z0 ≠ 0) (hd : (Z0ᴴ * Z0).det = 0) (hbad : ∀ i < j, draw (k + i) ≠ 0 ∧ ((draw (k + i))ᴴ * draw (k + i)).det = 0)
    (hgood : ((draw (k + j))ᴴ * draw (k + j)).det ≠ 0) :
    ∃ Z W, initLoop lib draw (fuel + 2 + (j + 1)) k own Z0 = .ok (false, Z) ∧ Z = draw (k + j) * W ∧ W.det ≠ 0 ∧ fnorm Z = M
      ∧ (trace (Zᴴ * Z)⁻¹).re ≤ 1e8 * M := by
  have hf : ∀ Y : Matrix N (Fin M) ℂ, Y ≠ 0 → fnorm Y ≠ 0 := by
    intro Y hY h
    apply hY
    have h1 := trace_gram Y
    rw [h] at h1
    simp only [ne_eq, OfNat.ofNat_ne_zero, not_false_eq_true, zero_pow, ofReal_zero] at h1
    exact trace_conjTranspose_mul_self_eq_zero_iff.1 h1
  induction j generalizing k own Z0 with
  | zero =>
    rw [initLoop, if_neg (hf Z0 h0)]
    simp only
    rw [if_pos (scaled_gram_zero _ hd)]
    obtain ⟨own', Z, W, h1, h2, h3, h4, -, h6, h7⟩ := C99_independent_guess hl hM draw fuel (k + 1) false (draw k) hgood
    have : own' = false := by
      cases own' with
      | false => rfl
      | true => exact absurd (h7 rfl) (by decide)
    subst this
    exact ⟨Z, W, h1, h2, h3, h4, h6⟩
  | succ j ih =>
    rw [show fuel + 2 + (j + 1 + 1) = fuel + 2 + (j + 1) + 1 by ring, initLoop, if_neg (hf Z0 h0)]
    simp only
    rw [if_pos (scaled_gram_zero _ hd)]
    obtain ⟨h1, h2⟩ := hbad 0 (by omega)
    have e : k + (j + 1) = k + 1 + j := by ring
    rw [e] at hgood ⊢
    exact ih (k + 1) false (draw k) h1 h2 (fun i hi => by
      have := hbad (i + 1) (by omega)
      rwa [show k + (i + 1) = k + 1 + i by ring] at this) hgood

/-! ### Cases meeting the hypotheses -/

/-- A guess with two equal columns, then a random block with two equal columns, then the identity. -/
example : ∃ lib : SolveLib 2, ∃ Z W, initLoop lib (fun k => if k = 0 then !![2, 2; 0, 0] else 1) 4 0 true !![1, 1; 0, 0] = .ok (false, Z)
    ∧ Z = (1 : Matrix (Fin 2) (Fin 2) ℂ) * W ∧ W.det ≠ 0 := by
  obtain ⟨lib, hl, -⟩ := solveLibOk_exists (M := 2) fun _ => .error "unused"
  have nz : ∀ z : ℂ, z ≠ 0 → (!![z, z; 0, 0] : Matrix (Fin 2) (Fin 2) ℂ) ≠ 0 := fun z hz h => hz (by have := congrFun (congrFun h 0) 0; simpa using this)
  have sg : ∀ z : ℂ, ((!![z, z; 0, 0] : Matrix (Fin 2) (Fin 2) ℂ)ᴴ * !![z, z; 0, 0]).det = 0 := fun z => by
    rw [det_mul]; simp [det_fin_two]
  obtain ⟨Z, W, h1, h2, h3, -⟩ := C99_redraw hl (by norm_num) (fun k => if k = 0 then !![2, 2; 0, 0] else (1 : Matrix (Fin 2) (Fin 2) ℂ)) 0 0 1 true
    !![1, 1; 0, 0] (nz 1 one_ne_zero) (sg 1) (fun i hi => by
      obtain rfl : i = 0 := by omega
      exact ⟨nz 2 two_ne_zero, sg 2⟩) (by simp)
  exact ⟨lib, Z, W, h1, h2, h3⟩

/-- A nearly dependent guess is accepted, whatever the random numbers. -/
example (draw : ℕ → Matrix (Fin 2) (Fin 2) ℂ) : ∃ lib : SolveLib 2, ∃ own Z W, initLoop lib draw 2 0 true !![1, 1; 0, 1 / 10 ^ 9] = .ok (own, Z)
    ∧ Z = !![1, 1; 0, 1 / 10 ^ 9] * W ∧ W.det ≠ 0 := by
  obtain ⟨lib, hl, -⟩ := solveLibOk_exists (M := 2) fun _ => .error "unused"
  obtain ⟨own, Z, W, h1, h2, h3, -⟩ := C99_independent_guess hl (by norm_num) draw 0 0 true !![1, 1; 0, 1 / 10 ^ 9] (by
    rw [det_mul, det_conjTranspose]
    refine mul_ne_zero ?_ ?_ <;> simp [det_fin_two])
  exact ⟨lib, own, Z, W, h1, h2, h3⟩

/-- The hypotheses of `C77_run_descent` and `C95_bloch_effect` are met by a converging run, for a line search that stays at its start. -/
example : ∃ (lib : SolveLib 1) (op iop : (Fin 2 → ℂ) → Fin 2 → ℂ) (A : Matrix (Fin 2) (Fin 2) ℂ) (Z0 Y : Matrix (Fin 2) (Fin 1) ℂ) (vals : Fin 1 → ℂ)
    (vecs : Fin 1 → Fin 2 → ℂ), eigsolveFull op iop lib (fun _ => 0) 2 2 10 5 Z0 = .ok (true, Y, vals, vecs)
      ∧ |(∑ j, vals j).re| ≤ |(trace (Z0ᴴ * A * Z0 * (Z0ᴴ * Z0)⁻¹)).re| ∧ ∀ j, ∃ w, vecs j = Y *ᵥ w := by
  obtain ⟨lib, op, iop, A, Z0, vals, vecs, h1, h2, h3, ⟨h4, -⟩, h5, h6⟩ := converging_run 0
  obtain ⟨Y, h⟩ := h6 (fun _ => 0) 1
  have hd : (Z0ᴴ * Z0).det ≠ 0 := by rw [h5, det_one]; exact one_ne_zero
  have hf : fnorm Z0 ^ 2 = 1 := by
    have := trace_gram Z0
    rw [h5, trace_one, Fintype.card_fin] at this
    exact_mod_cast this.symm
  refine ⟨lib, op, iop, A, Z0, Y, vals, vecs, h, ?_, ?_⟩
  · refine C77_run_descent (draw := fun _ => 0) (fuel := 0) (tol := 2) (mi := 10) (ri := 5) h3 h4 h1 one_pos (fun f theta a b e1 e2 e3 => ?_) hd
      (vecs := vecs) (by rw [eigsolve, h]; rfl)
    rw [h2] at e1
    rw [← Except.ok.inj e1, e3] at e2
    exact le_of_eq (Except.ok.inj e2).symm
  · refine (C95_bloch_effect h3 h4 h1 one_pos hd ?_ h).2
    rw [h5, inv_one, trace_one, Nat.cast_one, div_one, hf]
    norm_num

end Meanas.Props
