/-
Properties C77-C79: the eigenvalue iteration of meanas/fdfd/bloch.py.
-/
import Verif.Model.BlochSolve
import Verif.Props.Bloch
import Mathlib.Analysis.Matrix.PosDef
import Mathlib.Analysis.Matrix.Order
import Mathlib.Analysis.Matrix.Spectrum
import Mathlib.Data.Fin.Tuple.Sort
import Mathlib.Algebra.Order.Ring.Star

set_option linter.unusedSectionVars false

namespace Meanas.Props

open Complex Matrix Meanas.Bloch
open scoped ComplexOrder MatrixOrder

variable {N : Type} [Fintype N] {M : ℕ}

/-! ### The Bloch operators are Hermitian matrices -/

/-- **C59, as matrices.** In the raveled ordering, the Maxwell operator is multiplication by a Hermitian, negative semidefinite matrix. -/
theorem C59_matrix_partial {sh : Fin 3 → ℕ} (k0 : Fin 3 → ℝ) (G : Matrix (Fin 3) (Fin 3) ℝ) (hr : Regular k0 G sh) {eps : VField sh ℂ}
    (he : PosReal eps) :
    ∃ A : Matrix (Fin 2 × Idx sh) (Fin 2 × Idx sh) ℂ, (-A).PosSemidef
      ∧ ∀ h : Hmn sh, maxwellOperator k0 G eps h = some fun i x => (A *ᵥ fun p => h p.1 p.2) (i, x) := by
  classical
  obtain ⟨op, hop, hh, hn, -⟩ := C59_hermitian_partial k0 G hr he
  let dl : Fin 2 × Idx sh → Hmn sh := fun p i x => if p = (i, x) then 1 else 0
  let A : Matrix (Fin 2 × Idx sh) (Fin 2 × Idx sh) ℂ := of fun p q => (starRingEnd ℂ) (op (dl p) q.1 q.2)
  have hd : ∀ p (u : Hmn sh), hip (dl p) u = u p.1 p.2 := by
    rintro ⟨i, x⟩ u
    unfold hip
    rw [← Fintype.sum_prod_type']
    simp only [dl, apply_ite (starRingEnd ℂ), map_one, map_zero, ite_mul, one_mul, zero_mul]
    simp
  have hA : ∀ u p, op u p.1 p.2 = (A *ᵥ fun q => u q.1 q.2) p := by
    intro u p
    rw [← hd p (op u), hh]
    unfold hip
    rw [← Fintype.sum_prod_type']
    rfl
  have hq : ∀ u : Hmn sh, hip u (op u) = star (fun q : Fin 2 × Idx sh => u q.1 q.2) ⬝ᵥ (A *ᵥ fun q => u q.1 q.2) := by
    intro u
    unfold hip
    rw [← Fintype.sum_prod_type']
    exact Finset.sum_congr rfl fun p _ => by rw [hA u p]; rfl
  refine ⟨A, ?_, fun h => ?_⟩
  · refine PosSemidef.of_dotProduct_mulVec_nonneg ?_ fun v => ?_
    · refine IsHermitian.neg ?_
      ext p q
      rw [conjTranspose_apply]
      show star ((starRingEnd ℂ) (op (dl q) p.1 p.2)) = (starRingEnd ℂ) (op (dl p) q.1 q.2)
      rw [← hd q (op (dl p)), hh, ← hd p (op (dl q))]
      unfold hip
      simp only [map_sum, map_mul, conj_conj, star_def, mul_comm]
    · have h := hn fun i x => v (i, x)
      rw [hq] at h
      rw [neg_mulVec, dotProduct_neg, Complex.le_def]
      constructor
      · rw [neg_re]; simpa using h.2
      · rw [neg_im, h.1]; simp
  · rw [hop]
    congr 1
    funext i x
    exact hA h (i, x)

/-! ### The line search -/

/-- The quantity that `eigsolve` minimises (its docstring): the trace of `Zᴴ A Z (Zᴴ Z)⁻¹`, in magnitude. -/
noncomputable def objective (A : Matrix N N ℂ) (Z : Matrix N (Fin M) ℂ) : ℝ := |(trace (Zᴴ * A * Z * (Zᴴ * Z)⁻¹)).re|

theorem cols_eq {op : (N → ℂ) → N → ℂ} {A : Matrix N N ℂ} (h : ∀ v, op v = A *ᵥ v) (Z : Matrix N (Fin M) ℂ) : cols op Z = A * Z := by
  ext i j
  show op _ i = _
  rw [h]
  rfl

theorem inv_ok {B : Matrix (Fin M) (Fin M) ℂ} (h : B.det ≠ 0) : Bloch.inv B = .ok B⁻¹ := by
  unfold Bloch.inv
  rw [if_neg h]

theorem inv_eq_ok {B U : Matrix (Fin M) (Fin M) ℂ} (h : Bloch.inv B = .ok U) : B.det ≠ 0 ∧ U = B⁻¹ := by
  unfold Bloch.inv at h
  split_ifs at h with hd
  exact ⟨hd, (Except.ok.inj h).symm⟩

theorem rtrace_eq {R Q : Matrix (Fin M) (Fin M) ℂ} (hR : Rᴴ = R) : rtraceAtB R Q = (trace (R * Q)).re := by
  unfold rtraceAtB
  congr 1
  have : ∀ i j, (starRingEnd ℂ) (R i j) = R j i := fun i j => by
    conv_rhs => rw [← hR]
    rfl
  simp only [this, trace, diag, mul_apply]
  exact Finset.sum_comm

/-- The trial block for the angle `theta`. -/
noncomputable def trial (Z D : Matrix N (Fin M) ℂ) (theta : ℝ) : Matrix N (Fin M) ℂ := (Real.cos theta : ℂ) • Z + (Real.sin theta : ℂ) • D

theorem gram_trial (A : Matrix N N ℂ) (hA : Aᴴ = A) (Z D : Matrix N (Fin M) ℂ) (theta : ℝ) :
    (trial Z D theta)ᴴ * (A * trial Z D theta)
      = ((Real.cos theta : ℂ) * (Real.cos theta : ℂ)) • (Zᴴ * (A * Z)) + ((Real.sin theta : ℂ) * (Real.sin theta : ℂ)) • (Dᴴ * (A * D))
        + (2 * (Real.sin theta : ℂ) * (Real.cos theta : ℂ)) • symmetrize (Zᴴ * (A * D)) := by
  have hc : (Zᴴ * (A * D))ᴴ = Dᴴ * (A * Z) := by
    rw [conjTranspose_mul, conjTranspose_mul, conjTranspose_conjTranspose, hA, Matrix.mul_assoc]
  unfold trial symmetrize
  rw [hc, conjTranspose_add, conjTranspose_smul, conjTranspose_smul, star_def, conj_ofReal, conj_ofReal]
  generalize (Real.cos theta : ℂ) = c
  generalize (Real.sin theta : ℂ) = s
  simp only [Matrix.mul_add, Matrix.add_mul, Matrix.mul_smul, Matrix.smul_mul, smul_add, smul_smul]
  have e1 : 2 * s * c * (1 / 2) = s * c := by ring
  rw [e1, mul_comm c s]
  abel

/-- **C77.** For a Hermitian operator, the function handed to the line search is the objective of the block that the iteration moves to, for every angle
at which that block has full rank. -/
theorem C77_line_search {op : (N → ℂ) → N → ℂ} {A : Matrix N N ℂ} (hop : ∀ v, op v = A *ᵥ v) (hA : A.IsHermitian)
    (Z D : Matrix N (Fin M) ℂ) (theta : ℝ) (hd : ((trial Z D theta)ᴴ * trial Z D theta).det ≠ 0) :
    traceFunc (Zᴴ * Z) (Dᴴ * D) (symmetrize (Zᴴ * D)) (Zᴴ * cols op Z) (Dᴴ * cols op D) (symmetrize (Zᴴ * cols op D)) theta
      = .ok (objective A (trial Z D theta)) := by
  classical
  have hQ := gram_trial (1 : Matrix N N ℂ) (by simp) Z D theta
  simp only [Matrix.one_mul] at hQ
  have hR := gram_trial A hA Z D theta
  unfold traceFunc qiFunc
  simp only
  rw [← hQ, inv_ok hd, cols_eq hop, cols_eq hop, ← hR]
  have hRh : ((trial Z D theta)ᴴ * (A * trial Z D theta))ᴴ = (trial Z D theta)ᴴ * (A * trial Z D theta) := by
    rw [conjTranspose_mul, conjTranspose_mul, conjTranspose_conjTranspose, hA, Matrix.mul_assoc]
  show Except.ok _ = Except.ok _
  rw [rtrace_eq hRh, objective, Matrix.mul_assoc _ A]

theorem trial_zero (Z D : Matrix N (Fin M) ℂ) : trial Z D 0 = Z := by simp [trial]

/-- What one pass of the main loop does. -/
theorem step_eq {op iop : (N → ℂ) → N → ℂ} {lib : SolveLib M} {tol : ℝ} {ri i : ℕ} {st st' : SolveState N M} {stop : Bool}
    (h : solveStep op iop lib tol ri i st = .ok (stop, st')) :
    (st.Zᴴ * st.Z).det ≠ 0 ∧ st'.ZtZ = st.Zᴴ * st.Z ∧ (stop = true → st'.Z = st.Z)
      ∧ (stop = false → ∃ D theta, lib.minimize (traceFunc (st.Zᴴ * st.Z) (Dᴴ * D) (symmetrize (st.Zᴴ * D)) (st.Zᴴ * cols op st.Z)
          (Dᴴ * cols op D) (symmetrize (st.Zᴴ * cols op D))) = .ok theta ∧ st'.Z = trial st.Z D theta) := by
  unfold solveStep at h
  simp only at h
  cases hU : Bloch.inv (st.Zᴴ * st.Z) with
  | error e => rw [hU] at h; cases h
  | ok U =>
    obtain ⟨hd, rfl⟩ := inv_eq_ok hU
    rw [hU] at h
    simp only [bind, Except.bind, pure, Except.pure, throw, throwThe, MonadExceptOf.throw] at h
    refine ⟨hd, ?_⟩
    split_ifs at h with h1 h2
    · obtain ⟨rfl, rfl⟩ := Prod.mk.inj (Except.ok.inj h)
      exact ⟨rfl, fun _ => rfl, fun hc => Bool.noConfusion hc⟩
    all_goals
      revert h
      generalize hm : lib.minimize _ = r
      intro h
      cases r with
      | error e => cases h
      | ok theta =>
        obtain ⟨rfl, rfl⟩ := Prod.mk.inj (Except.ok.inj h)
        exact ⟨rfl, fun hc => Bool.noConfusion hc, fun _ => ⟨_, theta, hm, rfl⟩⟩

/-- **C77.** A pass of the main loop does not increase the objective, whatever the direction, provided the minimiser returns an angle that is no worse
than the angle 0 it starts from, and the new block has full rank. -/
theorem C77_descent {op iop : (N → ℂ) → N → ℂ} {A : Matrix N N ℂ} (hop : ∀ v, op v = A *ᵥ v) (hA : A.IsHermitian) {lib : SolveLib M}
    (hmin : ∀ f theta a b, lib.minimize f = .ok theta → f theta = .ok a → f 0 = .ok b → a ≤ b)
    {tol : ℝ} {ri i : ℕ} {st st' : SolveState N M} {stop : Bool}
    (h : solveStep op iop lib tol ri i st = .ok (stop, st')) (hd : (st'.Zᴴ * st'.Z).det ≠ 0) :
    objective A st'.Z ≤ objective A st.Z := by
  obtain ⟨h0, -, h1, h2⟩ := step_eq h
  cases stop with
  | true => rw [h1 rfl]
  | false =>
    obtain ⟨D, theta, hm, hz⟩ := h2 rfl
    rw [hz] at hd ⊢
    have ha := C77_line_search hop hA st.Z D theta hd
    have hb := C77_line_search hop hA st.Z D 0 (by rw [trial_zero]; exact h0)
    rw [trial_zero] at hb
    exact hmin _ _ _ _ hm ha hb

/-! ### The recovered eigenvectors -/

/-- What scipy and numpy promise: the square root of a positive definite matrix is positive definite and squares to it, `eig` of a Hermitian matrix
gives independent eigenvectors, `argsort` is a sorting permutation. -/
structure SolveLibOk (lib : SolveLib M) : Prop where
  sqrtm : ∀ U : Matrix (Fin M) (Fin M) ℂ, U.PosDef → (lib.sqrtm U).PosDef ∧ lib.sqrtm U * lib.sqrtm U = U
  eig : ∀ W : Matrix (Fin M) (Fin M) ℂ, W.IsHermitian → W * (lib.eig W).2 = (lib.eig W).2 * diagonal (lib.eig W).1 ∧ (lib.eig W).2.det ≠ 0
  argsort : ∀ a : Fin M → ℝ, Function.Bijective (lib.argsort a) ∧ Monotone fun j => a (lib.argsort a j)

/-- The loop returns a block together with its Gram matrix if it ends in `break`. -/
theorem loop_break {op iop : (N → ℂ) → N → ℂ} {lib : SolveLib M} {tol : ℝ} {ri : ℕ} :
    ∀ {n i : ℕ} {st st' : SolveState N M}, solveLoop op iop lib tol ri n i st = .ok (true, st') → st'.ZtZ = st'.Zᴴ * st'.Z := by
  intro n
  induction n with
  | zero => intro i st st' h; cases h
  | succ n ih =>
    intro i st st' h
    unfold solveLoop at h
    cases hs : solveStep op iop lib tol ri i st with
    | error e => rw [hs] at h; cases h
    | ok r =>
      obtain ⟨stop, s1⟩ := r
      rw [hs] at h
      simp only [bind, Except.bind, pure, Except.pure] at h
      cases stop with
      | true =>
        obtain ⟨-, rfl⟩ := Prod.mk.inj (Except.ok.inj h)
        obtain ⟨-, h1, h2, -⟩ := step_eq hs
        rw [h1, h2 rfl]
      | false => exact ih h

theorem posDef_gram {Z : Matrix N (Fin M) ℂ} (hd : (Zᴴ * Z).det ≠ 0) : (Zᴴ * Z).PosDef := by
  classical
  exact (posSemidef_conjTranspose_mul_self Z).posDef_iff_isUnit.2 ((isUnit_iff_isUnit_det _).2 (isUnit_iff_ne_zero.2 hd))

/-- The recovery stage, given a block and its Gram matrix. -/
theorem finish_ritz {op : (N → ℂ) → N → ℂ} {A : Matrix N N ℂ} (hop : ∀ v, op v = A *ᵥ v) (hA : A.IsHermitian)
    {lib : SolveLib M} (hl : SolveLibOk lib) {Z : Matrix N (Fin M) ℂ} {vals : Fin M → ℂ} {vecs : Fin M → N → ℂ}
    (h : solveFinish op lib Z (Zᴴ * Z) = .ok (vals, vecs)) :
    (Zᴴ * Z).det ≠ 0 ∧ (∀ j, star (vecs j) ⬝ᵥ vecs j = 1) ∧ (∀ j, ∃ w, vecs j = Z *ᵥ w)
      ∧ (∀ j, Zᴴ *ᵥ (A *ᵥ vecs j) = vals j • Zᴴ *ᵥ vecs j) ∧ (Monotone fun j => ‖vals j‖)
      ∧ ∑ j, vals j = trace (Zᴴ * A * Z * (Zᴴ * Z)⁻¹) := by
  unfold solveFinish at h
  cases hU : Bloch.inv (Zᴴ * Z) with
  | error e => rw [hU] at h; cases h
  | ok U =>
    obtain ⟨hd, rfl⟩ := inv_eq_ok hU
    rw [hU] at h
    simp only [bind, Except.bind, pure, Except.pure, throw, throwThe, MonadExceptOf.throw] at h
    split_ifs at h with hz
    obtain ⟨h1, h2⟩ := Prod.mk.inj (Except.ok.inj h)
    subst h1 h2
    rw [cols_eq hop] at hz ⊢
    push Not at hz
    have hpd := posDef_gram hd
    obtain ⟨hS, hSS⟩ := hl.sqrtm _ hpd.inv
    set S := lib.sqrtm (Zᴴ * Z)⁻¹ with hSd
    have hSh : Sᴴ = S := hS.1
    set W := (Z * S)ᴴ * (A * (Z * S)) with hW
    have hWh : W.IsHermitian := by
      show Wᴴ = W
      rw [hW, conjTranspose_mul, conjTranspose_mul, conjTranspose_conjTranspose, hA, Matrix.mul_assoc]
    obtain ⟨hE, hV⟩ := hl.eig W hWh
    obtain ⟨hb, hmono⟩ := hl.argsort fun j => ‖(lib.eig W).1 j‖
    set ord := lib.argsort fun j => ‖(lib.eig W).1 j‖ with hord
    set V := (lib.eig W).2 with hVd
    set lam := (lib.eig W).1 with hlam
    have hdu : IsUnit (Zᴴ * Z).det := isUnit_iff_ne_zero.2 hd
    have hSdet : S.det ≠ 0 := hS.det_pos.ne'
    have hSG : S * (Zᴴ * Z) * S = 1 := by
      have h1 : S * (S * (Zᴴ * Z)) = 1 := by rw [← Matrix.mul_assoc, hSS, nonsing_inv_mul _ hdu]
      exact mul_eq_one_comm.1 h1
    have hM : Zᴴ * (A * (Z * S * V)) = Zᴴ * (Z * S * V) * diagonal lam := by
      have hSu : IsUnit S.det := isUnit_iff_ne_zero.2 hSdet
      have h1 : S * (Zᴴ * (A * (Z * S * V))) = S * (Zᴴ * (Z * S * V) * diagonal lam) := by
        have e1 : S * (Zᴴ * (A * (Z * S * V))) = W * V := by
          rw [hW, conjTranspose_mul, hSh]
          simp only [Matrix.mul_assoc]
        have e2 : S * (Zᴴ * (Z * S * V) * diagonal lam) = (S * (Zᴴ * Z) * S) * (V * diagonal lam) := by
          simp only [Matrix.mul_assoc]
        rw [e1, e2, hSG, Matrix.one_mul, hE]
      have h2 := congrArg (S⁻¹ * ·) h1
      simp only [nonsing_inv_mul_cancel_left _ _ hSu] at h2
      exact h2
    have hZW : ∀ j, Zᴴ *ᵥ (A *ᵥ fun i => (Z * S * V) i j) = lam j • Zᴴ *ᵥ fun i => (Z * S * V) i j := by
      intro j
      funext a
      have h1 := congrFun (congrFun hM a) j
      rw [mul_diagonal] at h1
      rw [Pi.smul_apply, smul_eq_mul, mul_comm]
      exact h1
    set r : Fin M → ℝ := fun j => Real.sqrt (∑ i, normSq ((Z * S * V) i j)) with hr
    have hpos : ∀ j, 0 < ∑ i, normSq ((Z * S * V) i j) := by
      intro j
      obtain ⟨i, hi⟩ := hz j
      exact Finset.sum_pos' (fun i _ => normSq_nonneg _) ⟨i, Finset.mem_univ _, normSq_pos.2 hi⟩
    have hr0 : ∀ j, (r j : ℂ) ≠ 0 := fun j => by
      exact_mod_cast (Real.sqrt_pos.2 (hpos j)).ne'
    have hvec : ∀ j, (fun i => (Z * S * V) i j / (r j : ℂ)) = (r j : ℂ)⁻¹ • fun i => (Z * S * V) i j := by
      intro j; funext i; simp only [Pi.smul_apply, smul_eq_mul]; ring
    refine ⟨hd, fun j => ?_, fun j => ?_, fun j => ?_, hmono, ?_⟩
    · show ∑ i, star ((Z * S * V) i (ord j) / (r (ord j) : ℂ)) * ((Z * S * V) i (ord j) / (r (ord j) : ℂ)) = 1
      have e : ∀ i, star ((Z * S * V) i (ord j) / (r (ord j) : ℂ)) * ((Z * S * V) i (ord j) / (r (ord j) : ℂ))
          = (normSq ((Z * S * V) i (ord j)) : ℂ) / ((r (ord j) : ℂ) * (r (ord j) : ℂ)) := by
        intro i
        rw [star_def, map_div₀, conj_ofReal, normSq_eq_conj_mul_self, div_mul_div_comm]
      simp only [e]
      rw [← Finset.sum_div, ← ofReal_sum, ← ofReal_mul, ← ofReal_div, hr]
      simp only
      rw [Real.mul_self_sqrt (hpos _).le, div_self (hpos _).ne', ofReal_one]
    · refine ⟨(r (ord j) : ℂ)⁻¹ • fun i => (S * V) i (ord j), ?_⟩
      rw [mulVec_smul]
      show (fun i => (Z * S * V) i (ord j) / (r (ord j) : ℂ)) = _
      rw [hvec]
      congr 1
      funext i
      rw [Matrix.mul_assoc]
      rfl
    · show Zᴴ *ᵥ (A *ᵥ fun i => (Z * S * V) i (ord j) / (r (ord j) : ℂ)) = lam (ord j) • Zᴴ *ᵥ fun i => (Z * S * V) i (ord j) / (r (ord j) : ℂ)
      rw [hvec, mulVec_smul, mulVec_smul, mulVec_smul, hZW, smul_comm]
    · have e1 : ∑ j, lam (ord j) = ∑ j, lam j := (Equiv.ofBijective _ hb).sum_comp lam
      have e2 : ∑ j, lam j = trace W := by
        have : W = V * diagonal lam * V⁻¹ := by
          rw [← hE, mul_nonsing_inv_cancel_right _ _ (isUnit_iff_ne_zero.2 hV)]
        rw [this, trace_mul_comm, nonsing_inv_mul_cancel_left _ _ (isUnit_iff_ne_zero.2 hV), trace_diagonal]
      show ∑ j, lam (ord j) = _
      rw [e1, e2, hW, conjTranspose_mul, hSh, Matrix.mul_assoc, trace_mul_comm, ← hSS]
      simp only [Matrix.mul_assoc]

/-- What a returning call of `eigsolve` has done. -/
theorem eigsolve_ok {op iop : (N → ℂ) → N → ℂ} {lib : SolveLib M} {draw : ℕ → Matrix N (Fin M) ℂ} {fuel : ℕ} {tol : ℝ} {mi ri : ℕ}
    {Z0 : Matrix N (Fin M) ℂ} {stop : Bool} {vals : Fin M → ℂ} {vecs : Fin M → N → ℂ}
    (h : eigsolve op iop lib draw fuel tol mi ri Z0 = .ok (stop, vals, vecs)) :
    ∃ own Z st, initLoop lib draw fuel 0 true Z0 = .ok (own, Z)
      ∧ solveLoop op iop lib tol ri mi 0 { Z := Z, D := 0, ZtZ := Zᴴ * Z, prevE := 0, prevTr := 0, dScale := 1 } = .ok (stop, st)
      ∧ solveFinish op lib st.Z st.ZtZ = .ok (vals, vecs) := by
  unfold eigsolve eigsolveFull at h
  simp only [bind, Except.bind, pure, Except.pure] at h
  cases hI : initLoop lib draw fuel 0 true Z0 with
  | error e => rw [hI] at h; cases h
  | ok r =>
    obtain ⟨own, Z⟩ := r
    rw [hI] at h
    simp only at h
    cases hL : solveLoop op iop lib tol ri mi 0 { Z := Z, D := 0, ZtZ := Zᴴ * Z, prevE := 0, prevTr := 0, dScale := 1 } with
    | error e => rw [hL] at h; cases h
    | ok r =>
      obtain ⟨stop', st⟩ := r
      rw [hL] at h
      simp only at h
      cases hf : solveFinish op lib st.Z st.ZtZ with
      | error e => rw [hf] at h; cases h
      | ok p =>
        rw [hf] at h
        obtain ⟨e1, e2⟩ := Prod.mk.inj (Except.ok.inj h)
        subst e1
        obtain ⟨rfl, rfl⟩ := Prod.mk.inj e2
        exact ⟨own, Z, st, rfl, hL, hf⟩

/-- **C78.** If the iteration stops by its convergence test, then for a Hermitian operator there is a block `Z` of full rank such that every returned
vector is a unit vector in its span, and the returned pairs are the Ritz pairs of that span: the residual `A v - lambda v` is orthogonal to it.
In particular `lambda` is the Rayleigh quotient of `v`. The pairs are sorted by magnitude, their sum is the objective, and if the span is invariant under
the operator they are exact eigenpairs. -/
theorem C78_ritz_partial {op iop : (N → ℂ) → N → ℂ} {A : Matrix N N ℂ} (hop : ∀ v, op v = A *ᵥ v) (hA : A.IsHermitian)
    {lib : SolveLib M} (hl : SolveLibOk lib) {draw : ℕ → Matrix N (Fin M) ℂ} {fuel : ℕ} {tol : ℝ} {mi ri : ℕ} {Z0 : Matrix N (Fin M) ℂ}
    {vals : Fin M → ℂ} {vecs : Fin M → N → ℂ} (h : eigsolve op iop lib draw fuel tol mi ri Z0 = .ok (true, vals, vecs)) :
    ∃ Z : Matrix N (Fin M) ℂ, (Zᴴ * Z).det ≠ 0
      ∧ (∀ j, star (vecs j) ⬝ᵥ vecs j = 1)
      ∧ (∀ j, ∃ w, vecs j = Z *ᵥ w)
      ∧ (∀ j w, star (Z *ᵥ w) ⬝ᵥ (A *ᵥ vecs j - vals j • vecs j) = 0)
      ∧ (∀ j, vals j = star (vecs j) ⬝ᵥ (A *ᵥ vecs j))
      ∧ (Monotone fun j => ‖vals j‖)
      ∧ |(∑ j, vals j).re| = objective A Z
      ∧ ((∃ B, A * Z = Z * B) → ∀ j, A *ᵥ vecs j = vals j • vecs j) := by
  obtain ⟨own, Z, st, -, hL, hf⟩ := eigsolve_ok h
  rw [loop_break hL] at hf
  obtain ⟨hd, hu, hs, hr, hm, ht⟩ := finish_ritz hop hA hl hf
  have horth : ∀ j w, star (st.Z *ᵥ w) ⬝ᵥ (A *ᵥ vecs j - vals j • vecs j) = 0 := by
    intro j w
    rw [star_mulVec, ← dotProduct_mulVec, mulVec_sub, mulVec_smul, hr j, sub_self, dotProduct_zero]
  refine ⟨st.Z, hd, hu, hs, horth, fun j => ?_, hm, ?_, ?_⟩
  · obtain ⟨w, hw⟩ := hs j
    have h3 := horth j w
    rw [← hw, dotProduct_sub, dotProduct_smul, hu j, smul_eq_mul, mul_one, sub_eq_zero] at h3
    exact h3.symm
  · rw [ht]; rfl
  · rintro ⟨B, hB⟩ j
    obtain ⟨w, hw⟩ := hs j
    have hq : A *ᵥ vecs j - vals j • vecs j = st.Z *ᵥ (B *ᵥ w - vals j • w) := by
      rw [hw, mulVec_mulVec, hB, ← mulVec_mulVec, mulVec_sub, mulVec_smul]
    have h3 := horth j (B *ᵥ w - vals j • w)
    rw [← hq, dotProduct_star_self_eq_zero] at h3
    exact sub_eq_zero.1 h3

/-! ### Running out of iterations -/

/-- The recovery stage for one mode when the Gram matrix handed to it is 1. -/
theorem finish_one {op : (N → ℂ) → N → ℂ} {A : Matrix N N ℂ} (hop : ∀ v, op v = A *ᵥ v) (hA : A.IsHermitian)
    {lib : SolveLib 1} (hl : SolveLibOk lib) {Z : Matrix N (Fin 1) ℂ} (hz : (fun i => Z i 0) ≠ 0) :
    ∃ vals vecs, solveFinish op lib Z 1 = .ok (vals, vecs) ∧ vals 0 = star (fun i => Z i 0) ⬝ᵥ (A *ᵥ fun i => Z i 0)
      ∧ star (vecs 0) ⬝ᵥ vecs 0 = 1
      ∧ (star (vecs 0) ⬝ᵥ (A *ᵥ vecs 0)) * (star (fun i => Z i 0) ⬝ᵥ fun i => Z i 0) = star (fun i => Z i 0) ⬝ᵥ (A *ᵥ fun i => Z i 0) := by
  set z : N → ℂ := fun i => Z i 0 with hzd
  obtain ⟨-, hSS⟩ := hl.sqrtm 1 PosDef.one
  set S := lib.sqrtm (1 : Matrix (Fin 1) (Fin 1) ℂ) with hS
  have hs : S 0 0 * S 0 0 = 1 := by
    have := congrFun (congrFun hSS 0) 0
    simpa [mul_apply] using this
  have hs' : (starRingEnd ℂ) (S 0 0) * S 0 0 = 1 := by
    rcases mul_self_eq_one_iff.1 hs with h | h <;> simp [h]
  set W := (Z * S)ᴴ * (A * (Z * S)) with hW
  have hWh : W.IsHermitian := by
    show Wᴴ = W
    rw [hW, conjTranspose_mul, conjTranspose_mul, conjTranspose_conjTranspose, hA, Matrix.mul_assoc]
  obtain ⟨hE, hV⟩ := hl.eig W hWh
  set V := (lib.eig W).2 with hVd
  have hV0 : V 0 0 ≠ 0 := by
    rwa [det_unique] at hV
  have hcol : ∀ i, (Z * S) i 0 = S 0 0 * z i := by
    intro i; simp [mul_apply, hzd, mul_comm]
  have hW0 : W 0 0 = star z ⬝ᵥ (A *ᵥ z) := by
    have h1 : W 0 0 = star (fun i => (Z * S) i 0) ⬝ᵥ (A *ᵥ fun i => (Z * S) i 0) := rfl
    have h2 : (fun i => (Z * S) i 0) = S 0 0 • z := funext hcol
    rw [h1, h2, star_smul, mulVec_smul, smul_dotProduct, dotProduct_smul, smul_smul, star_def, hs', one_smul]
  have hlam : (lib.eig W).1 0 = star z ⬝ᵥ (A *ᵥ z) := by
    have h1 := congrFun (congrFun hE 0) 0
    rw [mul_diagonal, mul_apply, Fin.sum_univ_one, hW0, mul_comm] at h1
    exact (mul_left_cancel₀ hV0 h1).symm
  have hcol2 : ∀ i, (Z * S * V) i 0 = (V 0 0 * S 0 0) * z i := by
    intro i
    rw [mul_apply, Fin.sum_univ_one, hcol]; ring
  have hS0 : S 0 0 ≠ 0 := fun hc => by rw [hc] at hs; simp at hs
  have hnz : ¬ ∃ j, ∀ i, (Z * S * V) i j = 0 := by
    rintro ⟨j, hj⟩
    apply hz
    funext i
    have h1 := hj i
    rw [Subsingleton.elim j 0, hcol2] at h1
    exact (mul_eq_zero.1 h1).resolve_left (mul_ne_zero hV0 hS0)
  have hfin : solveFinish op lib Z 1 = .ok (fun j => (lib.eig W).1 (lib.argsort (fun j => ‖(lib.eig W).1 j‖) j),
      fun j i => (Z * S * V) i (lib.argsort (fun j => ‖(lib.eig W).1 j‖) j)
        / (Real.sqrt (∑ i, normSq ((Z * S * V) i (lib.argsort (fun j => ‖(lib.eig W).1 j‖) j))) : ℂ)) := by
    unfold solveFinish
    rw [inv_ok (by simp), inv_one]
    simp only [bind, Except.bind, pure, Except.pure, throw, throwThe, MonadExceptOf.throw]
    rw [cols_eq hop]
    rw [if_neg hnz]
  refine ⟨_, _, hfin, ?_, ?_⟩
  · show (lib.eig W).1 (lib.argsort _ 0) = _
    rw [Subsingleton.elim (lib.argsort (fun j => ‖(lib.eig W).1 j‖) 0) 0]
    exact hlam
  · simp only [Subsingleton.elim (lib.argsort (fun j => ‖(lib.eig W).1 j‖) 0) 0]
    set r := Real.sqrt (∑ i, normSq ((Z * S * V) i 0)) with hr
    have hpos : 0 < ∑ i, normSq ((Z * S * V) i 0) := by
      obtain ⟨i, hi⟩ : ∃ i, (Z * S * V) i 0 ≠ 0 := by
        by_contra hc
        push Not at hc
        exact hnz ⟨0, hc⟩
      exact Finset.sum_pos' (fun i _ => normSq_nonneg _) ⟨i, Finset.mem_univ _, normSq_pos.2 hi⟩
    have hvz : (fun i => (Z * S * V) i 0 / (r : ℂ)) = (V 0 0 * S 0 0 / (r : ℂ)) • z := by
      funext i
      rw [hcol2, Pi.smul_apply, smul_eq_mul]; ring
    have hun : star (fun i => (Z * S * V) i 0 / (r : ℂ)) ⬝ᵥ (fun i => (Z * S * V) i 0 / (r : ℂ)) = 1 := by
      show ∑ i, star ((Z * S * V) i 0 / (r : ℂ)) * ((Z * S * V) i 0 / (r : ℂ)) = 1
      have e : ∀ i, star ((Z * S * V) i 0 / (r : ℂ)) * ((Z * S * V) i 0 / (r : ℂ))
          = (normSq ((Z * S * V) i 0) : ℂ) / ((r : ℂ) * (r : ℂ)) := by
        intro i
        rw [star_def, map_div₀, conj_ofReal, normSq_eq_conj_mul_self, div_mul_div_comm]
      simp only [e]
      rw [← Finset.sum_div, ← ofReal_sum, ← ofReal_mul, ← ofReal_div, hr, Real.mul_self_sqrt hpos.le, div_self hpos.ne', ofReal_one]
    refine ⟨hun, ?_⟩
    rw [hvz] at hun ⊢
    generalize V 0 0 * S 0 0 / (r : ℂ) = t at *
    rw [star_smul, smul_dotProduct, dotProduct_smul, smul_eq_mul, smul_eq_mul] at hun
    rw [star_smul, mulVec_smul, smul_dotProduct, dotProduct_smul, smul_eq_mul, smul_eq_mul]
    linear_combination (star z ⬝ᵥ (A *ᵥ z)) * hun

theorem fnorm_sq (Z : Matrix N (Fin M) ℂ) : fnorm Z ^ 2 = ∑ i, ∑ j, normSq (Z i j) := by
  unfold fnorm
  exact Real.sq_sqrt (Finset.sum_nonneg fun i _ => Finset.sum_nonneg fun j _ => normSq_nonneg _)

set_option maxHeartbeats 400000 in
/-- One pass from the guess `(3/5, 4/5)` in the span of two eigenvectors with eigenvalues -1 and -4. -/
theorem two_modes_step {op iop : (N → ℂ) → N → ℂ} {a : N → ℂ} (hop : ∀ v i, op v i = -a i * v i) (hiop : ∀ v i, iop v i = (a i)⁻¹ * v i)
    {p q : N} (hpq : p ≠ q) (hp : a p = 1) (hq : a q = 4)
    {Z0 : Matrix N (Fin 1) ℂ} (hZp : Z0 p 0 = 3 / 5) (hZq : Z0 q 0 = 4 / 5) (hZ0 : ∀ i, i ≠ p ∧ i ≠ q → Z0 i 0 = 0)
    {lib : SolveLib 1} {theta : ℝ} (hm : ∀ f, lib.minimize f = .ok theta)
    (tol : ℝ) (ri : ℕ) :
    ∃ (st' : SolveState N 1) (x y : ℝ), 0 ≤ st'.prevE ∧ st'.ZtZ = 1 ∧ st'.Z p 0 = x ∧ st'.Z q 0 = y ∧ (∀ i, i ≠ p ∧ i ≠ q → st'.Z i 0 = 0)
      ∧ x ^ 2 + 4 * y ^ 2 ≠ 0 ∧ (Real.sin theta * Real.cos theta ≠ 0 → x ^ 2 + y ^ 2 ≠ 1)
      ∧ ∀ draw fuel n, eigsolveFull op iop lib draw (fuel + 1) tol (n + 1) ri Z0 = (do
          let (stop, st) ← solveLoop op iop lib tol ri n 1 st'
          let (vals, vecs) ← solveFinish op lib st.Z st.ZtZ
          return (stop, st.Z, vals, vecs)) := by
  classical
  have hsum : ∀ f : N → ℂ, (∀ i, i ≠ p ∧ i ≠ q → f i = 0) → ∑ i, f i = f p + f q := fun f hf => Fintype.sum_eq_add p q hpq hf
  have hsumR : ∀ f : N → ℝ, (∀ i, i ≠ p ∧ i ≠ q → f i = 0) → ∑ i, f i = f p + f q := fun f hf => Fintype.sum_eq_add p q hpq hf
  have hfn : fnorm Z0 = 1 := by
    unfold fnorm
    simp only [Fin.sum_univ_one]
    rw [hsumR _ (fun i hi => by rw [hZ0 i hi]; simp), hZp, hZq]
    have : normSq (3 / 5 : ℂ) + normSq (4 / 5 : ℂ) = 1 := by norm_num [normSq_ofNat]
    rw [this, Real.sqrt_one]
  have hZ1 : ((1 : ℕ) / (fnorm Z0 : ℝ) : ℂ) • Z0 = Z0 := by rw [hfn]; simp
  have h11 : ∀ (B : Matrix (Fin 1) (Fin 1) ℂ) (z : ℂ), B 0 0 = z → B = z • (1 : Matrix (Fin 1) (Fin 1) ℂ) := by
    intro B z h
    ext i j
    rw [Subsingleton.elim i 0, Subsingleton.elim j 0, h]
    simp
  have hgram : Z0ᴴ * Z0 = 1 := by
    rw [h11 (Z0ᴴ * Z0) 1 ?_, one_smul]
    rw [mul_apply]
    simp only [conjTranspose_apply]
    rw [hsum _ (fun i hi => by rw [hZ0 i hi]; simp), hZp, hZq]
    norm_num
  have hZAZ : Z0ᴴ * cols op Z0 = (-73 / 25 : ℂ) • (1 : Matrix (Fin 1) (Fin 1) ℂ) := by
    refine h11 _ _ ?_
    rw [mul_apply]
    simp only [conjTranspose_apply, cols, of_apply, hop]
    rw [hsum _ (fun i hi => by rw [hZ0 i hi]; simp), hZp, hZq, hp, hq]
    norm_num
  have htr : (trace ((-73 / 25 : ℂ) • (1 : Matrix (Fin 1) (Fin 1) ℂ))).re = -73 / 25 := by
    rw [trace_smul, trace_one]
    simp
  set Gm : Matrix N (Fin 1) ℂ := ((-1 : ℝ) : ℂ) • (cols op Z0 - Z0 * ((-73 / 25 : ℂ) • (1 : Matrix (Fin 1) (Fin 1) ℂ))) with hG
  set KG := cols iop Gm with hKG
  have hKGi : ∀ i, KG i 0 = (a i)⁻¹ * (a i - 73 / 25) * Z0 i 0 := by
    intro i
    rw [hKG, cols, of_apply, hiop, hG]
    simp only [Matrix.mul_one, Matrix.mul_smul, Matrix.smul_apply, Matrix.sub_apply, cols, of_apply, hop, smul_eq_mul]
    push_cast
    ring
  have hKp : KG p 0 = -144 / 125 := by rw [hKGi, hp, hZp]; norm_num
  have hKq : KG q 0 = 27 / 125 := by rw [hKGi, hq, hZq]; norm_num
  have hK0 : ∀ i, i ≠ p ∧ i ≠ q → KG i 0 = 0 := fun i hi => by rw [hKGi, hZ0 i hi, mul_zero]
  have hfK : fnorm KG ^ 2 = (144 ^ 2 + 27 ^ 2) / 125 ^ 2 := by
    rw [fnorm_sq]
    simp only [Fin.sum_univ_one]
    rw [hsumR _ (fun i hi => by rw [hK0 i hi]; simp), hKp, hKq]
    norm_num [normSq_ofNat]
  have hfK0 : fnorm KG ≠ 0 := fun hc => by rw [hc] at hfK; norm_num at hfK
  set c := Real.cos theta with hc
  set s := Real.sin theta with hs
  set d : ℝ := 1 / fnorm KG with hd
  set Zn : Matrix N (Fin 1) ℂ := (c : ℂ) • Z0 + (s : ℂ) • ((((1 : ℕ) / fnorm KG : ℝ) : ℂ) • KG) with hZn
  have hstep : ∃ st', solveStep op iop lib tol ri 0 { Z := Z0, D := 0, ZtZ := 1, prevE := 0, prevTr := 0, dScale := 1 } = .ok (false, st')
      ∧ st'.Z = Zn ∧ st'.ZtZ = 1 ∧ 0 ≤ st'.prevE := by
    unfold solveStep
    simp only [hgram, inv_ok (show (1 : Matrix (Fin 1) (Fin 1) ℂ).det ≠ 0 by simp), inv_one, hZAZ]
    simp only [bind, Except.bind, pure, Except.pure, throw, throwThe, MonadExceptOf.throw, hm]
    have hsg : SignType.sign (-73 / 25 : ℝ) = -1 := sign_neg (by norm_num)
    have hcoe : ((SignType.cast (-1 : SignType) : ℝ) : ℂ) = ((-1 : ℝ) : ℂ) := by simp
    simp only [Matrix.mul_one, htr, hsg, hcoe, smul_zero, zero_add]
    rw [← hG, ← hKG, if_neg (by simp), if_neg hfK0]
    exact ⟨_, rfl, rfl, rfl, abs_nonneg _⟩
  obtain ⟨st', h1, h2, h3, h4⟩ := hstep
  have hzi : ∀ i, Zn i 0 = c * Z0 i 0 + s * (d * KG i 0) := by
    intro i
    rw [hZn, hd]
    simp only [Matrix.add_apply, Matrix.smul_apply, smul_eq_mul, Nat.cast_one]
  have hdK : d ^ 2 * ((144 ^ 2 + 27 ^ 2) / 125 ^ 2) = 1 := by
    rw [← hfK, hd]; field_simp
  set x : ℝ := c * (3 / 5) + s * (d * (-144 / 125)) with hx
  set y : ℝ := c * (4 / 5) + s * (d * (27 / 125)) with hy
  have hxp : Zn p 0 = (x : ℂ) := by rw [hzi, hZp, hKp, hx]; push_cast; ring
  have hyq : Zn q 0 = (y : ℂ) := by rw [hzi, hZq, hKq, hy]; push_cast; ring
  have hz0 : ∀ i, i ≠ p ∧ i ≠ q → Zn i 0 = 0 := fun i hi => by rw [hzi, hZ0 i hi, hK0 i hi]; simp
  have hd0 : d ≠ 0 := fun hc => by rw [hc] at hdK; norm_num at hdK
  have hcs : c ^ 2 + s ^ 2 = 1 := Real.cos_sq_add_sin_sq theta
  have hnrm : x ^ 2 + y ^ 2 = 1 - 648 / 625 * (s * c * d) := by
    rw [hx, hy]
    linear_combination hcs + s ^ 2 * hdK
  have hxy : x ^ 2 + 4 * y ^ 2 ≠ 0 := by
    intro hc0
    have hx0 : x = 0 := by nlinarith [sq_nonneg x, sq_nonneg y]
    have hy0 : y = 0 := by nlinarith [sq_nonneg x, sq_nonneg y]
    have e1 : s * d = 0 := by
      have : s * d * (4 * 144 / 125 + 3 * 27 / 125) = 3 * y - 4 * x := by rw [hx, hy]; ring
      rw [hx0, hy0] at this
      linarith
    rcases mul_eq_zero.1 e1 with h | h
    · rw [hx, h, zero_mul, add_zero] at hx0
      rw [h, show c = 0 by linarith] at hcs
      norm_num at hcs
    · exact absurd h hd0
  have hne1 : s * c ≠ 0 → x ^ 2 + y ^ 2 ≠ 1 := by
    intro hth
    rw [hnrm]
    intro h
    have h5 : s * c * d = 0 := by linarith
    rcases mul_eq_zero.1 h5 with h | h
    · exact hth h
    · exact hd0 h
  refine ⟨st', x, y, h4, h3, by rw [h2]; exact hxp, by rw [h2]; exact hyq, fun i hi => by rw [h2]; exact hz0 i hi, hxy, hne1, fun draw fuel n => ?_⟩
  have hI : initLoop lib draw (fuel + 1) 0 true Z0 = .ok (true, Z0) := by
    rw [initLoop, if_neg (by rw [hfn]; norm_num)]
    simp only [hZ1, hgram]
    rw [if_neg (by rw [det_one]; exact one_ne_zero), if_neg (by
      rw [inv_one, trace_one]
      norm_num)]
  unfold eigsolveFull
  rw [hI]
  simp only [bind, Except.bind, pure, Except.pure, hgram]
  rw [solveLoop, h1]
  simp only [bind, Except.bind, pure, Except.pure, Bool.false_eq_true, if_false, if_true]

/-- The eigenvalue after one pass from the guess `(3/5, 4/5)` is not the Rayleigh quotient. -/
theorem two_modes_stale {op iop : (N → ℂ) → N → ℂ} {a : N → ℂ} (hop : ∀ v i, op v i = -a i * v i) (hiop : ∀ v i, iop v i = (a i)⁻¹ * v i)
    (hreal : ∀ i, star (a i) = a i) {p q : N} (hpq : p ≠ q) (hp : a p = 1) (hq : a q = 4)
    {Z0 : Matrix N (Fin 1) ℂ} (hZp : Z0 p 0 = 3 / 5) (hZq : Z0 q 0 = 4 / 5) (hZ0 : ∀ i, i ≠ p ∧ i ≠ q → Z0 i 0 = 0)
    {lib : SolveLib 1} (hl : SolveLibOk lib) {theta : ℝ} (hth : Real.sin theta * Real.cos theta ≠ 0) (hm : ∀ f, lib.minimize f = .ok theta)
    (draw : ℕ → Matrix N (Fin 1) ℂ) (fuel : ℕ) (tol : ℝ) (ri : ℕ) :
    ∃ Y vals vecs, eigsolveFull op iop lib draw (fuel + 1) tol 1 ri Z0 = .ok (false, Y, vals, vecs) ∧ fnorm Z0 = 1 ∧ fnorm Y ≠ 1
      ∧ star (vecs 0) ⬝ᵥ vecs 0 = 1 ∧ vals 0 ≠ star (vecs 0) ⬝ᵥ op (vecs 0) := by
  classical
  have hsum : ∀ f : N → ℂ, (∀ i, i ≠ p ∧ i ≠ q → f i = 0) → ∑ i, f i = f p + f q := fun f hf => Fintype.sum_eq_add p q hpq hf
  have hA : (diagonal fun i => -a i).IsHermitian := by
    rw [IsHermitian, diagonal_conjTranspose]
    congr 1
    funext i
    simp [hreal i]
  have hopA : ∀ v, op v = (diagonal fun i => -a i) *ᵥ v := fun v => by
    funext i
    rw [mulVec_diagonal, hop]
  obtain ⟨st', x, y, hE0, h3, hxp, hyq, hz0, hxy, hne1, hrun⟩ := two_modes_step hop hiop hpq hp hq hZp hZq hZ0 hm tol ri
  replace hne1 := hne1 hth
  set Zn := st'.Z with hZn
  have hzn : (fun i => Zn i 0) ≠ 0 := by
    intro hc0
    have e1 := congrFun hc0 p
    have e2 := congrFun hc0 q
    simp only [hxp, hyq, Pi.zero_apply, ofReal_eq_zero] at e1 e2
    apply hxy
    rw [e1, e2]; norm_num
  obtain ⟨vals, vecs, hf, hv, hu, hR⟩ := finish_one hopA hA hl hzn
  have hsumR : ∀ f : N → ℝ, (∀ i, i ≠ p ∧ i ≠ q → f i = 0) → ∑ i, f i = f p + f q := fun f hf => Fintype.sum_eq_add p q hpq hf
  refine ⟨Zn, vals, vecs, ?_, ?_, ?_, hu, ?_⟩
  · rw [hrun draw fuel 0]
    simp only [solveLoop, bind, Except.bind, pure, Except.pure, h3]
    rw [← hZn, hf]
  · unfold fnorm
    simp only [Fin.sum_univ_one]
    rw [hsumR _ (fun i hi => by rw [hZ0 i hi]; simp), hZp, hZq]
    have : normSq (3 / 5 : ℂ) + normSq (4 / 5 : ℂ) = 1 := by norm_num [normSq_ofNat]
    rw [this, Real.sqrt_one]
  · intro hc
    apply hne1
    have h5 := fnorm_sq Zn
    simp only [Fin.sum_univ_one] at h5
    rw [hc, hsumR _ (fun i hi => by rw [hz0 i hi]; simp), hxp, hyq, normSq_ofReal, normSq_ofReal] at h5
    nlinarith
  · rw [hopA]
    have hzz : (star (fun i => Zn i 0) ⬝ᵥ fun i => Zn i 0) = ((x ^ 2 + y ^ 2 : ℝ) : ℂ) := by
      show ∑ i, star (Zn i 0) * Zn i 0 = _
      rw [hsum _ (fun i hi => by rw [hz0 i hi]; simp), hxp, hyq, star_def, conj_ofReal, conj_ofReal]
      push_cast; ring
    have hzAz : (star (fun i => Zn i 0) ⬝ᵥ ((diagonal fun i => -a i) *ᵥ fun i => Zn i 0)) = ((-(x ^ 2 + 4 * y ^ 2) : ℝ) : ℂ) := by
      show ∑ i, star (Zn i 0) * ((diagonal fun i => -a i) *ᵥ fun i => Zn i 0) i = _
      simp only [mulVec_diagonal]
      rw [hsum _ (fun i hi => by rw [hz0 i hi]; simp), hxp, hyq, hp, hq, star_def, conj_ofReal, conj_ofReal]
      push_cast; ring
    rw [hzz, hzAz] at hR
    rw [hzAz] at hv
    intro he
    rw [← he, hv] at hR
    have hR' : -(x ^ 2 + 4 * y ^ 2) * (x ^ 2 + y ^ 2) = -(x ^ 2 + 4 * y ^ 2) := by exact_mod_cast hR
    have h5 : (x ^ 2 + 4 * y ^ 2) * (x ^ 2 + y ^ 2 - 1) = 0 := by linarith
    rcases mul_eq_zero.1 h5 with h | h
    · exact hxy h
    · exact hne1 (sub_eq_zero.1 h)

/-- An operator on plane-wave coefficients as an operator on raveled vectors. -/
def flat {sh : Fin 3 → ℕ} (op : Hmn sh → Hmn sh) (v : Fin 2 × Idx sh → ℂ) : Fin 2 × Idx sh → ℂ := fun p => op (fun i x => v (i, x)) p.1 p.2

/-- **C78, for the Maxwell operator.** If no wave vector of the grid is along y and `epsilon` is real and positive, the eigenvalues returned after
convergence are real and not positive. -/
theorem C78_frequencies_partial {sh : Fin 3 → ℕ} (k0 : Fin 3 → ℝ) (G : Matrix (Fin 3) (Fin 3) ℝ) (hr : Regular k0 G sh) {eps : VField sh ℂ}
    (he : PosReal eps) {op : Hmn sh → Hmn sh} (hop : ∀ h, maxwellOperator k0 G eps h = some (op h)) (iop : Hmn sh → Hmn sh)
    {lib : SolveLib M} (hl : SolveLibOk lib) {draw : ℕ → Matrix (Fin 2 × Idx sh) (Fin M) ℂ} {fuel : ℕ} {tol : ℝ} {mi ri : ℕ}
    {Z0 : Matrix (Fin 2 × Idx sh) (Fin M) ℂ} {vals : Fin M → ℂ}
    {vecs : Fin M → Fin 2 × Idx sh → ℂ} (h : eigsolve (flat op) (flat iop) lib draw fuel tol mi ri Z0 = .ok (true, vals, vecs)) (j : Fin M) :
    vals j = star (vecs j) ⬝ᵥ flat op (vecs j) ∧ (vals j).im = 0 ∧ (vals j).re ≤ 0 := by
  obtain ⟨A, hA, hAop⟩ := C59_matrix_partial k0 G hr he
  have hfl : ∀ v, flat op v = A *ᵥ v := by
    intro v
    have h1 := (hop fun i x => v (i, x)).symm.trans (hAop _)
    funext p
    exact congrFun (congrFun (Option.some.inj h1) p.1) p.2
  have hAh : A.IsHermitian := by
    have := hA.1.neg
    rwa [neg_neg] at this
  obtain ⟨Z, -, -, -, -, hq, -⟩ := C78_ritz_partial hfl hAh hl h
  have hpos := hA.dotProduct_mulVec_nonneg (vecs j)
  rw [neg_mulVec, dotProduct_neg, ← hq j, Complex.le_def] at hpos
  refine ⟨by rw [hfl]; exact hq j, ?_, ?_⟩
  · have := hpos.2; simpa using this.symm
  · have := hpos.1; simpa using this

/-- The case used for the disagreements below. -/
theorem stale_witness {sh : Fin 3 → ℕ} (hx : sh 0 = 2) (hy : 0 < sh 1) (hz : 0 < sh 2)
    {lib : SolveLib 1} (hl : SolveLibOk lib) {theta : ℝ} (hth : Real.sin theta * Real.cos theta ≠ 0) (hm : ∀ f, lib.minimize f = .ok theta)
    (draw : ℕ → Matrix (Fin 2 × Idx sh) (Fin 1) ℂ) (fuel : ℕ) (tol : ℝ) (ri : ℕ) :
    ∃ op iop : Hmn sh → Hmn sh, (∀ h, maxwellOperator (fun c => if c = 0 then 1 else 0) 1 (fun _ _ => 1) h = some (op h))
      ∧ (∀ h, inverseMaxwellOperatorApprox (fun c => if c = 0 then 1 else 0) 1 (fun _ _ => 1) h = some (iop h))
      ∧ ∃ Z0 Y vals vecs, eigsolveFull (flat op) (flat iop) lib draw (fuel + 1) tol 1 ri Z0 = .ok (false, Y, vals, vecs) ∧ fnorm Z0 = 1 ∧ fnorm Y ≠ 1
        ∧ star (vecs 0) ⬝ᵥ vecs 0 = 1 ∧ vals 0 ≠ star (vecs 0) ⬝ᵥ flat op (vecs 0) := by
  classical
  set k0 : Fin 3 → ℝ := fun c => if c = 0 then 1 else 0 with hk0
  have e : ∀ x : Idx sh, kxyz k0 1 x = fun a => k0 a - fftfreq (sh a) (x a) := fun x => by rw [kxyz, one_mulVec]
  have ex : ∀ x : Idx sh, kxyz k0 1 x 0 = 1 - fftfreq (sh 0) (x 0) := fun x => by rw [e]; simp [hk0]
  have hne : ∀ x : Idx sh, kxyz k0 1 x 0 ≠ 0 := by
    intro x hc
    rw [ex, sub_eq_zero] at hc
    have h1 : fftfreq (sh 0) (x 0) = 1 := by exact_mod_cast hc.symm
    have hlt := (x 0).2
    unfold fftfreq at h1
    split_ifs at h1 <;> omega
  have hreg : Regular k0 1 sh := fun x k hw hc => hne x (by rw [← hw.eq]; exact hc.1)
  have hk : ∀ (x : Idx sh) (k : Fin 3 → ℝ), IsWave k0 1 k x → k ≠ 0 := fun x k hw hc => hne x (by rw [← hw.eq, hc]; rfl)
  obtain ⟨op, iop, h1, h2, h3, -⟩ := C60_uniform_partial k0 1 hreg hk (e := 1) one_ne_zero
  refine ⟨op, iop, h1, h2, ?_⟩
  let xp : Idx sh := fun a => match a with
    | 0 => ⟨0, by omega⟩
    | 1 => ⟨0, hy⟩
    | 2 => ⟨0, hz⟩
  let xq : Idx sh := fun a => match a with
    | 0 => ⟨1, by omega⟩
    | 1 => ⟨0, hy⟩
    | 2 => ⟨0, hz⟩
  have hpq : ((0 : Fin 2), xp) ≠ ((0 : Fin 2), xq) := by
    intro hc
    have := congrArg (fun z : Fin 2 × Idx sh => (z.2 0 : ℕ)) hc
    simp [xp, xq] at this
  have k1 : ∀ x : Idx sh, (x 1 : ℕ) = 0 → kxyz k0 1 x 1 = 0 := by
    intro x hx1
    rw [e]
    show (k0 1 - (fftfreq (sh 1) (x 1) : ℝ)) = 0
    rw [fftfreq_zero (x 1) hx1]; simp [hk0]
  have k2 : ∀ x : Idx sh, (x 2 : ℕ) = 0 → kxyz k0 1 x 2 = 0 := by
    intro x hx1
    rw [e]
    show (k0 2 - (fftfreq (sh 2) (x 2) : ℝ)) = 0
    rw [fftfreq_zero (x 2) hx1]; simp [hk0]
  let a : Fin 2 × Idx sh → ℂ := fun p => ((∑ c, kxyz k0 1 p.2 c ^ 2 : ℝ) : ℂ)
  have hap : a (0, xp) = 1 := by
    show ((∑ c, kxyz k0 1 xp c ^ 2 : ℝ) : ℂ) = 1
    rw [Fin.sum_univ_three, k1 xp rfl, k2 xp rfl, ex, fftfreq_zero (xp 0) rfl]
    norm_num
  have hfq : fftfreq (sh 0) (xq 0) = -1 := by
    have : ((xq 0 : Fin (sh 0)) : ℕ) = 1 := rfl
    unfold fftfreq
    rw [this, hx]
    norm_num
  have haq : a (0, xq) = 4 := by
    show ((∑ c, kxyz k0 1 xq c ^ 2 : ℝ) : ℂ) = 4
    rw [Fin.sum_univ_three, k1 xq rfl, k2 xq rfl, ex, hfq]
    norm_num
  let Z0 : Matrix (Fin 2 × Idx sh) (Fin 1) ℂ := of fun p _ => if p = (0, xp) then 3 / 5 else if p = (0, xq) then 4 / 5 else 0
  obtain ⟨Y, vals, vecs, r⟩ := two_modes_stale (op := flat op) (iop := flat iop) (a := a) (p := (0, xp)) (q := (0, xq)) (Z0 := Z0)
    (fun v p => by
      obtain ⟨q, -⟩ := h3 (fun i x => v (i, x)) p.1 p.2 _ (kxyz_isWave k0 1 p.2)
      rw [div_one] at q
      exact q)
    (fun v p => by
      obtain ⟨-, q⟩ := h3 (fun i x => v (i, x)) p.1 p.2 _ (kxyz_isWave k0 1 p.2)
      rw [one_div] at q
      exact q)
    (fun p => conj_ofReal _) hpq hap haq (by simp [Z0]) (by simp [Z0, hpq.symm]) (fun p hp => by simp [Z0, hp.1, hp.2]) hl hth hm draw fuel tol ri
  exact ⟨Z0, Y, vals, vecs, r⟩

/-- **C78, disagreement.** If the iterations run out, the eigenvectors are recovered with the Gram matrix of the previous block, and the eigenvalues are
wrong: on every grid with two cells along x, with `epsilon = 1`, Bloch vector `(1, 0, 0)` and `max_iters = 1`, there is a guess for which the returned
eigenvalue is not the Rayleigh quotient of the returned unit vector, whatever angle other than a multiple of a right angle the line search returns. -/
theorem C78_stale_partial {sh : Fin 3 → ℕ} (hx : sh 0 = 2) (hy : 0 < sh 1) (hz : 0 < sh 2)
    {lib : SolveLib 1} (hl : SolveLibOk lib) {theta : ℝ} (hth : Real.sin theta * Real.cos theta ≠ 0) (hm : ∀ f, lib.minimize f = .ok theta)
    (draw : ℕ → Matrix (Fin 2 × Idx sh) (Fin 1) ℂ) (fuel : ℕ) (tol : ℝ) (ri : ℕ) :
    ∃ op iop : Hmn sh → Hmn sh, (∀ h, maxwellOperator (fun c => if c = 0 then 1 else 0) 1 (fun _ _ => 1) h = some (op h))
      ∧ (∀ h, inverseMaxwellOperatorApprox (fun c => if c = 0 then 1 else 0) 1 (fun _ _ => 1) h = some (iop h))
      ∧ ∃ Z0 vals vecs, eigsolve (flat op) (flat iop) lib draw (fuel + 1) tol 1 ri Z0 = .ok (false, vals, vecs)
        ∧ star (vecs 0) ⬝ᵥ vecs 0 = 1 ∧ vals 0 ≠ star (vecs 0) ⬝ᵥ flat op (vecs 0) := by
  obtain ⟨op, iop, h1, h2, Z0, Y, vals, vecs, h3, -, -, h4⟩ := stale_witness hx hy hz hl hth hm draw fuel tol ri
  refine ⟨op, iop, h1, h2, Z0, vals, vecs, ?_, h4⟩
  rw [eigsolve, h3]
  rfl

/-- The contracts assumed of the libraries can be met, with any minimiser. -/
theorem solveLibOk_exists (minimize : (ℝ → Res ℝ) → Res ℝ) : ∃ lib : SolveLib M, SolveLibOk lib ∧ lib.minimize = minimize := by
  classical
  have hs : ∀ U : Matrix (Fin M) (Fin M) ℂ, ∃ S : Matrix (Fin M) (Fin M) ℂ, U.PosDef → S.PosDef ∧ S * S = U := by
    intro U
    by_cases hU : U.PosDef
    · refine ⟨CFC.sqrt U, fun _ => ?_⟩
      have h1 : CFC.sqrt U * CFC.sqrt U = U := CFC.sqrt_mul_sqrt_self U hU.posSemidef.nonneg
      refine ⟨?_, h1⟩
      refine (CFC.sqrt_nonneg U).posSemidef.posDef_iff_isUnit.2 ((isUnit_iff_isUnit_det _).2 (isUnit_iff_ne_zero.2 fun hc => ?_))
      apply hU.det_pos.ne'
      rw [← h1, det_mul, hc, zero_mul]
    · exact ⟨0, fun h => absurd h hU⟩
  have he : ∀ W : Matrix (Fin M) (Fin M) ℂ, ∃ r : (Fin M → ℂ) × Matrix (Fin M) (Fin M) ℂ,
      W.IsHermitian → W * r.2 = r.2 * diagonal r.1 ∧ r.2.det ≠ 0 := by
    intro W
    by_cases hW : W.IsHermitian
    · refine ⟨(fun j => hW.eigenvalues j, of fun i j => hW.eigenvectorBasis j i), fun _ => ⟨?_, ?_⟩⟩
      · ext i j
        rw [mul_diagonal]
        have h1 := congrFun (hW.mulVec_eigenvectorBasis j) i
        show (W *ᵥ fun i => hW.eigenvectorBasis j i) i = _
        rw [show (W *ᵥ fun i => hW.eigenvectorBasis j i) = W *ᵥ ⇑(hW.eigenvectorBasis j) from rfl, h1, mul_comm]
        rfl
      · exact (UnitaryGroup.det_isUnit hW.eigenvectorUnitary).ne_zero
    · exact ⟨(0, 0), fun h => absurd h hW⟩
  choose S hS using hs
  choose r hr using he
  refine ⟨⟨S, r, fun a => Tuple.sort a, minimize⟩, ⟨hS, hr, fun a => ⟨(Tuple.sort a).bijective, Tuple.monotone_sort a⟩⟩, rfl⟩

/-- The recovery stage never fails for a block of full rank and its own Gram matrix. -/
theorem finish_total {op : (N → ℂ) → N → ℂ} {A : Matrix N N ℂ} (hop : ∀ v, op v = A *ᵥ v) (hA : A.IsHermitian)
    {lib : SolveLib M} (hl : SolveLibOk lib) {Z : Matrix N (Fin M) ℂ} (hd : (Zᴴ * Z).det ≠ 0) :
    ∃ r, solveFinish op lib Z (Zᴴ * Z) = .ok r := by
  unfold solveFinish
  rw [inv_ok hd]
  simp only [bind, Except.bind, pure, Except.pure, throw, throwThe, MonadExceptOf.throw]
  obtain ⟨hS, -⟩ := hl.sqrtm _ (posDef_gram hd).inv
  set S := lib.sqrtm (Zᴴ * Z)⁻¹ with hSd
  have hWh : ((Z * S)ᴴ * (A * (Z * S))).IsHermitian := by
    show _ᴴ = _
    rw [conjTranspose_mul, conjTranspose_mul, conjTranspose_conjTranspose, hA, Matrix.mul_assoc]
  obtain ⟨-, hV⟩ := hl.eig _ hWh
  rw [if_neg]
  · exact ⟨_, rfl⟩
  · rw [cols_eq hop]
    rintro ⟨j, hj⟩
    set V := (lib.eig ((Z * S)ᴴ * (A * (Z * S)))).2 with hVd
    have hu : IsUnit (Zᴴ * Z * S * V).det := by
      rw [det_mul, det_mul]
      exact isUnit_iff_ne_zero.2 (mul_ne_zero (mul_ne_zero hd hS.det_pos.ne') hV)
    have h0 : (Zᴴ * Z * S * V) *ᵥ Pi.single j 1 = 0 := by
      rw [mulVec_single_one]
      have : Zᴴ * Z * S * V = Zᴴ * (Z * S * V) := by simp only [Matrix.mul_assoc]
      rw [this]
      funext i
      show (Zᴴ * (Z * S * V)) i j = 0
      rw [mul_apply]
      exact Finset.sum_eq_zero fun k _ => by rw [hj k, mul_zero]
    have h1 := congrArg ((Zᴴ * Z * S * V)⁻¹ *ᵥ ·) h0
    simp only [mulVec_mulVec, nonsing_inv_mul _ hu, one_mulVec, mulVec_zero] at h1
    have := congrFun h1 j
    simp at this

/-- A run that converges: with two eigenvalues -1, -4, the guess `(3/5, 4/5)` and tolerance 2 the iteration stops by its
convergence test in the second pass. -/
theorem converging_run (theta : ℝ) : ∃ (lib : SolveLib 1) (op iop : (Fin 2 → ℂ) → Fin 2 → ℂ) (A : Matrix (Fin 2) (Fin 2) ℂ) (Z0 : Matrix (Fin 2) (Fin 1) ℂ) (vals : Fin 1 → ℂ)
    (vecs : Fin 1 → Fin 2 → ℂ), SolveLibOk lib ∧ (∀ f, lib.minimize f = .ok theta) ∧ (∀ v, op v = A *ᵥ v) ∧ (A.IsHermitian ∧ (-A).PosSemidef)
      ∧ Z0ᴴ * Z0 = 1 ∧ ∀ draw fuel, ∃ Y, eigsolveFull op iop lib draw (fuel + 1) 2 10 5 Z0 = .ok (true, Y, vals, vecs) := by
  obtain ⟨lib, hl, hm⟩ := solveLibOk_exists (M := 1) fun _ => .ok theta
  let a : Fin 2 → ℂ := fun i => if i = 0 then 1 else 4
  have hr : ∀ i, star (a i) = a i := fun i => by simp only [a]; split_ifs <;> simp
  have hA : (diagonal fun i => -a i).IsHermitian := by
    rw [IsHermitian, diagonal_conjTranspose]
    congr 1
    funext i
    simp [hr i]
  have hAneg : (-(diagonal fun i => -a i)).PosSemidef := by
    rw [← diagonal_neg, neg_neg, posSemidef_diagonal_iff]
    intro i
    fin_cases i <;> simp [a]
  have hopA : ∀ v : Fin 2 → ℂ, (fun i => -a i * v i) = (diagonal fun i => -a i) *ᵥ v := fun v => by
    funext i
    rw [mulVec_diagonal]
  obtain ⟨st', x, y, hE0, h3, hxp, hyq, hz0, hxy, hne1, hrun⟩ := two_modes_step (op := fun v i => -a i * v i) (iop := fun v i => (a i)⁻¹ * v i)
    (a := a) (fun _ _ => rfl) (fun _ _ => rfl) (p := 0) (q := 1) (by decide) (by simp [a]) (by simp [a])
    (Z0 := of fun i _ => if i = 0 then 3 / 5 else 4 / 5) (by simp) (by simp)
    (fun i hi => by fin_cases i <;> simp at hi) (lib := lib) (theta := theta) (fun f => by rw [hm]) 2 5
  have hg : (st'.Zᴴ * st'.Z).det ≠ 0 := by
    rw [det_unique, mul_apply, Fin.sum_univ_two]
    simp only [conjTranspose_apply]
    show star (st'.Z 0 0) * st'.Z 0 0 + star (st'.Z 1 0) * st'.Z 1 0 ≠ 0
    rw [hxp, hyq, star_def, conj_ofReal, conj_ofReal]
    intro hc
    have h : x * x + y * y = 0 := by exact_mod_cast hc
    apply hxy
    have hx0 : x = 0 := by nlinarith [sq_nonneg x, sq_nonneg y]
    have hy0 : y = 0 := by nlinarith [sq_nonneg x, sq_nonneg y]
    rw [hx0, hy0]; norm_num
  have hstop : ∃ st, solveLoop (fun v i => -a i * v i) (fun v i => (a i)⁻¹ * v i) lib 2 5 9 1 st' = .ok (true, st)
      ∧ st.Z = st'.Z ∧ st.ZtZ = st'.Zᴴ * st'.Z := by
    rw [solveLoop, solveStep]
    rw [inv_ok hg]
    simp only [bind, Except.bind, pure, Except.pure]
    rw [if_pos]
    · exact ⟨_, rfl, rfl, rfl⟩
    · refine ⟨one_pos, ?_⟩
      have key : ∀ E : ℝ, 0 ≤ E → |E - st'.prevE| < 2 * 0.5 * (E + st'.prevE + 1e-7) := fun E hE => by
        rw [abs_lt]
        norm_num
        constructor <;> linarith
      exact key _ (abs_nonneg _)
  obtain ⟨st, e1, e2, e3⟩ := hstop
  obtain ⟨⟨vals, vecs⟩, hf⟩ := finish_total hopA hA hl hg
  refine ⟨lib, _, fun v i => (a i)⁻¹ * v i, _, of fun i _ => if i = 0 then 3 / 5 else 4 / 5, vals, vecs, hl, fun f => by rw [hm], hopA, ⟨hA, hAneg⟩, ?_,
    fun draw fuel => ⟨st.Z, ?_⟩⟩
  · ext i j
    rw [Subsingleton.elim i 0, Subsingleton.elim j 0, mul_apply, Fin.sum_univ_two]
    simp [conjTranspose_apply]
    norm_num
  rw [hrun draw fuel 9, e1]
  simp only [bind, Except.bind, pure, Except.pure, e2, e3, hf]

/-- The hypotheses of C78_ritz_partial are met. -/
example : ∃ (lib : SolveLib 1) (op iop : (Fin 2 → ℂ) → Fin 2 → ℂ) (A : Matrix (Fin 2) (Fin 2) ℂ) (Z0 : Matrix (Fin 2) (Fin 1) ℂ) (vals : Fin 1 → ℂ)
    (vecs : Fin 1 → Fin 2 → ℂ), SolveLibOk lib ∧ (∀ v, op v = A *ᵥ v) ∧ A.IsHermitian
      ∧ ∀ draw fuel, eigsolve op iop lib draw (fuel + 1) 2 10 5 Z0 = .ok (true, vals, vecs) := by
  obtain ⟨lib, op, iop, A, Z0, vals, vecs, h1, -, h3, ⟨h4, -⟩, -, h5⟩ := converging_run (Real.pi / 4)
  refine ⟨lib, op, iop, A, Z0, vals, vecs, h1, h3, h4, fun draw fuel => ?_⟩
  obtain ⟨Y, h⟩ := h5 draw fuel
  rw [eigsolve, h]
  rfl

/-! ### find_k -/

/-- **C79, disagreement.** `find_k` never returns: it converts the wave vector, an array of three numbers, to a float. Whenever the search has ended, a
TypeError is raised. -/
theorem C79_find_k_partial {V : Type} (getF : ℝ → Res (ℝ × V)) (search : (ℝ → Res ℝ) → Res (ℝ × ℝ)) (frequency : ℝ) (direction : Fin 3 → ℝ)
    (last : V) :
    (∀ r, findK getF search frequency direction last ≠ .ok r)
      ∧ ((∃ r, (search fun k => do
            let (f, _) ← getF k
            return |f - frequency|) = .ok r) → findK getF search frequency direction last = .error "TypeError") := by
  unfold findK
  generalize hs : search _ = r
  constructor
  · intro q h
    cases r with
    | error e => cases h
    | ok r => cases h
  · rintro ⟨q, rfl⟩
    rfl

end Meanas.Props
