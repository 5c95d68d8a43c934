/-
Property C128, continued: progress of the passes of `eigsolve` between resets of the conjugate directions (meanas/fdfd/bloch.py:591-739).
-/
import Verif.Props.BlochGradient
import Mathlib.Analysis.Calculus.LocalExtr.Basic
import Mathlib.Analysis.SpecialFunctions.Complex.Arg

set_option linter.unusedSectionVars false

namespace Meanas.Props

open Complex Matrix Meanas.Bloch
open scoped ComplexOrder MatrixOrder

variable {N : Type} [Fintype N] {M : ℕ}

/-- The line search is exact over the interval that `eigsolve` hands to it. -/
def ExactSearch (lib : SolveLib M) : Prop :=
  ∀ f theta, lib.minimize f = .ok theta → ∀ phi ∈ Set.Icc 0 Real.pi, ∀ a b, f theta = .ok a → f phi = .ok b → a ≤ b

/-- Every real combination of the block and the direction is a multiple of a block that the line search visits. -/
theorem combination_trial (Z D : Matrix N (Fin M) ℂ) {x y : ℝ} (h : x ≠ 0 ∨ y ≠ 0) :
    ∃ (r phi : ℝ), r ≠ 0 ∧ phi ∈ Set.Icc 0 Real.pi ∧ (x : ℂ) • Z + (y : ℂ) • D = (r : ℂ) • trial Z D phi := by
  have key : ∀ x y : ℝ, (x ≠ 0 ∨ y ≠ 0) → 0 ≤ y → ∃ (r phi : ℝ), r ≠ 0 ∧ phi ∈ Set.Icc 0 Real.pi ∧ x = r * Real.cos phi ∧ y = r * Real.sin phi := by
    intro x y h hy
    have hz : (⟨x, y⟩ : ℂ) ≠ 0 := by
      intro hc
      have h1 := congrArg re hc
      have h2 := congrArg im hc
      simp only [zero_re, zero_im] at h1 h2
      rcases h with h | h
      · exact h h1
      · exact h h2
    refine ⟨‖(⟨x, y⟩ : ℂ)‖, arg ⟨x, y⟩, norm_ne_zero_iff.2 hz, ⟨arg_nonneg_iff.2 hy, arg_le_pi _⟩, ?_, ?_⟩
    · rw [norm_mul_cos_arg]
    · rw [norm_mul_sin_arg]
  have fin : ∀ (r phi : ℝ), (r * Real.cos phi : ℝ) • Z + (r * Real.sin phi : ℝ) • D = (r : ℂ) • trial Z D phi := by
    intro r phi
    unfold trial
    rw [smul_add, smul_smul, smul_smul, ← ofReal_mul, ← ofReal_mul]
    rfl
  rcases le_total 0 y with hy | hy
  · obtain ⟨r, phi, hr, hp, hx, hy⟩ := key x y h hy
    refine ⟨r, phi, hr, hp, ?_⟩
    rw [← fin, hx, hy]
    rfl
  · obtain ⟨r, phi, hr, hp, hx, hy⟩ := key (-x) (-y) (by simpa using h) (by linarith)
    refine ⟨-r, phi, neg_ne_zero.2 hr, hp, ?_⟩
    rw [← fin, show x = -r * Real.cos phi by linarith, show y = -r * Real.sin phi by linarith]
    rfl

theorem gram_smul_det (Z : Matrix N (Fin M) ℂ) {r : ℝ} (hr : r ≠ 0) :
    (((r : ℂ) • Z)ᴴ * ((r : ℂ) • Z)).det ≠ 0 ↔ (Zᴴ * Z).det ≠ 0 := by
  rw [conjTranspose_smul, Matrix.smul_mul, Matrix.mul_smul, smul_smul, det_smul]
  have : (star (r : ℂ) * r) ^ Fintype.card (Fin M) ≠ 0 := by
    rw [star_def, conj_ofReal]
    exact pow_ne_zero _ (mul_ne_zero (ofReal_ne_zero.2 hr) (ofReal_ne_zero.2 hr))
  constructor
  · exact right_ne_zero_of_mul
  · exact mul_ne_zero this

theorem objective_smul (A : Matrix N N ℂ) (Z : Matrix N (Fin M) ℂ) {r : ℝ} (hr : r ≠ 0) : objective A ((r : ℂ) • Z) = objective A Z := by
  have h : (r : ℂ) • Z = Z * ((r : ℂ) • (1 : Matrix (Fin M) (Fin M) ℂ)) := by rw [Matrix.mul_smul, Matrix.mul_one]
  rw [h]
  refine objective_mul A Z _ ?_
  rw [det_smul, det_one, mul_one]
  exact pow_ne_zero _ (ofReal_ne_zero.2 hr)

/-- An exact line search finds the best of all real combinations of the block and the direction. -/
theorem exact_best {op : (N → ℂ) → N → ℂ} {A : Matrix N N ℂ} (hop : ∀ v, op v = A *ᵥ v) (hA : A.IsHermitian) {lib : SolveLib M}
    (hmin : ExactSearch lib) {Z D : Matrix N (Fin M) ℂ} {theta : ℝ} (hm : lib.minimize (searchFunc op Z D) = .ok theta)
    (hd : ((trial Z D theta)ᴴ * trial Z D theta).det ≠ 0) {x y : ℝ} (hxy : x ≠ 0 ∨ y ≠ 0)
    (hd' : (((x : ℂ) • Z + (y : ℂ) • D)ᴴ * ((x : ℂ) • Z + (y : ℂ) • D)).det ≠ 0) :
    objective A (trial Z D theta) ≤ objective A ((x : ℂ) • Z + (y : ℂ) • D) := by
  obtain ⟨r, phi, hr, hp, e⟩ := combination_trial Z D hxy
  rw [e] at hd' ⊢
  rw [objective_smul A _ hr]
  exact hmin _ _ hm _ hp _ _ (C77_line_search hop hA Z D theta hd) (C77_line_search hop hA Z D phi ((gram_smul_det _ hr).1 hd'))

/-- **C128, conjugacy.** After a pass with an exact line search, the gradient at the new block is orthogonal to the direction of the pass, and to the block
it started from. -/
theorem C128_conjugate {op iop : (N → ℂ) → N → ℂ} {A : Matrix N N ℂ} (hop : ∀ v, op v = A *ᵥ v) (hA : A.IsHermitian) {lib : SolveLib M}
    (hmin : ExactSearch lib) {tol : ℝ} {ri i : ℕ} {st st' : SolveState N M} (h : solveStep op iop lib tol ri i st = .ok (false, st'))
    (h0 : objective A st.Z ≠ 0) (hd : (st'.Zᴴ * st'.Z).det ≠ 0) {G : Matrix N (Fin M) ℂ} (hG : IsGradient (objective A) st'.Z G) :
    (trace (Gᴴ * st'.D)).re = 0 ∧ (trace (Gᴴ * st.Z)).re = 0 := by
  obtain ⟨-, -, -, D0, theta, -, -, -, -, -, -, -, -, hm, hz⟩ := C128_direction hop hA h h0
  have hsmall : ∀ᶠ t : ℝ in nhds 0, |t| < 1 := by
    filter_upwards [Ioo_mem_nhds (show (-1 : ℝ) < 0 by norm_num) one_pos] with t ht
    exact abs_lt.2 ht
  -- the new block is the best one along every combination of the two
  have key : ∀ a b : ℝ, |a| + |b| ≤ 1 → 2 * (trace (Gᴴ * ((a : ℂ) • st.Z + (b : ℂ) • st'.D))).re = 0 := by
    intro a b hab
    have hloc : IsLocalMin (fun t : ℝ => objective A (st'.Z + (t : ℂ) • ((a : ℂ) • st.Z + (b : ℂ) • st'.D))) 0 := by
      filter_upwards [gram_det_near st'.Z ((a : ℂ) • st.Z + (b : ℂ) • st'.D) hd, hsmall] with t ht hs
      have e : st'.Z + (t : ℂ) • ((a : ℂ) • st.Z + (b : ℂ) • st'.D)
          = ((Real.cos theta + t * a : ℝ) : ℂ) • st.Z + ((Real.sin theta + t * b : ℝ) : ℂ) • st'.D := by
        rw [hz, trial, smul_add, smul_smul, smul_smul, ofReal_add, ofReal_add, add_smul, add_smul, ofReal_mul, ofReal_mul]
        abel
      have hxy : Real.cos theta + t * a ≠ 0 ∨ Real.sin theta + t * b ≠ 0 := by
        by_contra hc
        push Not at hc
        have h1 := Real.sin_sq_add_cos_sq theta
        have h2 : Real.sin theta = -(t * b) := by linarith [hc.2]
        have h3 : Real.cos theta = -(t * a) := by linarith [hc.1]
        have h4 : t ^ 2 < 1 := (sq_lt_one_iff_abs_lt_one t).2 hs
        have h5 : a ^ 2 + b ^ 2 ≤ 1 := by
          rw [← sq_abs a, ← sq_abs b]
          nlinarith [abs_nonneg a, abs_nonneg b]
        rw [h2, h3] at h1
        nlinarith [sq_nonneg t, sq_nonneg a, sq_nonneg b]
      simp only [ofReal_zero, zero_smul, add_zero]
      rw [e] at ht ⊢
      rw [hz] at hd ⊢
      exact exact_best hop hA hmin hm hd hxy ht
    exact hloc.hasDerivAt_eq_zero (hG _)
  constructor
  · have := key 0 1 (by simp)
    simp only [ofReal_zero, zero_smul, zero_add, ofReal_one, one_smul] at this
    linarith
  · have := key 1 0 (by simp)
    simp only [ofReal_zero, zero_smul, add_zero, ofReal_one, one_smul] at this
    linarith

/-- A pass along a direction of ascent strictly lowers the objective if the line search is exact. -/
theorem progress_of_ascent {op iop : (N → ℂ) → N → ℂ} {A : Matrix N N ℂ} (hop : ∀ v, op v = A *ᵥ v) (hA : A.IsHermitian) {lib : SolveLib M}
    (hmin : ExactSearch lib) {tol : ℝ} {ri i : ℕ} {st st' : SolveState N M} (h : solveStep op iop lib tol ri i st = .ok (false, st'))
    (h0 : objective A st.Z ≠ 0) (hd : (st'.Zᴴ * st'.Z).det ≠ 0) {G : Matrix N (Fin M) ℂ} (hG : IsGradient (objective A) st.Z G)
    (hpos : (trace (Gᴴ * st'.D)).re ≠ 0) : objective A st'.Z < objective A st.Z := by
  have hd0 := (step_eq h).1
  obtain ⟨-, -, -, D0, theta, -, -, -, -, -, -, -, -, hm, hz⟩ := C128_direction hop hA h h0
  by_contra hc
  push Not at hc
  have hloc : IsLocalMin (fun t : ℝ => objective A (st.Z + (t : ℂ) • st'.D)) 0 := by
    filter_upwards [gram_det_near st.Z st'.D hd0] with t ht
    have e : st.Z + (t : ℂ) • st'.D = ((1 : ℝ) : ℂ) • st.Z + (t : ℂ) • st'.D := by rw [ofReal_one, one_smul]
    simp only [ofReal_zero, zero_smul, add_zero]
    refine hc.trans ?_
    rw [e] at ht ⊢
    rw [hz] at hd ⊢
    exact exact_best hop hA hmin hm hd (Or.inl one_ne_zero) ht
  have := hloc.hasDerivAt_eq_zero (hG st'.D)
  exact hpos (by linarith)

theorem direction_ascent {iop : (N → ℂ) → N → ℂ} (hK : ∀ v, v ≠ 0 → 0 < (star v ⬝ᵥ iop v).re) {G D : Matrix N (Fin M) ℂ} (hG : G ≠ 0) {γ s : ℝ}
    (hor : γ = 0 ∨ (trace (Gᴴ * D)).re = 0) : 0 < (trace (Gᴴ * (((γ / s : ℝ) : ℂ) • D + cols iop G))).re := by
  rw [Matrix.mul_add, trace_add, add_re, Matrix.mul_smul, trace_smul, smul_eq_mul, re_ofReal_mul]
  have : γ / s * (trace (Gᴴ * D)).re = 0 := by
    rcases hor with h | h
    · rw [h, zero_div, zero_mul]
    · rw [h, mul_zero]
  rw [this, zero_add]
  exact trace_pos_of_form hK hG

/-- **C128, progress between resets.** For a Hermitian operator, a preconditioner with a positive quadratic form and an exact line search, every pass that
follows another one strictly lowers the objective, whether or not it resets the conjugate directions, if the objective is not zero and the columns of the block
do not span an invariant subspace. -/
theorem C128_progress_between {op iop : (N → ℂ) → N → ℂ} {A : Matrix N N ℂ} (hop : ∀ v, op v = A *ᵥ v) (hA : A.IsHermitian)
    (hK : ∀ v, v ≠ 0 → 0 < (star v ⬝ᵥ iop v).re) {lib : SolveLib M} (hmin : ExactSearch lib)
    {tol : ℝ} {ri i j : ℕ} {st0 st st' : SolveState N M} (hprev : solveStep op iop lib tol ri j st0 = .ok (false, st))
    (h : solveStep op iop lib tol ri i st = .ok (false, st')) (hd : (st'.Zᴴ * st'.Z).det ≠ 0) (h00 : objective A st0.Z ≠ 0)
    (h0 : objective A st.Z ≠ 0) (hinv : ¬ ∃ C : Matrix (Fin M) (Fin M) ℂ, A * st.Z = st.Z * C) :
    objective A st'.Z < objective A st.Z := by
  have hd0 := (step_eq h).1
  obtain ⟨G, hg, γ, D0, theta, -, -, hD0, hf, hsc, hD, -, -, hm, hz⟩ := C128_direction hop hA h h0
  obtain ⟨G', hg', -, hiff⟩ := C128_stationary hA st.Z hd0 h0
  obtain rfl := hg.unique hg'
  have hG : G ≠ 0 := fun hc => hinv (hiff.1 hc)
  have hor := (C128_conjugate hop hA hmin hprev h00 hd0 hg).1
  have hasc := direction_ascent hK hG (γ := γ) (s := st.dScale) (Or.inr hor)
  rw [← hD0] at hasc
  have hM : M ≠ 0 := by
    rintro rfl
    exact hf (fnorm_eq_zero.2 (by ext i j; exact j.elim0))
  refine progress_of_ascent hop hA hmin h h0 hd hg ?_
  rw [hD, Matrix.mul_smul, trace_smul, smul_eq_mul, re_ofReal_mul, hsc]
  exact mul_ne_zero (div_ne_zero (Nat.cast_ne_zero.2 hM) hf) hasc.ne'

/-- **C128, the whole run.** The objectives of the blocks of a run of the main loop with an exact line search form a strictly decreasing sequence until the
columns of a block span an invariant subspace. -/
theorem C128_run {op iop : (N → ℂ) → N → ℂ} {A : Matrix N N ℂ} (hop : ∀ v, op v = A *ᵥ v) (hA : A.IsHermitian)
    (hK : ∀ v, v ≠ 0 → 0 < (star v ⬝ᵥ iop v).re) {lib : SolveLib M} (hmin : ExactSearch lib) {tol : ℝ} {ri n : ℕ} (st : ℕ → SolveState N M)
    (hstart : (st 0).prevTr = 0) (hstep : ∀ i ≤ n, solveStep op iop lib tol ri i (st i) = .ok (false, st (i + 1)))
    (hd : ((st (n + 1)).Zᴴ * (st (n + 1)).Z).det ≠ 0) (h0 : ∀ i ≤ n, objective A (st i).Z ≠ 0)
    (hinv : ∀ i ≤ n, ¬ ∃ C : Matrix (Fin M) (Fin M) ℂ, A * (st i).Z = (st i).Z * C) :
    ∀ i ≤ n, objective A (st (i + 1)).Z < objective A (st i).Z := by
  intro i hi
  have hdi : ((st (i + 1)).Zᴴ * (st (i + 1)).Z).det ≠ 0 := by
    rcases Nat.lt_or_ge i n with h | h
    · exact (step_eq (hstep (i + 1) h)).1
    · obtain rfl : i = n := le_antisymm hi h
      exact hd
  rcases Nat.eq_zero_or_pos i with rfl | hpos
  · exact C128_progress hop hA hK hmin (hstep 0 hi) (Or.inl hstart) hdi (h0 0 hi) (hinv 0 hi)
  · obtain ⟨j, rfl⟩ : ∃ j, i = j + 1 := ⟨i - 1, by omega⟩
    exact C128_progress_between hop hA hK hmin (hstep j (by omega)) (hstep (j + 1) hi) hdi (h0 j (by omega)) (h0 _ hi) (hinv _ hi)

/-- **C128, runs for the Maxwell operator.** If no wave vector of the grid is along y or zero, `epsilon` is real and positive and the line search is exact,
every pass of a run brings the (negative) sum of the Ritz values strictly closer to zero until the block spans an invariant subspace. -/
theorem C128_bloch_run_partial {sh : Fin 3 → ℕ} (k0 : Fin 3 → ℝ) (G : Matrix (Fin 3) (Fin 3) ℝ) (hr : Regular k0 G sh)
    (hk : ∀ (x : Idx sh) (k : Fin 3 → ℝ), IsWave k0 G k x → k ≠ 0) {eps : VField sh ℂ} (he : PosReal eps) {op iop : Hmn sh → Hmn sh}
    (hop : ∀ h, maxwellOperator k0 G eps h = some (op h)) (hiop : ∀ h, inverseMaxwellOperatorApprox k0 G eps h = some (iop h)) {lib : SolveLib M}
    (hM : 0 < M) (hmin : ExactSearch lib) {tol : ℝ} {ri n : ℕ} (st : ℕ → SolveState (Fin 2 × Idx sh) M)
    (hstart : (st 0).prevTr = 0) (hstep : ∀ i ≤ n, solveStep (flat op) (flat iop) lib tol ri i (st i) = .ok (false, st (i + 1)))
    (hd : ((st (n + 1)).Zᴴ * (st (n + 1)).Z).det ≠ 0)
    (hinv : ∀ i ≤ n, ¬ ∃ C : Matrix (Fin M) (Fin M) ℂ, cols (flat op) (st i).Z = (st i).Z * C) (i : ℕ) (hi : i ≤ n) :
    (trace ((st i).Zᴴ * cols (flat op) (st i).Z * ((st i).Zᴴ * (st i).Z)⁻¹)).re
        < (trace ((st (i + 1)).Zᴴ * cols (flat op) (st (i + 1)).Z * ((st (i + 1)).Zᴴ * (st (i + 1)).Z)⁻¹)).re
      ∧ (trace ((st (i + 1)).Zᴴ * cols (flat op) (st (i + 1)).Z * ((st (i + 1)).Zᴴ * (st (i + 1)).Z)⁻¹)).re < 0 := by
  obtain ⟨A, hA, hAop⟩ := C59_matrix_partial k0 G hr he
  have hfl : ∀ v, flat op v = A *ᵥ v := by
    intro v
    have h1 := (hop fun i x => v (i, x)).symm.trans (hAop _)
    funext p
    exact congrFun (congrFun (Option.some.inj h1) p.1) p.2
  have hAh : A.IsHermitian := by
    have := hA.1.neg
    rwa [neg_neg] at this
  obtain ⟨iop', hiop', -, hpos, -⟩ := inverse_form_pos k0 G hr hk he
  obtain rfl : iop' = iop := funext fun u => Option.some.inj ((hiop' u).symm.trans (hiop u))
  have hne : ∀ v : Fin 2 × Idx sh → ℂ, v ≠ 0 → (fun i x => v (i, x) : Hmn sh) ≠ 0 := fun v hv hc => hv (by
    funext p
    exact congrFun (congrFun hc p.1) p.2)
  have hK : ∀ v, v ≠ 0 → 0 < (star v ⬝ᵥ flat iop' v).re := fun v hv => by rw [flat_form]; exact hpos _ (hne v hv)
  have hN : ∀ v, v ≠ 0 → (star v ⬝ᵥ (A *ᵥ v)).re < 0 := fun v hv => by
    rw [← hfl, flat_form]; exact maxwell_form_neg k0 G hr hk he hop (hne v hv)
  have hdi : ∀ i ≤ n + 1, ((st i).Zᴴ * (st i).Z).det ≠ 0 := by
    intro i hi
    rcases Nat.lt_or_ge i (n + 1) with h | h
    · exact (step_eq (hstep i (by omega))).1
    · obtain rfl : i = n + 1 := le_antisymm hi h
      exact hd
  have hneg : ∀ i ≤ n + 1, (trace ((st i).Zᴴ * A * (st i).Z * ((st i).Zᴴ * (st i).Z)⁻¹)).re < 0 := fun i hi => ritz_neg hN hM (hdi i hi)
  have hlt := C128_run hfl hAh hK hmin st hstart hstep hd (fun i hi => abs_ne_zero.2 (hneg i (by omega)).ne)
    (fun i hi => by rw [← cols_eq hfl]; exact hinv i hi) i hi
  have n1 := hneg i (by omega)
  have n2 := hneg (i + 1) (by omega)
  rw [objective, objective, abs_of_neg n1, abs_of_neg n2] at hlt
  rw [cols_eq hfl, cols_eq hfl, ← Matrix.mul_assoc, ← Matrix.mul_assoc]
  exact ⟨by linarith, n2⟩

/-! ### Passes are defined -/

/-- The objective varies continuously with the angle if no trial block loses rank. -/
theorem continuous_objective_trial (A : Matrix N N ℂ) (Z D : Matrix N (Fin M) ℂ) (hfull : ∀ t, ((trial Z D t)ᴴ * trial Z D t).det ≠ 0) :
    Continuous fun t => objective A (trial Z D t) := by
  classical
  have hT : Continuous fun t => trial Z D t :=
    ((continuous_ofReal.comp Real.continuous_cos).smul continuous_const).add ((continuous_ofReal.comp Real.continuous_sin).smul continuous_const)
  have hQ : Continuous fun t => (trial Z D t)ᴴ * trial Z D t := hT.matrix_conjTranspose.matrix_mul hT
  have hI : Continuous fun t => ((trial Z D t)ᴴ * trial Z D t)⁻¹ := by
    simp only [Matrix.inv_def, Ring.inverse_eq_inv']
    exact (hQ.matrix_det.inv₀ hfull).smul hQ.matrix_adjugate
  unfold objective
  exact (continuous_re.comp (((hT.matrix_conjTranspose.matrix_mul continuous_const).matrix_mul hT).matrix_mul hI).matrix_trace).abs

/-- **C128, passes are defined.** For one mode, a Hermitian operator and a preconditioner with a positive quadratic form, a pass whose stopping test fails and
that resets the directions or follows another one does not raise: the direction is not zero, no trial block loses rank, and the objective attains its
minimum along it, so that an exact line search exists. The new block is not zero. -/
theorem C128_defined {op iop : (N → ℂ) → N → ℂ} {A : Matrix N N ℂ} (hop : ∀ v, op v = A *ᵥ v) (hA : A.IsHermitian)
    (hK : ∀ v, v ≠ 0 → 0 < (star v ⬝ᵥ iop v).re) {lib : SolveLib 1}
    (hfind : ∀ f, (∃ theta ∈ Set.Icc 0 Real.pi, ∃ a, f theta = .ok a ∧ ∀ phi ∈ Set.Icc 0 Real.pi, ∀ b, f phi = .ok b → a ≤ b) → ∃ theta, lib.minimize f = .ok theta)
    {tol : ℝ} {ri i : ℕ} {st : SolveState N 1} (htest : ¬ (0 < i ∧ |objective A st.Z - st.prevE| < tol * 0.5 * (objective A st.Z + st.prevE + 1e-7)))
    (h0 : objective A st.Z ≠ 0) (hinv : ¬ ∃ C : Matrix (Fin 1) (Fin 1) ℂ, A * st.Z = st.Z * C)
    (hdir : (st.prevTr = 0 ∨ i % ri = 0) ∨ ∀ G, IsGradient (objective A) st.Z G → (trace (Gᴴ * st.D)).re = 0) :
    ∃ st', solveStep op iop lib tol ri i st = .ok (false, st') ∧ (st'.Zᴴ * st'.Z).det ≠ 0 ∧ 0 ≤ st'.prevE := by
  classical
  have hgram : ∀ Z : Matrix N (Fin 1) ℂ, Z ≠ 0 → (Zᴴ * Z).det ≠ 0 := by
    intro Z hZ hc
    rw [det_fin_one] at hc
    have h1 := trace_gram_re Z
    rw [trace_fin_one, hc, zero_re] at h1
    exact hZ (fnorm_eq_zero.1 (pow_eq_zero_iff two_ne_zero |>.1 h1.symm))
  have hZ : st.Z ≠ 0 := by
    intro hc
    exact hinv ⟨0, by rw [hc]; simp⟩
  have hd := hgram _ hZ
  obtain ⟨G, hg, hzg, hiff⟩ := C128_stationary hA st.Z hd h0
  have hG : G ≠ 0 := fun hc => hinv (hiff.1 hc)
  have hge : G = ((SignType.sign (trace (st.Zᴴ * A * st.Z * (st.Zᴴ * st.Z)⁻¹)).re : ℝ) : ℂ) •
      (A * st.Z * (st.Zᴴ * st.Z)⁻¹ - st.Z * (st.Zᴴ * st.Z)⁻¹ * (st.Zᴴ * A * st.Z * (st.Zᴴ * st.Z)⁻¹)) :=
    hg.unique (isGradient_objective hA st.Z hd h0)
  set γ : ℝ := if st.prevTr = 0 ∨ i % ri = 0 then (0 : ℝ) else rtraceAtB (cols iop G) (cols iop G) / st.prevTr with hγ
  set D0 : Matrix N (Fin 1) ℂ := ((γ / st.dScale : ℝ) : ℂ) • st.D + cols iop G with hD0
  have hasc : 0 < (trace (Gᴴ * D0)).re := by
    refine direction_ascent hK hG ?_
    rcases hdir with h | h
    · exact Or.inl (by rw [hγ, if_pos h])
    · exact Or.inr (h G hg)
  have hf : fnorm D0 ≠ 0 := by
    intro hc
    rw [fnorm_eq_zero.1 hc] at hasc
    simp at hasc
  set D : Matrix N (Fin 1) ℂ := ((1 / fnorm D0 : ℝ) : ℂ) • D0 with hD
  have hasc' : (trace (Gᴴ * D)).re ≠ 0 := by
    rw [hD, Matrix.mul_smul, trace_smul, smul_eq_mul, re_ofReal_mul]
    exact mul_ne_zero (one_div_ne_zero hf) hasc.ne'
  have hGZ : Gᴴ * st.Z = 0 := by
    have := congrArg conjTranspose hzg
    rwa [conjTranspose_mul, conjTranspose_conjTranspose, conjTranspose_zero] at this
  have hfull : ∀ t, ((trial st.Z D t)ᴴ * trial st.Z D t).det ≠ 0 := by
    intro t
    refine hgram _ fun hc => ?_
    have h1 := congrArg (fun X => (trace (Gᴴ * X)).re) hc
    simp only [trial, Matrix.mul_add, Matrix.mul_smul, hGZ, smul_zero, zero_add, trace_smul, smul_eq_mul, re_ofReal_mul, Matrix.mul_zero, trace_zero, zero_re] at h1
    have hs : Real.sin t = 0 := (mul_eq_zero.1 h1).resolve_right hasc'
    have hc' : Real.cos t ≠ 0 := by
      intro h2
      have := Real.sin_sq_add_cos_sq t
      rw [hs, h2] at this
      norm_num at this
    rw [trial, hs, ofReal_zero, zero_smul, add_zero, smul_eq_zero] at hc
    exact hc.elim (fun h => hc' (by exact_mod_cast h)) hZ
  have hval : ∀ t, searchFunc op st.Z D t = .ok (objective A (trial st.Z D t)) := fun t => C77_line_search hop hA st.Z D t (hfull t)
  obtain ⟨theta, hth⟩ := hfind (searchFunc op st.Z D) (by
    obtain ⟨t, ht, hmin⟩ := (isCompact_Icc (a := (0 : ℝ)) (b := Real.pi)).exists_isMinOn ⟨0, by constructor <;> simp [Real.pi_pos.le]⟩
      (continuous_objective_trial A st.Z D hfull).continuousOn
    refine ⟨t, ht, _, hval t, fun phi hphi b hb => ?_⟩
    rw [hval] at hb
    obtain rfl := Except.ok.inj hb
    exact hmin hphi)
  unfold searchFunc at hth
  have hop' : ∀ Z : Matrix N (Fin 1) ℂ, cols op Z = A * Z := fun Z => cols_eq hop Z
  simp only [hop', ← Matrix.mul_assoc st.Zᴴ A st.Z] at hth
  have hns : ¬ (0 < i ∧ |(|(trace (st.Zᴴ * A * st.Z * (st.Zᴴ * st.Z)⁻¹)).re| - st.prevE)|
        < tol * 0.5 * (|(trace (st.Zᴴ * A * st.Z * (st.Zᴴ * st.Z)⁻¹)).re| + st.prevE + 1e-7)) := htest
  have hgc : ((γ : ℂ) / (st.dScale : ℂ)) • st.D + cols iop G = D0 := by rw [hD0, ofReal_div]
  have hdc : (((1 : ℕ) : ℝ) / fnorm D0 : ℝ) = 1 / fnorm D0 := by rw [Nat.cast_one]
  have hdD : ((1 / fnorm D0 : ℝ) : ℂ) • D0 = D := rfl
  unfold solveStep
  simp only [inv_ok hd, bind, Except.bind, pure, Except.pure, throw, throwThe, MonadExceptOf.throw, hop', ← Matrix.mul_assoc st.Zᴴ A st.Z, ← hge,
    if_neg hns, ← hγ, hgc, if_neg hf, hdc, hdD, hth]
  exact ⟨_, rfl, hfull theta, abs_nonneg _⟩

/-- A library whose line search is exact and succeeds whenever the minimum is attained. -/
theorem exact_search_exists : ∃ lib : SolveLib M, SolveLibOk lib ∧ ExactSearch lib
    ∧ ∀ f, (∃ theta ∈ Set.Icc 0 Real.pi, ∃ a, f theta = .ok a ∧ ∀ phi ∈ Set.Icc 0 Real.pi, ∀ b, f phi = .ok b → a ≤ b) → ∃ theta, lib.minimize f = .ok theta := by
  classical
  let P : (ℝ → Res ℝ) → ℝ → Prop := fun f theta => ∀ phi ∈ Set.Icc 0 Real.pi, ∀ a b, f theta = .ok a → f phi = .ok b → a ≤ b
  obtain ⟨lib, hl, hm⟩ := solveLibOk_exists (M := M) fun f => if h : ∃ theta, P f theta then .ok h.choose else .error "no minimum"
  refine ⟨lib, hl, ?_, ?_⟩
  · intro f theta h
    rw [hm] at h
    simp only at h
    split_ifs at h with hc
    obtain rfl := Except.ok.inj h
    exact hc.choose_spec
  · rintro f ⟨theta, -, a, ha, hmin⟩
    rw [hm]
    exact ⟨_, dif_pos ⟨theta, fun phi hphi a' b ha' hb => by
      rw [ha] at ha'
      obtain rfl := Except.ok.inj ha'
      exact hmin phi hphi b hb⟩⟩

/-- **C128, one mode.** For one mode, a negative definite operator, a preconditioner with a positive quadratic form, an exact line search and no tolerance,
the main loop runs as long as the trial vector, which never becomes zero, is no eigenvector, and the objective decreases strictly at every pass. -/
theorem C128_one_mode {op iop : (N → ℂ) → N → ℂ} {A : Matrix N N ℂ} (hop : ∀ v, op v = A *ᵥ v) (hA : A.IsHermitian)
    (hN : ∀ v, v ≠ 0 → (star v ⬝ᵥ (A *ᵥ v)).re < 0) (hK : ∀ v, v ≠ 0 → 0 < (star v ⬝ᵥ iop v).re) {lib : SolveLib 1} (hmin : ExactSearch lib)
    (hfind : ∀ f, (∃ theta ∈ Set.Icc 0 Real.pi, ∃ a, f theta = .ok a ∧ ∀ phi ∈ Set.Icc 0 Real.pi, ∀ b, f phi = .ok b → a ≤ b) → ∃ theta, lib.minimize f = .ok theta)
    {tol : ℝ} (htol : tol ≤ 0) (ri : ℕ) {Z : Matrix N (Fin 1) ℂ} (hZ : (Zᴴ * Z).det ≠ 0) (n : ℕ) :
    ∃ st : ℕ → SolveState N 1, st 0 = { Z := Z, D := 0, ZtZ := Zᴴ * Z, prevE := 0, prevTr := 0, dScale := 1 }
      ∧ ∃ m ≤ n, (m < n → ∃ C : Matrix (Fin 1) (Fin 1) ℂ, A * (st m).Z = (st m).Z * C) ∧ ((st m).Zᴴ * (st m).Z).det ≠ 0
        ∧ ∀ i < m, solveStep op iop lib tol ri i (st i) = .ok (false, st (i + 1)) ∧ objective A (st (i + 1)).Z < objective A (st i).Z := by
  classical
  -- the states: each pass that succeeds gives the next one
  let nxt : ℕ → SolveState N 1 → SolveState N 1 := fun i s =>
    if h : ∃ s', solveStep op iop lib tol ri i s = .ok (false, s') ∧ (s'.Zᴴ * s'.Z).det ≠ 0 ∧ 0 ≤ s'.prevE then h.choose else s
  let st : ℕ → SolveState N 1 := fun i => Nat.rec { Z := Z, D := 0, ZtZ := Zᴴ * Z, prevE := 0, prevTr := 0, dScale := 1 } (fun i s => nxt i s) i
  have hs : ∀ i, st (i + 1) = nxt i (st i) := fun i => rfl
  have hobj : ∀ Z : Matrix N (Fin 1) ℂ, (Zᴴ * Z).det ≠ 0 → objective A Z ≠ 0 := fun Z h => abs_ne_zero.2 (ritz_neg hN one_pos h).ne
  refine ⟨st, rfl, ?_⟩
  -- invariant of the loop
  let Inv : ℕ → Prop := fun m => ((st m).Zᴴ * (st m).Z).det ≠ 0 ∧ 0 ≤ (st m).prevE
    ∧ ((st m).prevTr = 0 ∨ ∀ G, IsGradient (objective A) (st m).Z G → (trace (Gᴴ * (st m).D)).re = 0)
  have hstep : ∀ m, Inv m → (¬ ∃ C : Matrix (Fin 1) (Fin 1) ℂ, A * (st m).Z = (st m).Z * C) →
      solveStep op iop lib tol ri m (st m) = .ok (false, st (m + 1)) ∧ objective A (st (m + 1)).Z < objective A (st m).Z ∧ Inv (m + 1) := by
    rintro m ⟨h1, h2, h3⟩ hinv
    have htest : ¬ (0 < m ∧ |objective A (st m).Z - (st m).prevE| < tol * 0.5 * (objective A (st m).Z + (st m).prevE + 1e-7)) := by
      rintro ⟨-, hc⟩
      have h4 : 0 ≤ objective A (st m).Z := abs_nonneg _
      have h5 : tol * 0.5 * (objective A (st m).Z + (st m).prevE + 1e-7) ≤ 0 :=
        mul_nonpos_of_nonpos_of_nonneg (by linarith) (by linarith)
      exact absurd (hc.trans_le h5) (not_lt.2 (abs_nonneg _))
    have hex := C128_defined hop hA hK hfind (tol := tol) (ri := ri) (i := m) htest (hobj _ h1) hinv (h3.imp Or.inl id)
    have e : st (m + 1) = hex.choose := by rw [hs]; exact dif_pos hex
    obtain ⟨c1, c2, c3⟩ := hex.choose_spec
    rw [← e] at c1 c2 c3
    refine ⟨c1, ?_, c2, c3, Or.inr fun G hG => (C128_conjugate hop hA hmin c1 (hobj _ h1) c2 hG).1⟩
    obtain ⟨G, hg, γ, D0, theta, hγ0, -, hD0, hf, hsc, hD, -⟩ := C128_direction hop hA c1 (hobj _ h1)
    obtain ⟨G', hg', -, hiff⟩ := C128_stationary hA (st m).Z h1 (hobj _ h1)
    obtain rfl := hg.unique hg'
    have hG : G ≠ 0 := fun hc => hinv (hiff.1 hc)
    have hasc := direction_ascent hK hG (D := (st m).D) (γ := γ) (s := (st m).dScale) (h3.imp (fun h => hγ0 (Or.inl h)) fun h => h G hg)
    rw [← hD0] at hasc
    refine progress_of_ascent hop hA hmin c1 (hobj _ h1) c2 hg ?_
    rw [hD, Matrix.mul_smul, trace_smul, smul_eq_mul, re_ofReal_mul, hsc]
    exact mul_ne_zero (div_ne_zero (by norm_num) hf) hasc.ne'
  have h0 : Inv 0 := ⟨hZ, le_rfl, Or.inl rfl⟩
  have : ∃ m ≤ n, (m < n → ∃ C : Matrix (Fin 1) (Fin 1) ℂ, A * (st m).Z = (st m).Z * C)
      ∧ (∀ i < m, solveStep op iop lib tol ri i (st i) = .ok (false, st (i + 1)) ∧ objective A (st (i + 1)).Z < objective A (st i).Z) ∧ Inv m := by
    induction n with
    | zero => exact ⟨0, le_rfl, fun h => absurd h (lt_irrefl _), fun i hi => absurd hi (Nat.not_lt_zero i), h0⟩
    | succ n ih =>
      obtain ⟨m, hm, hstop, hrun, hI⟩ := ih
      by_cases hinv : ∃ C : Matrix (Fin 1) (Fin 1) ℂ, A * (st m).Z = (st m).Z * C
      · exact ⟨m, by omega, fun _ => hinv, hrun, hI⟩
      · obtain rfl : m = n := by
          by_contra hc
          exact hinv (hstop (by omega))
        obtain ⟨a, b, c⟩ := hstep m hI hinv
        refine ⟨m + 1, le_rfl, fun h => absurd h (lt_irrefl _), fun i hi => ?_, c⟩
        rcases Nat.lt_or_ge i m with h | h
        · exact hrun i h
        · obtain rfl : i = m := by omega
          exact ⟨a, b⟩
  obtain ⟨m, hm, a, b, c, -⟩ := this
  exact ⟨m, hm, a, c, b⟩

/-! ### Concrete cases -/

section
variable {N : Type} [Fintype N] [DecidableEq N]

/-- After a first pass from a sum of three plane waves with different eigenvalues, preconditioned with the inverse of the operator, the block is no
eigenvector. -/
theorem three_waves {d : N → ℝ} (hd : ∀ i, d i < 0) {p q r : N} (hpq : d p ≠ d q) (hpr : d p ≠ d r) (hqr : d q ≠ d r) {Z : Matrix N (Fin 1) ℂ}
    (hp : Z p 0 ≠ 0) (hq : Z q 0 ≠ 0) (hr : Z r 0 ≠ 0) {lib : SolveLib 1} {tol : ℝ} {ri i : ℕ} {st st' : SolveState N 1} (hZ : st.Z = Z)
    (h0 : st.prevTr = 0) (hob : objective (diagonal fun i => (d i : ℂ)) Z ≠ 0)
    (h : solveStep (fun v i => (d i : ℂ) * v i) (fun v i => ((-(d i)⁻¹ : ℝ) : ℂ) * v i) lib tol ri i st = .ok (false, st')) :
    ¬ ∃ C : Matrix (Fin 1) (Fin 1) ℂ, (diagonal fun i => (d i : ℂ)) * st'.Z = st'.Z * C := by
  subst hZ
  rintro ⟨C, hC⟩
  have hop : ∀ v : N → ℂ, (fun i => (d i : ℂ) * v i) = (diagonal fun i => (d i : ℂ)) *ᵥ v := fun v => by
    funext i; rw [mulVec_diagonal]
  have hA : (diagonal fun i => (d i : ℂ)).IsHermitian := by
    rw [IsHermitian, diagonal_conjTranspose]
    congr 1
    funext i
    simp
  have hdet := (step_eq h).1
  obtain ⟨G, hg, γ, D0, theta, hγ0, -, hD0, hf, hsc, hD, -, -, -, hz⟩ := C128_direction hop hA h hob
  obtain rfl := hg.unique (isGradient_objective hA st.Z hdet hob)
  rw [hγ0 (Or.inl h0), zero_div, ofReal_zero, zero_smul, zero_add] at hD0
  have hre : (trace (st.Zᴴ * (diagonal fun i => (d i : ℂ)) * st.Z * (st.Zᴴ * st.Z)⁻¹)).re ≠ 0 := abs_ne_zero.1 hob
  set μ : ℂ := (st.Zᴴ * (diagonal fun i => (d i : ℂ)) * st.Z * (st.Zᴴ * st.Z)⁻¹) 0 0 with hμ
  set u : ℂ := (st.Zᴴ * st.Z)⁻¹ 0 0 with hu
  have hμ0 : μ ≠ 0 := by
    intro hc
    rw [trace_fin_one, ← hμ, hc, zero_re] at hre
    exact hre rfl
  have hu0 : u ≠ 0 := by
    intro hc
    have h1 := congrFun (congrFun (nonsing_inv_mul _ (isUnit_iff_ne_zero.2 hdet)) 0) 0
    rw [mul_apply, Fin.sum_univ_one, ← hu, hc, zero_mul, one_apply_eq] at h1
    exact zero_ne_one h1
  set σ : ℂ := ((SignType.sign (trace (st.Zᴴ * (diagonal fun i => (d i : ℂ)) * st.Z * (st.Zᴴ * st.Z)⁻¹)).re : ℝ) : ℂ) with hσ
  have hσ0 : σ ≠ 0 := by
    rw [hσ]
    rcases lt_or_gt_of_ne hre with h | h
    · rw [sign_neg h]; simp
    · rw [sign_pos h]; simp
  have hs0 : (st'.dScale : ℂ) ≠ 0 := by
    rw [hsc]
    exact ofReal_ne_zero.2 (div_ne_zero (by norm_num) hf)
  have hd0 : ∀ i, (d i : ℂ) ≠ 0 := fun i => ofReal_ne_zero.2 (hd i).ne
  have hentry : ∀ i, st'.Z i 0 = st.Z i 0 * (Real.cos theta + Real.sin theta * (st'.dScale * σ * u) * (μ / d i - 1)) := by
    intro i
    have e : D0 i 0 = ((-(d i)⁻¹ : ℝ) : ℂ) * (σ * ((d i : ℂ) * st.Z i 0 * u - st.Z i 0 * u * μ)) := by
      rw [hD0]
      simp only [cols, of_apply, Matrix.smul_apply, Matrix.sub_apply, smul_eq_mul]
      rw [mul_apply, mul_apply (N := (st.Zᴴ * _ * st.Z * _)), Fin.sum_univ_one, Fin.sum_univ_one, mul_apply (M := st.Z), Fin.sum_univ_one, diagonal_mul]
    rw [hz, trial, Matrix.add_apply, Matrix.smul_apply, Matrix.smul_apply, hD, Matrix.smul_apply, e, smul_eq_mul, smul_eq_mul, smul_eq_mul]
    push_cast
    have := hd0 i
    field_simp
    ring
  have heig : ∀ i, ((d i : ℂ) - C 0 0) * st'.Z i 0 = 0 := by
    intro i
    have h1 := congrFun (congrFun hC i) 0
    rw [diagonal_mul, mul_apply, Fin.sum_univ_one] at h1
    rw [sub_mul, h1]; ring
  have hpair : ∀ a b, d a ≠ d b → st.Z a 0 ≠ 0 → st.Z b 0 ≠ 0 → st'.Z a 0 = 0 → st'.Z b 0 = 0 → False := by
    intro a b hab ha hb h1 h2
    rw [hentry] at h1 h2
    have h1 := (mul_eq_zero.1 h1).resolve_left ha
    have h2 := (mul_eq_zero.1 h2).resolve_left hb
    have h3 : (Real.sin theta : ℂ) * ((st'.dScale * σ * u * μ) * (1 / d a - 1 / d b)) = 0 := by linear_combination h1 - h2
    have h4 : (1 / (d a : ℂ) - 1 / d b) ≠ 0 := by
      rw [sub_ne_zero]
      intro hc
      rw [one_div, one_div] at hc
      exact hab (by exact_mod_cast inv_injective hc)
    have h5 : (Real.sin theta : ℂ) = 0 :=
      (mul_eq_zero.1 h3).resolve_right (mul_ne_zero (mul_ne_zero (mul_ne_zero (mul_ne_zero hs0 hσ0) hu0) hμ0) h4)
    rw [h5, zero_mul, zero_mul, add_zero] at h1
    have h6 : Real.sin theta = 0 := by exact_mod_cast h5
    have h7 : Real.cos theta = 0 := by exact_mod_cast h1
    have := Real.sin_sq_add_cos_sq theta
    rw [h6, h7] at this
    norm_num at this
  have hz0 : ∀ a, (d a : ℂ) ≠ C 0 0 → st'.Z a 0 = 0 := fun a ha => (mul_eq_zero.1 (heig a)).resolve_left (sub_ne_zero.2 ha)
  by_cases e1 : (d p : ℂ) = C 0 0
  · exact hpair q r hqr hq hr (hz0 q fun h => hpq (by exact_mod_cast e1.trans h.symm)) (hz0 r fun h => hpr (by exact_mod_cast e1.trans h.symm))
  · by_cases e2 : (d q : ℂ) = C 0 0
    · exact hpair p r hpr hp hr (hz0 p e1) (hz0 r fun h => hqr (by exact_mod_cast e2.trans h.symm))
    · exact hpair p q hpq hp hq (hz0 p e1) (hz0 q e2)
end

/-- In vacuum, on every grid of three cells along x, the Maxwell operator multiplies each plane wave with minus the square of its wave number, which has
different values for three of them, and the approximate inverse with the reciprocal. -/
theorem vacuum_waves {sh : Fin 3 → ℕ} (hx : sh 0 = 3) (hy : 0 < sh 1) (hz : 0 < sh 2) :
    let k0 : Fin 3 → ℝ := fun c => if c = 0 then 3 else 0
    Regular k0 1 sh ∧ (∀ (x : Idx sh) (k : Fin 3 → ℝ), IsWave k0 1 k x → k ≠ 0) ∧ PosReal (fun _ _ => 1 : VField sh ℂ) ∧ ∃ op iop : Hmn sh → Hmn sh,
      (∀ h, maxwellOperator k0 1 (fun _ _ => 1) h = some (op h)) ∧ (∀ h, inverseMaxwellOperatorApprox k0 1 (fun _ _ => 1) h = some (iop h))
      ∧ ∃ (a : Fin 2 × Idx sh → ℝ) (p q r : Fin 2 × Idx sh), (∀ x, 0 < a x) ∧ a p = 9 ∧ a q = 4 ∧ a r = 16
        ∧ (flat op = fun v p => ((-a p : ℝ) : ℂ) * v p) ∧ flat iop = fun v p => ((-(-a p)⁻¹ : ℝ) : ℂ) * v p := by
  intro k0
  have e : ∀ x : Idx sh, kxyz k0 1 x = fun a => k0 a - fftfreq (sh a) (x a) := fun x => by rw [kxyz, one_mulVec]
  have ex : ∀ x : Idx sh, kxyz k0 1 x 0 = 3 - fftfreq (sh 0) (x 0) := fun x => by rw [e]; simp [k0]
  have hne : ∀ x : Idx sh, kxyz k0 1 x 0 ≠ 0 := by
    intro x hc
    rw [ex, sub_eq_zero] at hc
    have h1 : fftfreq (sh 0) (x 0) = 3 := by exact_mod_cast hc.symm
    have hlt := (x 0).2
    unfold fftfreq at h1
    split_ifs at h1 <;> omega
  have hreg : Regular k0 1 sh := fun x k hw hc => hne x (by rw [← hw.eq]; exact hc.1)
  have hk : ∀ (x : Idx sh) (k : Fin 3 → ℝ), IsWave k0 1 k x → k ≠ 0 := fun x k hw hc => hne x (by rw [← hw.eq, hc]; rfl)
  obtain ⟨op, iop, h1, h2, h3, -⟩ := C60_uniform_partial k0 1 hreg hk (e := 1) one_ne_zero
  let pt : Fin (sh 0) → Idx sh := fun j a => match a with
    | 0 => j
    | 1 => ⟨0, hy⟩
    | 2 => ⟨0, hz⟩
  have k1 : ∀ j, kxyz k0 1 (pt j) 1 = 0 := by
    intro j
    rw [e]
    show (k0 1 - (fftfreq (sh 1) (pt j 1) : ℝ)) = 0
    rw [fftfreq_zero (pt j 1) rfl]; simp [k0]
  have k2 : ∀ j, kxyz k0 1 (pt j) 2 = 0 := by
    intro j
    rw [e]
    show (k0 2 - (fftfreq (sh 2) (pt j 2) : ℝ)) = 0
    rw [fftfreq_zero (pt j 2) rfl]; simp [k0]
  let a : Fin 2 × Idx sh → ℝ := fun p => ∑ c, kxyz k0 1 p.2 c ^ 2
  have hav : ∀ j : Fin (sh 0), a (0, pt j) = (3 - (fftfreq (sh 0) j : ℝ)) ^ 2 := by
    intro j
    show ∑ c, kxyz k0 1 (pt j) c ^ 2 = _
    rw [Fin.sum_univ_three, k1, k2, ex]
    norm_num [pt]
  let j0 : Fin (sh 0) := ⟨0, by omega⟩
  let j1 : Fin (sh 0) := ⟨1, by omega⟩
  let j2 : Fin (sh 0) := ⟨2, by omega⟩
  have a0 : a (0, pt j0) = 9 := by
    rw [hav, fftfreq_zero j0 rfl]; norm_num
  have a1 : a (0, pt j1) = 4 := by
    have : fftfreq (sh 0) j1 = 1 := by
      unfold fftfreq
      show (if (1 : ℕ) < (sh 0 + 1) / 2 then _ else _) = _
      rw [if_pos (by omega)]; rfl
    rw [hav, this]; norm_num
  have a2 : a (0, pt j2) = 16 := by
    have : fftfreq (sh 0) j2 = -1 := by
      unfold fftfreq
      show (if (2 : ℕ) < (sh 0 + 1) / 2 then _ else _) = _
      rw [if_neg (by omega)]
      show ((2 : ℕ) : ℤ) - (sh 0 : ℤ) = -1
      omega
    rw [hav, this]; norm_num
  have hapos : ∀ p, 0 < a p := fun p => by
    show 0 < ∑ c, kxyz k0 1 p.2 c ^ 2
    exact Finset.sum_pos' (fun c _ => sq_nonneg _) ⟨0, Finset.mem_univ _, by have := hne p.2; positivity⟩
  have f1 : flat op = fun v p => ((-a p : ℝ) : ℂ) * v p := by
    funext v p
    have := (h3 (fun i x => v (i, x)) p.1 p.2 _ (kxyz_isWave k0 1 p.2)).1
    rw [div_one] at this
    rw [ofReal_neg]
    exact this
  have f2 : flat iop = fun v p => ((-(-a p)⁻¹ : ℝ) : ℂ) * v p := by
    funext v p
    have := (h3 (fun i x => v (i, x)) p.1 p.2 _ (kxyz_isWave k0 1 p.2)).2
    rw [one_div] at this
    rw [inv_neg, neg_neg, ofReal_inv]
    exact this
  exact ⟨hreg, hk, fun c x => ⟨1, one_pos, by simp⟩, op, iop, h1, h2, a, (0, pt j0), (0, pt j1), (0, pt j2), hapos, a0, a1, a2, f1, f2⟩

/-- The hypotheses of `C128_bloch_run_partial` (hence those of `C128_run`, `C128_progress_between` and `C128_conjugate`) are met in vacuum, on every grid of
three cells along x, by the first two passes from a sum of plane waves with different eigenvalues. -/
theorem bloch_run_case {sh : Fin 3 → ℕ} (hx : sh 0 = 3) (hy : 0 < sh 1) (hz : 0 < sh 2) {tol : ℝ} (htol : tol ≤ 0) (ri : ℕ) :
    let k0 : Fin 3 → ℝ := fun c => if c = 0 then 3 else 0
    Regular k0 1 sh ∧ (∀ (x : Idx sh) (k : Fin 3 → ℝ), IsWave k0 1 k x → k ≠ 0) ∧ PosReal (fun _ _ => 1 : VField sh ℂ) ∧ ∃ op iop : Hmn sh → Hmn sh,
      (∀ h, maxwellOperator k0 1 (fun _ _ => 1) h = some (op h)) ∧ (∀ h, inverseMaxwellOperatorApprox k0 1 (fun _ _ => 1) h = some (iop h))
      ∧ ∃ lib : SolveLib 1, SolveLibOk lib ∧ ExactSearch lib ∧ ∃ st : ℕ → SolveState (Fin 2 × Idx sh) 1, (st 0).prevTr = 0
        ∧ (∀ i ≤ 1, solveStep (flat op) (flat iop) lib tol ri i (st i) = .ok (false, st (i + 1))) ∧ ((st 2).Zᴴ * (st 2).Z).det ≠ 0
        ∧ ∀ i ≤ 1, ¬ ∃ C : Matrix (Fin 1) (Fin 1) ℂ, cols (flat op) (st i).Z = (st i).Z * C := by
  classical
  intro k0
  obtain ⟨hreg, hk, hp, op, iop, h1, h2, a, p0, p1, p2, hapos, a0, a1, a2, f1, f2⟩ := vacuum_waves hx hy hz
  refine ⟨hreg, hk, hp, op, iop, h1, h2, ?_⟩
  have hop : ∀ v, flat op v = (diagonal fun p => ((-a p : ℝ) : ℂ)) *ᵥ v := fun v => by
    funext p; rw [f1, mulVec_diagonal]
  have hA : (diagonal fun p => ((-a p : ℝ) : ℂ)).IsHermitian := by
    rw [IsHermitian, diagonal_conjTranspose]
    congr 1
    funext i
    simp
  have hform : ∀ (c : Fin 2 × Idx sh → ℝ) (v : Fin 2 × Idx sh → ℂ), (star v ⬝ᵥ fun p => (c p : ℂ) * v p).re = ∑ p, c p * normSq (v p) := by
    intro c v
    rw [dotProduct, re_sum]
    refine Finset.sum_congr rfl fun p _ => ?_
    rw [Pi.star_apply, star_def, mul_left_comm, re_ofReal_mul, ← normSq_eq_conj_mul_self, ofReal_re]
  have hposc : ∀ (c : Fin 2 × Idx sh → ℝ), (∀ p, 0 < c p) → ∀ v : Fin 2 × Idx sh → ℂ, v ≠ 0 → 0 < ∑ p, c p * normSq (v p) := by
    intro c hc v hv
    obtain ⟨p, hp⟩ := Function.ne_iff.1 hv
    exact Finset.sum_pos' (fun p _ => mul_nonneg (hc p).le (normSq_nonneg _)) ⟨p, Finset.mem_univ _, mul_pos (hc p) (normSq_pos.2 hp)⟩
  have hN : ∀ v, v ≠ 0 → (star v ⬝ᵥ ((diagonal fun p => ((-a p : ℝ) : ℂ)) *ᵥ v)).re < 0 := by
    intro v hv
    rw [← hop, f1, hform]
    have := hposc a hapos v hv
    simp only [neg_mul, Finset.sum_neg_distrib]
    linarith
  have hK : ∀ v, v ≠ 0 → 0 < (star v ⬝ᵥ flat iop v).re := by
    intro v hv
    rw [f2, hform]
    exact hposc _ (fun p => by rw [inv_neg, neg_neg]; exact inv_pos.2 (hapos p)) v hv
  obtain ⟨lib, hl, hmin, hfind⟩ := exact_search_exists (M := 1)
  let Z : Matrix (Fin 2 × Idx sh) (Fin 1) ℂ := of fun _ _ => 1
  have hZ : (Zᴴ * Z).det ≠ 0 := by
    intro hc
    rw [det_fin_one] at hc
    have h1 := trace_gram_re Z
    rw [trace_fin_one, hc, zero_re] at h1
    have h2 := congrFun (congrFun (fnorm_eq_zero.1 (pow_eq_zero_iff two_ne_zero |>.1 h1.symm)) p0) 0
    exact one_ne_zero h2
  obtain ⟨st, hst, m, hm, hstop, hfullm, hrun⟩ := C128_one_mode hop hA hN hK hmin hfind htol ri hZ 2
  have hinv0 : ¬ ∃ C : Matrix (Fin 1) (Fin 1) ℂ, (diagonal fun p => ((-a p : ℝ) : ℂ)) * (st 0).Z = (st 0).Z * C := by
    rw [hst]
    rintro ⟨C, hC⟩
    have g1 := congrFun (congrFun hC p0) 0
    have g2 := congrFun (congrFun hC p1) 0
    rw [diagonal_mul, mul_apply, Fin.sum_univ_one] at g1 g2
    rw [a0] at g1
    rw [a1] at g2
    have : ((-9 : ℝ) : ℂ) * 1 = ((-4 : ℝ) : ℂ) * 1 := g1.trans g2.symm
    norm_num at this
  have hm0 : m ≠ 0 := fun hc => hinv0 (by have := hstop (by omega); rwa [hc] at this)
  have s0 := (hrun 0 (by omega)).1
  have hinv1 : ¬ ∃ C : Matrix (Fin 1) (Fin 1) ℂ, (diagonal fun p => ((-a p : ℝ) : ℂ)) * (st 1).Z = (st 1).Z * C := by
    rw [f1, f2] at s0
    refine three_waves (d := fun p => -a p) (fun p => neg_lt_zero.2 (hapos p)) (p := p0) (q := p1) (r := p2) ?_ ?_ ?_
      (Z := Z) one_ne_zero one_ne_zero one_ne_zero (by rw [hst]) (by rw [hst]) ?_ s0
    · rw [a0, a1]; norm_num
    · rw [a0, a2]; norm_num
    · rw [a1, a2]; norm_num
    · exact abs_ne_zero.2 (ritz_neg hN one_pos hZ).ne
  obtain rfl : m = 2 := by
    by_contra hc
    obtain rfl : m = 1 := by omega
    exact hinv1 (hstop (by omega))
  have s1 := (hrun 1 (by omega)).1
  refine ⟨lib, hl, hmin, st, by rw [hst], fun i hi => (hrun i (by omega)).1, ?_, fun i hi => ?_⟩
  · exact hfullm
  · rw [cols_eq hop]
    interval_cases i
    · exact hinv0
    · exact hinv1

end Meanas.Props
