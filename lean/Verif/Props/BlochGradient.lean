/-
Property C128: the search direction of `eigsolve` (meanas/fdfd/bloch.py:591-739).
-/
import Verif.Props.BlochGuess
import Mathlib.Analysis.Calculus.Deriv.Abs
import Mathlib.Analysis.Calculus.Deriv.Mul
import Mathlib.Analysis.Calculus.Deriv.Slope
import Mathlib.Topology.Instances.Matrix
import Mathlib.Analysis.SpecialFunctions.Trigonometric.Arctan

set_option linter.unusedSectionVars false

namespace Meanas.Props

open Complex Matrix Meanas.Bloch
open scoped ComplexOrder MatrixOrder

variable {N : Type} [Fintype N] {M : ℕ}

/-! ### The derivative of the objective -/

/-- `G` is the gradient at `Z` of a function `f` of blocks, for the real inner product `2 Re tr Gᴴ W`. -/
def IsGradient (f : Matrix N (Fin M) ℂ → ℝ) (Z G : Matrix N (Fin M) ℂ) : Prop :=
  ∀ W, HasDerivAt (fun t : ℝ => f (Z + (t : ℂ) • W)) (2 * (trace (Gᴴ * W)).re) 0

theorem gram_line (A : Matrix N N ℂ) (Z W : Matrix N (Fin M) ℂ) (t : ℝ) :
    (Z + (t : ℂ) • W)ᴴ * A * (Z + (t : ℂ) • W)
      = Zᴴ * A * Z + (t : ℂ) • (Wᴴ * A * Z + Zᴴ * A * W + (t : ℂ) • (Wᴴ * A * W)) := by
  rw [conjTranspose_add, conjTranspose_smul, star_def, conj_ofReal]
  simp only [Matrix.mul_add, Matrix.add_mul, Matrix.mul_smul, Matrix.smul_mul, smul_add]
  abel

theorem continuous_gram (A : Matrix N N ℂ) (Z W : Matrix N (Fin M) ℂ) :
    Continuous fun t : ℝ => (Z + (t : ℂ) • W)ᴴ * A * (Z + (t : ℂ) • W) := by
  simp only [gram_line]
  have h : Continuous fun t : ℝ => (t : ℂ) := continuous_ofReal
  exact continuous_const.add (h.smul (continuous_const.add (h.smul continuous_const)))

theorem gram_det_near (Z W : Matrix N (Fin M) ℂ) (hd : (Zᴴ * Z).det ≠ 0) :
    ∀ᶠ t : ℝ in nhds 0, ((Z + (t : ℂ) • W)ᴴ * (Z + (t : ℂ) • W)).det ≠ 0 := by
  classical
  have h := continuous_gram (1 : Matrix N N ℂ) Z W
  simp only [Matrix.mul_one] at h
  exact (Continuous.matrix_det h).continuousAt.eventually_ne (by simpa using hd)

/-- The derivative of the trace along a line of blocks. -/
theorem hasDerivAt_trace {A : Matrix N N ℂ} (hA : A.IsHermitian) (Z W : Matrix N (Fin M) ℂ) (hd : (Zᴴ * Z).det ≠ 0) :
    HasDerivAt (fun t : ℝ => (trace ((Z + (t : ℂ) • W)ᴴ * A * (Z + (t : ℂ) • W) * ((Z + (t : ℂ) • W)ᴴ * (Z + (t : ℂ) • W))⁻¹)).re)
      (2 * (trace ((A * Z * (Zᴴ * Z)⁻¹ - Z * (Zᴴ * Z)⁻¹ * (Zᴴ * A * Z * (Zᴴ * Z)⁻¹))ᴴ * W)).re) 0 := by
  classical
  set U := (Zᴴ * Z)⁻¹ with hU
  have hUh : Uᴴ = U := by rw [hU, conjTranspose_nonsing_inv, conjTranspose_mul, conjTranspose_conjTranspose]
  have hAh : Aᴴ = A := hA
  have hu : U * (Zᴴ * Z) = 1 := nonsing_inv_mul _ (isUnit_iff_ne_zero.2 hd)
  set P := Zᴴ * A * Z with hP
  have hPh : Pᴴ = P := by rw [hP, conjTranspose_mul, conjTranspose_mul, conjTranspose_conjTranspose, hAh, Matrix.mul_assoc]
  -- the exact difference
  let Q : ℝ → Matrix (Fin M) (Fin M) ℂ := fun t => (Z + (t : ℂ) • W)ᴴ * (Z + (t : ℂ) • W)
  let R : ℝ → Matrix (Fin M) (Fin M) ℂ := fun t => Wᴴ * A * Z + Zᴴ * A * W + (t : ℂ) • (Wᴴ * A * W)
    - P * U * (Wᴴ * Z + Zᴴ * W + (t : ℂ) • (Wᴴ * W))
  let g : ℝ → ℝ := fun t => (trace (R t * (Q t)⁻¹)).re
  have hQe : ∀ t, Q t = Zᴴ * Z + (t : ℂ) • (Wᴴ * Z + Zᴴ * W + (t : ℂ) • (Wᴴ * W)) := fun t => by
    have := gram_line (1 : Matrix N N ℂ) Z W t
    simpa only [Matrix.mul_one] using this
  have hQc : Continuous Q := by
    have h := continuous_gram (1 : Matrix N N ℂ) Z W
    simpa only [Matrix.mul_one] using h
  have hQ0 : Q 0 = Zᴴ * Z := by simp [Q]
  have hQi : ContinuousAt (fun t => (Q t)⁻¹) 0 := by
    refine ContinuousAt.comp' (f := Q) ?_ hQc.continuousAt
    refine continuousAt_matrix_inv _ ?_
    rw [Ring.inverse_eq_inv', hQ0]
    exact continuousAt_inv₀ hd
  have hof : Continuous fun t : ℝ => (t : ℂ) := continuous_ofReal
  have hRc : Continuous R :=
    (continuous_const.add (hof.smul continuous_const)).sub (continuous_const.matrix_mul (continuous_const.add (hof.smul continuous_const)))
  have hgc : ContinuousAt g 0 := by
    have h1 : ContinuousAt (fun t => R t * (Q t)⁻¹) 0 := hRc.continuousAt.mul hQi
    have h2 : Continuous fun X : Matrix (Fin M) (Fin M) ℂ => (trace X).re := continuous_re.comp (Continuous.matrix_trace continuous_id)
    exact h2.continuousAt.comp' h1
  have hdiff : ∀ᶠ t : ℝ in nhds 0,
      (trace ((Z + (t : ℂ) • W)ᴴ * A * (Z + (t : ℂ) • W) * ((Z + (t : ℂ) • W)ᴴ * (Z + (t : ℂ) • W))⁻¹)).re = (trace (P * U)).re + t * g t := by
    filter_upwards [gram_det_near Z W hd] with t ht
    have hi : Q t * (Q t)⁻¹ = 1 := mul_nonsing_inv _ (isUnit_iff_ne_zero.2 ht)
    have e1 : P * U = P * U * Q t * (Q t)⁻¹ := by rw [Matrix.mul_assoc (P * U), hi, Matrix.mul_one]
    have e2 : (Z + (t : ℂ) • W)ᴴ * A * (Z + (t : ℂ) • W) = P * U * Q t + (t : ℂ) • R t := by
      rw [gram_line, hQe]
      simp only [R, Matrix.mul_add, smul_sub, Matrix.mul_smul]
      rw [Matrix.mul_assoc P U (Zᴴ * Z), hu, Matrix.mul_one]
      simp only [smul_add, smul_smul]
      abel
    show (trace (_ * (Q t)⁻¹)).re = _
    rw [e2, Matrix.add_mul, ← e1, trace_add, add_re, Matrix.smul_mul, trace_smul, smul_eq_mul, re_ofReal_mul]
  have hval : g 0 = 2 * (trace ((A * Z * U - Z * U * (P * U))ᴴ * W)).re := by
    have e0 : g 0 = (trace ((Wᴴ * A * Z + Zᴴ * A * W - P * U * (Wᴴ * Z + Zᴴ * W)) * U)).re := by
      show (trace (R 0 * (Q 0)⁻¹)).re = _
      rw [hQ0]
      simp only [R, ofReal_zero, zero_smul, add_zero]
      rfl
    have hc : ∀ X : Matrix (Fin M) (Fin M) ℂ, (trace Xᴴ).re = (trace X).re := fun X => by
      rw [trace_conjTranspose, star_def, conj_re]
    have t1 : (trace (Wᴴ * A * Z * U)).re = (trace (U * (Zᴴ * A * W))).re := by
      rw [← hc (U * _)]
      simp only [conjTranspose_mul, conjTranspose_conjTranspose, hUh, hAh, Matrix.mul_assoc]
    have t2 : (trace (Zᴴ * A * W * U)).re = (trace (U * (Zᴴ * A * W))).re := by rw [trace_mul_comm]
    have t3 : (trace (P * U * (Wᴴ * Z) * U)).re = (trace (U * P * U * (Zᴴ * W))).re := by
      rw [← hc (P * U * _ * U)]
      simp only [conjTranspose_mul, conjTranspose_conjTranspose, hUh, hPh]
      rw [← Matrix.mul_assoc U, trace_mul_comm]
      simp only [Matrix.mul_assoc]
    have t4 : (trace (P * U * (Zᴴ * W) * U)).re = (trace (U * P * U * (Zᴴ * W))).re := by
      rw [trace_mul_comm]; simp only [Matrix.mul_assoc]
    have t5 : (A * Z * U - Z * U * (P * U))ᴴ * W = U * (Zᴴ * A * W) - U * P * U * (Zᴴ * W) := by
      rw [conjTranspose_sub]
      simp only [conjTranspose_mul, hUh, hAh, hPh, Matrix.sub_mul, Matrix.mul_assoc]
    rw [e0, t5]
    simp only [Matrix.sub_mul, Matrix.add_mul, Matrix.mul_add, trace_sub, trace_add, sub_re, add_re]
    rw [t1, t2, t3, t4]
    ring
  have h1 : HasDerivAt (fun t : ℝ => (trace (P * U)).re + t * g t) (g 0) 0 := by
    have h2 : HasDerivAt (fun t : ℝ => t * g t) (g 0) 0 := by
      rw [hasDerivAt_iff_tendsto_slope]
      refine Filter.Tendsto.congr' ?_ (hgc.tendsto.mono_left nhdsWithin_le_nhds)
      filter_upwards [self_mem_nhdsWithin] with t ht
      rw [slope_def_field]
      have : t ≠ 0 := ht
      field_simp
      ring
    simpa using h2.const_add ((trace (P * U)).re)
  rw [← hval]
  exact h1.congr_of_eventuallyEq hdiff

/-- The gradient of the objective at a block of full rank where the objective does not vanish. -/
theorem isGradient_objective {A : Matrix N N ℂ} (hA : A.IsHermitian) (Z : Matrix N (Fin M) ℂ) (hd : (Zᴴ * Z).det ≠ 0) (h0 : objective A Z ≠ 0) :
    IsGradient (objective A) Z
      (((SignType.sign (trace (Zᴴ * A * Z * (Zᴴ * Z)⁻¹)).re : ℝ) : ℂ) • (A * Z * (Zᴴ * Z)⁻¹ - Z * (Zᴴ * Z)⁻¹ * (Zᴴ * A * Z * (Zᴴ * Z)⁻¹))) := by
  intro W
  have h := hasDerivAt_trace hA Z W hd
  have h1 := (hasDerivAt_abs (x := (trace (Zᴴ * A * Z * (Zᴴ * Z)⁻¹)).re) (by simpa [objective] using h0)).comp_of_eq (0 : ℝ) h (by simp)
  refine h1.congr_deriv ?_
  rw [conjTranspose_smul, star_def, conj_ofReal, Matrix.smul_mul, trace_smul, smul_eq_mul, re_ofReal_mul]
  ring

theorem trace_gram_re (G : Matrix N (Fin M) ℂ) : (trace (Gᴴ * G)).re = fnorm G ^ 2 := by
  have h : 0 ≤ ∑ i, ∑ j, normSq (G i j) := Finset.sum_nonneg fun i _ => Finset.sum_nonneg fun j _ => normSq_nonneg _
  rw [fnorm, Real.sq_sqrt h, Finset.sum_comm]
  simp only [trace, diag, mul_apply, conjTranspose_apply, re_sum]
  refine Finset.sum_congr rfl fun j _ => Finset.sum_congr rfl fun i _ => ?_
  rw [star_def, ← normSq_eq_conj_mul_self, ofReal_re]

theorem fnorm_eq_zero {G : Matrix N (Fin M) ℂ} : fnorm G = 0 ↔ G = 0 := by
  have h : 0 ≤ ∑ i, ∑ j, normSq (G i j) := Finset.sum_nonneg fun i _ => Finset.sum_nonneg fun j _ => normSq_nonneg _
  rw [fnorm, Real.sqrt_eq_zero h]
  constructor
  · intro h0
    ext i j
    have h1 := (Finset.sum_eq_zero_iff_of_nonneg fun i _ => Finset.sum_nonneg fun j _ => normSq_nonneg (G i j)).1 h0 i (Finset.mem_univ _)
    exact normSq_eq_zero.1 ((Finset.sum_eq_zero_iff_of_nonneg fun j _ => normSq_nonneg (G i j)).1 h1 j (Finset.mem_univ _))
  · rintro rfl
    simp

/-- Gradients are unique. -/
theorem IsGradient.unique {f : Matrix N (Fin M) ℂ → ℝ} {Z G G' : Matrix N (Fin M) ℂ} (h : IsGradient f Z G) (h' : IsGradient f Z G') : G = G' := by
  have e : (trace ((G - G')ᴴ * (G - G'))).re = 0 := by
    have := (h (G - G')).unique (h' (G - G'))
    rw [conjTranspose_sub, Matrix.sub_mul, trace_sub, sub_re]
    linarith
  rw [trace_gram_re] at e
  exact sub_eq_zero.1 (fnorm_eq_zero.1 (pow_eq_zero_iff two_ne_zero |>.1 e))

/-- **C128, where the gradient vanishes.** At a block of full rank where the objective is not zero it has a gradient, which is zero exactly if the columns
of the block span an invariant subspace of the operator. -/
theorem C128_stationary {A : Matrix N N ℂ} (hA : A.IsHermitian) (Z : Matrix N (Fin M) ℂ) (hd : (Zᴴ * Z).det ≠ 0) (h0 : objective A Z ≠ 0) :
    ∃ G, IsGradient (objective A) Z G ∧ Zᴴ * G = 0 ∧ (G = 0 ↔ ∃ C : Matrix (Fin M) (Fin M) ℂ, A * Z = Z * C) := by
  have hu : (Zᴴ * Z)⁻¹ * (Zᴴ * Z) = 1 := nonsing_inv_mul _ (isUnit_iff_ne_zero.2 hd)
  have hu' : (Zᴴ * Z) * (Zᴴ * Z)⁻¹ = 1 := mul_nonsing_inv _ (isUnit_iff_ne_zero.2 hd)
  refine ⟨_, isGradient_objective hA Z hd h0, ?_, ?_⟩
  · rw [Matrix.mul_smul, Matrix.mul_sub]
    have : Zᴴ * (Z * (Zᴴ * Z)⁻¹ * (Zᴴ * A * Z * (Zᴴ * Z)⁻¹)) = Zᴴ * (A * Z * (Zᴴ * Z)⁻¹) := by
      calc _ = (Zᴴ * Z) * (Zᴴ * Z)⁻¹ * (Zᴴ * A * Z * (Zᴴ * Z)⁻¹) := by simp only [Matrix.mul_assoc]
        _ = _ := by rw [hu', Matrix.one_mul]; simp only [Matrix.mul_assoc]
    rw [this, sub_self, smul_zero]
  · have hs : ((SignType.sign (trace (Zᴴ * A * Z * (Zᴴ * Z)⁻¹)).re : ℝ) : ℂ) ≠ 0 := by
      have : (trace (Zᴴ * A * Z * (Zᴴ * Z)⁻¹)).re ≠ 0 := by simpa [objective] using h0
      rcases lt_or_gt_of_ne this with h | h
      · simp [sign_neg h]
      · simp [sign_pos h]
    rw [smul_eq_zero, or_iff_right hs, sub_eq_zero]
    constructor
    · intro h
      refine ⟨(Zᴴ * Z)⁻¹ * (Zᴴ * A * Z), ?_⟩
      have := congrArg (· * (Zᴴ * Z)) h
      calc A * Z = A * Z * (Zᴴ * Z)⁻¹ * (Zᴴ * Z) := by rw [Matrix.mul_assoc (A * Z), hu, Matrix.mul_one]
        _ = Z * (Zᴴ * Z)⁻¹ * (Zᴴ * A * Z * ((Zᴴ * Z)⁻¹ * (Zᴴ * Z))) := by rw [this]; simp only [Matrix.mul_assoc]
        _ = _ := by rw [hu, Matrix.mul_one]; simp only [Matrix.mul_assoc]
    · rintro ⟨C, hC⟩
      have h1 : Zᴴ * A * Z = (Zᴴ * Z) * C := by rw [Matrix.mul_assoc, hC, Matrix.mul_assoc]
      rw [h1, hC]
      calc Z * C * (Zᴴ * Z)⁻¹ = Z * ((Zᴴ * Z)⁻¹ * (Zᴴ * Z)) * C * (Zᴴ * Z)⁻¹ := by rw [hu, Matrix.mul_one]
        _ = _ := by simp only [Matrix.mul_assoc]

/-- **C128, the direction.** A pass of the main loop that does not end it moves the block along a direction of Frobenius norm `num_modes` that is parallel
to the preconditioned gradient of the objective plus, except on resets, a multiple of the previous direction. The factor of the latter is the ratio of the
squared norms of the preconditioned gradients. -/
theorem C128_direction {op iop : (N → ℂ) → N → ℂ} {A : Matrix N N ℂ} (hop : ∀ v, op v = A *ᵥ v) (hA : A.IsHermitian) {lib : SolveLib M}
    {tol : ℝ} {ri i : ℕ} {st st' : SolveState N M} (h : solveStep op iop lib tol ri i st = .ok (false, st')) (h0 : objective A st.Z ≠ 0) :
    ∃ G, IsGradient (objective A) st.Z G ∧ ∃ (γ : ℝ) (D0 : Matrix N (Fin M) ℂ) (theta : ℝ),
      (st.prevTr = 0 ∨ i % ri = 0 → γ = 0) ∧ (st.prevTr ≠ 0 → i % ri ≠ 0 → γ = fnorm (cols iop G) ^ 2 / st.prevTr)
      ∧ D0 = ((γ / st.dScale : ℝ) : ℂ) • st.D + cols iop G ∧ fnorm D0 ≠ 0 ∧ st'.dScale = M / fnorm D0 ∧ st'.D = (st'.dScale : ℂ) • D0
      ∧ st'.prevTr = fnorm (cols iop G) ^ 2 ∧ st'.prevE = objective A st.Z
      ∧ lib.minimize (searchFunc op st.Z st'.D) = .ok theta ∧ st'.Z = trial st.Z st'.D theta := by
  unfold solveStep at h
  simp only at h
  cases hU : Bloch.inv (st.Zᴴ * st.Z) with
  | error e => rw [hU] at h; cases h
  | ok U =>
    obtain ⟨hd, rfl⟩ := inv_eq_ok hU
    rw [hU] at h
    have hrt : ∀ X : Matrix N (Fin M) ℂ, rtraceAtB X X = fnorm X ^ 2 := fun X => by
      rw [← trace_gram_re]
      simp only [rtraceAtB, trace, diag, mul_apply, conjTranspose_apply, star_def]
      rw [Finset.sum_comm]
    simp only [bind, Except.bind, pure, Except.pure, throw, throwThe, MonadExceptOf.throw, cols_eq hop, ← Matrix.mul_assoc st.Zᴴ A st.Z] at h
    have hg := isGradient_objective hA st.Z hd h0
    revert h hg
    generalize ((SignType.sign (trace (st.Zᴴ * A * st.Z * (st.Zᴴ * st.Z)⁻¹)).re : ℝ) : ℂ) •
      (A * st.Z * (st.Zᴴ * st.Z)⁻¹ - st.Z * (st.Zᴴ * st.Z)⁻¹ * (st.Zᴴ * A * st.Z * (st.Zᴴ * st.Z)⁻¹)) = G
    intro h hg
    refine ⟨G, hg, ?_⟩
    rw [hrt] at h
    generalize hγ : (if st.prevTr = 0 ∨ i % ri = 0 then (0 : ℝ) else fnorm (cols iop G) ^ 2 / st.prevTr) = γ at h
    by_cases h1 : 0 < i ∧ |(|(trace (st.Zᴴ * A * st.Z * (st.Zᴴ * st.Z)⁻¹)).re| - st.prevE)|
        < tol * 0.5 * (|(trace (st.Zᴴ * A * st.Z * (st.Zᴴ * st.Z)⁻¹)).re| + st.prevE + 1e-7)
    · rw [if_pos h1] at h
      cases h
    · rw [if_neg h1] at h
      split_ifs at h with h2
      revert h
      generalize hm : lib.minimize _ = r
      intro h
      cases r with
      | error e => cases h
      | ok theta =>
        obtain ⟨-, rfl⟩ := Prod.mk.inj (Except.ok.inj h)
        refine ⟨γ, ((γ / st.dScale : ℝ) : ℂ) • st.D + cols iop G, theta, fun hc => by rw [← hγ, if_pos hc],
          fun ha hb => by rw [← hγ, if_neg (by push Not; exact ⟨ha, hb⟩)], rfl, ?_, ?_, ?_, rfl, rfl, ?_, ?_⟩
        · simpa using h2
        · simp
        · simp
        · rw [← hm]
          unfold searchFunc
          simp only [cols_eq hop, Matrix.mul_assoc]
        · simp [trial]

theorem trace_pos_of_form {iop : (N → ℂ) → N → ℂ} (hK : ∀ v, v ≠ 0 → 0 < (star v ⬝ᵥ iop v).re) {G : Matrix N (Fin M) ℂ} (hG : G ≠ 0) :
    0 < (trace (Gᴴ * cols iop G)).re := by
  have e : (trace (Gᴴ * cols iop G)).re = ∑ j, (star (fun i => G i j) ⬝ᵥ iop fun i => G i j).re := by
    simp only [trace, diag, re_sum]
    rfl
  rw [e]
  have hnn : ∀ j, 0 ≤ (star (fun i => G i j) ⬝ᵥ iop fun i => G i j).re := by
    intro j
    by_cases hz : (fun i => G i j) = 0
    · rw [hz]; simp
    · exact (hK _ hz).le
  have hex : ∃ j, (fun i => G i j) ≠ 0 := by
    by_contra hc
    push Not at hc
    exact hG (by ext i j; exact congrFun (hc j) i)
  obtain ⟨j, hj⟩ := hex
  exact Finset.sum_pos' (fun j _ => hnn j) ⟨j, Finset.mem_univ _, hK _ hj⟩

theorem trial_arctan (Z D : Matrix N (Fin M) ℂ) (t : ℝ) :
    trial Z D (Real.pi + Real.arctan t) = (Z + (t : ℂ) • D) * ((-Real.cos (Real.arctan t) : ℂ) • (1 : Matrix (Fin M) (Fin M) ℂ)) := by
  have hc : Real.cos (Real.arctan t) ≠ 0 := (Real.cos_arctan_pos t).ne'
  have hs : Real.sin (Real.arctan t) = t * Real.cos (Real.arctan t) := by
    have := Real.tan_arctan t
    rw [Real.tan_eq_sin_div_cos, div_eq_iff hc] at this
    exact this
  unfold trial
  rw [add_comm Real.pi, Real.cos_add_pi, Real.sin_add_pi, hs, Matrix.mul_smul, Matrix.mul_one, smul_add, smul_smul]
  push_cast
  congr 2
  ring

/-- **C128, progress.** For a Hermitian operator, a preconditioner with a positive quadratic form and an exact line search over `[0, π]`, a pass that resets
the conjugate directions (the first one, and every `reset_iters`-th) strictly lowers the objective if it is not zero and the columns of the block do not span
an invariant subspace. -/
theorem C128_progress {op iop : (N → ℂ) → N → ℂ} {A : Matrix N N ℂ} (hop : ∀ v, op v = A *ᵥ v) (hA : A.IsHermitian)
    (hK : ∀ v, v ≠ 0 → 0 < (star v ⬝ᵥ iop v).re) {lib : SolveLib M}
    (hmin : ∀ f theta, lib.minimize f = .ok theta → ∀ phi ∈ Set.Icc 0 Real.pi, ∀ a b, f theta = .ok a → f phi = .ok b → a ≤ b)
    {tol : ℝ} {ri i : ℕ} {st st' : SolveState N M} (h : solveStep op iop lib tol ri i st = .ok (false, st'))
    (hreset : st.prevTr = 0 ∨ i % ri = 0) (hd : (st'.Zᴴ * st'.Z).det ≠ 0) (h0 : objective A st.Z ≠ 0)
    (hinv : ¬ ∃ C : Matrix (Fin M) (Fin M) ℂ, A * st.Z = st.Z * C) :
    objective A st'.Z < objective A st.Z := by
  have hd0 := (step_eq h).1
  obtain ⟨G, hg, γ, D0, theta, hγ, -, hD0, hf, hsc, hD, -, -, hm, hz⟩ := C128_direction hop hA h h0
  obtain ⟨G', hg', -, hiff⟩ := C128_stationary hA st.Z hd0 h0
  obtain rfl := hg.unique hg'
  have hG : G ≠ 0 := fun hc => hinv (hiff.1 hc)
  rw [hγ hreset, zero_div, ofReal_zero, zero_smul, zero_add] at hD0
  have hM : (0 : ℝ) < M := by
    rcases Nat.eq_zero_or_pos M with h1 | h1
    · subst h1
      exact absurd (fnorm_eq_zero.2 (by ext i j; exact j.elim0)) hf
    · exact_mod_cast h1
  have hs : 0 < st'.dScale := by
    rw [hsc]
    exact div_pos hM (lt_of_le_of_ne (Real.sqrt_nonneg _) (Ne.symm hf))
  have hder := hg st'.D
  have hpos : 0 < 2 * (trace (Gᴴ * st'.D)).re := by
    rw [hD, hD0, Matrix.mul_smul, trace_smul, smul_eq_mul, re_ofReal_mul]
    have := trace_pos_of_form hK hG
    positivity
  rw [hasDerivAt_iff_tendsto_slope] at hder
  have hev := (hder.eventually (lt_mem_nhds hpos)).and ((gram_det_near st.Z st'.D hd0).filter_mono nhdsWithin_le_nhds)
  obtain ⟨t, ht, hsl, hrank⟩ : ∃ t : ℝ, t < 0 ∧ 0 < slope (fun t : ℝ => objective A (st.Z + (t : ℂ) • st'.D)) 0 t
      ∧ ((st.Z + (t : ℂ) • st'.D)ᴴ * (st.Z + (t : ℂ) • st'.D)).det ≠ 0 := by
    have h1 : ∀ᶠ t in nhdsWithin (0 : ℝ) (Set.Iio 0), 0 < slope (fun t : ℝ => objective A (st.Z + (t : ℂ) • st'.D)) 0 t
        ∧ ((st.Z + (t : ℂ) • st'.D)ᴴ * (st.Z + (t : ℂ) • st'.D)).det ≠ 0 :=
      hev.filter_mono (nhdsWithin_mono _ fun t ht => ne_of_lt ht)
    obtain ⟨t, h2, h3⟩ := (h1.and self_mem_nhdsWithin).exists
    exact ⟨t, h3, h2⟩
  have hlt : objective A (st.Z + (t : ℂ) • st'.D) < objective A st.Z := by
    rw [slope_def_field, sub_zero] at hsl
    simp only [ofReal_zero, zero_smul, add_zero] at hsl
    have := (div_pos_iff.1 hsl).resolve_left fun hc => absurd hc.2 ht.not_gt
    linarith [this.1]
  have hcne : (-(Real.cos (Real.arctan t) : ℂ)) ≠ 0 := by
    rw [neg_ne_zero]
    exact_mod_cast (Real.cos_arctan_pos t).ne'
  have hW : ((-Real.cos (Real.arctan t) : ℂ) • (1 : Matrix (Fin M) (Fin M) ℂ)).det ≠ 0 := by
    rw [det_smul, det_one, mul_one]
    exact pow_ne_zero _ hcne
  have hobj : objective A (trial st.Z st'.D (Real.pi + Real.arctan t)) = objective A (st.Z + (t : ℂ) • st'.D) := by
    rw [trial_arctan, objective_mul A _ _ hW]
  have hdt : ((trial st.Z st'.D (Real.pi + Real.arctan t))ᴴ * trial st.Z st'.D (Real.pi + Real.arctan t)).det ≠ 0 := by
    rw [trial_arctan]
    generalize (-Real.cos (Real.arctan t) : ℂ) • (1 : Matrix (Fin M) (Fin M) ℂ) = W at hW
    have e1 : ((st.Z + (t : ℂ) • st'.D) * W)ᴴ * ((st.Z + (t : ℂ) • st'.D) * W)
        = Wᴴ * ((st.Z + (t : ℂ) • st'.D)ᴴ * (st.Z + (t : ℂ) • st'.D)) * W := by
      rw [conjTranspose_mul]; simp only [Matrix.mul_assoc]
    rw [e1, det_mul, det_mul, det_conjTranspose]
    exact mul_ne_zero (mul_ne_zero (star_ne_zero.2 hW) hrank) hW
  rw [hz] at hd ⊢
  have ha := C77_line_search hop hA st.Z st'.D theta hd
  have hb := C77_line_search hop hA st.Z st'.D _ hdt
  have hin : Real.pi + Real.arctan t ∈ Set.Icc 0 Real.pi := by
    have h1 := Real.neg_pi_div_two_lt_arctan t
    have h2 : Real.arctan t < 0 := Real.arctan_lt_zero.2 ht
    constructor <;> linarith [Real.pi_pos]
  have := hmin _ _ hm _ hin _ _ ha hb
  rw [hobj] at this
  exact lt_of_le_of_lt this hlt

/-- **C128, an exact guess.** If the columns of the guess already span an invariant subspace of the operator, the first pass divides by the norm of a zero
direction: no finite value is returned, whatever the number of passes. -/
theorem C128_exact_guess_partial {op iop : (N → ℂ) → N → ℂ} {A : Matrix N N ℂ} (hop : ∀ v, op v = A *ᵥ v) (hi0 : iop 0 = 0) {lib : SolveLib M}
    (hl : SolveLibOk lib) (hM : 0 < M) (draw : ℕ → Matrix N (Fin M) ℂ) (fuel : ℕ) (tol : ℝ) (mi ri : ℕ) (Z0 : Matrix N (Fin M) ℂ)
    (hd : (Z0ᴴ * Z0).det ≠ 0) (hinv : ∃ C : Matrix (Fin M) (Fin M) ℂ, A * Z0 = Z0 * C) :
    eigsolve op iop lib draw (fuel + 2) tol (mi + 1) ri Z0 = .error "nan" := by
  obtain ⟨own', Z, W, hI, hZ, hW, -, hd', -⟩ := C99_independent_guess hl hM draw fuel 0 true Z0 hd
  obtain ⟨C, hC⟩ := hinv
  have hZC : A * Z = Z * (W⁻¹ * C * W) := by
    have hWi : W * W⁻¹ = 1 := mul_nonsing_inv _ (isUnit_iff_ne_zero.2 hW)
    calc A * Z = Z0 * C * W := by rw [hZ, ← Matrix.mul_assoc, hC]
      _ = Z0 * (W * W⁻¹) * C * W := by rw [hWi, Matrix.mul_one]
      _ = _ := by rw [hZ]; simp only [Matrix.mul_assoc]
  have hu : (Zᴴ * Z)⁻¹ * (Zᴴ * Z) = 1 := nonsing_inv_mul _ (isUnit_iff_ne_zero.2 hd')
  have hG : A * Z * (Zᴴ * Z)⁻¹ - Z * (Zᴴ * Z)⁻¹ * (Zᴴ * (A * Z) * (Zᴴ * Z)⁻¹) = 0 := by
    rw [hZC, sub_eq_zero]
    calc Z * (W⁻¹ * C * W) * (Zᴴ * Z)⁻¹ = Z * ((Zᴴ * Z)⁻¹ * (Zᴴ * Z)) * (W⁻¹ * C * W) * (Zᴴ * Z)⁻¹ := by rw [hu, Matrix.mul_one]
      _ = _ := by simp only [Matrix.mul_assoc]
  have hcols : cols iop (0 : Matrix N (Fin M) ℂ) = 0 := by
    ext i j
    show iop (fun i => (0 : Matrix N (Fin M) ℂ) i j) i = 0
    have : (fun i => (0 : Matrix N (Fin M) ℂ) i j) = 0 := rfl
    rw [this, hi0]
    rfl
  have hf0 : fnorm (0 : Matrix N (Fin M) ℂ) = 0 := fnorm_eq_zero.2 rfl
  have hstep : solveStep op iop lib tol ri 0 { Z := Z, D := 0, ZtZ := Zᴴ * Z, prevE := 0, prevTr := 0, dScale := 1 } = .error "nan" := by
    unfold solveStep
    simp only [inv_ok hd', bind, Except.bind, pure, Except.pure, throw, throwThe, MonadExceptOf.throw, cols_eq hop, hG, smul_zero, hcols, add_zero,
      lt_irrefl, false_and, if_false, hf0, if_true]
  unfold eigsolve eigsolveFull
  simp only [bind, Except.bind, hI, solveLoop, hstep]

/-! ### The operators of the plane-wave solver -/

section
variable {sh : Fin 3 → ℕ} (k0 : Fin 3 → ℝ) (G : Matrix (Fin 3) (Fin 3) ℝ)

theorem sum_normSq_transverse {m n : Fin 3 → ℝ} (hmm : m 0 ^ 2 + m 1 ^ 2 + m 2 ^ 2 = 1) (hnn : n 0 ^ 2 + n 1 ^ 2 + n 2 ^ 2 = 1)
    (hmn : m 0 * n 0 + m 1 * n 1 + m 2 * n 2 = 0) (a b : ℂ) : ∑ c, normSq (n c * a - m c * b) = normSq a + normSq b := by
  simp only [Fin.sum_univ_three, normSq_apply, sub_re, sub_im, re_ofReal_mul, im_ofReal_mul]
  linear_combination (a.re ^ 2 + a.im ^ 2) * hnn + (b.re ^ 2 + b.im ^ 2) * hmm - 2 * (a.re * b.re + a.im * b.im) * hmn

/-- The preconditioner has a positive quadratic form. -/
theorem inverse_form_pos (hr : Regular k0 G sh) (hk : ∀ (x : Idx sh) (k : Fin 3 → ℝ), IsWave k0 G k x → k ≠ 0) {eps : VField sh ℂ} (he : PosReal eps) :
    ∃ iop : Hmn sh → Hmn sh, (∀ h, inverseMaxwellOperatorApprox k0 G eps h = some (iop h)) ∧ iop 0 = 0 ∧ (∀ u, u ≠ 0 → 0 < (hip u (iop u)).re)
      ∧ ∀ u v, hip u (iop v) = hip (iop u) v := by
  obtain ⟨n, hn, hx⟩ := nAll_regular k0 G hr
  have hmag : ∀ x : Idx sh, kMag k0 G x ≠ 0 := fun x hc => hk x _ (kxyz_isWave k0 G x) (norm3_eq_zero.1 hc)
  let e : Hmn sh → VField sh ℂ := fun h c x => (n x c * h 0 x - mVec k0 G x c * h 1 x) / kMag k0 G x
  have hinv : ∀ h : Hmn sh, ∃ a, inverseMaxwellOperatorApprox k0 G eps h = some a
      ∧ (∀ x, a 0 x = (∑ c, fftn (fun y => ifftn (e h c) y * eps c y) x * n x c) / (kMag k0 G x : ℂ))
      ∧ ∀ x, a 1 x = (∑ c, fftn (fun y => ifftn (e h c) y * eps c y) x * mVec k0 G x c) / -(kMag k0 G x : ℂ) := by
    intro h
    unfold inverseMaxwellOperatorApprox
    rw [if_neg (by push Not; exact hmag), hn]
    refine ⟨_, rfl, ?_, ?_⟩
    · exact fun x => if_pos rfl
    · exact fun x => if_neg one_ne_zero
  choose iop hiop i0 i1 using hinv
  have hip_eq : ∀ u v, hip u (iop v)
      = (Fintype.card (Idx sh) : ℂ) * ∑ c, ∑ x, (starRingEnd ℂ) (ifftn (e u c) x) * (ifftn (e v c) x * eps c x) := by
    intro u v
    have key : ∀ c, ∑ x, (starRingEnd ℂ) (e u c x) * fftn (fun y => ifftn (e v c) y * eps c y) x
        = (Fintype.card (Idx sh) : ℂ) * ∑ x, (starRingEnd ℂ) (ifftn (e u c) x) * (ifftn (e v c) x * eps c x) :=
      fun c => sum_conj_fftn _ _
    rw [Finset.mul_sum]
    simp_rw [← key]
    unfold hip
    rw [Fin.sum_univ_two, ← Finset.sum_add_distrib, Finset.sum_comm]
    refine Finset.sum_congr rfl fun x _ => ?_
    rw [i0, i1]
    have hq : (kMag k0 G x : ℂ) ≠ 0 := by exact_mod_cast hmag x
    simp only [Fin.sum_univ_three, e, map_div₀, map_mul, map_sub, conj_ofReal]
    field_simp
    ring
  refine ⟨iop, hiop, ?_, ?_, ?_⟩
  · have e0 : e 0 = 0 := by funext c x; simp [e]
    have hf : ∀ c : Fin 3, (fftn fun y => ifftn (e 0 c) y * eps c y : Arr sh ℂ) = 0 := fun c => by
      rw [e0]
      funext x
      simp [fftn, ifftn]
    funext i x
    fin_cases i
    · show iop 0 0 x = 0
      rw [i0]; simp [hf]
    · show iop 0 1 x = 0
      rw [i1]; simp [hf]
  · intro u hu
    choose r hr he' using he
    have h1 : hip u (iop u) = (((Fintype.card (Idx sh) : ℝ) * ∑ c, ∑ x, normSq (ifftn (e u c) x) * r c x : ℝ) : ℂ) := by
      rw [hip_eq]
      push_cast
      congr 1
      refine Finset.sum_congr rfl fun c _ => Finset.sum_congr rfl fun x _ => ?_
      rw [he', normSq_eq_conj_mul_self]
      ring
    rw [h1, ofReal_re]
    have hne : ∃ c x, ifftn (e u c) x ≠ 0 := by
      by_contra hc
      push Not at hc
      apply hu
      have hz : ∀ c, e u c = 0 := fun c => by
        have : ifftn (e u c) = 0 := funext fun x => hc c x
        rw [← fftn_ifftn (e u c), this]
        funext x
        simp [fftn]
      have hsq : ∀ x, normSq (u 0 x) + normSq (u 1 x) = 0 := by
        intro x
        rw [← sum_normSq_transverse (mVec_unit k0 G x) (nVec_some k0 G (hx x)).1 (nVec_some k0 G (hx x)).2.1]
        refine Finset.sum_eq_zero fun c _ => ?_
        have hq : (kMag k0 G x : ℂ) ≠ 0 := by exact_mod_cast hmag x
        have := congrFun (hz c) x
        simp only [e, Pi.zero_apply, div_eq_zero_iff, hq, or_false] at this
        rw [this, map_zero]
      funext i x
      have a := normSq_nonneg (u 0 x)
      have b := normSq_nonneg (u 1 x)
      have c := hsq x
      fin_cases i
      · exact normSq_eq_zero.1 (show normSq (u 0 x) = 0 by linarith)
      · exact normSq_eq_zero.1 (show normSq (u 1 x) = 0 by linarith)
    obtain ⟨c, x, hcx⟩ := hne
    have : Nonempty (Idx sh) := ⟨x⟩
    refine mul_pos (by exact_mod_cast Fintype.card_pos) ?_
    refine Finset.sum_pos' (fun c _ => Finset.sum_nonneg fun x _ => mul_nonneg (normSq_nonneg _) (hr c x).le) ⟨c, Finset.mem_univ _, ?_⟩
    exact Finset.sum_pos' (fun x _ => mul_nonneg (normSq_nonneg _) (hr c x).le) ⟨x, Finset.mem_univ _, mul_pos (normSq_pos.2 hcx) (hr c x)⟩
  · intro u v
    have hsw : hip (iop u) v = (starRingEnd ℂ) (hip v (iop u)) := by
      unfold hip
      simp only [map_sum, map_mul, conj_conj, mul_comm]
    rw [hsw, hip_eq, hip_eq]
    simp only [map_sum, map_mul, conj_conj, conj_natCast]
    congr 1
    refine Finset.sum_congr rfl fun c _ => Finset.sum_congr rfl fun x _ => ?_
    obtain ⟨r, -, hr'⟩ := he c x
    rw [hr', conj_ofReal]
    ring

/-- With no vanishing wave vector the Maxwell operator is negative definite. -/
theorem maxwell_form_neg (hr : Regular k0 G sh) (hk : ∀ (x : Idx sh) (k : Fin 3 → ℝ), IsWave k0 G k x → k ≠ 0) {eps : VField sh ℂ} (he : PosReal eps)
    {op : Hmn sh → Hmn sh} (hop : ∀ h, maxwellOperator k0 G eps h = some (op h)) {u : Hmn sh} (hu : u ≠ 0) : (hip u (op u)).re < 0 := by
  obtain ⟨n, hn, hx⟩ := nAll_regular k0 G hr
  have hmag : ∀ x : Idx sh, kMag k0 G x ≠ 0 := fun x hc => hk x _ (kxyz_isWave k0 G x) (norm3_eq_zero.1 hc)
  choose r hr he' using he
  have h1 : hip u (op u) = ((-((Fintype.card (Idx sh) : ℝ) * ∑ c, ∑ x, normSq (ifftn (dXyz k0 G n u c) x) / r c x) : ℝ) : ℂ) := by
    rw [hip_maxwell k0 G hn (hop u)]
    push_cast
    rw [neg_mul]
    congr 2
    refine Finset.sum_congr rfl fun c _ => Finset.sum_congr rfl fun x _ => ?_
    rw [he', normSq_eq_conj_mul_self]
    ring
  rw [h1, ofReal_re, neg_lt_zero]
  have hne : ∃ c x, ifftn (dXyz k0 G n u c) x ≠ 0 := by
    by_contra hc
    push Not at hc
    apply hu
    have hz : ∀ c, dXyz k0 G n u c = 0 := fun c => by
      have : ifftn (dXyz k0 G n u c) = 0 := funext fun x => hc c x
      rw [← fftn_ifftn (dXyz k0 G n u c), this]
      funext x
      simp [fftn]
    have hsq : ∀ x, normSq (u 0 x) + normSq (u 1 x) = 0 := by
      intro x
      rw [← sum_normSq_transverse (mVec_unit k0 G x) (nVec_some k0 G (hx x)).1 (nVec_some k0 G (hx x)).2.1]
      refine Finset.sum_eq_zero fun c _ => ?_
      have hq : (kMag k0 G x : ℂ) ≠ 0 := by exact_mod_cast hmag x
      have := congrFun (hz c) x
      simp only [dXyz, Pi.zero_apply, mul_eq_zero, hq, or_false] at this
      rw [this, map_zero]
    funext i x
    have a := normSq_nonneg (u 0 x)
    have b := normSq_nonneg (u 1 x)
    have c := hsq x
    fin_cases i
    · exact normSq_eq_zero.1 (show normSq (u 0 x) = 0 by linarith)
    · exact normSq_eq_zero.1 (show normSq (u 1 x) = 0 by linarith)
  obtain ⟨c, x, hcx⟩ := hne
  have : Nonempty (Idx sh) := ⟨x⟩
  refine mul_pos (by exact_mod_cast Fintype.card_pos) ?_
  refine Finset.sum_pos' (fun c _ => Finset.sum_nonneg fun x _ => div_nonneg (normSq_nonneg _) (hr c x).le) ⟨c, Finset.mem_univ _, ?_⟩
  exact Finset.sum_pos' (fun x _ => div_nonneg (normSq_nonneg _) (hr c x).le) ⟨x, Finset.mem_univ _, div_pos (normSq_pos.2 hcx) (hr c x)⟩
end

/-- The sum of the Ritz values of a block for a negative definite operator is negative. -/
theorem ritz_neg {A : Matrix N N ℂ} (hA : ∀ v, v ≠ 0 → (star v ⬝ᵥ (A *ᵥ v)).re < 0) {Z : Matrix N (Fin M) ℂ} (hM : 0 < M) (hd : (Zᴴ * Z).det ≠ 0) :
    (trace (Zᴴ * A * Z * (Zᴴ * Z)⁻¹)).re < 0 := by
  obtain ⟨lib, hl, -⟩ := solveLibOk_exists (M := M) fun _ => .error ""
  obtain ⟨hS, hSS⟩ := hl.sqrtm _ (posDef_gram hd).inv
  set S := lib.sqrtm (Zᴴ * Z)⁻¹
  have hSh : Sᴴ = S := hS.1
  have e1 : trace (Zᴴ * A * Z * (Zᴴ * Z)⁻¹) = trace ((Z * S)ᴴ * (A * (Z * S))) := by
    rw [← hSS, conjTranspose_mul, hSh, ← Matrix.mul_assoc, trace_mul_comm]
    simp only [Matrix.mul_assoc]
  have hne : ∀ j, (fun i => (Z * S) i j) ≠ 0 := by
    intro j hj
    have h1 : (S * (Zᴴ * Z) * S) j j = 1 := by
      have h2 : S * (S * (Zᴴ * Z)) = 1 := by rw [← Matrix.mul_assoc, hSS, nonsing_inv_mul _ (isUnit_iff_ne_zero.2 hd)]
      rw [mul_eq_one_comm.1 h2, one_apply_eq]
    have h3 : S * (Zᴴ * Z) * S = S * Zᴴ * (Z * S) := by simp only [Matrix.mul_assoc]
    rw [h3, mul_apply] at h1
    have : ∀ i, (Z * S) i j = 0 := fun i => congrFun hj i
    simp [this] at h1
  have e2 : (trace ((Z * S)ᴴ * (A * (Z * S)))).re = ∑ j, (star (fun i => (Z * S) i j) ⬝ᵥ (A *ᵥ fun i => (Z * S) i j)).re := by
    simp only [trace, diag, re_sum]
    rfl
  rw [e1, e2]
  have : Nonempty (Fin M) := ⟨⟨0, hM⟩⟩
  exact Finset.sum_neg (fun j _ => hA _ (hne j)) Finset.univ_nonempty

theorem flat_form {sh : Fin 3 → ℕ} (op : Hmn sh → Hmn sh) (v : Fin 2 × Idx sh → ℂ) : star v ⬝ᵥ flat op v = hip (fun i x => v (i, x)) (op fun i x => v (i, x)) := by
  unfold hip
  rw [← Fintype.sum_prod_type']
  rfl

/-- **C128, for the Maxwell operator.** If no wave vector of the grid is along y or zero, `epsilon` is real and positive and the line search is exact, a pass
that resets the directions brings the (negative) sum of the Ritz values strictly closer to zero unless the block spans an invariant subspace. -/
theorem C128_bloch_partial {sh : Fin 3 → ℕ} (k0 : Fin 3 → ℝ) (G : Matrix (Fin 3) (Fin 3) ℝ) (hr : Regular k0 G sh)
    (hk : ∀ (x : Idx sh) (k : Fin 3 → ℝ), IsWave k0 G k x → k ≠ 0) {eps : VField sh ℂ} (he : PosReal eps) {op iop : Hmn sh → Hmn sh}
    (hop : ∀ h, maxwellOperator k0 G eps h = some (op h)) (hiop : ∀ h, inverseMaxwellOperatorApprox k0 G eps h = some (iop h)) {lib : SolveLib M}
    (hM : 0 < M) (hmin : ∀ f theta, lib.minimize f = .ok theta → ∀ phi ∈ Set.Icc 0 Real.pi, ∀ a b, f theta = .ok a → f phi = .ok b → a ≤ b)
    {tol : ℝ} {ri i : ℕ} {st st' : SolveState (Fin 2 × Idx sh) M} (h : solveStep (flat op) (flat iop) lib tol ri i st = .ok (false, st'))
    (hreset : st.prevTr = 0 ∨ i % ri = 0) (hd : (st'.Zᴴ * st'.Z).det ≠ 0)
    (hinv : ¬ ∃ C : Matrix (Fin M) (Fin M) ℂ, cols (flat op) st.Z = st.Z * C) :
    (trace (st.Zᴴ * cols (flat op) st.Z * (st.Zᴴ * st.Z)⁻¹)).re < (trace (st'.Zᴴ * cols (flat op) st'.Z * (st'.Zᴴ * st'.Z)⁻¹)).re
      ∧ (trace (st'.Zᴴ * cols (flat op) st'.Z * (st'.Zᴴ * st'.Z)⁻¹)).re < 0 := by
  obtain ⟨A, hA, hAop⟩ := C59_matrix_partial k0 G hr he
  have hfl : ∀ v, flat op v = A *ᵥ v := by
    intro v
    have h1 := (hop fun i x => v (i, x)).symm.trans (hAop _)
    funext p
    exact congrFun (congrFun (Option.some.inj h1) p.1) p.2
  have hAh : A.IsHermitian := by
    have := hA.1.neg
    rwa [neg_neg] at this
  obtain ⟨iop', hiop', -, hpos, -⟩ := inverse_form_pos k0 G hr hk he
  obtain rfl : iop' = iop := funext fun u => Option.some.inj ((hiop' u).symm.trans (hiop u))
  have hne : ∀ v : Fin 2 × Idx sh → ℂ, v ≠ 0 → (fun i x => v (i, x) : Hmn sh) ≠ 0 := fun v hv hc => hv (by
    funext p
    exact congrFun (congrFun hc p.1) p.2)
  have hK : ∀ v, v ≠ 0 → 0 < (star v ⬝ᵥ flat iop' v).re := fun v hv => by rw [flat_form]; exact hpos _ (hne v hv)
  have hN : ∀ v, v ≠ 0 → (star v ⬝ᵥ (A *ᵥ v)).re < 0 := fun v hv => by
    rw [← hfl, flat_form]; exact maxwell_form_neg k0 G hr hk he hop (hne v hv)
  have n1 := ritz_neg hN hM (step_eq h).1
  have n2 := ritz_neg hN hM hd
  have h0 : objective A st.Z ≠ 0 := abs_ne_zero.2 n1.ne
  rw [cols_eq hfl] at hinv
  have hlt := C128_progress hfl hAh hK hmin h hreset hd h0 hinv
  rw [objective, objective, abs_of_neg n1, abs_of_neg n2] at hlt
  rw [cols_eq hfl, cols_eq hfl, ← Matrix.mul_assoc, ← Matrix.mul_assoc]
  exact ⟨by linarith, n2⟩

/-! ### Concrete cases -/

section
variable {N : Type} [Fintype N] [DecidableEq N] {p q : N}

/-- The column `x e_p + y e_q`. -/
def twoCol (p q : N) (x y : ℝ) : Matrix N (Fin 1) ℂ := of fun i _ => if i = p then (x : ℂ) else if i = q then (y : ℂ) else 0

theorem twoCol_sum (hpq : p ≠ q) (f : N → ℂ) (x y : ℝ) :
    ((twoCol p q x y)ᴴ * (of fun i _ => f i * twoCol p q x y i 0 : Matrix N (Fin 1) ℂ)) = of fun _ _ => (x : ℂ) ^ 2 * f p + (y : ℂ) ^ 2 * f q := by
  ext a b
  rw [mul_apply, Fintype.sum_eq_add p q hpq]
  · simp only [twoCol, conjTranspose_apply, of_apply, if_true, if_neg hpq.symm, star_def, conj_ofReal]
    ring
  · intro i hi
    simp [twoCol, hi.1, hi.2]

theorem twoCol_gram (hpq : p ≠ q) (x y : ℝ) : (twoCol p q x y)ᴴ * twoCol p q x y = of fun _ _ => ((x ^ 2 + y ^ 2 : ℝ) : ℂ) := by
  have := twoCol_sum hpq (fun _ => 1) x y
  simp only [one_mul, mul_one] at this
  have e : (of fun i _ => twoCol p q x y i 0 : Matrix N (Fin 1) ℂ) = twoCol p q x y := by
    ext i j; rw [Subsingleton.elim j 0]; rfl
  rw [e] at this
  rw [this]
  push_cast
  rfl

theorem twoCol_det (hpq : p ≠ q) {x y : ℝ} (h : x ^ 2 + y ^ 2 ≠ 0) : ((twoCol p q x y)ᴴ * twoCol p q x y).det ≠ 0 := by
  rw [twoCol_gram hpq, det_fin_one, of_apply]
  exact_mod_cast h

theorem twoCol_inv (hpq : p ≠ q) {x y : ℝ} (h : x ^ 2 + y ^ 2 ≠ 0) :
    ((twoCol p q x y)ᴴ * twoCol p q x y)⁻¹ = of fun _ _ => (((x ^ 2 + y ^ 2)⁻¹ : ℝ) : ℂ) := by
  refine inv_eq_right_inv ?_
  rw [twoCol_gram hpq]
  ext a b
  rw [Subsingleton.elim a 0, Subsingleton.elim b 0, mul_apply, Fin.sum_univ_one]
  simp only [of_apply, one_apply_eq]
  rw [← ofReal_mul, mul_inv_cancel₀ h, ofReal_one]

theorem diag_cols (d : N → ℝ) (x y : ℝ) : (diagonal fun i => (d i : ℂ)) * twoCol p q x y = of fun i _ => (d i : ℂ) * twoCol p q x y i 0 := by
  ext i j
  rw [diagonal_mul, Subsingleton.elim j 0]
  rfl

theorem twoCol_objective (hpq : p ≠ q) (d : N → ℝ) {x y : ℝ} (h : x ^ 2 + y ^ 2 ≠ 0) :
    objective (diagonal fun i => (d i : ℂ)) (twoCol p q x y) = |(x ^ 2 * d p + y ^ 2 * d q) / (x ^ 2 + y ^ 2)| := by
  rw [objective, twoCol_inv hpq h, Matrix.mul_assoc _ (diagonal _), diag_cols, twoCol_sum hpq]
  rw [trace_fin_one, mul_apply, Fin.sum_univ_one]
  simp only [of_apply]
  rw [← ofReal_pow, ← ofReal_pow, ← ofReal_mul, ← ofReal_mul, ← ofReal_add, ← ofReal_mul, ofReal_re, div_eq_mul_inv]

/-- A first pass from `e_p + e_q` for diagonal operators, with an exact line search. -/
theorem progress_case (hpq : p ≠ q) {d w : N → ℝ} (hd : d q < d p) (hp : d p < 0) (hw : ∀ i, 0 < w i) (tol : ℝ) (ri : ℕ) :
    ∃ lib : SolveLib 1, SolveLibOk lib
      ∧ (∀ f theta, lib.minimize f = .ok theta → ∀ phi ∈ Set.Icc 0 Real.pi, ∀ a b, f theta = .ok a → f phi = .ok b → a ≤ b)
      ∧ ∃ st', solveStep (fun v i => (d i : ℂ) * v i) (fun v i => (w i : ℂ) * v i) lib tol ri 0
          { Z := twoCol p q 1 1, D := 0, ZtZ := (twoCol p q 1 1)ᴴ * twoCol p q 1 1, prevE := 0, prevTr := 0, dScale := 1 } = .ok (false, st')
        ∧ (st'.Zᴴ * st'.Z).det ≠ 0 := by
  classical
  let P : (ℝ → Res ℝ) → ℝ → Prop := fun f theta => ∀ phi ∈ Set.Icc 0 Real.pi, ∀ a b, f theta = .ok a → f phi = .ok b → a ≤ b
  obtain ⟨lib, hl, hm⟩ := solveLibOk_exists (M := 1) fun f => if h : ∃ theta, P f theta then .ok h.choose else .error "no minimum"
  have hmin : ∀ f theta, lib.minimize f = .ok theta → P f theta := by
    intro f theta h
    rw [hm] at h
    simp only at h
    split_ifs at h with hc
    obtain rfl := Except.ok.inj h
    exact hc.choose_spec
  have hex : ∀ f, (∃ theta, P f theta) → ∃ theta, lib.minimize f = .ok theta := by
    intro f hf
    rw [hm]
    exact ⟨_, dif_pos hf⟩
  refine ⟨lib, hl, hmin, ?_⟩
  have hop : ∀ v : N → ℂ, (fun i => (d i : ℂ) * v i) = (diagonal fun i => (d i : ℂ)) *ᵥ v := fun v => by
    funext i; rw [mulVec_diagonal]
  have hA : (diagonal fun i => (d i : ℂ)).IsHermitian := by
    rw [IsHermitian, diagonal_conjTranspose]
    congr 1
    funext i
    simp
  have h2 : (1 : ℝ) ^ 2 + 1 ^ 2 ≠ 0 := by norm_num
  have hdet := twoCol_det hpq h2
  -- the direction
  have hdir : ∀ δ : ℝ, δ ≠ 0 → ∀ D, D = twoCol p q (δ * w p) (-(δ * w q)) → ∃ theta,
      lib.minimize (searchFunc (fun v i => (d i : ℂ) * v i) (twoCol p q 1 1) D) = .ok theta
        ∧ ((trial (twoCol p q 1 1) D theta)ᴴ * trial (twoCol p q 1 1) D theta).det ≠ 0 := by
    rintro δ hδ D rfl
    have ht : ∀ theta, trial (twoCol p q 1 1) (twoCol p q (δ * w p) (-(δ * w q))) theta
        = twoCol p q (Real.cos theta + Real.sin theta * (δ * w p)) (Real.cos theta - Real.sin theta * (δ * w q)) := by
      intro theta
      ext i j
      simp only [trial, twoCol, Matrix.add_apply, Matrix.smul_apply, of_apply, smul_eq_mul]
      split_ifs <;> push_cast <;> ring
    have hne : ∀ theta, (Real.cos theta + Real.sin theta * (δ * w p)) ^ 2 + (Real.cos theta - Real.sin theta * (δ * w q)) ^ 2 ≠ 0 := by
      intro theta hc
      have a1 : Real.cos theta + Real.sin theta * (δ * w p) = 0 := by nlinarith [sq_nonneg (Real.cos theta + Real.sin theta * (δ * w p)), sq_nonneg (Real.cos theta - Real.sin theta * (δ * w q))]
      have a2 : Real.cos theta - Real.sin theta * (δ * w q) = 0 := by nlinarith [sq_nonneg (Real.cos theta + Real.sin theta * (δ * w p)), sq_nonneg (Real.cos theta - Real.sin theta * (δ * w q))]
      have a3 : Real.sin theta * (δ * (w p + w q)) = 0 := by linear_combination a1 - a2
      have a4 : δ * (w p + w q) ≠ 0 := mul_ne_zero hδ (add_pos (hw p) (hw q)).ne'
      have a5 : Real.sin theta = 0 := (mul_eq_zero.1 a3).resolve_right a4
      rw [a5] at a1
      have := Real.sin_sq_add_cos_sq theta
      rw [a5] at this
      nlinarith
    have hval : ∀ theta, searchFunc (fun v i => (d i : ℂ) * v i) (twoCol p q 1 1) (twoCol p q (δ * w p) (-(δ * w q))) theta
        = .ok (objective (diagonal fun i => (d i : ℂ))
          (twoCol p q (Real.cos theta + Real.sin theta * (δ * w p)) (Real.cos theta - Real.sin theta * (δ * w q)))) := by
      intro theta
      have := C77_line_search (A := diagonal fun i => (d i : ℂ)) hop hA (twoCol p q 1 1) (twoCol p q (δ * w p) (-(δ * w q))) theta
        (by rw [ht]; exact twoCol_det hpq (hne theta))
      rw [ht] at this
      exact this
    obtain ⟨theta, hth⟩ := hex (searchFunc (fun v i => (d i : ℂ) * v i) (twoCol p q 1 1) (twoCol p q (δ * w p) (-(δ * w q)))) (by
      refine ⟨Real.pi / 2 - Real.arctan (δ * w q), fun phi _ a b ha hb => ?_⟩
      rw [hval] at ha hb
      obtain rfl := Except.ok.inj ha
      obtain rfl := Except.ok.inj hb
      rw [twoCol_objective hpq d (hne _), twoCol_objective hpq d (hne _)]
      have hz : Real.cos (Real.pi / 2 - Real.arctan (δ * w q)) - Real.sin (Real.pi / 2 - Real.arctan (δ * w q)) * (δ * w q) = 0 := by
        rw [Real.cos_pi_div_two_sub, Real.sin_pi_div_two_sub]
        have hc : Real.cos (Real.arctan (δ * w q)) ≠ 0 := (Real.cos_arctan_pos _).ne'
        have := Real.tan_arctan (δ * w q)
        rw [Real.tan_eq_sin_div_cos, div_eq_iff hc] at this
        rw [this]; ring
      have hn1 := hne (Real.pi / 2 - Real.arctan (δ * w q))
      rw [hz] at hn1 ⊢
      generalize Real.cos (Real.pi / 2 - Real.arctan (δ * w q)) + Real.sin (Real.pi / 2 - Real.arctan (δ * w q)) * (δ * w p) = X at hn1 ⊢
      have hn2 := hne phi
      generalize Real.cos phi + Real.sin phi * (δ * w p) = x at hn2 ⊢
      generalize Real.cos phi - Real.sin phi * (δ * w q) = y at hn2 ⊢
      have hX : X ^ 2 ≠ 0 := by simpa using hn1
      have e1 : (X ^ 2 * d p + 0 ^ 2 * d q) / (X ^ 2 + 0 ^ 2) = d p := by field_simp; ring
      have hpos : 0 < x ^ 2 + y ^ 2 := lt_of_le_of_ne (by positivity) (Ne.symm hn2)
      have e2 : (x ^ 2 * d p + y ^ 2 * d q) / (x ^ 2 + y ^ 2) ≤ d p := by
        rw [div_le_iff₀ hpos]
        nlinarith [sq_nonneg y]
      rw [e1, abs_of_neg hp, abs_of_neg (lt_of_le_of_lt e2 hp)]
      linarith)
    exact ⟨theta, hth, by rw [ht]; exact twoCol_det hpq (hne theta)⟩
  -- the gradient
  set g : ℝ := -((d p - d q) / 4) with hg
  have hg0 : g ≠ 0 := by rw [hg]; exact neg_ne_zero.2 (div_ne_zero (sub_ne_zero.2 hd.ne') four_ne_zero)
  have hW : (twoCol p q 1 1)ᴴ * ((diagonal fun i => (d i : ℂ)) * twoCol p q 1 1) * ((twoCol p q 1 1)ᴴ * twoCol p q 1 1)⁻¹
      = of fun _ _ => (((d p + d q) / 2 : ℝ) : ℂ) := by
    rw [diag_cols, twoCol_sum hpq, twoCol_inv hpq h2]
    ext a b
    rw [mul_apply, Fin.sum_univ_one]
    simp only [of_apply]
    push_cast
    ring
  have hsgn : ((SignType.sign (trace (of fun _ _ => (((d p + d q) / 2 : ℝ) : ℂ) : Matrix (Fin 1) (Fin 1) ℂ)).re : ℝ) : ℂ) = -1 := by
    rw [trace_fin_one, of_apply, ofReal_re, sign_neg (by linarith)]
    simp
  have hG : (-1 : ℂ) • ((diagonal fun i => (d i : ℂ)) * twoCol p q 1 1 * ((twoCol p q 1 1)ᴴ * twoCol p q 1 1)⁻¹
      - twoCol p q 1 1 * ((twoCol p q 1 1)ᴴ * twoCol p q 1 1)⁻¹ * (of fun _ _ => (((d p + d q) / 2 : ℝ) : ℂ))) = twoCol p q g (-g) := by
    rw [diag_cols, twoCol_inv hpq h2]
    ext i j
    simp only [Matrix.smul_apply, Matrix.sub_apply, mul_apply, Fin.sum_univ_one, of_apply, smul_eq_mul, twoCol]
    by_cases h1 : i = p
    · subst h1
      simp only [if_true, hg]; push_cast; ring
    · by_cases h3 : i = q
      · subst h3
        simp only [if_true, if_neg h1, hg]; push_cast; ring
      · simp [h1, h3]
  have hK : cols (fun v i => (w i : ℂ) * v i) (twoCol p q g (-g)) = twoCol p q (g * w p) (-(g * w q)) := by
    ext i j
    simp only [cols, of_apply, twoCol]
    by_cases h1 : i = p
    · subst h1
      simp only [if_true]; push_cast; ring
    · by_cases h3 : i = q
      · subst h3
        simp only [if_true, if_neg h1]; push_cast; ring
      · simp [h1, h3]
  have hf : fnorm (twoCol p q (g * w p) (-(g * w q))) ≠ 0 := by
    rw [Ne, fnorm_eq_zero]
    intro hc
    have := congrFun (congrFun hc p) 0
    simp only [twoCol, of_apply, if_true, Matrix.zero_apply, ofReal_eq_zero] at this
    exact mul_ne_zero hg0 (hw p).ne' this
  obtain ⟨theta, hth, hrank⟩ := hdir (1 / fnorm (twoCol p q (g * w p) (-(g * w q))) * g) (mul_ne_zero (one_div_ne_zero hf) hg0)
    (((1 / fnorm (twoCol p q (g * w p) (-(g * w q))) : ℝ) : ℂ) • twoCol p q (g * w p) (-(g * w q))) (by
      ext i j
      simp only [twoCol, Matrix.smul_apply, of_apply, smul_eq_mul]
      split_ifs <;> push_cast <;> ring)
  unfold searchFunc at hth
  have hop' : ∀ Z : Matrix N (Fin 1) ℂ, cols (fun v i => (d i : ℂ) * v i) Z = (diagonal fun i => (d i : ℂ)) * Z := fun Z => cols_eq hop Z
  simp only [hop'] at hth
  unfold solveStep
  simp only [inv_ok hdet, bind, Except.bind, pure, Except.pure, throw, throwThe, MonadExceptOf.throw, hop', hW, hsgn, hG, hK, lt_irrefl, false_and, if_false,
    smul_zero, zero_add, true_or, if_true, if_neg hf, Nat.cast_one, hth]
  exact ⟨_, rfl, hrank⟩

theorem twoCol_not_invariant (hpq : p ≠ q) {d : N → ℝ} (hd : d q < d p) :
    ¬ ∃ C : Matrix (Fin 1) (Fin 1) ℂ, (diagonal fun i => (d i : ℂ)) * twoCol p q 1 1 = twoCol p q 1 1 * C := by
  rintro ⟨C, hC⟩
  have h1 := congrFun (congrFun hC p) 0
  have h2 := congrFun (congrFun hC q) 0
  rw [diagonal_mul, mul_apply, Fin.sum_univ_one] at h1 h2
  simp only [twoCol, of_apply, if_true, if_neg hpq.symm, ofReal_one, mul_one, one_mul] at h1 h2
  exact hd.ne (by exact_mod_cast h2.trans h1.symm)
end

/-- The hypotheses of `C128_bloch_partial` (hence those of `C128_progress`, `C128_direction` and `C128_stationary`) are met in vacuum, on every grid of two
cells along x, by the first pass from the sum of two plane waves. -/
theorem bloch_progress_case {sh : Fin 3 → ℕ} (hx : sh 0 = 2) (hy : 0 < sh 1) (hz : 0 < sh 2) (tol : ℝ) (ri : ℕ) :
    let k0 : Fin 3 → ℝ := fun c => if c = 0 then 1 else 0
    Regular k0 1 sh ∧ (∀ (x : Idx sh) (k : Fin 3 → ℝ), IsWave k0 1 k x → k ≠ 0) ∧ PosReal (fun _ _ => 1 : VField sh ℂ) ∧ ∃ op iop : Hmn sh → Hmn sh,
      (∀ h, maxwellOperator k0 1 (fun _ _ => 1) h = some (op h)) ∧ (∀ h, inverseMaxwellOperatorApprox k0 1 (fun _ _ => 1) h = some (iop h))
      ∧ ∃ lib : SolveLib 1, SolveLibOk lib
      ∧ (∀ f theta, lib.minimize f = .ok theta → ∀ phi ∈ Set.Icc 0 Real.pi, ∀ a b, f theta = .ok a → f phi = .ok b → a ≤ b)
      ∧ ∃ st st', solveStep (flat op) (flat iop) lib tol ri 0 st = .ok (false, st') ∧ st.prevTr = 0 ∧ (st'.Zᴴ * st'.Z).det ≠ 0
        ∧ ¬ ∃ C : Matrix (Fin 1) (Fin 1) ℂ, cols (flat op) st.Z = st.Z * C := by
  classical
  intro k0
  have e : ∀ x : Idx sh, kxyz k0 1 x = fun a => k0 a - fftfreq (sh a) (x a) := fun x => by rw [kxyz, one_mulVec]
  have ex : ∀ x : Idx sh, kxyz k0 1 x 0 = 1 - fftfreq (sh 0) (x 0) := fun x => by rw [e]; simp [k0]
  have hne : ∀ x : Idx sh, kxyz k0 1 x 0 ≠ 0 := by
    intro x hc
    rw [ex, sub_eq_zero] at hc
    have h1 : fftfreq (sh 0) (x 0) = 1 := by exact_mod_cast hc.symm
    have hlt := (x 0).2
    unfold fftfreq at h1
    split_ifs at h1 <;> omega
  have hreg : Regular k0 1 sh := fun x k hw hc => hne x (by rw [← hw.eq]; exact hc.1)
  have hk : ∀ (x : Idx sh) (k : Fin 3 → ℝ), IsWave k0 1 k x → k ≠ 0 := fun x k hw hc => hne x (by rw [← hw.eq, hc]; rfl)
  obtain ⟨op, iop, h1, h2, h3, -⟩ := C60_uniform_partial k0 1 hreg hk (e := 1) one_ne_zero
  refine ⟨hreg, hk, fun c x => ⟨1, one_pos, by simp⟩, op, iop, h1, h2, ?_⟩
  let xp : Idx sh := fun a => match a with
    | 0 => ⟨0, by omega⟩
    | 1 => ⟨0, hy⟩
    | 2 => ⟨0, hz⟩
  let xq : Idx sh := fun a => match a with
    | 0 => ⟨1, by omega⟩
    | 1 => ⟨0, hy⟩
    | 2 => ⟨0, hz⟩
  have hpq : ((0 : Fin 2), xp) ≠ ((0 : Fin 2), xq) := by
    intro hc
    have := congrArg (fun z : Fin 2 × Idx sh => (z.2 0 : ℕ)) hc
    simp [xp, xq] at this
  have k1 : ∀ x : Idx sh, (x 1 : ℕ) = 0 → kxyz k0 1 x 1 = 0 := by
    intro x hx1
    rw [e]
    show (k0 1 - (fftfreq (sh 1) (x 1) : ℝ)) = 0
    rw [fftfreq_zero (x 1) hx1]; simp [k0]
  have k2 : ∀ x : Idx sh, (x 2 : ℕ) = 0 → kxyz k0 1 x 2 = 0 := by
    intro x hx1
    rw [e]
    show (k0 2 - (fftfreq (sh 2) (x 2) : ℝ)) = 0
    rw [fftfreq_zero (x 2) hx1]; simp [k0]
  let a : Fin 2 × Idx sh → ℝ := fun p => ∑ c, kxyz k0 1 p.2 c ^ 2
  have hap : a (0, xp) = 1 := by
    show ∑ c, kxyz k0 1 xp c ^ 2 = 1
    rw [Fin.sum_univ_three, k1 xp rfl, k2 xp rfl, ex, fftfreq_zero (xp 0) rfl]
    norm_num
  have hfq : fftfreq (sh 0) (xq 0) = -1 := by
    have : ((xq 0 : Fin (sh 0)) : ℕ) = 1 := rfl
    unfold fftfreq
    rw [this, hx]
    norm_num
  have haq : a (0, xq) = 4 := by
    show ∑ c, kxyz k0 1 xq c ^ 2 = 4
    rw [Fin.sum_univ_three, k1 xq rfl, k2 xq rfl, ex, hfq]
    norm_num
  have hapos : ∀ p, 0 < a p := fun p => by
    show 0 < ∑ c, kxyz k0 1 p.2 c ^ 2
    exact Finset.sum_pos' (fun c _ => sq_nonneg _) ⟨0, Finset.mem_univ _, by have := hne p.2; positivity⟩
  have f1 : flat op = fun v p => ((-a p : ℝ) : ℂ) * v p := by
    funext v p
    have := (h3 (fun i x => v (i, x)) p.1 p.2 _ (kxyz_isWave k0 1 p.2)).1
    rw [div_one] at this
    rw [ofReal_neg]
    exact this
  have f2 : flat iop = fun v p => (((a p)⁻¹ : ℝ) : ℂ) * v p := by
    funext v p
    have := (h3 (fun i x => v (i, x)) p.1 p.2 _ (kxyz_isWave k0 1 p.2)).2
    rw [one_div] at this
    rw [ofReal_inv]
    exact this
  obtain ⟨lib, hl, hmin, st', hst, hrank⟩ := progress_case hpq (d := fun p => -a p) (w := fun p => (a p)⁻¹) (by rw [hap, haq]; norm_num)
    (by rw [hap]; norm_num) (fun p => inv_pos.2 (hapos p)) tol ri
  refine ⟨lib, hl, hmin, _, st', by rw [f1, f2]; exact hst, rfl, hrank, ?_⟩
  have hop : ∀ v, flat op v = (diagonal fun p => ((-a p : ℝ) : ℂ)) *ᵥ v := fun v => by
    funext p; rw [f1, mulVec_diagonal]
  rw [cols_eq hop]
  exact twoCol_not_invariant hpq (d := fun p => -a p) (by rw [hap, haq]; norm_num)

/-- An exact guess: a coordinate vector for a diagonal operator on two coordinates. -/
example {lib : SolveLib 1} (hl : SolveLibOk lib) (draw : ℕ → Matrix (Fin 2) (Fin 1) ℂ) (tol : ℝ) (mi ri : ℕ) :
    eigsolve (fun v => (diagonal ![-1, -2] : Matrix (Fin 2) (Fin 2) ℂ) *ᵥ v) (fun v => v) lib draw 2 tol (mi + 1) ri (of ![![1], ![0]]) = .error "nan" := by
  refine C128_exact_guess_partial (A := diagonal ![-1, -2]) (fun v => rfl) rfl hl one_pos draw 0 tol mi ri _ ?_ ⟨of ![![-1]], ?_⟩
  · rw [det_fin_one, mul_apply, Fin.sum_univ_two]
    simp
  · ext i j
    fin_cases i <;> fin_cases j <;> simp [mul_apply]

end Meanas.Props
