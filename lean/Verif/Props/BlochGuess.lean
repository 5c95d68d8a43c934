/-
Properties C77 and C95, continued: what the line search of `eigsolve` (meanas/fdfd/bloch.py) sees where the trial block loses rank, and what is left of a
guess that the initial loop replaces.
-/
import Verif.Props.BlochInit

set_option linter.unusedSectionVars false

namespace Meanas.Props

open Complex Matrix Meanas.Bloch
open scoped ComplexOrder MatrixOrder

variable {N : Type} [Fintype N] {M : ℕ}

/-! ### The line search at a singular trial block -/

/-- `X` inverts the Gram matrix `s² P + c² P' + 2 s c S` to first order in `t = c / s`: the product with it is the identity up to terms in `t²` and `t³`. -/
def FirstOrderInverse (P P' S : Matrix (Fin M) (Fin M) ℂ) (t : ℂ) (Q X : Matrix (Fin M) (Fin M) ℂ) : Prop :=
  Q * X = 1 + t ^ 2 • (P' * P⁻¹ - (4 : ℂ) • (S * P⁻¹ * S * P⁻¹)) - (2 * t ^ 3) • (P' * P⁻¹ * S * P⁻¹)

theorem firstOrder_of_expansion {P P' S : Matrix (Fin M) (Fin M) ℂ} (hP : P.det ≠ 0) (hPh : Pᴴ = P) (hS : Sᴴ = S) {c s : ℂ} (hs : s ≠ 0) :
    FirstOrderInverse P P' S (c / s) ((s * s) • P + (c * c) • P' + (2 * s * c) • S)
      ((1 / (s * s)) • P⁻¹ - (2 * c / (s * s * s)) • (P⁻¹ * (P⁻¹ * S)ᴴ)) := by
  have hi : P * P⁻¹ = 1 := mul_nonsing_inv _ (isUnit_iff_ne_zero.2 hP)
  have hih : (P⁻¹)ᴴ = P⁻¹ := by rw [conjTranspose_nonsing_inv, hPh]
  have e1 : (P⁻¹ * S)ᴴ = S * P⁻¹ := by rw [conjTranspose_mul, hih, hS]
  have e2 : P * (P⁻¹ * (S * P⁻¹)) = S * P⁻¹ := by rw [← Matrix.mul_assoc, hi, Matrix.one_mul]
  unfold FirstOrderInverse
  rw [e1]
  simp only [Matrix.add_mul, Matrix.mul_sub, Matrix.smul_mul, Matrix.mul_smul, hi, e2, smul_sub, smul_smul, Matrix.mul_assoc]
  have h1 : 1 / (s * s) * (s * s) = 1 := by field_simp
  have h2 : 2 * c / (s * s * s) * (s * s) = 2 * c / s := by field_simp
  have h3 : 1 / (s * s) * (c * c) = (c / s) ^ 2 := by field_simp
  have h4 : 2 * c / (s * s * s) * (c * c) = 2 * (c / s) ^ 3 := by field_simp
  have h5 : 1 / (s * s) * (2 * s * c) = 2 * c / s := by field_simp
  have h6 : 2 * c / (s * s * s) * (2 * s * c) = (c / s) ^ 2 * 4 := by field_simp; ring
  simp only [smul_add, smul_smul, h1, h2, h3, h4, h5, h6, one_smul]
  abel

theorem symmetrize_herm (B : Matrix (Fin M) (Fin M) ℂ) : (symmetrize B)ᴴ = symmetrize B := by
  unfold symmetrize
  rw [conjTranspose_smul, conjTranspose_add, conjTranspose_conjTranspose, add_comm Bᴴ]
  congr 1
  simp

/-- The function handed to the line search by the iteration from the block `Z` in the direction `D`. -/
noncomputable def searchFunc (op : (N → ℂ) → N → ℂ) (Z D : Matrix N (Fin M) ℂ) (theta : ℝ) : Res ℝ :=
  traceFunc (Zᴴ * Z) (Dᴴ * D) (symmetrize (Zᴴ * D)) (Zᴴ * cols op Z) (Dᴴ * cols op D) (symmetrize (Zᴴ * cols op D)) theta

/-- **C77, where the trial block loses rank.** At such an angle the function handed to the line search raises unless the sine or the cosine (but not both,
and not exactly zero) lies below `1e-4` times the other; there it is the trace formed with an inverse to first order in the ratio of the two, about the
direction, resp. about the current block. -/
theorem C77_singular_angle {op : (N → ℂ) → N → ℂ} {A : Matrix N N ℂ} (hop : ∀ v, op v = A *ᵥ v) (hA : A.IsHermitian)
    (Z D : Matrix N (Fin M) ℂ) (theta : ℝ) (hd : ((trial Z D theta)ᴴ * trial Z D theta).det = 0) (h0 : 0 ≤ Real.sin theta) :
    (1e-4 * Real.sin theta ≤ Real.cos theta → 1e-4 * Real.cos theta ≤ Real.sin theta →
        searchFunc op Z D theta = .error "Inexplicable singularity in trace_func")
      ∧ (Real.cos theta = 0 → searchFunc op Z D theta = .error "Inexplicable singularity in trace_func")
      ∧ (Real.cos theta < 1e-4 * Real.sin theta → Real.cos theta ≠ 0 → (Dᴴ * D).det = 0 → searchFunc op Z D theta = .error "LinAlgError")
      ∧ (Real.cos theta < 1e-4 * Real.sin theta → Real.cos theta ≠ 0 → (Dᴴ * D).det ≠ 0 → Real.sin theta ≠ 0 →
          ∃ X, searchFunc op Z D theta = .ok |(trace ((trial Z D theta)ᴴ * (A * trial Z D theta) * X)).re|
            ∧ FirstOrderInverse (Dᴴ * D) (Zᴴ * Z) (symmetrize (Zᴴ * D)) ((Real.cos theta / Real.sin theta : ℝ) : ℂ)
                ((trial Z D theta)ᴴ * trial Z D theta) X)
      ∧ (Real.sin theta < 1e-4 * Real.cos theta → Real.sin theta ≠ 0 → (Zᴴ * Z).det ≠ 0 →
          ∃ X, searchFunc op Z D theta = .ok |(trace ((trial Z D theta)ᴴ * (A * trial Z D theta) * X)).re|
            ∧ FirstOrderInverse (Zᴴ * Z) (Dᴴ * D) (symmetrize (Zᴴ * D)) ((Real.sin theta / Real.cos theta : ℝ) : ℂ)
                ((trial Z D theta)ᴴ * trial Z D theta) X) := by
  classical
  have hQ := gram_trial (1 : Matrix N N ℂ) (by simp) Z D theta
  simp only [Matrix.one_mul] at hQ
  have hR := gram_trial A hA Z D theta
  have hRh : ((trial Z D theta)ᴴ * (A * trial Z D theta))ᴴ = (trial Z D theta)ᴴ * (A * trial Z D theta) := by
    rw [conjTranspose_mul, conjTranspose_mul, conjTranspose_conjTranspose, hA, Matrix.mul_assoc]
  have hinv : Bloch.inv ((trial Z D theta)ᴴ * trial Z D theta) = .error "LinAlgError" := by unfold Bloch.inv; rw [if_pos hd]
  have hherm : ∀ B : Matrix N (Fin M) ℂ, (Bᴴ * B)ᴴ = Bᴴ * B := fun B => by rw [conjTranspose_mul, conjTranspose_conjTranspose]
  have hval : ∀ X, qiFunc (Zᴴ * Z) (Dᴴ * D) (symmetrize (Zᴴ * D)) theta = .ok X →
      searchFunc op Z D theta = .ok |(trace ((trial Z D theta)ᴴ * (A * trial Z D theta) * X)).re| := by
    intro X hX
    unfold searchFunc traceFunc
    simp only [bind, Except.bind, pure, Except.pure]
    rw [hX, cols_eq hop, cols_eq hop]
    simp only
    rw [← hR, rtrace_eq hRh]
  have herr : ∀ e, qiFunc (Zᴴ * Z) (Dᴴ * D) (symmetrize (Zᴴ * D)) theta = .error e → searchFunc op Z D theta = .error e := by
    intro e hX
    unfold searchFunc traceFunc
    simp only [bind, Except.bind, pure, Except.pure]
    rw [hX]
  have hqi : qiFunc (Zᴴ * Z) (Dᴴ * D) (symmetrize (Zᴴ * D)) theta =
      if Real.cos theta < 1e-4 * Real.sin theta ∧ Real.cos theta ≠ 0 then (do
        let DtDi ← Bloch.inv (Dᴴ * D)
        return (1 / ((Real.sin theta : ℂ) * (Real.sin theta : ℂ))) • DtDi
          - (2 * (Real.cos theta : ℂ) / ((Real.sin theta : ℂ) * (Real.sin theta : ℂ) * (Real.sin theta : ℂ)))
            • (DtDi * (DtDi * symmetrize (Zᴴ * D))ᴴ))
      else if Real.sin theta < 1e-4 * Real.cos theta ∧ Real.sin theta ≠ 0 then (do
        let ZtZi ← Bloch.inv (Zᴴ * Z)
        return (1 / ((Real.cos theta : ℂ) * (Real.cos theta : ℂ))) • ZtZi
          - (2 * (Real.sin theta : ℂ) / ((Real.cos theta : ℂ) * (Real.cos theta : ℂ) * (Real.cos theta : ℂ)))
            • (ZtZi * (ZtZi * symmetrize (Zᴴ * D))ᴴ))
      else .error "Inexplicable singularity in trace_func" := by
    unfold qiFunc
    simp only
    rw [← hQ, hinv]
  refine ⟨fun h1 h2 => herr _ ?_, fun h1 => herr _ ?_, fun h1 h2 h3 => herr _ ?_, fun h1 h2 h3 h4 => ?_, fun h1 h2 h3 => ?_⟩
  · rw [hqi, if_neg (fun h => not_lt.2 h1 h.1), if_neg (fun h => not_lt.2 h2 h.1)]
  · rw [hqi, if_neg (fun h => h.2 h1), if_neg (fun h => by have := h.1; rw [h1, mul_zero] at this; linarith)]
  · rw [hqi, if_pos ⟨h1, h2⟩]
    unfold Bloch.inv
    rw [if_pos h3]
    rfl
  · refine ⟨_, hval _ (by rw [hqi, if_pos ⟨h1, h2⟩, inv_ok h3]; rfl), ?_⟩
    have := firstOrder_of_expansion (P' := Zᴴ * Z) h3 (hherm D) (symmetrize_herm (Zᴴ * D)) (c := (Real.cos theta : ℂ)) (s := (Real.sin theta : ℂ))
      (ofReal_ne_zero.2 h4)
    rw [hQ, ofReal_div, add_comm (((Real.cos theta : ℂ) * _) • _)]
    exact this
  · have hc : 0 < Real.cos theta := by
      have : 0 < Real.sin theta := lt_of_le_of_ne h0 (Ne.symm h2)
      nlinarith
    have h3' : ¬(Real.cos theta < 1e-4 * Real.sin theta ∧ Real.cos theta ≠ 0) := fun h => by
      have := h.1
      norm_num at h1 this
      linarith
    refine ⟨_, hval _ (by rw [hqi, if_neg h3', if_pos ⟨h1, h2⟩, inv_ok h3]; rfl), ?_⟩
    have := firstOrder_of_expansion (P' := Dᴴ * D) h3 (hherm Z) (symmetrize_herm (Zᴴ * D)) (c := (Real.sin theta : ℂ)) (s := (Real.cos theta : ℂ))
      (ofReal_ne_zero.2 hc.ne')
    rw [hQ, ofReal_div, show 2 * (Real.sin theta : ℂ) * (Real.cos theta : ℂ) = 2 * (Real.cos theta : ℂ) * (Real.sin theta : ℂ) by ring]
    exact this

/-! ### A guess that is replaced -/

theorem initLoop_false {lib : SolveLib M} {draw : ℕ → Matrix N (Fin M) ℂ} : ∀ {fuel k : ℕ} {Z : Matrix N (Fin M) ℂ} {r : Bool × Matrix N (Fin M) ℂ},
    initLoop lib draw fuel k false Z = .ok r → r.1 = false := by
  intro fuel
  induction fuel with
  | zero => intro k Z r h; cases h
  | succ n ih =>
    intro k Z r h
    rw [initLoop] at h
    split_ifs at h with h1
    simp only at h
    split_ifs at h with h2 h3
    · exact ih h
    · exact ih h
    · rw [← Except.ok.inj h]

/-- **C95 for `eigsolve`, a guess that is not used.** If the columns of the guess are dependent, or nearly so (the test of line 577), the call only
rescales it to norm `num_modes`: whatever the random blocks and the iteration do, the caller's array holds a positive multiple of the guess. -/
theorem C95_bloch_replaced_guess (op iop : (N → ℂ) → N → ℂ) (lib : SolveLib M) (draw : ℕ → Matrix N (Fin M) ℂ) (fuel : ℕ) (tol : ℝ) (mi ri : ℕ)
    {Z0 Y : Matrix N (Fin M) ℂ} (hM : 0 < M) (hd : (Z0ᴴ * Z0).det = 0 ∨ 1e8 * M < (fnorm Z0 / M) ^ 2 * (trace (Z0ᴴ * Z0)⁻¹).re) {stop : Bool}
    {vals : Fin M → ℂ} {vecs : Fin M → N → ℂ} (h : eigsolveFull op iop lib draw fuel tol mi ri Z0 = .ok (stop, Y, vals, vecs)) :
    0 < fnorm Z0 ∧ Y = ((M / fnorm Z0 : ℝ) : ℂ) • Z0 ∧ fnorm Y = M := by
  have hM0 : (M : ℝ) ≠ 0 := Nat.cast_ne_zero.2 hM.ne'
  unfold eigsolveFull at h
  simp only [bind, Except.bind, pure, Except.pure] at h
  cases hI : initLoop lib draw fuel 0 true Z0 with
  | error e => rw [hI] at h; cases h
  | ok r =>
    have hr : fnorm Z0 ≠ 0 ∧ r.1 = false := by
      cases fuel with
      | zero => cases hI
      | succ n =>
        by_cases hn : fnorm Z0 = 0
        · rw [initLoop, if_pos hn] at hI; cases hI
        refine ⟨hn, ?_⟩
        have hc : (M / fnorm Z0 : ℂ) = ((M / fnorm Z0 : ℝ) : ℂ) := by push_cast; rfl
        have hq : (M / fnorm Z0) ^ 2 ≠ 0 := pow_ne_zero _ (div_ne_zero hM0 hn)
        rcases eq_or_ne (Z0ᴴ * Z0).det 0 with h0 | h0
        · rw [initLoop, if_neg hn] at hI
          simp only at hI
          rw [if_pos (by rw [hc, gram_smul, det_smul, h0, mul_zero])] at hI
          exact initLoop_false hI
        · have ht := hd.resolve_left h0
          have hinv : (((((M / fnorm Z0) ^ 2 : ℝ) : ℂ)) • (Z0ᴴ * Z0))⁻¹ = (((fnorm Z0 / M) ^ 2 : ℝ) : ℂ) • (Z0ᴴ * Z0)⁻¹ := by
            refine Matrix.inv_eq_left_inv ?_
            rw [Matrix.smul_mul, Matrix.mul_smul, nonsing_inv_mul _ (isUnit_iff_ne_zero.2 h0), smul_smul, ← ofReal_mul]
            have : (fnorm Z0 / M) ^ 2 * (M / fnorm Z0) ^ 2 = 1 := by field_simp
            rw [this, ofReal_one, one_smul]
          rw [init_pass hM draw n 0 true h0, if_pos (by rw [hc, gram_smul, hinv, trace_smul, smul_eq_mul, re_ofReal_mul]; exact ht)] at hI
          exact initLoop_false hI
    obtain ⟨hn, hf⟩ := hr
    have hp : 0 < fnorm Z0 := lt_of_le_of_ne (fnorm_nonneg _) (Ne.symm hn)
    rw [hI] at h
    simp only at h
    revert h
    generalize solveLoop op iop lib tol ri mi 0 _ = q
    intro h
    cases q with
    | error e => cases h
    | ok q =>
      simp only at h
      cases hf' : solveFinish op lib q.2.Z q.2.ZtZ with
      | error e => rw [hf'] at h; cases h
      | ok p =>
        rw [hf'] at h
        have e2 := (Prod.mk.inj (Prod.mk.inj (Except.ok.inj h)).2).1
        rw [if_neg (by rw [hf]; decide)] at e2
        have e3 : Y = ((M / fnorm Z0 : ℝ) : ℂ) • Z0 := by rw [← e2]; push_cast; rfl
        refine ⟨hp, e3, ?_⟩
        rw [e3, fnorm_smul _ (by positivity)]
        field_simp

/-! ### Cases meeting the hypotheses -/

/-- A block and a direction parallel to it: the trial block vanishes at three quarters of `π`, and there the search function is 0, although the objective of
every other trial block is `|a|`. -/
example (a : ℝ) : ∃ X, searchFunc (fun v => (of fun _ _ : Fin 1 => (a : ℂ)) *ᵥ v) (1 : Matrix (Fin 1) (Fin 1) ℂ) 1 (Real.pi - Real.pi / 4)
    = .ok |(trace ((0 : Matrix (Fin 1) (Fin 1) ℂ) * X)).re| := by
  have hs : Real.sin (Real.pi - Real.pi / 4) = √2 / 2 := by rw [Real.sin_pi_sub, Real.sin_pi_div_four]
  have hc : Real.cos (Real.pi - Real.pi / 4) = -(√2 / 2) := by rw [Real.cos_pi_sub, Real.cos_pi_div_four]
  have h2 : 0 < √2 / 2 := by positivity
  have ht : trial (1 : Matrix (Fin 1) (Fin 1) ℂ) 1 (Real.pi - Real.pi / 4) = 0 := by
    unfold trial
    rw [hs, hc, ← add_smul]
    push_cast
    rw [neg_add_cancel, zero_smul]
  obtain ⟨X, h, -⟩ := (C77_singular_angle (A := of fun _ _ : Fin 1 => (a : ℂ)) (op := fun v => (of fun _ _ : Fin 1 => (a : ℂ)) *ᵥ v) (fun v => rfl)
    (by ext i j; simp) 1 1 (Real.pi - Real.pi / 4) (by rw [ht]; simp) (by rw [hs]; exact h2.le)).2.2.2.1
    (by rw [hs, hc]; norm_num; linarith) (by rw [hc]; linarith) (by simp) (by rw [hs]; exact h2.ne')
  refine ⟨X, ?_⟩
  rw [h, ht]
  simp

/-- A guess with two equal columns is replaced, the call returns, and the caller's array holds the guess again, rescaled. -/
example : ∃ (lib : SolveLib 2) (op : (Fin 2 → ℂ) → Fin 2 → ℂ) (Y : Matrix (Fin 2) (Fin 2) ℂ) (vals : Fin 2 → ℂ) (vecs : Fin 2 → Fin 2 → ℂ),
    eigsolveFull op op lib (fun _ => 1) 3 2 0 5 !![1, 1; 0, 0] = .ok (false, Y, vals, vecs) ∧ ∃ a : ℝ, Y = (a : ℂ) • !![1, 1; 0, 0] := by
  obtain ⟨lib, hl, -⟩ := solveLibOk_exists (M := 2) fun _ => .error "unused"
  have hdet : ((!![1, 1; 0, 0] : Matrix (Fin 2) (Fin 2) ℂ)ᴴ * !![1, 1; 0, 0]).det = 0 := by
    rw [det_mul]; simp [det_fin_two]
  have hn : fnorm (!![1, 1; 0, 0] : Matrix (Fin 2) (Fin 2) ℂ) ≠ 0 := by
    unfold fnorm
    rw [Real.sqrt_ne_zero']
    simp [Fin.sum_univ_two]
  obtain ⟨own, Z, W, h1, h2, h3, h4, h5, -⟩ := C99_independent_guess hl (by norm_num) (fun _ => (1 : Matrix (Fin 2) (Fin 2) ℂ)) 0 1 false 1 (by simp)
  have hI : ∃ own, initLoop lib (fun _ => (1 : Matrix (Fin 2) (Fin 2) ℂ)) 3 0 true !![1, 1; 0, 0] = .ok (own, Z) := by
    refine ⟨own, ?_⟩
    rw [initLoop, if_neg hn]
    simp only
    have hc : (((2 : ℕ) : ℂ) / fnorm (!![1, 1; 0, 0] : Matrix (Fin 2) (Fin 2) ℂ) : ℂ)
        = ((((2 : ℕ) : ℝ) / fnorm (!![1, 1; 0, 0] : Matrix (Fin 2) (Fin 2) ℂ) : ℝ) : ℂ) := by push_cast; rfl
    rw [if_pos (by rw [hc, gram_smul, det_smul, hdet, mul_zero])]
    exact h1
  obtain ⟨own', hI⟩ := hI
  obtain ⟨⟨vals, vecs⟩, hf⟩ := finish_total (op := fun v => (1 : Matrix (Fin 2) (Fin 2) ℂ) *ᵥ v) (fun v => rfl) isHermitian_one hl h5
  have hrun : ∃ Y, eigsolveFull (fun v => (1 : Matrix (Fin 2) (Fin 2) ℂ) *ᵥ v) (fun v => (1 : Matrix (Fin 2) (Fin 2) ℂ) *ᵥ v) lib (fun _ => 1) 3 2 0 5
      !![1, 1; 0, 0] = .ok (false, Y, vals, vecs) := by
    unfold eigsolveFull
    rw [hI]
    simp only [bind, Except.bind, pure, Except.pure, solveLoop, hf]
    exact ⟨_, rfl⟩
  obtain ⟨Y, hY⟩ := hrun
  exact ⟨lib, _, Y, vals, vecs, hY, _, (C95_bloch_replaced_guess _ _ _ _ _ _ _ _ (by norm_num) (.inl hdet) hY).2.1⟩

end Meanas.Props
