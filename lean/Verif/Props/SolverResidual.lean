/-
C156: what the tolerance of the iterative solver means for the field that `generic` returns (meanas/fdfd/solvers.py).
-/
import Verif.Model.SolversQmr
import Verif.Props.FdfdSolvers
import Verif.Props.FdfdSystem

namespace Meanas.Props

open Matrix Complex Fdfd Spec Solvers

variable {sh : Fin 3 → ℕ} {R : Type}

/-- What scipy promises of `qmr`: if it reports convergence, the residual norm is at most `rtol` times the norm of the right-hand side. Nothing is promised otherwise. -/
def QmrContract (rtol : ℝ) (qmr : Mat sh → Vec sh → Opts sh R → Vec sh × ℤ) : Prop :=
  ∀ A b o, (qmr A b o).2 = 0 → √(∑ p, ‖(A *ᵥ (qmr A b o).1 - b) p‖ ^ 2) ≤ rtol * √(∑ p, ‖b p‖ ^ 2)

/-- Volume (modulus, on stretched grids) of the Yee cell around an electric component. -/
noncomputable def absVol (dxes : Dx sh) (p : Pos sh) : ℝ := ‖volE dxes.1 dxes.2 p.1 p.2‖

namespace QmrAux

theorem left_sq (dxes : Dx sh) (v : Vec sh) (p : Pos sh) : ‖((preconditioners dxes).1 *ᵥ v) p‖ ^ 2 = absVol dxes p * ‖v p‖ ^ 2 := by
  have h := sqrt_sq (pSquared dxes p)
  simp only [preconditioners, mulVec_diagonal, norm_mul, mul_pow]
  have : ‖pSquared dxes p ^ (1 / 2 : ℂ)‖ ^ 2 = absVol dxes p := by
    rw [absVol, ← pSquared_eq, ← norm_pow, pow_two, h]
  rw [this]

theorem rightH_sq (dxes : Dx sh) (v : Vec sh) (p : Pos sh) : ‖((preconditioners dxes).2ᴴ *ᵥ v) p‖ ^ 2 = ‖v p‖ ^ 2 / absVol dxes p := by
  have h := sqrt_sq (pSquared dxes p)
  simp only [preconditioners, diagonal_conjTranspose, mulVec_diagonal, norm_mul, mul_pow, Pi.star_apply, norm_star, norm_div, norm_one]
  have : ‖pSquared dxes p ^ (1 / 2 : ℂ)‖ ^ 2 = absVol dxes p := by
    rw [absVol, ← pSquared_eq, ← norm_pow, pow_two, h]
  rw [div_pow, this]; ring

theorem sq_le {a b r : ℝ} (hb : 0 ≤ b) (ha : 0 ≤ a) (hr : 0 ≤ r) (h : √a ≤ r * √b) : a ≤ r ^ 2 * b := by
  have := mul_self_le_mul_self (Real.sqrt_nonneg a) h
  rw [Real.mul_self_sqrt ha] at this
  calc a ≤ r * √b * (r * √b) := this
    _ = r ^ 2 * (√b * √b) := by ring
    _ = _ := by rw [Real.mul_self_sqrt hb]

end QmrAux

open QmrAux

/-- **C156.** If the default solver converges, the residual of the field returned by `generic` in the wave equation itself, each cell counted with its volume, is at most `rtol` times the
right-hand side: the tolerance means the same on every grid, however unequal its cells, and with every PEC and PMC mask. -/
theorem C156_residual_partial (rtol : ℝ) (hr : 0 ≤ rtol) (qmr : Mat sh → Vec sh → Opts sh R → Vec sh × ℤ) (hq : QmrContract rtol qmr) (hasH : Bool) (opts : Opts sh R)
    (P : Problem sh) (hg : GridNz P.dxes) (hadj : P.adjoint = false)
    (hinfo : (qmr ((preconditioners P.dxes).1 * eFull P.ω P.dxes P.eps P.mu P.pec P.pmc * (preconditioners P.dxes).2) ((preconditioners P.dxes).1 *ᵥ ((-I * P.ω) • P.J))
      (generic hasH (scipyQmr qmr) opts P).2).2 = 0) :
    ∃ E, (generic hasH (scipyQmr qmr) opts P).1 = .ok E ∧
      ∑ p, absVol P.dxes p * ‖(eFull P.ω P.dxes P.eps P.mu P.pec P.pmc *ᵥ E) p + I * P.ω * P.J p‖ ^ 2 ≤
        rtol ^ 2 * ∑ p, absVol P.dxes p * ‖P.ω * P.J p‖ ^ 2 := by
  obtain ⟨h1, h2⟩ := C25_inverse P.dxes hg
  have hc := hq _ _ _ hinfo
  set o := (generic hasH (scipyQmr qmr) opts P).2 with ho
  have hgen : (generic hasH (scipyQmr qmr) opts P).1 = .ok ((preconditioners P.dxes).2 *ᵥ (qmr
      ((preconditioners P.dxes).1 * eFull P.ω P.dxes P.eps P.mu P.pec P.pmc * (preconditioners P.dxes).2)
      ((preconditioners P.dxes).1 *ᵥ ((-I * P.ω) • P.J)) o).1) := by
    rw [ho]
    simp only [generic, hadj, Bool.false_and, Bool.false_eq_true, if_false, scipyQmr]
  refine ⟨_, hgen, ?_⟩
  have hc' := sq_le (Finset.sum_nonneg fun p _ => sq_nonneg _) (Finset.sum_nonneg fun p _ => sq_nonneg _) hr hc
  have e1 : ∀ x : Vec sh, ((preconditioners P.dxes).1 * eFull P.ω P.dxes P.eps P.mu P.pec P.pmc * (preconditioners P.dxes).2) *ᵥ x - (preconditioners P.dxes).1 *ᵥ ((-I * P.ω) • P.J) =
      (preconditioners P.dxes).1 *ᵥ (eFull P.ω P.dxes P.eps P.mu P.pec P.pmc *ᵥ ((preconditioners P.dxes).2 *ᵥ x) - (-I * P.ω) • P.J) := by
    intro x
    rw [mulVec_sub, mulVec_mulVec, mulVec_mulVec, Matrix.mul_assoc]
  rw [e1] at hc'
  simp only [left_sq] at hc'
  refine le_trans (le_of_eq ?_) (hc'.trans (le_of_eq ?_))
  · refine Finset.sum_congr rfl fun p _ => ?_
    congr 3
    simp only [Pi.sub_apply, Pi.smul_apply, smul_eq_mul]
    ring
  · congr 1
    refine Finset.sum_congr rfl fun p _ => ?_
    simp [norm_mul]

/-- **C156 (adjoint problems).** The same for the conjugate-transpose system if scipy's arrays have `.H`, with the residual counted with the inverse volumes. -/
theorem C156_adjoint_residual_partial (rtol : ℝ) (hr : 0 ≤ rtol) (qmr : Mat sh → Vec sh → Opts sh R → Vec sh × ℤ) (hq : QmrContract rtol qmr) (opts : Opts sh R)
    (P : Problem sh) (hg : GridNz P.dxes) (hadj : P.adjoint = true)
    (hinfo : (qmr ((preconditioners P.dxes).1 * eFull P.ω P.dxes P.eps P.mu P.pec P.pmc * (preconditioners P.dxes).2)ᴴ ((preconditioners P.dxes).2ᴴ *ᵥ ((-I * P.ω) • P.J))
      (generic true (scipyQmr qmr) opts P).2).2 = 0) :
    ∃ E, (generic true (scipyQmr qmr) opts P).1 = .ok E ∧
      ∑ p, ‖((eFull P.ω P.dxes P.eps P.mu P.pec P.pmc)ᴴ *ᵥ E) p + I * P.ω * P.J p‖ ^ 2 / absVol P.dxes p ≤
        rtol ^ 2 * ∑ p, ‖P.ω * P.J p‖ ^ 2 / absVol P.dxes p := by
  obtain ⟨h1, h2⟩ := C25_inverse P.dxes hg
  have hc := hq _ _ _ hinfo
  set o := (generic true (scipyQmr qmr) opts P).2 with ho
  have hgen : (generic true (scipyQmr qmr) opts P).1 = .ok ((preconditioners P.dxes).1ᴴ *ᵥ (qmr
      ((preconditioners P.dxes).1 * eFull P.ω P.dxes P.eps P.mu P.pec P.pmc * (preconditioners P.dxes).2)ᴴ
      ((preconditioners P.dxes).2ᴴ *ᵥ ((-I * P.ω) • P.J)) o).1) := by
    rw [ho]
    simp only [generic, hadj, Bool.not_true, Bool.and_false, Bool.false_eq_true, if_false, if_true, scipyQmr]
  refine ⟨_, hgen, ?_⟩
  have hc' := sq_le (Finset.sum_nonneg fun p _ => sq_nonneg _) (Finset.sum_nonneg fun p _ => sq_nonneg _) hr hc
  have e1 : ∀ x : Vec sh, ((preconditioners P.dxes).1 * eFull P.ω P.dxes P.eps P.mu P.pec P.pmc * (preconditioners P.dxes).2)ᴴ *ᵥ x - (preconditioners P.dxes).2ᴴ *ᵥ ((-I * P.ω) • P.J) =
      (preconditioners P.dxes).2ᴴ *ᵥ ((eFull P.ω P.dxes P.eps P.mu P.pec P.pmc)ᴴ *ᵥ ((preconditioners P.dxes).1ᴴ *ᵥ x) - (-I * P.ω) • P.J) := by
    intro x
    rw [mulVec_sub, mulVec_mulVec, mulVec_mulVec, conjTranspose_mul, conjTranspose_mul, Matrix.mul_assoc]
  rw [e1] at hc'
  simp only [rightH_sq] at hc'
  refine le_trans (le_of_eq ?_) (hc'.trans (le_of_eq ?_))
  · refine Finset.sum_congr rfl fun p _ => ?_
    congr 3
    simp only [Pi.sub_apply, Pi.smul_apply, smul_eq_mul]
    ring
  · congr 1
    refine Finset.sum_congr rfl fun p _ => ?_
    simp [norm_mul]

/-- **C156 (error of the field).** In a medium with loss (or gain) at least `δ`, the converged field differs from the solution by at most `rtol / (|ω| δ)` times the norm of the current (cell volumes as weights). -/
theorem C156_error_partial (rtol : ℝ) (hr : 0 ≤ rtol) (qmr : Mat sh → Vec sh → Opts sh R → Vec sh × ℤ) (hq : QmrContract rtol qmr) (hasH : Bool) (opts : Opts sh R)
    (P : Problem sh) (ω : ℝ) (hω : ω ≠ 0) (hPω : P.ω = ω) (d : DxList sh ℝ × DxList sh ℝ) (hd : PosGrid d) (hdx : P.dxes = cDx d) (mu : Option (Pos sh → ℝ))
    (hmu : ∀ m, mu = some m → ∀ p, m p ≠ 0) (hPmu : P.mu = realMu mu) (hpec : P.pec = none) (hadj : P.adjoint = false) (δ : ℝ) (hδ : 0 < δ)
    (hloss : (∀ p, (P.eps p).im ≤ -δ) ∨ ∀ p, δ ≤ (P.eps p).im)
    (hinfo : (qmr ((preconditioners P.dxes).1 * eFull P.ω P.dxes P.eps P.mu P.pec P.pmc * (preconditioners P.dxes).2) ((preconditioners P.dxes).1 *ᵥ ((-I * P.ω) • P.J))
      (generic hasH (scipyQmr qmr) opts P).2).2 = 0)
    (E₀ : Vec sh) (hE₀ : eFull P.ω P.dxes P.eps P.mu P.pec P.pmc *ᵥ E₀ = (-I * P.ω) • P.J) :
    ∃ E, (generic hasH (scipyQmr qmr) opts P).1 = .ok E ∧
      ∑ p : Pos sh, volE d.1 d.2 p.1 p.2 * ‖E p - E₀ p‖ ^ 2 ≤ (rtol / (ω * δ)) ^ 2 * ∑ p : Pos sh, volE d.1 d.2 p.1 p.2 * ‖P.J p‖ ^ 2 := by
  obtain ⟨E, hE, hres⟩ := C156_residual_partial rtol hr qmr hq hasH opts P (by rw [hdx]; exact hd.nz) hadj hinfo
  refine ⟨E, hE, ?_⟩
  have hωc : (P.ω : ℂ) ≠ 0 := by rw [hPω]; exact ofReal_ne_zero.2 hω
  -- the current that the residual amounts to
  let J' : Vec sh := (-I * P.ω)⁻¹ • (eFull P.ω P.dxes P.eps P.mu P.pec P.pmc *ᵥ (E - E₀))
  have hn : (-I * P.ω) ≠ 0 := mul_ne_zero (neg_ne_zero.2 I_ne_zero) hωc
  have hJ' : eFull P.ω P.dxes P.eps P.mu P.pec P.pmc *ᵥ (E - E₀) = (-I * P.ω) • J' := by
    simp only [J', smul_smul, mul_inv_cancel₀ hn, one_smul]
  have hb := C83_bound ω hω d hd P.eps mu hmu P.pmc δ hδ hloss (E - E₀) J' (by rw [← hPω, ← hdx, ← hPmu, ← hpec]; exact hJ')
  have hv : ∀ p, absVol P.dxes p = volE d.1 d.2 p.1 p.2 := by
    intro p
    have : volE P.dxes.1 P.dxes.2 p.1 p.2 = ((volE d.1 d.2 p.1 p.2 : ℝ) : ℂ) := by
      rw [hdx]; simp only [volE, cDx, ofReal_prod]
      exact Finset.prod_congr rfl fun a _ => by split_ifs <;> rfl
    rw [absVol, this, Complex.norm_real, Real.norm_of_nonneg (hd.vol p.1 p.2).le]
  have e1 : ∀ p, ‖(eFull P.ω P.dxes P.eps P.mu P.pec P.pmc *ᵥ E) p + I * P.ω * P.J p‖ ^ 2 = ω ^ 2 * ‖J' p‖ ^ 2 := by
    intro p
    have : (eFull P.ω P.dxes P.eps P.mu P.pec P.pmc *ᵥ E) p + I * P.ω * P.J p = (-I * P.ω) * J' p := by
      have := congrFun hJ' p
      rw [mulVec_sub, hE₀] at this
      simp only [Pi.sub_apply, Pi.smul_apply, smul_eq_mul] at this
      rw [← this]; ring
    rw [this, norm_mul, norm_mul, norm_neg, norm_I, one_mul, mul_pow, hPω, Complex.norm_real, Real.norm_eq_abs, sq_abs]
  have e2 : ∀ p, ‖P.ω * P.J p‖ ^ 2 = ω ^ 2 * ‖P.J p‖ ^ 2 := by
    intro p; rw [norm_mul, mul_pow, hPω, Complex.norm_real, Real.norm_eq_abs, sq_abs]
  simp only [e1, e2, hv] at hres
  have e3 : ∀ f : Vec sh, ∑ p : Pos sh, volE d.1 d.2 p.1 p.2 * (ω ^ 2 * ‖f p‖ ^ 2) = ω ^ 2 * ∑ p : Pos sh, volE d.1 d.2 p.1 p.2 * ‖f p‖ ^ 2 := by
    intro f; rw [Finset.mul_sum]; exact Finset.sum_congr rfl fun p _ => by ring
  rw [e3, e3] at hres
  have hω2 : 0 < ω ^ 2 := by positivity
  have hres' : ∑ p : Pos sh, volE d.1 d.2 p.1 p.2 * ‖J' p‖ ^ 2 ≤ rtol ^ 2 * ∑ p : Pos sh, volE d.1 d.2 p.1 p.2 * ‖P.J p‖ ^ 2 := by
    refine le_of_mul_le_mul_left (hres.trans (le_of_eq ?_)) hω2
    ring
  refine hb.trans ?_
  rw [div_pow, div_mul_eq_mul_div]
  exact div_le_div_of_nonneg_right hres' (sq_nonneg _)

/-- **C156 is false when the solver does not converge.** `_scipy_qmr` throws away what `qmr` says about its success. There is a solver that keeps scipy's promise (it stops at once, as `qmr` does on a breakdown
in its first step, and says so) with which `generic` returns the zero field for every problem without an exception; the residual is then the whole
right-hand side, not `rtol` times it. -/
theorem C156_silent_partial (rtol : ℝ) (h0 : 0 ≤ rtol) (hr : rtol < 1) : ∃ qmr : Mat sh → Vec sh → Opts sh R → Vec sh × ℤ, QmrContract rtol qmr ∧
    ∀ (hasH : Bool) (opts : Opts sh R) (P : Problem sh), P.adjoint = false → (generic hasH (scipyQmr qmr) opts P).1 = .ok 0 ∧
      ∀ p, GridNz P.dxes → P.ω * P.J p ≠ 0 →
        ¬ ∑ p, absVol P.dxes p * ‖(eFull P.ω P.dxes P.eps P.mu P.pec P.pmc *ᵥ (0 : Vec sh)) p + I * P.ω * P.J p‖ ^ 2 ≤
          rtol ^ 2 * ∑ p, absVol P.dxes p * ‖P.ω * P.J p‖ ^ 2 := by
  refine ⟨fun _ _ _ => (0, -13), fun A b o h => by simp at h, fun hasH opts P hadj => ⟨?_, fun p hg hp => ?_⟩⟩
  · simp only [generic, hadj, Bool.false_and, Bool.false_eq_true, if_false, scipyQmr, mulVec_zero]
  · simp only [mulVec_zero, Pi.zero_apply, zero_add, not_le]
    have e : ∀ p, ‖I * P.ω * P.J p‖ ^ 2 = ‖P.ω * P.J p‖ ^ 2 := fun p => by rw [mul_assoc, norm_mul, norm_I, one_mul]
    simp only [e]
    have hpos : 0 < ∑ p, absVol P.dxes p * ‖P.ω * P.J p‖ ^ 2 := by
      refine Finset.sum_pos' (fun q _ => mul_nonneg (norm_nonneg _) (sq_nonneg _)) ⟨p, Finset.mem_univ _, ?_⟩
      have : volE P.dxes.1 P.dxes.2 p.1 p.2 ≠ 0 := by rw [← pSquared_eq]; exact pSquared_ne hg p
      have h1 : 0 < absVol P.dxes p := norm_pos_iff.2 this
      have h2 : 0 < ‖P.ω * P.J p‖ := norm_pos_iff.2 hp
      positivity
    have : rtol ^ 2 < 1 := by nlinarith
    nlinarith

open Classical in
/-- A solver that keeps the contract and converges on every solvable system: the hypotheses of the theorems above can be met. -/
example (rtol : ℝ) (hr : 0 ≤ rtol) : ∃ qmr : Mat sh → Vec sh → Opts sh R → Vec sh × ℤ, QmrContract rtol qmr ∧ ∀ A b o, (∃ y, A *ᵥ y = b) → (qmr A b o).2 = 0 := by
  refine ⟨fun A b _ => if h : ∃ y, A *ᵥ y = b then (h.choose, 0) else (0, 1), fun A b o h => ?_, fun A b o h => by simp [h]⟩
  by_cases hy : ∃ y, A *ᵥ y = b
  · simp only [dif_pos hy, hy.choose_spec, sub_self, Pi.zero_apply, norm_zero]
    simpa using mul_nonneg hr (Real.sqrt_nonneg _)
  · simp [hy] at h

end Meanas.Props
