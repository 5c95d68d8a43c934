/-
C32, C33: meanas/fdfd/solvers.py.
-/
import Verif.Model.Solvers
import Verif.Props.FdfdOperators

namespace Meanas.Props

open Matrix Complex Fdfd Spec Solvers

variable {sh : Fin 3 → ℕ} {R : Type}

/-- The contract of a matrix solver: an exact solution of every solvable system. -/
def Exact (solve : Mat sh → Vec sh → Opts sh R → Vec sh) : Prop :=
  ∀ A b o, (∃ y, A *ᵥ y = b) → A *ᵥ solve A b o = b

/-- C32: the field returned for the ordinary problem solves `e_full E = -iωJ`. -/
theorem C32_solves_partial (hasH : Bool) (solve : Mat sh → Vec sh → Opts sh R → Vec sh) (hs : Exact solve) (opts : Opts sh R)
    (P : Problem sh) (hg : GridNz P.dxes) (hadj : P.adjoint = false)
    (hsol : ∃ E, eFull P.ω P.dxes P.eps P.mu P.pec P.pmc *ᵥ E = (-I * P.ω) • P.J) :
    ∃ E, (generic hasH solve opts P).1 = .ok E ∧ eFull P.ω P.dxes P.eps P.mu P.pec P.pmc *ᵥ E = (-I * P.ω) • P.J := by
  obtain ⟨h1, h2⟩ := C25_inverse P.dxes hg
  obtain ⟨E0, hE0⟩ := hsol
  have hgen : ∃ o, (generic hasH solve opts P).1 = .ok ((preconditioners P.dxes).2 *ᵥ solve
      ((preconditioners P.dxes).1 * eFull P.ω P.dxes P.eps P.mu P.pec P.pmc * (preconditioners P.dxes).2)
      ((preconditioners P.dxes).1 *ᵥ ((-I * P.ω) • P.J)) o) := by
    simp only [generic, hadj, Bool.false_and, Bool.false_eq_true, if_false]
    exact ⟨_, rfl⟩
  obtain ⟨o, ho⟩ := hgen
  refine ⟨_, ho, ?_⟩
  have hx := hs ((preconditioners P.dxes).1 * eFull P.ω P.dxes P.eps P.mu P.pec P.pmc * (preconditioners P.dxes).2)
    ((preconditioners P.dxes).1 *ᵥ ((-I * P.ω) • P.J)) o ⟨(preconditioners P.dxes).1 *ᵥ E0, by
      rw [mulVec_mulVec, Matrix.mul_assoc _ _ (preconditioners P.dxes).1, h2, Matrix.mul_one, ← mulVec_mulVec, hE0]⟩
  have h3 := congrArg (fun v => (preconditioners P.dxes).2 *ᵥ v) hx
  simp only [mulVec_mulVec, ← Matrix.mul_assoc, h2, Matrix.one_mul, one_mulVec] at h3
  rw [mulVec_mulVec]; exact h3

/-- C32: if scipy's sparse arrays have `.H`, the field returned for the adjoint problem solves the conjugate-transpose system
with the same right-hand side. -/
theorem C32_adjoint_partial (solve : Mat sh → Vec sh → Opts sh R → Vec sh) (hs : Exact solve) (opts : Opts sh R)
    (P : Problem sh) (hg : GridNz P.dxes) (hadj : P.adjoint = true)
    (hsol : ∃ E, (eFull P.ω P.dxes P.eps P.mu P.pec P.pmc)ᴴ *ᵥ E = (-I * P.ω) • P.J) :
    ∃ E, (generic true solve opts P).1 = .ok E ∧ (eFull P.ω P.dxes P.eps P.mu P.pec P.pmc)ᴴ *ᵥ E = (-I * P.ω) • P.J := by
  obtain ⟨h1, h2⟩ := C25_inverse P.dxes hg
  have h1' : (preconditioners P.dxes).2ᴴ * (preconditioners P.dxes).1ᴴ = 1 := by rw [← conjTranspose_mul, h1, conjTranspose_one]
  have h2' : (preconditioners P.dxes).1ᴴ * (preconditioners P.dxes).2ᴴ = 1 := by rw [← conjTranspose_mul, h2, conjTranspose_one]
  obtain ⟨E0, hE0⟩ := hsol
  have hgen : ∃ o, (generic true solve opts P).1 = .ok ((preconditioners P.dxes).1ᴴ *ᵥ solve
      ((preconditioners P.dxes).1 * eFull P.ω P.dxes P.eps P.mu P.pec P.pmc * (preconditioners P.dxes).2)ᴴ
      ((preconditioners P.dxes).2ᴴ *ᵥ ((-I * P.ω) • P.J)) o) := by
    simp only [generic, hadj, Bool.not_true, Bool.and_false, Bool.false_eq_true, if_false, if_true]
    exact ⟨_, rfl⟩
  obtain ⟨o, ho⟩ := hgen
  refine ⟨_, ho, ?_⟩
  have hx := hs ((preconditioners P.dxes).1 * eFull P.ω P.dxes P.eps P.mu P.pec P.pmc * (preconditioners P.dxes).2)ᴴ
    ((preconditioners P.dxes).2ᴴ *ᵥ ((-I * P.ω) • P.J)) o ⟨(preconditioners P.dxes).2ᴴ *ᵥ E0, by
      rw [conjTranspose_mul, conjTranspose_mul, ← mulVec_mulVec, ← mulVec_mulVec, mulVec_mulVec E0 _ (preconditioners P.dxes).2ᴴ,
        h2', one_mulVec, hE0]⟩
  rw [conjTranspose_mul, conjTranspose_mul] at hx ho ⊢
  have h3 := congrArg (fun v => (preconditioners P.dxes).1ᴴ *ᵥ v) hx
  simp only [mulVec_mulVec, ← Matrix.mul_assoc, h2', Matrix.one_mul, one_mulVec] at h3
  rw [mulVec_mulVec]
  simp only [Matrix.mul_assoc] at h3 ⊢
  exact h3

/-- C32 (disagreement): with scipy ≥ 1.14, as required by the package, every adjoint solve raises. -/
theorem C32_adjoint_raises_partial (solve : Mat sh → Vec sh → Opts sh R → Vec sh) (opts : Opts sh R) (P : Problem sh)
    (hadj : P.adjoint = true) : ∃ msg, (generic false solve opts P).1 = .error msg := by
  simp only [generic, hadj, Bool.not_false, Bool.and_self, if_true]
  exact ⟨_, rfl⟩

/-- The hypotheses of `C32_solves_partial`: every field `E` solves the problem with the current `J = e_full E / (-iω)`. -/
example (dxes : Dx sh) (eps E : Vec sh) (mu : Option (Vec sh)) (pec pmc : Option (Pos sh → Bool)) (ω : ℂ) (hω : ω ≠ 0) :
    ∃ J : Vec sh, eFull ω dxes eps mu pec pmc *ᵥ E = (-I * ω) • J :=
  ⟨(-I * ω)⁻¹ • (eFull ω dxes eps mu pec pmc *ᵥ E), by
    rw [smul_smul, mul_inv_cancel₀ (mul_ne_zero (neg_ne_zero.2 I_ne_zero) hω), one_smul]⟩

/-- C32: a guess that solves the problem is passed to the solver as an exact initial solution of the system it gets, and a solver
that returns a correct initial guess unchanged makes `generic` return that guess. -/
theorem C32_guess_partial (opts : Opts sh R) (P : Problem sh) (hg : GridNz P.dxes) (g : Vec sh) (hgu : P.guess = some g)
    (hsol : if P.adjoint then (eFull P.ω P.dxes P.eps P.mu P.pec P.pmc)ᴴ *ᵥ g = (-I * P.ω) • P.J
      else eFull P.ω P.dxes P.eps P.mu P.pec P.pmc *ᵥ g = (-I * P.ω) • P.J) :
    ∃ A b x0, A *ᵥ x0 = b ∧ (∀ solve : Mat sh → Vec sh → Opts sh R → Vec sh,
        ∃ F : Vec sh → Vec sh, (generic true solve opts P).1 = .ok (F (solve A b { opts with x0 := some x0 })) ∧ F x0 = g) := by
  obtain ⟨h1, h2⟩ := C25_inverse P.dxes hg
  have h2' : (preconditioners P.dxes).1ᴴ * (preconditioners P.dxes).2ᴴ = 1 := by rw [← conjTranspose_mul, h2, conjTranspose_one]
  cases hadj : P.adjoint
  · rw [hadj] at hsol
    simp only [Bool.false_eq_true, if_false] at hsol
    refine ⟨(preconditioners P.dxes).1 * eFull P.ω P.dxes P.eps P.mu P.pec P.pmc * (preconditioners P.dxes).2,
      (preconditioners P.dxes).1 *ᵥ ((-I * P.ω) • P.J), (preconditioners P.dxes).1 *ᵥ g, ?_, fun solve =>
        ⟨fun v => (preconditioners P.dxes).2 *ᵥ v, ?_, ?_⟩⟩
    · rw [mulVec_mulVec, Matrix.mul_assoc _ _ (preconditioners P.dxes).1, h2, Matrix.mul_one, ← mulVec_mulVec, hsol]
    · simp only [generic, hadj, hgu, Bool.false_and, Bool.false_eq_true, if_false]
    · simp only [mulVec_mulVec, h2, one_mulVec]
  · rw [hadj] at hsol
    simp only [if_true] at hsol
    refine ⟨((preconditioners P.dxes).1 * eFull P.ω P.dxes P.eps P.mu P.pec P.pmc * (preconditioners P.dxes).2)ᴴ,
      (preconditioners P.dxes).2ᴴ *ᵥ ((-I * P.ω) • P.J), (preconditioners P.dxes).2ᴴ *ᵥ g, ?_, fun solve =>
        ⟨fun v => (preconditioners P.dxes).1ᴴ *ᵥ v, ?_, ?_⟩⟩
    · rw [conjTranspose_mul, conjTranspose_mul, ← mulVec_mulVec, ← mulVec_mulVec, mulVec_mulVec g _ (preconditioners P.dxes).2ᴴ,
        h2', one_mulVec, hsol]
    · simp only [generic, hadj, hgu, Bool.not_true, Bool.and_false, Bool.false_eq_true, if_false, if_true]
    · simp only [mulVec_mulVec, h2', one_mulVec]

open Classical in
/-- C32, hypotheses are met: an exact solver exists. -/
example : ∃ solve : Mat sh → Vec sh → Opts sh Unit → Vec sh, Exact solve :=
  ⟨fun A b _ => if h : ∃ y, A *ᵥ y = b then h.choose else 0, fun A b o h => by simp only [dif_pos h]; exact h.choose_spec⟩

/-! ### C33 -/

/-- C33: without `E_guess` the caller's options dictionary is left alone. -/
theorem C33_no_guess_partial (hasH : Bool) (solve : Mat sh → Vec sh → Opts sh R → Vec sh) (opts : Opts sh R) (P : Problem sh)
    (hgu : P.guess = none) : (generic hasH solve opts P).2 = opts := by
  simp only [generic, hgu]; split <;> rfl

/-- C33: so any sequence of calls without guesses gives the results of independent calls. -/
theorem C33_no_guess_sequence_partial (hasH : Bool) (solve : Mat sh → Vec sh → Opts sh R → Vec sh) (opts : Opts sh R)
    (Ps : List (Problem sh)) (h : ∀ P ∈ Ps, P.guess = none) :
    Ps.foldl (fun o P => (generic hasH solve o P).2) opts = opts := by
  induction Ps with
  | nil => rfl
  | cons P Ps ih =>
    rw [List.foldl_cons, C33_no_guess_partial hasH solve opts P (h P (by simp))]
    exact ih fun Q hQ => h Q (by simp [hQ])

/-- C33 (disagreement): a guess given in one call is still used as initial guess in the next call with the same options
dictionary, although that call has no guess. -/
theorem C33_stale_guess_partial (hasH : Bool) (solve : Mat sh → Vec sh → Opts sh R → Vec sh) (opts : Opts sh R) (P Q : Problem sh)
    (g : Vec sh) (hP : P.guess = some g) (hPa : P.adjoint = false) (hQ : Q.guess = none) (hQa : Q.adjoint = false) :
    (generic hasH solve (generic hasH solve opts P).2 Q).1
      = .ok ((preconditioners Q.dxes).2 *ᵥ solve
        ((preconditioners Q.dxes).1 * eFull Q.ω Q.dxes Q.eps Q.mu Q.pec Q.pmc * (preconditioners Q.dxes).2)
        ((preconditioners Q.dxes).1 *ᵥ ((-I * Q.ω) • Q.J))
        { opts with x0 := some ((preconditioners P.dxes).1 *ᵥ g) }) := by
  simp only [generic, hP, hPa, hQ, hQa, Bool.false_and, Bool.false_eq_true, if_false]

open Classical in
/-- A solver meeting its contract that starts from `x0` when it is given. -/
noncomputable def startSolver (A : Mat sh) (b : Vec sh) (o : Opts sh Unit) : Vec sh :=
  if A *ᵥ (o.x0.getD 0) = b then o.x0.getD 0 else if h : ∃ y, A *ᵥ y = b then h.choose else 0

theorem startSolver_exact : Exact (startSolver (sh := sh)) := by
  intro A b o h
  unfold startSolver
  split
  · assumption
  · exact h.choose_spec

/-- C33 (disagreement): for some exact solver, a call without guess returns different fields depending on an earlier call that used
the same options dictionary. -/
theorem C33_interference_partial : ∃ (P Q : Problem fun _ => 1), Q.guess = none ∧ GridNz Q.dxes ∧
    (generic true startSolver (generic true startSolver ⟨none, ()⟩ P).2 Q).1 ≠ (generic true startSolver ⟨none, ()⟩ Q).1 := by
  let d : Dx fun _ => 1 := (fun _ _ => 1, fun _ _ => 1)
  let Q : Problem fun _ => 1 := ⟨1, d, 0, 1, none, some fun _ => true, none, false, none⟩
  let P : Problem fun _ => 1 := { Q with guess := some fun _ => 1 }
  have hg : GridNz d := ⟨fun _ _ => one_ne_zero, fun _ _ => one_ne_zero⟩
  refine ⟨P, Q, rfl, hg, ?_⟩
  have hA : eFull (sh := fun _ => 1) 1 d 1 none (some fun _ => true) none = 0 := by
    ext p q
    exact (C28_pec_zero 1 d 1 none (fun _ => true) none p q rfl).1
  rw [C33_stale_guess_partial true startSolver ⟨none, ()⟩ P Q (fun _ => 1) rfl rfl rfl rfl]
  have h0 : (generic true startSolver ⟨none, ()⟩ Q).1 = .ok 0 := by
    simp only [generic, Q, Bool.false_and, Bool.false_eq_true, if_false, startSolver, hA, Matrix.mul_zero, Matrix.zero_mul,
      zero_mulVec, smul_zero, mulVec_zero, Option.getD_none, if_true]
  rw [h0]
  intro h
  have h1 := Except.ok.inj h
  simp only [Q, P, startSolver, hA, Matrix.mul_zero, Matrix.zero_mul, zero_mulVec, smul_zero, mulVec_zero, Option.getD_some,
    if_true] at h1
  rw [mulVec_mulVec, (C25_inverse d hg).2, one_mulVec] at h1
  have := congrFun h1 (0, fun _ => 0)
  exact one_ne_zero this

/-- C33 (disagreement): passing a callback to the default solver ends in a RecursionError at the first iteration, whatever the
recursion limit, and the user's function is never called. -/
theorem C33_callback_recursion_partial (limit iters : ℕ) (h : 0 < iters) :
    ∃ msg, qmrCallbacks true limit iters = .error msg := by
  have h1 : ∀ n, ∃ msg, callCallback true n .augmented = .error msg := by
    intro n
    induction n with
    | zero => exact ⟨_, rfl⟩
    | succ n ih =>
      cases n with
      | zero => exact ⟨_, rfl⟩
      | succ m =>
        obtain ⟨msg, hm⟩ := ih
        exact ⟨msg, by
          have : callCallback true (m + 2) .augmented = callCallback true (m + 1) .augmented := rfl
          rw [this, hm]⟩
  obtain ⟨msg, hm⟩ := h1 limit
  obtain ⟨k, rfl⟩ := Nat.exists_eq_succ_of_ne_zero h.ne'
  refine ⟨msg, ?_⟩
  have hk : kwargsCallback true = .augmented := rfl
  simp only [qmrCallbacks, List.range_succ_eq_map, List.foldlM_cons, hk, hm]
  rfl

/-- C33: without a callback the default solver's logging works. -/
theorem C33_no_callback_partial (limit iters : ℕ) (h : 0 < limit) : qmrCallbacks false limit iters = .ok [] := by
  obtain ⟨k, rfl⟩ := Nat.exists_eq_succ_of_ne_zero h.ne'
  unfold qmrCallbacks
  have : ∀ l : List ℕ, l.foldlM (fun acc _ => do
      let r ← callCallback false (k + 1) (kwargsCallback false)
      pure (acc ++ r)) [] = (.ok [] : Except String (List Unit)) := by
    intro l
    induction l with
    | nil => rfl
    | cons a l ih => rw [List.foldlM_cons]; exact ih
  exact this _

end Meanas.Props
