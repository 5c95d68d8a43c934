/-
C95: which arguments a call modifies.
-/
import Verif.Model.InPlace
import Mathlib.Algebra.BigOperators.Field

namespace Meanas.Props

open Scpml Eig InPlace Wg2

/-- C95: what `stretch_with_scpml` does to the caller's objects: it returns the very object it was given, which now holds the stretched widths in
the chosen axis; the other axes and all other objects are unchanged. -/
theorem C95_scpml_effect {d : ℕ} {sh : Fin d → ℕ} {heap heap' : ℕ → Grid sh} {r r' : ℕ} {axis : Fin d} {pol : ℤ} {ω : ℂ} {ee : ℝ} {th : ℕ}
    {s : Option (ℂ → ℂ)} (h : stretchCall heap r axis pol ω ee th s = .ok (heap', r')) :
    r' = r ∧ (∀ q, q ≠ r → heap' q = heap q) ∧ (∀ a, a ≠ axis → (heap' r).1 a = (heap r).1 a ∧ (heap' r).2 a = (heap r).2 a) ∧
      stretchAxis ((heap r).1 axis) ((heap r).2 axis) pol (sCorrection ee ω) th (s.getD (sFactorC (-16) 4))
        = .ok (fun i => some ((heap' r).1 axis i), fun i => some ((heap' r).2 axis i)) := by
  unfold stretchCall stretchWithScpml at h
  simp only at h
  cases hs : stretchAxis ((heap r).1 axis) ((heap r).2 axis) pol (sCorrection ee ω) th (s.getD (sFactorC (-16) 4)) with
  | error e => rw [hs] at h; cases h
  | ok g =>
    rw [hs] at h
    simp only at h
    split_ifs at h with hall
    simp only [Except.ok.injEq, Prod.mk.injEq] at h
    obtain ⟨rfl, rfl⟩ := h
    refine ⟨rfl, fun q hq => Function.update_of_ne hq _ _, fun a ha => ?_, ?_⟩
    · simp only [Function.update_self]
      constructor <;> funext i <;> simp [Function.update_of_ne ha]
    · refine congrArg Except.ok (Prod.ext ?_ ?_) <;> funext i <;> simp only [Function.update_self]
      · have := hall.1 axis i
        rw [Function.update_self] at this
        obtain ⟨y, hy⟩ := Option.isSome_iff_exists.1 this
        rw [hy, Option.getD_some]
      · have := hall.2 axis i
        rw [Function.update_self] at this
        obtain ⟨y, hy⟩ := Option.isSome_iff_exists.1 this
        rw [hy, Option.getD_some]

theorem stretch_one (z w : ℂ) (hz : z ≠ 0) :
    stretchAxis (fun _ : Fin 1 => z) (fun _ => w) 1 (sCorrection 1 1) 1 (fun _ => 1)
      = .ok (fun _ => some (z * (1 + Complex.I / z)), fun _ => some (w * (1 + Complex.I / z))) := by
  have hc : sCorrection 1 1 = 1 := by simp [sCorrection]
  have hp1 : pos (fun _ : Fin 1 => z) 1 = z := by simp [pos]
  have hp0 : pos (fun _ : Fin 1 => z) 0 = 0 := by simp [pos]
  have hf : ∀ n : ℂ, factor (fun _ => 1) n z 1 = some (1 + Complex.I / z) := fun n => by
    simp [factor, divN, hz]
  unfold stretchAxis
  simp only [lt_irrefl, if_false, gt_iff_lt, zero_lt_one, if_true, hp1, hp0, sub_zero, hc]
  refine congrArg Except.ok (Prod.ext ?_ ?_) <;> funext i <;> simp [hf]

/-- C95 is false for `stretch_with_scpml`: the grid that was passed in is overwritten, so that building the absorber of a second frequency from "the same"
grid stretches it twice. -/
theorem C95_scpml_overwrites_partial :
    (¬ ∀ (heap heap' : ℕ → Grid (fun _ : Fin 1 => 1)) (r r' : ℕ) (s : ℂ → ℂ), stretchCall heap r 0 1 1 1 1 (some s) = .ok (heap', r') → heap' r = heap r) ∧
    ∃ (heap h1 h2 : ℕ → Grid (fun _ : Fin 1 => 1)) (s : ℂ → ℂ), stretchCall heap 0 0 1 1 1 1 (some s) = .ok (h1, 0) ∧
      stretchCall h1 0 0 1 1 1 1 (some s) = .ok (h2, 0) ∧ (heap 0).1 0 0 = 1 ∧ (h1 0).1 0 0 = 1 + Complex.I ∧ (h2 0).1 0 0 = 1 + 2 * Complex.I := by
  have call : ∀ (heap : ℕ → Grid (fun _ : Fin 1 => 1)) (z : ℂ), z ≠ 0 → heap 0 = (fun _ _ => z, fun _ _ => z) →
      stretchCall heap 0 0 1 1 1 1 (some fun _ => 1) = .ok (Function.update heap 0 (fun _ _ => z * (1 + Complex.I / z), fun _ _ => z * (1 + Complex.I / z)), 0) := by
    intro heap z hz h0
    unfold stretchCall stretchWithScpml
    simp only [h0, Option.getD_some, stretch_one z z hz]
    rw [if_pos]
    · have hg : ((fun a i => (Function.update (fun (_ : Fin 1) (_ : Fin 1) => some z) 0 (fun _ => some (z * (1 + Complex.I / z))) a i).getD 0,
          fun a i => (Function.update (fun (_ : Fin 1) (_ : Fin 1) => some z) 0 (fun _ => some (z * (1 + Complex.I / z))) a i).getD 0) : Grid (fun _ : Fin 1 => 1))
          = (fun _ _ => z * (1 + Complex.I / z), fun _ _ => z * (1 + Complex.I / z)) := by
        refine Prod.ext ?_ ?_ <;> funext a i <;> fin_cases a <;> simp
      exact congrArg (fun G => Except.ok (Function.update heap 0 G, 0)) hg
    · constructor <;> intro a i <;> fin_cases a <;> simp
  have hI : (1 + Complex.I : ℂ) ≠ 0 := fun h => by have := congrArg Complex.re h; simp at this
  have c1 := call (fun _ => (fun _ _ => 1, fun _ _ => 1)) 1 one_ne_zero rfl
  rw [div_one, one_mul] at c1
  have c2 := call _ (1 + Complex.I) hI (Function.update_self (0 : ℕ) ((fun _ _ => 1 + Complex.I, fun _ _ => 1 + Complex.I) : Grid (fun _ : Fin 1 => 1)) (fun _ => (fun _ _ => 1, fun _ _ => 1)))
  have hv : (1 + Complex.I) * (1 + Complex.I / (1 + Complex.I)) = 1 + 2 * Complex.I := by field_simp; ring
  rw [hv] at c2
  refine ⟨fun hall => ?_, _, _, _, _, c1, c2, rfl, by rw [Function.update_self], by rw [Function.update_self]⟩
  have := congrFun (congrFun (congrArg Prod.fst (hall _ _ _ _ _ c1)) 0) 0
  rw [Function.update_self] at this
  have := congrArg Complex.im this
  simp at this

variable {ι : Type} [Fintype ι] [DecidableEq ι]

omit [DecidableEq ι] in
/-- C95: `power_iteration` leaves every object of the caller alone whenever it iterates at all. -/
theorem C95_power_keeps_arguments (heap : ℕ → Option (ι → ℂ)) (r : ℕ) (A : Matrix ι ι ℂ) {iterations : ℕ} (hi : iterations ≠ 0) :
    (powerCall heap r A iterations).1 = heap := by
  unfold powerCall
  cases heap r with
  | none => rfl
  | some g => simp only [if_neg hi]

/-- C95: `rayleigh_quotient_iteration` modifies at most the guess, which it rescales to unit length. -/
theorem C95_rqi_effect (heap : ℕ → Option (ι → ℂ)) (r : ℕ) (A : Matrix ι ι ℂ) (iterations : ℕ) (tol : ℝ)
    (solver : Matrix ι ι ℂ → (ι → ℂ) → Option (ι → ℂ)) {g : ι → ℂ} (hg : heap r = some g) :
    let heap' := (rqiCall heap r A iterations tol solver).1
    (∀ q, q ≠ r → heap' q = heap q) ∧ (g ≠ 0 → ∃ g', heap' r = some g' ∧ (∃ c : ℝ, 0 < c ∧ ∀ i, g' i = c * g i) ∧ ∑ i, ‖g' i‖ ^ 2 = 1) ∧
      (∑ i, ‖g i‖ ^ 2 = 1 → heap' = heap) := by
  intro heap'
  have hh : heap' = Function.update heap r (divBy g (norm2 g)) := by simp only [heap', rqiCall, hg]
  rw [hh]
  refine ⟨fun q hq => Function.update_of_ne hq _ _, fun hne => ?_, fun h1 => ?_⟩
  · have hpos : 0 < ∑ i, ‖g i‖ ^ 2 := by
      obtain ⟨i, hi⟩ := Function.ne_iff.1 hne
      exact Finset.sum_pos' (fun i _ => sq_nonneg _) ⟨i, Finset.mem_univ _, by have := norm_pos_iff.2 hi; positivity⟩
    have hn : 0 < norm2 g := Real.sqrt_pos.2 hpos
    rw [Function.update_self, divBy, if_neg hn.ne']
    refine ⟨_, rfl, ⟨(norm2 g)⁻¹, inv_pos.2 hn, fun i => by push_cast; rw [div_eq_inv_mul]⟩, ?_⟩
    have : ∀ i, ‖g i / (norm2 g : ℂ)‖ ^ 2 = ‖g i‖ ^ 2 / (∑ i, ‖g i‖ ^ 2) := fun i => by
      rw [norm_div, Complex.norm_real, Real.norm_of_nonneg hn.le, div_pow]
      congr 1
      exact Real.sq_sqrt hpos.le
    simp only [this, ← Finset.sum_div]
    exact div_self hpos.ne'
  · have : norm2 g = 1 := by show Real.sqrt _ = 1; rw [h1, Real.sqrt_one]
    rw [this, divBy, if_neg one_ne_zero]
    simp only [Complex.ofReal_one, div_one]
    rw [← hg, Function.update_eq_self]

/-- C95 is false for `rayleigh_quotient_iteration` (and for `power_iteration` with `iterations = 0`): the caller's guess is rescaled. -/
theorem C95_guess_overwritten_partial :
    ∃ (heap : ℕ → Option (Fin 1 → ℂ)) (solver : Matrix (Fin 1) (Fin 1) ℂ → (Fin 1 → ℂ) → Option (Fin 1 → ℂ)),
      (rqiCall heap 0 1 40 (1 / 10) solver).1 0 ≠ heap 0 ∧ (powerCall heap 0 1 0).1 0 ≠ heap 0 ∧
      (rqiCall heap 0 1 40 (1 / 10) solver).2 = .ok (some (1, fun _ => 1)) := by
  have hn : norm2 (fun _ : Fin 1 => (2 : ℂ)) = 2 := by
    show Real.sqrt _ = 2
    simp
  have hd : divBy (fun _ : Fin 1 => (2 : ℂ)) (norm2 fun _ : Fin 1 => (2 : ℂ)) = some fun _ => 1 := by
    rw [hn, divBy, if_neg two_ne_zero]; simp
  refine ⟨fun _ => some fun _ => 2, fun _ v => some v, ?_, ?_, ?_⟩
  · simp only [rqiCall, hd, Function.update_self]
    intro h; have := congrFun (Option.some.inj h) 0; norm_num at this
  · simp only [powerCall, hd, Function.update_self, if_true]
    intro h; have := congrFun (Option.some.inj h) 0; norm_num at this
  · simp only [rqiCall, rayleighQuotientIteration, hd]
    unfold rqiLoop
    simp only [rayleighQuotient, Matrix.one_mulVec]
    have h1 : (star (fun _ : Fin 1 => (1 : ℂ)) ⬝ᵥ fun _ => 1) = 1 := by simp [dotProduct]
    rw [h1, one_smul, sub_self, if_pos]
    show Real.sqrt _ < _
    simp

/-- C95, a zero guess: the call overwrites the caller's array with NaN, and from then on every call with this array, whatever the operator and the number of
iterations, returns NaN (or raises without iterations) and leaves it so. -/
theorem C95_rqi_poisoned_guess_partial (heap : ℕ → Option (ι → ℂ)) (r : ℕ) (hg : heap r = some 0) (A : Matrix ι ι ℂ) (iterations : ℕ) (tol : ℝ)
    (solver : Matrix ι ι ℂ → (ι → ℂ) → Option (ι → ℂ)) :
    let heap' := (rqiCall heap r A iterations tol solver).1
    heap' r = none ∧ (∀ q, q ≠ r → heap' q = heap q) ∧
      ∀ (B : Matrix ι ι ℂ) (k : ℕ) (tol' : ℝ) (solver' : Matrix ι ι ℂ → (ι → ℂ) → Option (ι → ℂ)),
        (rqiCall heap' r B k tol' solver').1 = heap' ∧
        (0 < k → (rqiCall heap' r B k tol' solver').2 = .ok none) ∧
        (k = 0 → ∃ e, (rqiCall heap' r B k tol' solver').2 = .error e) := by
  intro heap'
  have hn : norm2 (0 : ι → ℂ) = 0 := by show Real.sqrt _ = 0; simp
  have hh : heap' = Function.update heap r none := by simp only [heap', rqiCall, hg, hn, divBy, if_true]
  have h0 : heap' r = none := by rw [hh, Function.update_self]
  refine ⟨h0, fun q hq => by rw [hh, Function.update_of_ne hq], fun B k tol' solver' => ?_⟩
  simp only [rqiCall, h0]
  exact ⟨trivial, fun hk => if_neg hk.ne', fun hk => ⟨_, if_pos hk⟩⟩

end Meanas.Props
