/-
C65, C66, C71: power iteration, Rayleigh quotient iteration, signed_eigensolve (meanas/eigensolvers.py).
-/
import Verif.Model.Eigensolvers
import Verif.Props.Waveguide2d
import Mathlib.Topology.Instances.Matrix
import Mathlib.LinearAlgebra.Matrix.NonsingularInverse
import Mathlib.Analysis.SpecificLimits.Normed
import Mathlib.LinearAlgebra.Matrix.Charpoly.Basic
import Mathlib.Algebra.Polynomial.Roots
import Mathlib.LinearAlgebra.Matrix.ToLinearEquiv
import Mathlib.LinearAlgebra.Matrix.Charpoly.Coeff
import Mathlib.LinearAlgebra.Matrix.Charpoly.Eigs
import Mathlib.Analysis.Complex.Polynomial.Basic

set_option linter.unusedSectionVars false

namespace Meanas.Props

open Matrix Complex Wg2 Eig

variable {ι : Type} [Fintype ι] [DecidableEq ι]

/-! ### Euclidean norm -/

theorem norm2_nonneg (v : ι → ℂ) : 0 ≤ norm2 v := Real.sqrt_nonneg _

theorem norm2_smul (c : ℂ) (v : ι → ℂ) : norm2 (c • v) = ‖c‖ * norm2 v := by
  rw [norm2, norm2, ← Real.sqrt_sq (norm_nonneg c), ← Real.sqrt_mul (sq_nonneg _), Finset.mul_sum]
  simp [mul_pow]

theorem norm2_sq (v : ι → ℂ) : ((norm2 v ^ 2 : ℝ) : ℂ) = star v ⬝ᵥ v := by
  rw [norm2, Real.sq_sqrt (Finset.sum_nonneg fun i _ => by positivity)]
  simp [dotProduct, ← Complex.conj_mul']

theorem norm2_sq_real (v : ι → ℂ) : norm2 v ^ 2 = ∑ i, ‖v i‖ ^ 2 := Real.sq_sqrt (Finset.sum_nonneg fun i _ => by positivity)

/-- A vector divided by its norm. -/
noncomputable def unit (v : ι → ℂ) : ι → ℂ := ((norm2 v : ℂ))⁻¹ • v

theorem norm2_unit {v : ι → ℂ} (h : v ≠ 0) : norm2 (unit v) = 1 := by
  have h0 : norm2 v ≠ 0 := fun hh => h ((norm2_eq_zero v).1 hh)
  rw [unit, norm2_smul, norm_inv, Complex.norm_real, Real.norm_of_nonneg (norm2_nonneg v), inv_mul_cancel₀ h0]

theorem divBy_eq (v : ι → ℂ) {s : ℝ} (h : s ≠ 0) : divBy v s = some ((s : ℂ)⁻¹ • v) := by
  rw [divBy, if_neg h]
  refine congrArg some (funext fun i => ?_)
  simp [div_eq_inv_mul]

theorem divBy_zero (v : ι → ℂ) : divBy v 0 = none := by rw [divBy, if_pos rfl]

theorem unit_pos_smul {c : ℝ} (hc : 0 < c) (v : ι → ℂ) : unit ((c : ℂ) • v) = unit v := by
  rw [unit, unit, norm2_smul, Complex.norm_real, Real.norm_of_nonneg hc.le, smul_smul]
  congr 1
  have : (c : ℂ) ≠ 0 := by exact_mod_cast hc.ne'
  push_cast
  rw [mul_inv, mul_right_comm, inv_mul_cancel₀ this, one_mul]

theorem rq_smul (A : Matrix ι ι ℂ) (c : ℂ) (v : ι → ℂ) : rayleighQuotient A (c • v) = (‖c‖ ^ 2 : ℝ) * rayleighQuotient A v := by
  rw [rayleighQuotient, rayleighQuotient, mulVec_smul, star_smul, smul_dotProduct, dotProduct_smul, smul_smul]
  push_cast
  rw [← Complex.conj_mul']; rfl

/-! ### C65: power iteration -/

theorem powerLoop_spec (A : Matrix ι ι ℂ) (n : ℕ) : ∀ v : ι → ℂ,
    ((A ^ n) *ᵥ v = 0 → n ≠ 0 → powerLoop A n v = none) ∧
    ((A ^ n) *ᵥ v ≠ 0 → ∃ c : ℝ, 0 < c ∧ powerLoop A n v = some ((c : ℂ) • ((A ^ n) *ᵥ v))) := by
  induction n with
  | zero => intro v; exact ⟨fun _ h => absurd rfl h, fun _ => ⟨1, one_pos, by simp [powerLoop]⟩⟩
  | succ n ih =>
    intro v
    have hp : (A ^ (n + 1)) *ᵥ v = (A ^ n) *ᵥ (A *ᵥ v) := by rw [pow_succ, mulVec_mulVec]
    by_cases hv : A *ᵥ v = 0
    · have hs : (∑ i, ‖(A *ᵥ v) i‖) = 0 := by simp [hv]
      refine ⟨fun _ _ => by simp [powerLoop, hs, divBy_zero], fun h => absurd (by rw [hp, hv, mulVec_zero]) h⟩
    · have hs : 0 < ∑ i, ‖(A *ᵥ v) i‖ := by
        obtain ⟨i, hi⟩ := Function.ne_iff.1 hv
        exact Finset.sum_pos' (fun i _ => norm_nonneg _) ⟨i, Finset.mem_univ _, norm_pos_iff.2 hi⟩
      set s := ∑ i, ‖(A *ᵥ v) i‖ with hsdef
      have hsc : ((s : ℂ)⁻¹) ≠ 0 := inv_ne_zero (by exact_mod_cast hs.ne')
      have hl : powerLoop A (n + 1) v = powerLoop A n ((s : ℂ)⁻¹ • (A *ᵥ v)) := by
        rw [powerLoop, ← hsdef, divBy_eq _ hs.ne', Option.bind_some]
      have hq : (A ^ n) *ᵥ ((s : ℂ)⁻¹ • (A *ᵥ v)) = (s : ℂ)⁻¹ • ((A ^ (n + 1)) *ᵥ v) := by rw [mulVec_smul, hp]
      rw [hl]
      obtain ⟨h1, h2⟩ := ih ((s : ℂ)⁻¹ • (A *ᵥ v))
      refine ⟨fun h _ => ?_, fun h => ?_⟩
      · rcases Nat.eq_zero_or_pos n with rfl | hn
        · exact absurd (by simpa [hp] using h) hv
        · exact h1 (by rw [hq, h, smul_zero]) hn.ne'
      · obtain ⟨c, hc, e⟩ := h2 (by rw [hq]; exact smul_ne_zero hsc h)
        refine ⟨c * s⁻¹, mul_pos hc (inv_pos.2 hs), ?_⟩
        rw [e, hq, smul_smul]; push_cast; rfl

/-- C65: `power_iteration` returns the normalised vector `Aⁿ g / ‖Aⁿ g‖` with its Rayleigh quotient, for every matrix, guess and number of
iterations; it is NaN exactly when `Aⁿ g = 0`. The 1-norm scalings in between have no effect. -/
theorem C65_power_iteration (A : Matrix ι ι ℂ) (g : ι → ℂ) (n : ℕ) :
    powerIteration A g n = if (A ^ n) *ᵥ g = 0 then none
      else some (star (unit ((A ^ n) *ᵥ g)) ⬝ᵥ (A *ᵥ unit ((A ^ n) *ᵥ g)), unit ((A ^ n) *ᵥ g)) := by
  obtain ⟨h1, h2⟩ := powerLoop_spec A n g
  by_cases h : (A ^ n) *ᵥ g = 0
  · rw [if_pos h]
    rcases Nat.eq_zero_or_pos n with rfl | hn
    · have hg : g = 0 := by simpa using h
      have : norm2 g = 0 := (norm2_eq_zero g).2 hg
      simp [powerIteration, powerLoop, this, divBy_zero]
    · simp [powerIteration, h1 h hn.ne']
  · rw [if_neg h]
    obtain ⟨c, hc, e⟩ := h2 h
    have hne : norm2 ((c : ℂ) • ((A ^ n) *ᵥ g)) ≠ 0 := by
      rw [Ne, norm2_eq_zero]; exact smul_ne_zero (by exact_mod_cast hc.ne') h
    rw [powerIteration, e, Option.bind_some, divBy_eq _ hne, Option.map_some]
    have : ((norm2 ((c : ℂ) • ((A ^ n) *ᵥ g)) : ℝ) : ℂ)⁻¹ • ((c : ℂ) • ((A ^ n) *ᵥ g)) = unit ((A ^ n) *ᵥ g) := unit_pos_smul hc _
    rw [this]; rfl

/-- C65: the returned vector has unit norm and the returned number is its Rayleigh quotient. -/
theorem C65_power_unit (A : Matrix ι ι ℂ) (g : ι → ℂ) (n : ℕ) (l : ℂ) (v : ι → ℂ) (h : powerIteration A g n = some (l, v)) :
    norm2 v = 1 ∧ l = star v ⬝ᵥ (A *ᵥ v) := by
  rw [C65_power_iteration] at h
  split_ifs at h with h0
  obtain ⟨rfl, rfl⟩ := Prod.mk.injEq .. ▸ Option.some.inj h
  exact ⟨norm2_unit h0, rfl⟩

theorem rq_eigen {A : Matrix ι ι ℂ} {v : ι → ℂ} {μ : ℂ} (h : A *ᵥ v = μ • v) (hv : norm2 v = 1) : rayleighQuotient A v = μ := by
  rw [rayleighQuotient, h, dotProduct_smul, ← norm2_sq, hv]; simp

/-- C65: an exact eigenvector with nonzero eigenvalue comes back, normalised and up to the phase `(μ/|μ|)ⁿ`, with its eigenvalue. -/
theorem C65_power_eigenvector (A : Matrix ι ι ℂ) (g : ι → ℂ) (n : ℕ) (μ : ℂ) (hμ : μ ≠ 0) (hg : g ≠ 0) (h : A *ᵥ g = μ • g) :
    powerIteration A g n = some (μ, ((μ / ‖μ‖) ^ n / norm2 g) • g) := by
  have hp : (A ^ n) *ᵥ g = μ ^ n • g := by
    induction n with
    | zero => simp
    | succ n ih => rw [pow_succ', ← mulVec_mulVec, ih, mulVec_smul, h, smul_smul, pow_succ]
  have hne : (A ^ n) *ᵥ g ≠ 0 := by rw [hp]; exact smul_ne_zero (pow_ne_zero n hμ) hg
  have hu : unit ((A ^ n) *ᵥ g) = ((μ / ‖μ‖) ^ n / norm2 g) • g := by
    rw [hp, unit, norm2_smul, smul_smul]
    congr 1
    rw [norm_pow, div_pow]; push_cast
    field_simp
  have he : A *ᵥ unit ((A ^ n) *ᵥ g) = μ • unit ((A ^ n) *ᵥ g) := by
    rw [hu, mulVec_smul, h, smul_comm]
  rw [C65_power_iteration, if_neg hne, ← rayleighQuotient, rq_eigen he (norm2_unit hne), hu]

/-- The Rayleigh quotient divided by the squared norm. -/
noncomputable def rqn (A : Matrix ι ι ℂ) (v : ι → ℂ) : ℂ := star v ⬝ᵥ (A *ᵥ v) / (star v ⬝ᵥ v)

theorem dot_self_ne {v : ι → ℂ} (h : v ≠ 0) : star v ⬝ᵥ v ≠ 0 := by
  rw [← norm2_sq]; exact_mod_cast pow_ne_zero 2 fun hh => h ((norm2_eq_zero v).1 hh)

theorem rqn_smul (A : Matrix ι ι ℂ) {c : ℂ} (hc : c ≠ 0) (v : ι → ℂ) : rqn A (c • v) = rqn A v := by
  have h : star c * c ≠ 0 := mul_ne_zero (star_ne_zero.2 hc) hc
  rw [rqn, rqn, mulVec_smul, star_smul, smul_dotProduct, dotProduct_smul, smul_dotProduct, dotProduct_smul]
  simp only [smul_eq_mul]
  rw [← mul_assoc, ← mul_assoc, mul_div_mul_left _ _ h]

theorem rq_unit (A : Matrix ι ι ℂ) {v : ι → ℂ} (h : v ≠ 0) : rayleighQuotient A (unit v) = rqn A v := by
  have h0 : norm2 v ≠ 0 := fun hh => h ((norm2_eq_zero v).1 hh)
  have hc : ((norm2 v : ℂ))⁻¹ ≠ 0 := inv_ne_zero (by exact_mod_cast h0)
  rw [← rqn_smul A hc v, ← unit, rqn, ← norm2_sq, norm2_unit h, rayleighQuotient]
  simp

/-- C71: for a matrix with a strictly dominant eigenvalue, the eigenvalue estimate converges to it as the number of iterations grows, for every
guess that is a combination of eigenvectors with a component along the dominant one. -/
theorem C71_power_converges {κ : Type} [Fintype κ] [DecidableEq κ] (A : Matrix ι ι ℂ) (b : κ → ι → ℂ) (μ c : κ → ℂ) (k₀ : κ)
    (hb : ∀ k, A *ᵥ b k = μ k • b k) (hdom : ∀ k, k ≠ k₀ → ‖μ k‖ < ‖μ k₀‖) (hμ : μ k₀ ≠ 0) (hk : b k₀ ≠ 0) (hc : c k₀ ≠ 0) :
    ∃ N, ∃ l : ℕ → ℂ, (∀ n ≥ N, ∃ v, powerIteration A (∑ k, c k • b k) n = some (l n, v)) ∧
      Filter.Tendsto l Filter.atTop (nhds (μ k₀)) := by
  set g := ∑ k, c k • b k with hg
  have hpk : ∀ n k, (A ^ n) *ᵥ b k = μ k ^ n • b k := by
    intro n k
    induction n with
    | zero => simp
    | succ n ih => rw [pow_succ', ← mulVec_mulVec, ih, mulVec_smul, hb, smul_smul, pow_succ]
  let w : ℕ → ι → ℂ := fun n => ∑ k, (c k * (μ k / μ k₀) ^ n) • b k
  have hw : ∀ n, (A ^ n) *ᵥ g = μ k₀ ^ n • w n := by
    intro n
    rw [hg, mulVec_sum, Finset.smul_sum]
    refine Finset.sum_congr rfl fun k _ => ?_
    rw [mulVec_smul, hpk, smul_smul, smul_smul, div_pow]
    congr 1
    field_simp
  have hlim : Filter.Tendsto w Filter.atTop (nhds (c k₀ • b k₀)) := by
    have h1 : c k₀ • b k₀ = ∑ k, (if k = k₀ then c k else 0) • b k := by
      rw [Finset.sum_eq_single k₀ (fun k _ hk => by simp [hk]) (fun h => absurd (Finset.mem_univ _) h)]; simp
    rw [h1]
    refine tendsto_finsetSum _ fun k _ => ?_
    refine Filter.Tendsto.smul_const ?_ _
    by_cases hkk : k = k₀
    · subst hkk; simp [div_self hμ]
    · have hlt : ‖μ k / μ k₀‖ < 1 := by
        rw [norm_div, div_lt_one (norm_pos_iff.2 hμ)]; exact hdom k hkk
      have := (tendsto_pow_atTop_nhds_zero_of_norm_lt_one hlt).const_mul (c k)
      simpa [hkk] using this
  have hw0 : c k₀ • b k₀ ≠ 0 := smul_ne_zero hc hk
  obtain ⟨N, hN⟩ := Filter.eventually_atTop.1 (hlim.eventually_ne hw0)
  refine ⟨N, fun n => rqn A (w n), fun n hn => ?_, ?_⟩
  · have hne : (A ^ n) *ᵥ g ≠ 0 := by rw [hw]; exact smul_ne_zero (pow_ne_zero _ hμ) (hN n hn)
    refine ⟨unit ((A ^ n) *ᵥ g), ?_⟩
    rw [C65_power_iteration, if_neg hne, ← rayleighQuotient, rq_unit A hne, hw, rqn_smul A (pow_ne_zero _ hμ)]
  · have hc1 : Continuous fun v : ι → ℂ => star v ⬝ᵥ (A *ᵥ v) := by
      exact Continuous.dotProduct continuous_star (Continuous.matrix_mulVec continuous_const continuous_id)
    have hc2 : Continuous fun v : ι → ℂ => star v ⬝ᵥ v := Continuous.dotProduct continuous_star continuous_id
    have ht := (hc1.tendsto (c k₀ • b k₀)).comp hlim |>.div ((hc2.tendsto (c k₀ • b k₀)).comp hlim) (dot_self_ne hw0)
    have hv : rqn A (c k₀ • b k₀) = μ k₀ := by
      rw [rqn_smul A hc, rqn, hb, dotProduct_smul, smul_eq_mul, mul_div_cancel_right₀ _ (dot_self_ne hk)]
    rw [← hv]
    exact ht

/-! ### C65: Rayleigh quotient iteration -/

theorem rqiLoop_spec (A : Matrix ι ι ℂ) (tol : ℝ) (solver : Matrix ι ι ℂ → (ι → ℂ) → Option (ι → ℂ)) (l : ℂ) (v : ι → ℂ) (n : ℕ) :
    ∀ (u : ι → ℂ) (l₀ : Option ℂ), norm2 u = 1 → rqiLoop A tol solver (n + 1) u l₀ = .ok (some (l, v)) →
      norm2 v = 1 ∧ ((l = star v ⬝ᵥ (A *ᵥ v) ∧ norm2 (A *ᵥ v - l • v) < tol) ∨
        ∃ u y, norm2 u = 1 ∧ l = star u ⬝ᵥ (A *ᵥ u) ∧ tol ≤ norm2 (A *ᵥ u - l • u) ∧
          solver (A - l • (1 : Matrix ι ι ℂ)) u = some y ∧ y ≠ 0 ∧ v = unit y) := by
  induction n with
  | zero =>
    intro u l₀ hu h
    rw [rqiLoop] at h
    split_ifs at h with hr
    · obtain ⟨rfl, rfl⟩ := Prod.mk.injEq .. ▸ Option.some.inj (Except.ok.inj h)
      exact ⟨hu, .inl ⟨rfl, hr⟩⟩
    · rcases hs : solver (A - rayleighQuotient A u • (1 : Matrix ι ι ℂ)) u with _ | y
      · rw [hs] at h; simp at h
      · rw [hs, Option.bind_some] at h
        by_cases hy : norm2 y = 0
        · rw [hy, divBy_zero] at h; simp at h
        · rw [divBy_eq y hy] at h
          simp only [rqiLoop] at h
          obtain ⟨rfl, rfl⟩ := Prod.mk.injEq .. ▸ Option.some.inj (Except.ok.inj h)
          have hy0 : y ≠ 0 := fun hh => hy ((norm2_eq_zero y).2 hh)
          exact ⟨norm2_unit hy0, .inr ⟨u, y, hu, rfl, not_lt.1 hr, hs, hy0, rfl⟩⟩
  | succ n ih =>
    intro u l₀ hu h
    rw [rqiLoop] at h
    split_ifs at h with hr
    · obtain ⟨rfl, rfl⟩ := Prod.mk.injEq .. ▸ Option.some.inj (Except.ok.inj h)
      exact ⟨hu, .inl ⟨rfl, hr⟩⟩
    · rcases hs : solver (A - rayleighQuotient A u • (1 : Matrix ι ι ℂ)) u with _ | y
      · rw [hs] at h; simp at h
      · rw [hs, Option.bind_some] at h
        by_cases hy : norm2 y = 0
        · rw [hy, divBy_zero] at h; simp at h
        · rw [divBy_eq y hy] at h
          have hy0 : y ≠ 0 := fun hh => hy ((norm2_eq_zero y).2 hh)
          exact ih _ _ (norm2_unit hy0) h

/-- C65 (what holds of `rayleigh_quotient_iteration`): the returned vector has unit norm, and either the pair is a Rayleigh pair with residual
below the tolerance, or the iterations ran out; then the number is the Rayleigh quotient of the vector *before* the last solve and
`(A - l) v` is that vector divided by the norm of the solution, for an exact inner solver. Missing: the returned number is not the Rayleigh
quotient of the returned vector in the second case, see `C65_stale_eigenvalue_partial`. -/
theorem C65_rayleigh_partial (A : Matrix ι ι ℂ) (g : ι → ℂ) (n : ℕ) (tol : ℝ) (solver : Matrix ι ι ℂ → (ι → ℂ) → Option (ι → ℂ))
    (hsol : ∀ B b y, solver B b = some y → B *ᵥ y = b) (l : ℂ) (v : ι → ℂ)
    (h : rayleighQuotientIteration A g n tol solver = .ok (some (l, v))) :
    norm2 v = 1 ∧ ((l = star v ⬝ᵥ (A *ᵥ v) ∧ norm2 (A *ᵥ v - l • v) < tol) ∨
        ∃ u, norm2 u = 1 ∧ l = star u ⬝ᵥ (A *ᵥ u) ∧ tol ≤ norm2 (A *ᵥ u - l • u) ∧ ∃ r : ℝ, 0 < r ∧ A *ᵥ v - l • v = (r : ℂ) • u) := by
  rw [rayleighQuotientIteration] at h
  by_cases hg : norm2 g = 0
  · rw [hg, divBy_zero] at h; dsimp only at h; split_ifs at h; simp at h
  rw [divBy_eq g hg] at h
  dsimp only at h
  have hg0 : g ≠ 0 := fun hh => hg ((norm2_eq_zero g).2 hh)
  cases n with
  | zero => simp [rqiLoop] at h
  | succ n =>
    obtain ⟨h1, h2 | ⟨u, y, hu, hl, ht, hy, hy0, rfl⟩⟩ := rqiLoop_spec A tol solver l v n _ _ (norm2_unit hg0) h
    · exact ⟨h1, .inl h2⟩
    · have hyn : 0 < norm2 y := lt_of_le_of_ne (norm2_nonneg y) fun hh => hy0 ((norm2_eq_zero y).1 hh.symm)
      refine ⟨h1, .inr ⟨u, hu, hl, ht, (norm2 y)⁻¹, inv_pos.2 hyn, ?_⟩⟩
      have := hsol _ _ _ hy
      rw [sub_mulVec, smul_mulVec, one_mulVec] at this
      rw [unit, mulVec_smul, smul_comm l, ← smul_sub, this]; push_cast; rfl

/-- C65: an exact eigenvector is returned (normalised) with its eigenvalue, whatever the inner solver does. -/
theorem C65_rayleigh_eigenvector (A : Matrix ι ι ℂ) (g : ι → ℂ) (n : ℕ) (tol : ℝ) (solver : Matrix ι ι ℂ → (ι → ℂ) → Option (ι → ℂ))
    (μ : ℂ) (hg : g ≠ 0) (h : A *ᵥ g = μ • g) (hn : n ≠ 0) (ht : 0 < tol) :
    rayleighQuotientIteration A g n tol solver = .ok (some (μ, unit g)) := by
  obtain ⟨n, rfl⟩ := Nat.exists_eq_succ_of_ne_zero hn
  have hg0 : norm2 g ≠ 0 := fun hh => hg ((norm2_eq_zero g).1 hh)
  have he : A *ᵥ unit g = μ • unit g := by rw [unit, mulVec_smul, h, smul_comm]
  rw [rayleighQuotientIteration, divBy_eq g hg0]
  change rqiLoop A tol solver (n + 1) (unit g) none = _
  have hz : norm2 (A *ᵥ unit g - μ • unit g) = 0 := by rw [he, sub_self, (norm2_eq_zero _).2 rfl]
  rw [rqiLoop, rq_eigen he (norm2_unit hg)]
  rw [if_pos (by rw [hz]; exact ht)]

/-- C65: zero iterations raise an exception. -/
theorem C65_rayleigh_zero_partial (A : Matrix ι ι ℂ) (g : ι → ℂ) (tol : ℝ) (solver : Matrix ι ι ℂ → (ι → ℂ) → Option (ι → ℂ)) :
    rayleighQuotientIteration A g 0 tol solver = .error "UnboundLocalError: eigval" := by
  rw [rayleighQuotientIteration]
  rcases divBy g (norm2 g) <;> simp [rqiLoop]

/-- The exact inner solver. -/
noncomputable def exactSolve (B : Matrix ι ι ℂ) (b : ι → ℂ) : Option (ι → ℂ) := if B.det = 0 then none else some (B⁻¹ *ᵥ b)

theorem exactSolve_exact (B : Matrix ι ι ℂ) (b y : ι → ℂ) (h : exactSolve B b = some y) : B *ᵥ y = b := by
  rw [exactSolve] at h
  split_ifs at h with hd
  rw [← Option.some.inj h, mulVec_mulVec, mul_nonsing_inv _ (isUnit_iff_ne_zero.2 hd), one_mulVec]

theorem exactSolve_of {B : Matrix ι ι ℂ} (hd : B.det ≠ 0) {b y : ι → ℂ} (h : B *ᵥ y = b) : exactSolve B b = some y := by
  rw [exactSolve, if_neg hd, ← h, mulVec_mulVec, nonsing_inv_mul _ (isUnit_iff_ne_zero.2 hd), one_mulVec]


/-- C65 is false for an exhausted `rayleigh_quotient_iteration`: with an exact solver, one iteration from (2, 1) on diag(1, 2) returns the number
6/5 with a vector whose Rayleigh quotient is 66/65. -/
theorem C65_stale_eigenvalue_partial :
    ∃ (A : Matrix (Fin 2) (Fin 2) ℂ) (g v : Fin 2 → ℂ), rayleighQuotientIteration A g 1 (1 / 10 ^ 13) exactSolve = .ok (some (6 / 5, v)) ∧
      star v ⬝ᵥ (A *ᵥ v) = 66 / 65 := by
  let A : Matrix (Fin 2) (Fin 2) ℂ := diagonal ![1, 2]
  let g : Fin 2 → ℂ := ![2, 1]
  let y : Fin 2 → ℂ := ![-10, 5 / 4]
  have conj2 : (starRingEnd ℂ) 2 = 2 := map_ofNat _ 2
  have conj10 : (starRingEnd ℂ) 10 = 10 := map_ofNat _ 10
  have conj54 : (starRingEnd ℂ) (5 / 4) = 5 / 4 := by rw [map_div₀, map_ofNat, map_ofNat]
  have hg : g ≠ 0 := fun h => by simpa [g] using congrFun h 1
  have hy : y ≠ 0 := fun h => by simpa [y] using congrFun h 0
  have hgn : norm2 g ≠ 0 := fun hh => hg ((norm2_eq_zero g).1 hh)
  have hs : ((norm2 g : ℂ))⁻¹ ≠ 0 := inv_ne_zero (by exact_mod_cast hgn)
  have hgs : norm2 g ^ 2 = 5 := by
    rw [norm2_sq_real, Fin.sum_univ_two]; simp [g]; norm_num
  have hq : rayleighQuotient A (unit g) = 6 / 5 := by
    rw [rq_unit A hg]
    simp [rqn, A, g, dotProduct, Fin.sum_univ_two, mulVec_diagonal, conj2]; norm_num
  have hsy : (norm2 g : ℂ)⁻¹ • y ≠ 0 := smul_ne_zero hs hy
  have hres : A *ᵥ unit g - (6 / 5 : ℂ) • unit g = (norm2 g : ℂ)⁻¹ • ![-2 / 5, 4 / 5] := by
    rw [unit, mulVec_smul, smul_comm, ← smul_sub]
    congr 1
    ext i; fin_cases i <;> simp [A, g, mulVec_diagonal] <;> norm_num
  have hbig : ¬ norm2 (A *ᵥ unit g - (6 / 5 : ℂ) • unit g) < 1 / 10 ^ 13 := by
    have h2 : norm2 (![-2 / 5, 4 / 5] : Fin 2 → ℂ) ^ 2 = 4 / 5 := by
      rw [norm2_sq_real, Fin.sum_univ_two]; simp; norm_num
    have h4 : norm2 (A *ᵥ unit g - (6 / 5 : ℂ) • unit g) ^ 2 = 4 / 25 := by
      rw [hres, norm2_smul, mul_pow, h2, norm_inv, Complex.norm_real, Real.norm_of_nonneg (norm2_nonneg g), inv_pow, hgs]; norm_num
    intro hlt
    nlinarith [norm2_nonneg (A *ᵥ unit g - (6 / 5 : ℂ) • unit g)]
  have hmul : (A - (6 / 5 : ℂ) • (1 : Matrix (Fin 2) (Fin 2) ℂ)) *ᵥ ((norm2 g : ℂ)⁻¹ • y) = unit g := by
    rw [unit, mulVec_smul]
    congr 1
    rw [sub_mulVec, smul_mulVec, one_mulVec]
    ext i; fin_cases i <;> simp [A, g, y, mulVec_diagonal] <;> norm_num
  have hdet : (A - (6 / 5 : ℂ) • (1 : Matrix (Fin 2) (Fin 2) ℂ)).det ≠ 0 := by
    simp [A, det_fin_two]; norm_num
  have hsn : norm2 ((norm2 g : ℂ)⁻¹ • y) ≠ 0 := fun hh => hsy ((norm2_eq_zero _).1 hh)
  refine ⟨A, g, unit ((norm2 g : ℂ)⁻¹ • y), ?_, ?_⟩
  · rw [rayleighQuotientIteration, divBy_eq g hgn]
    change rqiLoop A _ _ 1 (unit g) none = _
    rw [rqiLoop, hq, if_neg hbig, exactSolve_of hdet hmul, Option.bind_some, divBy_eq _ hsn]
    rfl
  · rw [← rayleighQuotient, rq_unit A hsy, rqn_smul A hs]
    simp [rqn, A, y, dotProduct, Fin.sum_univ_two, mulVec_diagonal, conj10, conj54]; norm_num

/-! ### C66 -/

/-- What `scipy.sparse.linalg.eigs(A, k, which='LM')` promises: `k` eigenpairs, whose eigenvalues (with multiplicity) are the `k` roots of the
characteristic polynomial of largest magnitude. -/
structure IsEigs (A : Matrix ι ι ℂ) (k : ℕ) (res : List (ℂ × (ι → ℂ))) : Prop where
  length : res.length = k
  pair : ∀ p ∈ res, p.2 ≠ 0 ∧ A *ᵥ p.2 = p.1 • p.2
  split : ∃ rest : Multiset ℂ, A.charpoly.roots = ↑(res.map Prod.fst) + rest ∧ ∀ μ ∈ rest, ∀ p ∈ res, ‖μ‖ ≤ ‖p.1‖

/-- Specification of `signed_eigensolve`: the `k` algebraically largest (with `negative`: smallest) eigenvalues with eigenvectors, ascending. -/
structure IsSigned (A : Matrix ι ι ℂ) (k : ℕ) (negative : Bool) (res : List (ℂ × (ι → ℂ))) : Prop where
  length : res.length = k
  pair : ∀ p ∈ res, p.2 ≠ 0 ∧ A *ᵥ p.2 = p.1 • p.2
  split : ∃ rest : Multiset ℂ, A.charpoly.roots = ↑(res.map Prod.fst) + rest ∧
    ∀ μ ∈ rest, ∀ p ∈ res, if negative then p.1.re ≤ μ.re else μ.re ≤ p.1.re
  sorted : res.Pairwise fun p q => p.1.re ≤ q.1.re

theorem roots_shift (A : Matrix ι ι ℂ) (s : ℂ) : (A + s • (1 : Matrix ι ι ℂ)).charpoly.roots = A.charpoly.roots.map (· + s) := by
  have h1 : A + s • (1 : Matrix ι ι ℂ) = A - scalar ι (-s) := by
    rw [map_neg, sub_neg_eq_add, smul_one_eq_diagonal]; rfl
  have h2 := Polynomial.roots_comp_C_mul_X_add_C A.charpoly 1 (-s) isUnit_one
  rw [h1, charpoly_sub_scalar]
  simpa using h2

theorem leC_trans (a b c : ℂ) : leC a b → leC b c → leC a c := by
  simp only [leC, decide_eq_true_eq]
  rintro (h | ⟨h, h'⟩) (k | ⟨k, k'⟩)
  · exact .inl (h.trans k)
  · exact .inl (k ▸ h)
  · exact .inl (h ▸ k)
  · exact .inr ⟨h.trans k, h'.trans k'⟩

theorem leC_total (a b : ℂ) : leC a b || leC b a := by
  simp only [leC, Bool.or_eq_true, decide_eq_true_eq]
  rcases lt_trichotomy a.re b.re with h | h | h
  · exact .inl (.inl h)
  · rcases le_total a.im b.im with k | k
    · exact .inl (.inr ⟨h, k⟩)
    · exact .inr (.inr ⟨h.symm, k⟩)
  · exact .inr (.inl h)

theorem leC_re {a b : ℂ} (h : leC a b) : a.re ≤ b.re := by
  simp only [leC, decide_eq_true_eq] at h
  rcases h with h | h
  · exact h.le
  · exact h.1.le

/-- C66: matrices with fewer than `2 how_many + 50` rows are rejected (scipy's condition on `ncv`), and so is `how_many = 0`. -/
theorem C66_too_small (eigs : Matrix ι ι ℂ → ℕ → List (ℂ × (ι → ℂ))) (guess : ι → ℂ) (A : Matrix ι ι ℂ) (k : ℕ) (negative : Bool)
    (h : k = 0 ∨ Fintype.card ι < 2 * k + 50) (res : List (ℂ × (ι → ℂ))) : signedEigensolve eigs guess A k negative ≠ .ok res := by
  unfold signedEigensolve
  split
  · simp
  · by_cases hk : k = 0
    · simp [hk]
    · simp [hk, (h.resolve_left hk)]

/-- The part of C66 common to all variants: whatever selection property the shifted eigenvalues have carries over. -/
theorem signed_core {eigs : Matrix ι ι ℂ → ℕ → List (ℂ × (ι → ℂ))} {guess : ι → ℂ} {A : Matrix ι ι ℂ} {k : ℕ} {negative : Bool} {lm : ℂ} {u : ι → ℂ}
    (hp : powerIteration A guess 20 = some (lm, u)) (hk : k ≠ 0) (hn : 2 * k + 50 ≤ Fintype.card ι)
    (heigs : ∀ r : ℝ, IsEigs (A + (r : ℂ) • (1 : Matrix ι ι ℂ)) k (eigs (A + (r : ℂ) • (1 : Matrix ι ι ℂ)) k)) (s : ℝ) (hs : s = if negative then ‖lm‖ * -1 else ‖lm‖)
    (hsel : ∀ (L rest : Multiset ℂ), A.charpoly.roots = L + rest → L.card = k →
      (∀ μ ∈ rest, ∀ ν ∈ L, ‖μ + s‖ ≤ ‖ν + s‖) → ∀ μ ∈ rest, ∀ ν ∈ L, if negative then ν.re ≤ μ.re else μ.re ≤ ν.re) :
    ∃ res, signedEigensolve eigs guess A k negative = .ok res ∧ IsSigned A k negative res := by
  set e := eigs (A + (s : ℂ) • (1 : Matrix ι ι ℂ)) k with he
  have H : IsEigs (A + (s : ℂ) • (1 : Matrix ι ι ℂ)) k e := heigs _
  set pairs := e.map fun p => (p.1 - (s : ℂ), p.2) with hpairs
  refine ⟨pairs.mergeSort fun p q => leC p.1 q.1, ?_, ?_⟩
  · rw [signedEigensolve, hp]
    simp only [← hs]
    rw [if_neg hk, if_neg (by omega)]
  have hperm : (pairs.mergeSort fun p q => leC p.1 q.1).Perm pairs := List.mergeSort_perm _ _
  have hmem : ∀ p, p ∈ pairs.mergeSort (fun p q => leC p.1 q.1) ↔ p ∈ pairs := fun p => hperm.mem_iff
  obtain ⟨rest, hrest, hle⟩ := H.split
  have hroots : A.charpoly.roots = ↑(pairs.map Prod.fst) + rest.map (· - (s : ℂ)) := by
    have h1 := roots_shift A (s : ℂ)
    rw [hrest] at h1
    have h2 := congrArg (Multiset.map (· - (s : ℂ))) h1
    rw [Multiset.map_map, Multiset.map_add] at h2
    simp only [Function.comp_def, add_sub_cancel_right, Multiset.map_id'] at h2
    rw [← h2, hpairs]
    simp [List.map_map, Function.comp_def]
  refine ⟨?_, ?_, ⟨rest.map (· - (s : ℂ)), ?_, ?_⟩, ?_⟩
  · rw [hperm.length_eq, hpairs, List.length_map, H.length]
  · intro p hpm
    obtain ⟨q, hq, rfl⟩ := List.mem_map.1 ((hmem p).1 hpm)
    obtain ⟨h1, h2⟩ := H.pair q hq
    refine ⟨h1, ?_⟩
    rw [add_mulVec, smul_mulVec, one_mulVec] at h2
    rw [sub_smul, ← h2, add_sub_cancel_right]
  · rw [hroots]
    congr 1
    exact Multiset.coe_eq_coe.2 (hperm.map _).symm
  · have hc := hsel _ _ hroots (by simp [hpairs, H.length]) (by
      intro μ hμ ν hν
      obtain ⟨μ', hμ', rfl⟩ := Multiset.mem_map.1 hμ
      obtain ⟨q, hq, rfl⟩ := List.mem_map.1 (Multiset.mem_coe.1 hν)
      obtain ⟨q', hq', rfl⟩ := List.mem_map.1 hq
      simpa using hle μ' hμ' q' hq')
    intro μ hμ p hpm
    exact hc μ hμ p.1 (Multiset.mem_coe.2 (List.mem_map_of_mem ((hmem p).1 hpm)))
  · have := List.pairwise_mergeSort (le := fun p q : ℂ × (ι → ℂ) => leC p.1 q.1) (fun a b c => leC_trans _ _ _) (fun a b => leC_total _ _) pairs
    exact this.imp fun h => leC_re h

theorem norm_real_add {μ : ℂ} (h : μ.im = 0) (s : ℝ) : ‖μ + s‖ = |μ.re + s| := by
  have : μ + s = ((μ.re + s : ℝ) : ℂ) := by apply Complex.ext <;> simp [h]
  rw [this, Complex.norm_real, Real.norm_eq_abs]

/-- C66: when the spectrum is real and the power iteration has found the spectral radius (an upper bound is enough), `signed_eigensolve` returns
the `k` algebraically largest eigenvalues (smallest for `negative=True`) with their eigenvectors, sorted ascending. -/
theorem C66_signed (eigs : Matrix ι ι ℂ → ℕ → List (ℂ × (ι → ℂ))) (guess : ι → ℂ) (A : Matrix ι ι ℂ) (k : ℕ) (negative : Bool) (lm : ℂ) (u : ι → ℂ)
    (hp : powerIteration A guess 20 = some (lm, u)) (hk : k ≠ 0) (hn : 2 * k + 50 ≤ Fintype.card ι)
    (heigs : ∀ r : ℝ, IsEigs (A + (r : ℂ) • (1 : Matrix ι ι ℂ)) k (eigs (A + (r : ℂ) • (1 : Matrix ι ι ℂ)) k)) (hreal : ∀ μ ∈ A.charpoly.roots, μ.im = 0) (hbound : ∀ μ ∈ A.charpoly.roots, ‖μ‖ ≤ ‖lm‖) :
    ∃ res, signedEigensolve eigs guess A k negative = .ok res ∧ IsSigned A k negative res := by
  refine signed_core hp hk hn heigs _ rfl ?_
  intro L rest hroots _ hle μ hμ ν hν
  have hμr : μ ∈ A.charpoly.roots := by rw [hroots]; exact Multiset.mem_add.2 (.inr hμ)
  have hνr : ν ∈ A.charpoly.roots := by rw [hroots]; exact Multiset.mem_add.2 (.inl hν)
  have h := hle μ hμ ν hν
  rw [norm_real_add (hreal μ hμr), norm_real_add (hreal ν hνr)] at h
  have b1 := (abs_le.1 ((Complex.abs_re_le_norm μ).trans (hbound μ hμr)))
  have b2 := (abs_le.1 ((Complex.abs_re_le_norm ν).trans (hbound ν hνr)))
  cases negative
  · simp only [Bool.false_eq_true, if_false] at h ⊢
    rw [abs_of_nonneg (by linarith), abs_of_nonneg (by linarith)] at h
    linarith
  · simp only [if_true] at h ⊢
    rw [abs_of_nonpos (by linarith), abs_of_nonpos (by linarith)] at h
    linarith

/-- C66: a rough estimate is enough for the positive eigenvalues: if every eigenvalue lies above `-2|lm|` and there are at least `k` non-negative
ones, the `k` largest are returned. -/
theorem C66_rough_estimate (eigs : Matrix ι ι ℂ → ℕ → List (ℂ × (ι → ℂ))) (guess : ι → ℂ) (A : Matrix ι ι ℂ) (k : ℕ) (lm : ℂ) (u : ι → ℂ)
    (hp : powerIteration A guess 20 = some (lm, u)) (hk : k ≠ 0) (hn : 2 * k + 50 ≤ Fintype.card ι)
    (heigs : ∀ r : ℝ, IsEigs (A + (r : ℂ) • (1 : Matrix ι ι ℂ)) k (eigs (A + (r : ℂ) • (1 : Matrix ι ι ℂ)) k)) (hreal : ∀ μ ∈ A.charpoly.roots, μ.im = 0) (hbound : ∀ μ ∈ A.charpoly.roots, -(2 * ‖lm‖) < μ.re)
    (hcount : k ≤ (A.charpoly.roots.filter fun μ => 0 ≤ μ.re).card) :
    ∃ res, signedEigensolve eigs guess A k false = .ok res ∧ IsSigned A k false res := by
  refine signed_core hp hk hn heigs _ rfl ?_
  intro L rest hroots hcard hle μ hμ ν hν
  simp only [Bool.false_eq_true, if_false] at hle ⊢
  have hin : ∀ x, x ∈ L ∨ x ∈ rest → x ∈ A.charpoly.roots := fun x hx => by rw [hroots]; exact Multiset.mem_add.2 hx
  have hμr := hin μ (.inr hμ)
  have hνr := hin ν (.inl hν)
  by_contra hlt
  push Not at hlt
  have h := hle μ hμ ν hν
  rw [norm_real_add (hreal μ hμr), norm_real_add (hreal ν hνr)] at h
  have hν1 : ν.re + ‖lm‖ < 0 := by
    by_contra hc
    push Not at hc
    rw [abs_of_nonneg hc, abs_of_nonneg (by linarith)] at h
    linarith
  have hνs : |ν.re + ‖lm‖| < ‖lm‖ := by rw [abs_of_neg hν1]; linarith [hbound ν hνr]
  have hneg : ∀ x ∈ rest, x.re < 0 := by
    intro x hx
    have h' := hle x hx ν hν
    rw [norm_real_add (hreal x (hin x (.inr hx))), norm_real_add (hreal ν hνr)] at h'
    have := (abs_lt.1 (h'.trans_lt hνs)).2
    linarith
  have h1 : (rest.filter fun μ => 0 ≤ μ.re) = 0 := Multiset.filter_eq_nil.2 fun x hx => not_le.2 (hneg x hx)
  have h2 : (L.filter fun μ => 0 ≤ μ.re) < L := by
    refine lt_of_le_of_ne (Multiset.filter_le _ _) fun hh => ?_
    have := Multiset.filter_eq_self.1 hh ν hν
    linarith [norm_nonneg lm]
  have h3 := Multiset.card_lt_card h2
  rw [hroots, Multiset.filter_add, h1, add_zero] at hcount
  omega

/-! Non-vacuity: the contract of `eigs` can be met by every matrix, and the hypotheses of C66 by every real diagonal matrix. -/

theorem root_eigenvector {A : Matrix ι ι ℂ} {μ : ℂ} (h : μ ∈ A.charpoly.roots) : ∃ v : ι → ℂ, v ≠ 0 ∧ A *ᵥ v = μ • v := by
  have h0 : (scalar ι μ - A).det = 0 := by
    rw [← eval_charpoly]; exact Polynomial.isRoot_of_mem_roots h
  obtain ⟨v, hv, e⟩ := Matrix.exists_mulVec_eq_zero_iff.2 h0
  refine ⟨v, hv, ?_⟩
  rw [sub_mulVec, sub_eq_zero] at e
  rw [← e, scalar_apply]
  ext i; simp [mulVec_diagonal]

theorem exists_eigs (A : Matrix ι ι ℂ) (k : ℕ) (hk : k ≤ Fintype.card ι) : ∃ res, IsEigs A k res := by
  classical
  have hcard : A.charpoly.roots.card = Fintype.card ι := by
    rw [← (IsAlgClosed.splits A.charpoly).natDegree_eq_card_roots, charpoly_natDegree_eq_dim]
  let le : ℂ → ℂ → Bool := fun a b => decide (‖b‖ ≤ ‖a‖)
  let l := A.charpoly.roots.toList.mergeSort le
  have hperm : l.Perm A.charpoly.roots.toList := List.mergeSort_perm _ _
  have hl : (l : Multiset ℂ) = A.charpoly.roots := by rw [Multiset.coe_eq_coe.2 hperm, Multiset.coe_toList]
  have hlen : l.length = Fintype.card ι := by rw [hperm.length_eq, Multiset.length_toList, hcard]
  have hsorted : l.Pairwise fun a b => ‖b‖ ≤ ‖a‖ := by
    have := List.pairwise_mergeSort (le := le) (fun a b c h1 h2 => by simp [le] at *; exact h2.trans h1)
      (fun a b => by simp [le]; exact le_total _ _) A.charpoly.roots.toList
    exact this.imp fun h => by simpa [le] using h
  have hv : ∀ μ : ℂ, ∃ v : ι → ℂ, μ ∈ A.charpoly.roots → v ≠ 0 ∧ A *ᵥ v = μ • v := by
    intro μ
    by_cases h : μ ∈ A.charpoly.roots
    · obtain ⟨v, hv⟩ := root_eigenvector h; exact ⟨v, fun _ => hv⟩
    · exact ⟨0, fun hh => absurd hh h⟩
  choose vec hvec using hv
  refine ⟨(l.take k).map fun μ => (μ, vec μ), ?_, ?_, ⟨(l.drop k : Multiset ℂ), ?_, ?_⟩⟩
  · simp [hlen, hk]
  · intro p hp
    obtain ⟨μ, hμ, rfl⟩ := List.mem_map.1 hp
    exact hvec μ (by rw [← hl]; exact Multiset.mem_coe.2 (List.mem_of_mem_take hμ))
  · rw [List.map_map, ← hl]
    simp only [Function.comp_def, List.map_id', Multiset.coe_add, List.take_append_drop]
  · intro μ hμ p hp
    obtain ⟨ν, hν, rfl⟩ := List.mem_map.1 hp
    rw [← List.take_append_drop k l] at hsorted
    exact (List.pairwise_append.1 hsorted).2.2 ν hν μ (Multiset.mem_coe.1 hμ)

/-- An eigensolver meeting its contract. -/
noncomputable def eigsOracle (A : Matrix ι ι ℂ) (k : ℕ) : List (ℂ × (ι → ℂ)) :=
  open Classical in if h : k ≤ Fintype.card ι then (exists_eigs A k h).choose else []

theorem eigsOracle_spec (A : Matrix ι ι ℂ) (k : ℕ) (h : k ≤ Fintype.card ι) : IsEigs A k (eigsOracle A k) := by
  rw [eigsOracle, dif_pos h]; exact (exists_eigs A k h).choose_spec

/-- A diagonal matrix with the eigenvalues -29, ..., 30. -/
noncomputable def exDiag : Matrix (Fin 60) (Fin 60) ℂ := diagonal fun i => (((i : ℕ) : ℝ) - 29 : ℝ)

theorem exDiag_roots {μ : ℂ} (h : μ ∈ exDiag.charpoly.roots) : ∃ i : Fin 60, μ = (((i : ℕ) : ℝ) - 29 : ℝ) := by
  obtain ⟨v, hv, e⟩ := root_eigenvector h
  obtain ⟨i, hi⟩ := Function.ne_iff.1 hv
  refine ⟨i, ?_⟩
  have := congrFun e i
  rw [exDiag, mulVec_diagonal, Pi.smul_apply, smul_eq_mul] at this
  exact (mul_right_cancel₀ hi this).symm

theorem exDiag_power : ∃ u, powerIteration exDiag (Pi.single 59 1) 20 = some (30, u) := by
  have he : exDiag *ᵥ (Pi.single 59 1) = (30 : ℂ) • (Pi.single 59 1 : Fin 60 → ℂ) := by
    rw [exDiag, mulVec_single_one]
    ext i
    by_cases hi : i = 59
    · subst hi; simp; norm_num
    · simp [hi]
  exact ⟨_, C65_power_eigenvector exDiag _ 20 30 (by norm_num) (fun h => by simpa using congrFun h 59) he⟩

/-- The hypotheses of C66 are met, for both signs. -/
example (negative : Bool) : ∃ res, signedEigensolve eigsOracle (Pi.single 59 1) exDiag 3 negative = .ok res ∧ IsSigned exDiag 3 negative res := by
  obtain ⟨u, hu⟩ := exDiag_power
  refine C66_signed _ _ _ _ _ _ _ hu (by norm_num) (by simp) (fun r => eigsOracle_spec _ _ (by simp)) ?_ ?_
  · intro μ hμ; obtain ⟨i, rfl⟩ := exDiag_roots hμ; exact Complex.ofReal_im _
  · intro μ hμ
    obtain ⟨i, rfl⟩ := exDiag_roots hμ
    rw [Complex.norm_real, Complex.norm_ofNat, Real.norm_eq_abs, abs_le]
    have : ((i : ℕ) : ℝ) ≤ 59 := by exact_mod_cast Nat.lt_succ_iff.1 i.2
    have h0 : (0 : ℝ) ≤ (i : ℕ) := Nat.cast_nonneg _
    constructor <;> linarith

/-- The hypotheses of C71 are met: diag(1, 2) started from (1, 1). -/
example : ∃ N, ∃ l : ℕ → ℂ, (∀ n ≥ N, ∃ v, powerIteration (diagonal ![1, 2] : Matrix (Fin 2) (Fin 2) ℂ) (∑ k, (1 : ℂ) • Pi.single k 1) n = some (l n, v)) ∧
    Filter.Tendsto l Filter.atTop (nhds 2) := by
  refine C71_power_converges (diagonal ![1, 2]) (fun k => Pi.single k 1) ![1, 2] (fun _ => 1) 1 ?_ ?_ ?_ ?_ ?_
  · intro k; rw [mulVec_single_one]; ext i; fin_cases k <;> fin_cases i <;> simp
  · intro k hk; fin_cases k <;> simp at *
  · simp
  · exact fun h => by simpa using congrFun h 1
  · simp

end Meanas.Props
