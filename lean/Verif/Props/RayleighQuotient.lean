/-
C118: Rayleigh quotient iteration on Hermitian operators never increases the residual and converges cubically.
-/
import Verif.Props.Eigensolvers
import Mathlib.Analysis.InnerProductSpace.PiL2
import Mathlib.Analysis.Matrix.Spectrum

set_option linter.unusedSectionVars false

namespace Meanas.Props

open Matrix Complex Wg2 Eig

variable {ι : Type} [Fintype ι] [DecidableEq ι]

/-! ### Euclidean geometry -/

theorem norm2_eq_l2 (v : ι → ℂ) : norm2 v = ‖WithLp.toLp 2 v‖ := by rw [EuclideanSpace.norm_eq]; rfl

theorem norm2_add_le (u v : ι → ℂ) : norm2 (u + v) ≤ norm2 u + norm2 v := by
  simp only [norm2_eq_l2, WithLp.toLp_add]; exact norm_add_le _ _

theorem norm2_sub_ge (u v : ι → ℂ) : norm2 u - norm2 v ≤ norm2 (u - v) := by
  simp only [norm2_eq_l2, WithLp.toLp_sub]; exact norm_sub_norm_le _ _

theorem norm_dot_le (u v : ι → ℂ) : ‖star u ⬝ᵥ v‖ ≤ norm2 u * norm2 v := by
  have h := norm_inner_le_norm (𝕜 := ℂ) (WithLp.toLp 2 u) (WithLp.toLp 2 v)
  rw [EuclideanSpace.inner_eq_star_dotProduct] at h
  rw [norm2_eq_l2, norm2_eq_l2, dotProduct_comm]; exact h

theorem herm_dot {A : Matrix ι ι ℂ} (hA : A.IsHermitian) (u v : ι → ℂ) : star u ⬝ᵥ (A *ᵥ v) = star (A *ᵥ u) ⬝ᵥ v := by
  rw [star_mulVec, hA.eq, dotProduct_mulVec]

theorem rq_real {A : Matrix ι ι ℂ} (hA : A.IsHermitian) (v : ι → ℂ) : (starRingEnd ℂ) (rayleighQuotient A v) = rayleighQuotient A v := by
  have h : star (star v ⬝ᵥ (A *ᵥ v)) = star (A *ᵥ v) ⬝ᵥ v := by
    rw [star_dotProduct, dotProduct_comm]; simp
  rw [rayleighQuotient, starRingEnd_apply, h, herm_dot hA]

/-- The residual of a unit vector with a given number. -/
noncomputable def resid (A : Matrix ι ι ℂ) (l : ℂ) (v : ι → ℂ) : ℝ := norm2 (A *ᵥ v - l • v)

theorem herm_shift {A : Matrix ι ι ℂ} (hA : A.IsHermitian) {l : ℂ} (hl : (starRingEnd ℂ) l = l) (u v : ι → ℂ) :
    star u ⬝ᵥ (A *ᵥ v - l • v) = star (A *ᵥ u - l • u) ⬝ᵥ v := by
  rw [dotProduct_sub, star_sub, sub_dotProduct, herm_dot hA, dotProduct_smul, star_smul, smul_dotProduct]
  congr 2
  exact hl.symm

/-- One exact solve does not increase the residual. -/
theorem resid_step {A : Matrix ι ι ℂ} (hA : A.IsHermitian) {l : ℂ} (hl : (starRingEnd ℂ) l = l) (v y : ι → ℂ) (hv : norm2 v = 1)
    (hy : A *ᵥ y - l • y = v) (hy0 : y ≠ 0) : resid A l (unit y) ≤ resid A l v := by
  have hn : norm2 y ≠ 0 := fun h => hy0 ((norm2_eq_zero y).1 h)
  have e : A *ᵥ unit y - l • unit y = ((norm2 y : ℂ))⁻¹ • v := by
    rw [unit, mulVec_smul, smul_comm, ← smul_sub, hy]
  have h1 : resid A l (unit y) = ‖star v ⬝ᵥ (A *ᵥ unit y - l • unit y)‖ := by
    rw [resid, e, norm2_smul, hv, dotProduct_smul, ← norm2_sq, hv]
    simp
  rw [h1, herm_shift hA hl]
  refine (norm_dot_le _ _).trans ?_
  rw [norm2_unit hy0, mul_one]; rfl

theorem dot_conj (u v : ι → ℂ) : star u ⬝ᵥ v = (starRingEnd ℂ) (star v ⬝ᵥ u) := by
  rw [starRingEnd_apply, star_dotProduct, dotProduct_comm]

theorem norm2_pyth {u v : ι → ℂ} (h : star u ⬝ᵥ v = 0) : norm2 (u + v) ^ 2 = norm2 u ^ 2 + norm2 v ^ 2 := by
  have h' : star v ⬝ᵥ u = 0 := by rw [dot_conj, h, map_zero]
  have : ((norm2 (u + v) ^ 2 : ℝ) : ℂ) = ((norm2 u ^ 2 + norm2 v ^ 2 : ℝ) : ℂ) := by
    rw [ofReal_add, norm2_sq, norm2_sq, norm2_sq, star_add, add_dotProduct, dotProduct_add, dotProduct_add, h, h']
    ring
  exact_mod_cast this

/-- The Rayleigh quotient minimises the residual. -/
theorem resid_min (A : Matrix ι ι ℂ) (v : ι → ℂ) (hv : norm2 v = 1) (l : ℂ) : resid A (rayleighQuotient A v) v ≤ resid A l v := by
  set ρ := rayleighQuotient A v with hρ
  have horth : star v ⬝ᵥ (A *ᵥ v - ρ • v) = 0 := by
    rw [dotProduct_sub, dotProduct_smul, ← norm2_sq, hv, hρ, rayleighQuotient]; simp
  have e : A *ᵥ v - l • v = (A *ᵥ v - ρ • v) + (ρ - l) • v := by rw [sub_smul]; abel
  have horth' : star (A *ᵥ v - ρ • v) ⬝ᵥ ((ρ - l) • v) = 0 := by
    rw [dotProduct_smul, dot_conj, horth]; simp
  have h := norm2_pyth horth'
  rw [← e] at h
  refine le_of_sq_le_sq ?_ (norm2_nonneg _)
  simp only [resid]
  nlinarith [sq_nonneg (norm2 ((ρ - l) • v))]

theorem solve_eq {A : Matrix ι ι ℂ} {l : ℂ} {y v : ι → ℂ} (h : (A - l • (1 : Matrix ι ι ℂ)) *ᵥ y = v) : A *ᵥ y - l • y = v := by
  rwa [sub_mulVec, smul_mulVec, one_mulVec] at h

theorem rqiLoop_monotone {A : Matrix ι ι ℂ} (hA : A.IsHermitian) (tol : ℝ) (solver : Matrix ι ι ℂ → (ι → ℂ) → Option (ι → ℂ))
    (hsol : ∀ B b y, solver B b = some y → B *ᵥ y = b) (l : ℂ) (v : ι → ℂ) (n : ℕ) :
    ∀ (u : ι → ℂ) (l₀ : Option ℂ), norm2 u = 1 → rqiLoop A tol solver (n + 1) u l₀ = .ok (some (l, v)) →
      (starRingEnd ℂ) l = l ∧ norm2 v = 1 ∧ resid A l v ≤ resid A (rayleighQuotient A u) u := by
  induction n with
  | zero =>
    intro u l₀ hu h
    rw [rqiLoop] at h
    split_ifs at h with hr
    · obtain ⟨rfl, rfl⟩ := Prod.mk.injEq .. ▸ Option.some.inj (Except.ok.inj h)
      exact ⟨rq_real hA _, hu, le_rfl⟩
    · rcases hs : solver (A - rayleighQuotient A u • (1 : Matrix ι ι ℂ)) u with _ | y
      · rw [hs] at h; simp at h
      · rw [hs, Option.bind_some] at h
        by_cases hy : norm2 y = 0
        · rw [hy, divBy_zero] at h; simp at h
        · rw [divBy_eq y hy] at h
          simp only [rqiLoop] at h
          obtain ⟨rfl, rfl⟩ := Prod.mk.injEq .. ▸ Option.some.inj (Except.ok.inj h)
          have hy0 : y ≠ 0 := fun hh => hy ((norm2_eq_zero y).2 hh)
          exact ⟨rq_real hA _, norm2_unit hy0, resid_step hA (rq_real hA u) u y hu (solve_eq (hsol _ _ _ hs)) hy0⟩
  | succ n ih =>
    intro u l₀ hu h
    rw [rqiLoop] at h
    split_ifs at h with hr
    · obtain ⟨rfl, rfl⟩ := Prod.mk.injEq .. ▸ Option.some.inj (Except.ok.inj h)
      exact ⟨rq_real hA _, hu, le_rfl⟩
    · rcases hs : solver (A - rayleighQuotient A u • (1 : Matrix ι ι ℂ)) u with _ | y
      · rw [hs] at h; simp at h
      · rw [hs, Option.bind_some] at h
        by_cases hy : norm2 y = 0
        · rw [hy, divBy_zero] at h; simp at h
        · rw [divBy_eq y hy] at h
          have hy0 : y ≠ 0 := fun hh => hy ((norm2_eq_zero y).2 hh)
          obtain ⟨h1, h2, h3⟩ := ih _ _ (norm2_unit hy0) h
          exact ⟨h1, h2, h3.trans ((resid_min A _ (norm2_unit hy0) _).trans
            (resid_step hA (rq_real hA u) u y hu (solve_eq (hsol _ _ _ hs)) hy0))⟩

/-- The loop of a call that returned a pair. -/
theorem rqi_loop {A : Matrix ι ι ℂ} {g : ι → ℂ} {n : ℕ} {tol : ℝ} {solver : Matrix ι ι ℂ → (ι → ℂ) → Option (ι → ℂ)} {l : ℂ} {v : ι → ℂ}
    (h : rayleighQuotientIteration A g n tol solver = .ok (some (l, v))) :
    g ≠ 0 ∧ ∃ m, n = m + 1 ∧ rqiLoop A tol solver (m + 1) (unit g) none = .ok (some (l, v)) := by
  rw [rayleighQuotientIteration] at h
  by_cases hg : norm2 g = 0
  · rw [hg, divBy_zero] at h; dsimp only at h; split_ifs at h; simp at h
  rw [divBy_eq g hg] at h
  dsimp only at h
  have hg0 : g ≠ 0 := fun hh => hg ((norm2_eq_zero g).2 hh)
  cases n with
  | zero => simp [rqiLoop] at h
  | succ n => exact ⟨hg0, n, rfl, h⟩

/-- **C118.** On a Hermitian operator and with an exact inner solver, `rayleigh_quotient_iteration` never makes the guess worse: the residual
of the returned pair is at most the residual of the normalised guess with its Rayleigh quotient, hence with any number. -/
theorem C118_monotone {A : Matrix ι ι ℂ} (hA : A.IsHermitian) (g : ι → ℂ) (n : ℕ) (tol : ℝ)
    (solver : Matrix ι ι ℂ → (ι → ℂ) → Option (ι → ℂ)) (hsol : ∀ B b y, solver B b = some y → B *ᵥ y = b) (l : ℂ) (v : ι → ℂ)
    (h : rayleighQuotientIteration A g n tol solver = .ok (some (l, v))) :
    norm2 v = 1 ∧ ∀ m : ℂ, norm2 (A *ᵥ v - l • v) * norm2 g ≤ norm2 (A *ᵥ g - m • g) := by
  obtain ⟨hg, k, rfl, hl⟩ := rqi_loop h
  obtain ⟨h1, h2, h3⟩ := rqiLoop_monotone hA tol solver hsol l v k _ _ (norm2_unit hg) hl
  have hg0 : norm2 g ≠ 0 := fun hh => hg ((norm2_eq_zero g).1 hh)
  have hgp : 0 < norm2 g := lt_of_le_of_ne (norm2_nonneg g) (Ne.symm hg0)
  refine ⟨h2, fun m => ?_⟩
  have h4 := h3.trans (resid_min A _ (norm2_unit hg) m)
  have e : resid A m (unit g) = norm2 (A *ᵥ g - m • g) / norm2 g := by
    rw [resid, unit, mulVec_smul, smul_comm, ← smul_sub, norm2_smul, norm_inv, Complex.norm_real, Real.norm_of_nonneg hgp.le]
    rw [inv_mul_eq_div]
  rw [e, le_div_iff₀ hgp] at h4
  exact h4

/-- A Hermitian matrix has an eigenvalue within the residual of every unit vector and number. -/
theorem eigenvalue_near {A : Matrix ι ι ℂ} (hA : A.IsHermitian) (l : ℂ) (v : ι → ℂ) (hv : norm2 v = 1) :
    ∃ (lam : ℝ) (w : ι → ℂ), w ≠ 0 ∧ A *ᵥ w = (lam : ℂ) • w ∧ ‖l - lam‖ ≤ norm2 (A *ᵥ v - l • v) := by
  set b := hA.eigenvectorBasis with hb
  let x : EuclideanSpace ℂ ι := WithLp.toLp 2 v
  let r : EuclideanSpace ℂ ι := WithLp.toLp 2 (A *ᵥ v - l • v)
  have hsum : ∀ y : EuclideanSpace ℂ ι, ‖y‖ ^ 2 = ∑ i, ‖b.repr y i‖ ^ 2 := by
    intro y
    rw [← b.repr.norm_map y, EuclideanSpace.norm_sq_eq]
  have hcoord : ∀ (y : EuclideanSpace ℂ ι) i, b.repr y i = star (b i).ofLp ⬝ᵥ y.ofLp := by
    intro y i
    rw [b.repr_apply_apply, PiLp.inner_apply, dotProduct]
    refine Finset.sum_congr rfl fun p _ => ?_
    rw [RCLike.inner_apply, mul_comm]
    rfl
  have hr : ∀ i, b.repr r i = ((hA.eigenvalues i : ℂ) - l) * b.repr x i := by
    intro i
    rw [hcoord, hcoord]
    show star (b i).ofLp ⬝ᵥ (A *ᵥ v - l • v) = (_ - _) * (star (b i).ofLp ⬝ᵥ v)
    have h1 : star (b i).ofLp ⬝ᵥ (A *ᵥ v) = (hA.eigenvalues i : ℂ) * (star (b i).ofLp ⬝ᵥ v) := by
      have h2 : star (A *ᵥ (b i).ofLp) = star (b i).ofLp ᵥ* A := by rw [star_mulVec, hA]
      rw [dotProduct_mulVec, ← h2, hA.mulVec_eigenvectorBasis i, star_smul, smul_dotProduct]
      simp [Complex.real_smul]
      exact Or.inl rfl
    rw [dotProduct_sub, h1, dotProduct_smul, smul_eq_mul, sub_mul]
  have hx : ‖x‖ = 1 := by rw [← norm2_eq_l2]; exact hv
  have h1 : ∑ i, ‖b.repr x i‖ ^ 2 = 1 := by rw [← hsum x, hx, one_pow]
  have hrn : ‖r‖ = norm2 (A *ᵥ v - l • v) := (norm2_eq_l2 _).symm
  by_contra hc
  push Not at hc
  have hlt : ∀ i, norm2 (A *ᵥ v - l • v) ^ 2 < ‖l - (hA.eigenvalues i : ℂ)‖ ^ 2 := by
    intro i
    refine pow_lt_pow_left₀ (hc (hA.eigenvalues i) (b i).ofLp (fun h0 => ?_) ?_) (norm2_nonneg _) two_ne_zero
    · have h2 : b i = 0 := by
        ext p
        exact congrFun h0 p
      have h3 := b.orthonormal.1 i
      rw [h2, norm_zero] at h3
      exact zero_ne_one h3
    · rw [hA.mulVec_eigenvectorBasis i]
      funext p
      simp [Complex.real_smul, hb]
  have h2 : ∑ i, norm2 (A *ᵥ v - l • v) ^ 2 * ‖b.repr x i‖ ^ 2 < ∑ i, ‖l - (hA.eigenvalues i : ℂ)‖ ^ 2 * ‖b.repr x i‖ ^ 2 := by
    obtain ⟨i, hi⟩ : ∃ i, b.repr x i ≠ 0 := by
      by_contra hn
      push Not at hn
      simp [hn] at h1
    refine Finset.sum_lt_sum (fun i _ => mul_le_mul_of_nonneg_right (hlt i).le (sq_nonneg _)) ⟨i, Finset.mem_univ _, ?_⟩
    exact mul_lt_mul_of_pos_right (hlt i) (pow_pos (norm_pos_iff.2 hi) 2)
  rw [← Finset.mul_sum, h1, mul_one, ← hrn, hsum r] at h2
  refine h2.ne (Finset.sum_congr rfl fun i _ => ?_)
  rw [hr, norm_mul, mul_pow, norm_sub_rev]

/-- **C118.** The returned number is close to an eigenvalue: there is one within the residual of the guess. -/
theorem C118_eigenvalue {A : Matrix ι ι ℂ} (hA : A.IsHermitian) (g : ι → ℂ) (n : ℕ) (tol : ℝ)
    (solver : Matrix ι ι ℂ → (ι → ℂ) → Option (ι → ℂ)) (hsol : ∀ B b y, solver B b = some y → B *ᵥ y = b) (l : ℂ) (v : ι → ℂ)
    (h : rayleighQuotientIteration A g n tol solver = .ok (some (l, v))) :
    ∃ (lam : ℝ) (w : ι → ℂ), w ≠ 0 ∧ A *ᵥ w = (lam : ℂ) • w ∧ ‖l - lam‖ ≤ norm2 (A *ᵥ v - l • v) ∧
      ∀ m : ℂ, ‖l - lam‖ * norm2 g ≤ norm2 (A *ᵥ g - m • g) := by
  obtain ⟨hv, hm⟩ := C118_monotone hA g n tol solver hsol l v h
  obtain ⟨lam, w, hw, he, hn⟩ := eigenvalue_near hA l v hv
  exact ⟨lam, w, hw, he, hn, fun m => (mul_le_mul_of_nonneg_right hn (norm2_nonneg g)).trans (hm m)⟩

/-! ### Cubic convergence -/

/-- A simple eigenvalue `μ` of a Hermitian matrix with unit eigenvector `u`: on the orthogonal complement `A - μ` stretches by at least the
gap `γ` and at most the spread `s`. -/
structure Isolated (A : Matrix ι ι ℂ) (μ : ℝ) (u : ι → ℂ) (γ s : ℝ) : Prop where
  eig : A *ᵥ u = (μ : ℂ) • u
  unit : norm2 u = 1
  pos : 0 < γ
  le : γ ≤ s
  gap : ∀ w, star u ⬝ᵥ w = 0 → γ * norm2 w ≤ norm2 (A *ᵥ w - (μ : ℂ) • w)
  spread : ∀ w, star u ⬝ᵥ w = 0 → norm2 (A *ᵥ w - (μ : ℂ) • w) ≤ s * norm2 w

/-- The part of `v` orthogonal to the unit vector `u`. -/
noncomputable def offPart (u v : ι → ℂ) : ι → ℂ := v - (star u ⬝ᵥ v) • u

theorem offPart_orth {u : ι → ℂ} (hu : norm2 u = 1) (v : ι → ℂ) : star u ⬝ᵥ offPart u v = 0 := by
  rw [offPart, dotProduct_sub, dotProduct_smul, ← norm2_sq, hu]; simp

/-- The tangent of the angle between `v` and `u` is at most `t`. -/
def Angle (u v : ι → ℂ) (t : ℝ) : Prop := star u ⬝ᵥ v ≠ 0 ∧ norm2 (offPart u v) ≤ t * ‖star u ⬝ᵥ v‖

theorem angle_smul {u v : ι → ℂ} {t : ℝ} (h : Angle u v t) {c : ℂ} (hc : c ≠ 0) : Angle u (c • v) t := by
  have e : offPart u (c • v) = c • offPart u v := by
    rw [offPart, offPart, dotProduct_smul, smul_sub, smul_smul, smul_eq_mul]
  refine ⟨by rw [dotProduct_smul]; exact mul_ne_zero hc h.1, ?_⟩
  rw [e, norm2_smul, dotProduct_smul, smul_eq_mul, norm_mul]
  nlinarith [mul_le_mul_of_nonneg_left h.2 (norm_nonneg c)]

theorem angle_unit {u v : ι → ℂ} {t : ℝ} (h : Angle u v t) (hv : v ≠ 0) : Angle u (unit v) t :=
  angle_smul h (inv_ne_zero (by exact_mod_cast fun hh => hv ((norm2_eq_zero v).1 hh)))

variable {A : Matrix ι ι ℂ} {μ : ℝ} {u : ι → ℂ} {γ s : ℝ}

theorem off_shift (I : Isolated A μ u γ s) (l : ℂ) (v : ι → ℂ) :
    A *ᵥ offPart u v - l • offPart u v = (A *ᵥ v - l • v) - ((star u ⬝ᵥ v) * (μ - l)) • u := by
  rw [offPart, mulVec_sub, mulVec_smul, I.eig, smul_sub, smul_smul, smul_smul, mul_sub, sub_smul, mul_comm l]
  abel

/-- The error of the Rayleigh quotient is quadratic in the orthogonal part. -/
theorem rq_error (hA : A.IsHermitian) (I : Isolated A μ u γ s) (v : ι → ℂ) (hv : norm2 v = 1) :
    ‖rayleighQuotient A v - μ‖ ≤ s * norm2 (offPart u v) ^ 2 := by
  set w := offPart u v with hw
  have hμ : (starRingEnd ℂ) (μ : ℂ) = μ := conj_ofReal μ
  have h1 : rayleighQuotient A v - μ = star v ⬝ᵥ (A *ᵥ v - (μ : ℂ) • v) := by
    rw [dotProduct_sub, dotProduct_smul, ← norm2_sq, hv]; simp [rayleighQuotient]
  have h2 : A *ᵥ w - (μ : ℂ) • w = A *ᵥ v - (μ : ℂ) • v := by rw [hw, off_shift I]; simp
  have h3 : star u ⬝ᵥ (A *ᵥ w - (μ : ℂ) • w) = 0 := by rw [herm_shift hA hμ, I.eig]; simp
  have h4 : star v ⬝ᵥ (A *ᵥ w - (μ : ℂ) • w) = star w ⬝ᵥ (A *ᵥ w - (μ : ℂ) • w) := by
    have e : v = w + (star u ⬝ᵥ v) • u := by rw [hw, offPart]; abel
    conv_lhs => rw [e]
    rw [star_add, add_dotProduct, star_smul, smul_dotProduct, h3]; simp
  rw [h1, ← h2, h4]
  refine (norm_dot_le _ _).trans ?_
  have h5 := I.spread w (offPart_orth I.unit v)
  nlinarith [mul_le_mul_of_nonneg_left h5 (norm2_nonneg w)]

theorem off_le_one (I : Isolated A μ u γ s) {v : ι → ℂ} (hv : norm2 v = 1) {t : ℝ} (ht : 0 ≤ t) (h : Angle u v t) :
    norm2 (offPart u v) ≤ t := by
  refine h.2.trans ?_
  have := norm_dot_le u v
  rw [I.unit, hv, one_mul] at this
  nlinarith

/-- On the orthogonal complement the shifted operator still stretches by half the gap. -/
theorem gap_shift (I : Isolated A μ u γ s) {l : ℂ} (hl : ‖l - μ‖ ≤ γ / 2) (w : ι → ℂ) (hw : star u ⬝ᵥ w = 0) :
    γ / 2 * norm2 w ≤ norm2 (A *ᵥ w - l • w) := by
  have e : A *ᵥ w - l • w = (A *ᵥ w - (μ : ℂ) • w) - (l - μ) • w := by rw [sub_smul]; abel
  have h1 := norm2_sub_ge (A *ᵥ w - (μ : ℂ) • w) ((l - μ) • w)
  rw [← e, norm2_smul] at h1
  have h2 := I.gap w hw
  have h3 := mul_le_mul_of_nonneg_right hl (norm2_nonneg w)
  linarith

/-- One exact solve cubes the angle. -/
theorem angle_step (hA : A.IsHermitian) (I : Isolated A μ u γ s) {v y : ι → ℂ} (hv : norm2 v = 1) {t : ℝ} (ht : 0 ≤ t)
    (hst : 2 * s * t ^ 2 ≤ γ) (h : Angle u v t) (hy : A *ᵥ y - rayleighQuotient A v • y = v) :
    Angle u y (2 * s / γ * t ^ 3) := by
  set ρ := rayleighQuotient A v with hρ
  have hs : 0 < s := I.pos.trans_le I.le
  have hwt := off_le_one I hv ht h
  have hδ : ‖ρ - μ‖ ≤ s * t ^ 2 := (rq_error hA I v hv).trans
    (mul_le_mul_of_nonneg_left (pow_le_pow_left₀ (norm2_nonneg _) hwt 2) hs.le)
  have hδ2 : ‖ρ - μ‖ ≤ γ / 2 := by linarith
  have hb : (star u ⬝ᵥ y) * (μ - ρ) = star u ⬝ᵥ v := by
    have h1 := herm_shift hA (rq_real hA v) u y
    rw [← hρ, hy, I.eig, ← sub_smul, star_smul, smul_dotProduct] at h1
    have h2 : star ((μ : ℂ) - ρ) = μ - ρ := by
      have := rq_real hA v
      rw [starRingEnd_apply, ← hρ] at this
      rw [star_sub, this]
      congr 1
      exact conj_ofReal μ
    rw [h1, h2, smul_eq_mul, mul_comm]
  have hb0 : star u ⬝ᵥ y ≠ 0 := fun h0 => h.1 (by rw [← hb, h0, zero_mul])
  refine ⟨hb0, ?_⟩
  have hz : A *ᵥ offPart u y - ρ • offPart u y = offPart u v := by rw [off_shift I, hy, hb]; rfl
  have h1 := gap_shift I hδ2 (offPart u y) (offPart_orth I.unit y)
  rw [hz] at h1
  have h2 : ‖star u ⬝ᵥ v‖ ≤ ‖star u ⬝ᵥ y‖ * (s * t ^ 2) := by
    rw [← hb, norm_mul, norm_sub_rev (μ : ℂ) ρ]
    exact mul_le_mul_of_nonneg_left hδ (norm_nonneg _)
  have h3 : norm2 (offPart u v) ≤ t * (‖star u ⬝ᵥ y‖ * (s * t ^ 2)) := h.2.trans (mul_le_mul_of_nonneg_left h2 ht)
  have hg := I.pos
  rw [div_mul_eq_mul_div, div_mul_eq_mul_div, le_div_iff₀ hg]
  nlinarith

/-- The bound after `n` solves: `κ tan θ_n ≤ (κ tan θ_0)^(3^n)`. -/
noncomputable def cubicBound (κ t : ℝ) (n : ℕ) : ℝ := (κ * t) ^ 3 ^ n / κ

theorem cubicBound_step {κ t : ℝ} (hκ : κ ≠ 0) (n : ℕ) : κ ^ 2 * cubicBound κ t n ^ 3 = cubicBound κ t (n + 1) := by
  unfold cubicBound
  rw [pow_succ 3 n, pow_mul]
  field_simp

/-- What the loop returns near an isolated eigenvalue. -/
theorem rqiLoop_cubic (hA : A.IsHermitian) (I : Isolated A μ u γ s) (tol : ℝ) (solver : Matrix ι ι ℂ → (ι → ℂ) → Option (ι → ℂ))
    (hsol : ∀ B b y, solver B b = some y → B *ᵥ y = b) {κ : ℝ} (hκ : 0 < κ) (hκ2 : κ ^ 2 = 2 * s / γ) {t : ℝ} (ht : 0 ≤ t)
    (hκt : κ * t ≤ 1) (l : ℂ) (v : ι → ℂ) (n : ℕ) :
    ∀ (j : ℕ) (x : ι → ℂ) (l₀ : Option ℂ), norm2 x = 1 → Angle u x (cubicBound κ t j) →
      rqiLoop A tol solver (n + 1) x l₀ = .ok (some (l, v)) →
      (norm2 (offPart u v) ≤ 2 * tol / γ ∧ ‖l - μ‖ ≤ s * (2 * tol / γ) ^ 2) ∨
      (Angle u v (cubicBound κ t (j + n + 1)) ∧ ‖l - μ‖ ≤ s * cubicBound κ t (j + n) ^ 2) := by
  have hs : 0 < s := I.pos.trans_le I.le
  have hγ := I.pos
  have hT0 : ∀ j, 0 ≤ cubicBound κ t j := fun j => by unfold cubicBound; positivity
  have hT : ∀ j, 2 * s * cubicBound κ t j ^ 2 ≤ γ := by
    intro j
    have h1 : (κ * t) ^ 3 ^ j ≤ 1 := pow_le_one₀ (by positivity) hκt
    have h2 : κ * cubicBound κ t j = (κ * t) ^ 3 ^ j := by unfold cubicBound; field_simp
    have h3 : κ ^ 2 * cubicBound κ t j ^ 2 ≤ 1 := by
      rw [← mul_pow, h2]; exact pow_le_one₀ (by positivity) h1
    rw [hκ2, div_mul_eq_mul_div, div_le_one hγ] at h3
    exact h3
  have herr : ∀ j (x : ι → ℂ), norm2 x = 1 → Angle u x (cubicBound κ t j) →
      ‖rayleighQuotient A x - μ‖ ≤ s * cubicBound κ t j ^ 2 := fun j x hx ha =>
    (rq_error hA I x hx).trans (mul_le_mul_of_nonneg_left (pow_le_pow_left₀ (norm2_nonneg _) (off_le_one I hx (hT0 j) ha) 2) hs.le)
  have hstop : ∀ j (x : ι → ℂ), norm2 x = 1 → Angle u x (cubicBound κ t j) →
      norm2 (A *ᵥ x - rayleighQuotient A x • x) < tol →
      norm2 (offPart u x) ≤ 2 * tol / γ ∧ ‖rayleighQuotient A x - μ‖ ≤ s * (2 * tol / γ) ^ 2 := by
    intro j x hx ha hr
    have hδ : ‖rayleighQuotient A x - μ‖ ≤ γ / 2 := by linarith [herr j x hx ha, hT j]
    have h1 := gap_shift I hδ (offPart u x) (offPart_orth I.unit x)
    have horth : star (A *ᵥ offPart u x - rayleighQuotient A x • offPart u x) ⬝ᵥ
        (((star u ⬝ᵥ x) * (μ - rayleighQuotient A x)) • u) = 0 := by
      rw [dotProduct_smul, ← herm_shift hA (rq_real hA x), I.eig, ← sub_smul, dotProduct_smul, dot_conj (offPart u x) u, offPart_orth I.unit]
      simp
    have h2 := norm2_pyth horth
    rw [off_shift I, sub_add_cancel] at h2
    have h3 : norm2 (A *ᵥ offPart u x - rayleighQuotient A x • offPart u x) ≤ norm2 (A *ᵥ x - rayleighQuotient A x • x) := by
      rw [off_shift I]
      refine le_of_sq_le_sq ?_ (norm2_nonneg _)
      rw [h2]; nlinarith [sq_nonneg (norm2 (((star u ⬝ᵥ x) * (μ - rayleighQuotient A x)) • u))]
    have h4 : norm2 (offPart u x) ≤ 2 * tol / γ := by rw [le_div_iff₀ hγ]; linarith
    exact ⟨h4, (rq_error hA I x hx).trans (mul_le_mul_of_nonneg_left (pow_le_pow_left₀ (norm2_nonneg _) h4 2) hs.le)⟩
  have hsolve : ∀ j (x y : ι → ℂ), norm2 x = 1 → Angle u x (cubicBound κ t j) → y ≠ 0 →
      solver (A - rayleighQuotient A x • (1 : Matrix ι ι ℂ)) x = some y → Angle u (unit y) (cubicBound κ t (j + 1)) := by
    intro j x y hx ha hy0 hs
    refine angle_unit ?_ hy0
    have := angle_step hA I hx (hT0 j) (hT j) ha (solve_eq (hsol _ _ _ hs))
    rwa [← hκ2, cubicBound_step hκ.ne'] at this
  induction n with
  | zero =>
    intro j x l₀ hx ha h
    rw [rqiLoop] at h
    split_ifs at h with hr
    · obtain ⟨rfl, rfl⟩ := Prod.mk.injEq .. ▸ Option.some.inj (Except.ok.inj h)
      exact .inl (hstop j x hx ha hr)
    · rcases hs : solver (A - rayleighQuotient A x • (1 : Matrix ι ι ℂ)) x with _ | y
      · rw [hs] at h; simp at h
      · rw [hs, Option.bind_some] at h
        by_cases hy : norm2 y = 0
        · rw [hy, divBy_zero] at h; simp at h
        · rw [divBy_eq y hy] at h
          simp only [rqiLoop] at h
          obtain ⟨rfl, rfl⟩ := Prod.mk.injEq .. ▸ Option.some.inj (Except.ok.inj h)
          have hy0 : y ≠ 0 := fun hh => hy ((norm2_eq_zero y).2 hh)
          exact .inr ⟨hsolve j x y hx ha hy0 hs, herr j x hx ha⟩
  | succ n ih =>
    intro j x l₀ hx ha h
    rw [rqiLoop] at h
    split_ifs at h with hr
    · obtain ⟨rfl, rfl⟩ := Prod.mk.injEq .. ▸ Option.some.inj (Except.ok.inj h)
      exact .inl (hstop j x hx ha hr)
    · rcases hs : solver (A - rayleighQuotient A x • (1 : Matrix ι ι ℂ)) x with _ | y
      · rw [hs] at h; simp at h
      · rw [hs, Option.bind_some] at h
        by_cases hy : norm2 y = 0
        · rw [hy, divBy_zero] at h; simp at h
        · rw [divBy_eq y hy] at h
          have hy0 : y ≠ 0 := fun hh => hy ((norm2_eq_zero y).2 hh)
          have := ih (j + 1) _ _ (norm2_unit hy0) (hsolve j x y hx ha hy0 hs) h
          rwa [show j + 1 + n = j + (n + 1) by ring] at this

/-- **C118.** Cubic convergence. Let the guess make an angle with tangent at most `t` with the eigenvector of an isolated eigenvalue `μ` and
`κ t ≤ 1`, `κ² = 2 s/γ`. Then a call with `n + 1` iterations either stops at a pair that the tolerance makes accurate, or returns a vector
at an angle of at most `(κ t)^(3^(n+1))/κ` and a number that is off by at most `s ((κ t)^(3^n)/κ)²`. -/
theorem C118_cubic (hA : A.IsHermitian) (I : Isolated A μ u γ s) (g : ι → ℂ) (n : ℕ) (tol : ℝ)
    (solver : Matrix ι ι ℂ → (ι → ℂ) → Option (ι → ℂ)) (hsol : ∀ B b y, solver B b = some y → B *ᵥ y = b) {t : ℝ} (ht : 0 ≤ t)
    (hg : Angle u g t) (hκt : Real.sqrt (2 * s / γ) * t ≤ 1) (l : ℂ) (v : ι → ℂ)
    (h : rayleighQuotientIteration A g (n + 1) tol solver = .ok (some (l, v))) :
    (norm2 (offPart u v) ≤ 2 * tol / γ ∧ ‖l - μ‖ ≤ s * (2 * tol / γ) ^ 2) ∨
    (norm2 (offPart u v) ≤ (Real.sqrt (2 * s / γ) * t) ^ 3 ^ (n + 1) / Real.sqrt (2 * s / γ) * ‖star u ⬝ᵥ v‖ ∧
      ‖l - μ‖ ≤ s * ((Real.sqrt (2 * s / γ) * t) ^ 3 ^ n / Real.sqrt (2 * s / γ)) ^ 2) := by
  obtain ⟨hg0, m, hm, hl⟩ := rqi_loop h
  obtain rfl : n = m := by omega
  have hs : 0 < s := I.pos.trans_le I.le
  have hγ := I.pos
  have hκ : 0 < Real.sqrt (2 * s / γ) := Real.sqrt_pos.mpr (by positivity)
  have ha : Angle u (unit g) (cubicBound (Real.sqrt (2 * s / γ)) t 0) := by
    have e : cubicBound (Real.sqrt (2 * s / γ)) t 0 = t := by unfold cubicBound; rw [pow_zero, pow_one]; field_simp
    rw [e]; exact angle_unit hg hg0
  rcases rqiLoop_cubic hA I tol solver hsol hκ (Real.sq_sqrt (by positivity)) ht hκt l v n 0 (unit g) none (norm2_unit hg0) ha hl with h1 | h1
  · exact .inl h1
  · rw [Nat.zero_add] at h1
    exact .inr ⟨h1.1.2, h1.2⟩

/-- The hypotheses of `C118_cubic`: eigenvalues 0 and 1, a guess at an angle of tangent 1/2. -/
example : (!![0, 0; 0, 1] : Matrix (Fin 2) (Fin 2) ℂ).IsHermitian ∧ Isolated !![0, 0; 0, 1] 0 ![1, 0] 1 1 ∧ Angle ![1, 0] ![2, 1] (1 / 2) ∧
    Real.sqrt (2 * 1 / 1) * (1 / 2) ≤ 1 := by
  have hw : ∀ w : Fin 2 → ℂ, star ![1, 0] ⬝ᵥ w = 0 → !![0, 0; 0, 1] *ᵥ w - ((0 : ℝ) : ℂ) • w = w := by
    intro w h
    have h0 : w 0 = 0 := by simpa [dotProduct, Fin.sum_univ_two] using h
    funext i
    fin_cases i <;> simp [mulVec, dotProduct, Fin.sum_univ_two, h0]
  refine ⟨?_, ⟨?_, ?_, one_pos, le_rfl, fun w h => ?_, fun w h => ?_⟩, ⟨?_, ?_⟩, ?_⟩
  · ext i j; fin_cases i <;> fin_cases j <;> simp [conjTranspose]
  · funext i; fin_cases i <;> simp [mulVec, dotProduct, Fin.sum_univ_two]
  · simp [norm2, Fin.sum_univ_two]
  · rw [hw w h, one_mul]
  · rw [hw w h, one_mul]
  · simp [dotProduct, Fin.sum_univ_two]
  · simp [offPart, norm2, dotProduct, Fin.sum_univ_two]
  · have : Real.sqrt (2 * 1 / 1) ≤ 2 := by
      rw [Real.sqrt_le_left (by norm_num)]; norm_num
    linarith

/-- **C118, the hypothesis is needed.** On an operator that is not Hermitian an exact step can make the pair worse: here the residual grows
from 1 to 2. -/
theorem C118_not_hermitian : ∃ (A : Matrix (Fin 2) (Fin 2) ℂ) (g v : Fin 2 → ℂ) (l : ℂ)
    (solver : Matrix (Fin 2) (Fin 2) ℂ → (Fin 2 → ℂ) → Option (Fin 2 → ℂ)), (∀ B b y, solver B b = some y → B *ᵥ y = b) ∧
    rayleighQuotientIteration A g 1 0 solver = .ok (some (l, v)) ∧ norm2 g = 1 ∧
    norm2 (A *ᵥ g - rayleighQuotient A g • g) = 1 ∧ norm2 (A *ᵥ v - l • v) = 2 := by
  classical
  let A : Matrix (Fin 2) (Fin 2) ℂ := !![0, 2; 1, 0]
  let solver : Matrix (Fin 2) (Fin 2) ℂ → (Fin 2 → ℂ) → Option (Fin 2 → ℂ) := fun B b =>
    if B = A ∧ b = ![1, 0] then some ![0, 1 / 2] else none
  have hg : norm2 ![(1 : ℂ), 0] = 1 := by simp [norm2, Fin.sum_univ_two]
  have hr : rayleighQuotient A ![1, 0] = 0 := by simp [rayleighQuotient, A, mulVec, dotProduct, Fin.sum_univ_two]
  have hy : norm2 ![(0 : ℂ), 1 / 2] = 1 / 2 := by simp [norm2, Fin.sum_univ_two]
  refine ⟨A, ![1, 0], ![0, 1], 0, solver, ?_, ?_, hg, ?_, ?_⟩
  · intro B b y h
    simp only [solver] at h
    split_ifs at h with hc
    obtain ⟨rfl, rfl⟩ := hc
    obtain rfl := Option.some.inj h
    funext i; fin_cases i <;> simp [A, mulVec, dotProduct, Fin.sum_univ_two]
  · have hd : divBy ![(1 : ℂ), 0] 1 = some ![1, 0] := by
      rw [divBy_eq _ one_ne_zero]; congr 1; simp
    have hd' : divBy ![(0 : ℂ), 1 / 2] (1 / 2) = some ![0, 1] := by
      rw [divBy_eq _ (by norm_num)]; congr 1; funext i; fin_cases i <;> simp
    rw [rayleighQuotientIteration, hg, hd]
    show rqiLoop A 0 solver 1 ![1, 0] none = _
    rw [rqiLoop, hr, if_neg (not_lt.2 (norm2_nonneg _))]
    have hs : solver (A - (0 : ℂ) • (1 : Matrix (Fin 2) (Fin 2) ℂ)) ![1, 0] = some ![0, 1 / 2] := by simp [solver]
    rw [hs, Option.bind_some, hy, hd']
    rfl
  · rw [hr]; simp [A, norm2, mulVec, dotProduct, Fin.sum_univ_two]
  · simp [A, norm2, mulVec, dotProduct, Fin.sum_univ_two]

end Meanas.Props
