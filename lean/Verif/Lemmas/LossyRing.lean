/-
Two fields on the cells of a ring, each updated from differences of the other one and damped: the lossy leapfrog in one dimension. Everything
here is about this small system; Props/CpmlLossy shows that it is what `updates_with_cpml` computes.
-/
import Mathlib.Algebra.BigOperators.Field
import Mathlib.Algebra.Order.BigOperators.Group.Finset
import Mathlib.Analysis.Normed.Group.Constructions
import Mathlib.Analysis.Normed.Ring.Lemmas
import Mathlib.Topology.MetricSpace.ProperSpace.Real
import Mathlib.Topology.Order.MonotoneConvergence
import Mathlib.Topology.Algebra.Monoid
import Mathlib.Analysis.Real.Sqrt
import Mathlib.Tactic.FieldSimp
import Mathlib.Tactic.LinearCombination
import Mathlib.Tactic.Linarith
import Mathlib.Tactic.Positivity
import Mathlib.Tactic.Ring

namespace Meanas.Ring

/-- Coefficients: `next` is the neighbour on the side of larger indices, `α`, `β` the media times cell widths over the time step, `1 + 2 g`
the factor by which `u` is damped in a step, `1 + 2 k` that for `v`. -/
structure Coef (ι : Type*) where
  /-- next cell -/
  next : Equiv.Perm ι
  /-- weight of `u` -/
  α : ι → ℝ
  /-- weight of `v` -/
  β : ι → ℝ
  /-- loss of `u` -/
  g : ι → ℝ
  /-- loss of `v` -/
  k : ι → ℝ
  /-- sign -/
  σ : ℝ

variable {ι : Type*} [Fintype ι]

/-- One step: `v` first, then `u` from the new `v`. -/
noncomputable def Coef.step (C : Coef ι) (s : (ι → ℝ) × (ι → ℝ)) : (ι → ℝ) × (ι → ℝ) :=
  let v : ι → ℝ := fun x => (s.2 x + C.σ * (s.1 (C.next x) - s.1 x) / C.β x) / (1 + 2 * C.k x)
  (fun x => (s.1 x + C.σ * (v x - v (C.next.symm x)) / C.α x) / (1 + 2 * C.g x), v)

/-- Energy. -/
noncomputable def Coef.energy (C : Coef ι) (s : (ι → ℝ) × (ι → ℝ)) : ℝ :=
  1 / 2 * ∑ x, ((1 + C.g x) * C.α x * s.1 x ^ 2 + (1 + C.k x) * C.β x * s.2 x ^ 2 + C.σ * s.2 x * (s.1 (C.next x) - s.1 x))

/-- Energy lost in the step from `s` to `t`. -/
noncomputable def Coef.loss (C : Coef ι) (s t : (ι → ℝ) × (ι → ℝ)) : ℝ :=
  1 / 2 * ∑ x, (C.g x * C.α x * (s.1 x + t.1 x) ^ 2 + C.k x * C.β x * (s.2 x + t.2 x) ^ 2)

/-- Admissible coefficients; `θ` is the Courant number. -/
structure Coef.Ok (C : Coef ι) (θ : ℝ) : Prop where
  α : ∀ x, 0 < C.α x
  β : ∀ x, 0 < C.β x
  g : ∀ x, 0 ≤ C.g x
  k : ∀ x, 0 ≤ C.k x
  σ : C.σ ^ 2 = 1
  θ0 : 0 ≤ θ
  here : ∀ x, 1 ≤ θ ^ 2 * (C.α x * C.β x)
  there : ∀ x, 1 ≤ θ ^ 2 * (C.α (C.next x) * C.β x)

omit [Fintype ι] in
/-- `step` in the form of the scheme. -/
theorem step_eq {C : Coef ι} {θ : ℝ} (hC : C.Ok θ) (s : (ι → ℝ) × (ι → ℝ)) :
    (∀ x, C.β x * ((1 + 2 * C.k x) * (C.step s).2 x - s.2 x) = C.σ * (s.1 (C.next x) - s.1 x)) ∧
    ∀ x, C.α x * ((1 + 2 * C.g x) * (C.step s).1 x - s.1 x) = C.σ * ((C.step s).2 x - (C.step s).2 (C.next.symm x)) := by
  constructor
  · intro x
    have h1 : 1 + 2 * C.k x ≠ 0 := by have := hC.k x; positivity
    have h2 := (hC.β x).ne'
    simp only [Coef.step]; field_simp; ring
  · intro x
    have h1 : 1 + 2 * C.g x ≠ 0 := by have := hC.g x; positivity
    have h2 := (hC.α x).ne'
    have e : (C.step s).1 x = (s.1 x + C.σ * ((C.step s).2 x - (C.step s).2 (C.next.symm x)) / C.α x) / (1 + 2 * C.g x) := rfl
    rw [e]; field_simp; ring

/-- Summation by parts. -/
theorem parts (C : Coef ι) (u v : ι → ℝ) : ∑ x, u x * (v x - v (C.next.symm x)) = -∑ x, v x * (u (C.next x) - u x) := by
  have e : ∑ x, u x * v (C.next.symm x) = ∑ x, v x * u (C.next x) := by
    rw [← Equiv.sum_comp C.next]
    exact Finset.sum_congr rfl fun x _ => by rw [Equiv.symm_apply_apply]; ring
  simp only [mul_sub, Finset.sum_sub_distrib, e]
  have e2 : ∑ x, u x * v x = ∑ x, v x * u x := Finset.sum_congr rfl fun x _ => mul_comm _ _
  rw [e2]; ring

/-- The energy changes by the losses only. -/
theorem energy_step {C : Coef ι} {θ : ℝ} (hC : C.Ok θ) (s : (ι → ℝ) × (ι → ℝ)) :
    C.energy (C.step s) = C.energy s - C.loss s (C.step s) := by
  obtain ⟨h1, h2⟩ := step_eq hC s
  have p1 := parts C (C.step s).1 (C.step s).2
  have p2 := parts C s.1 (C.step s).2
  generalize C.step s = t at *
  have key : ∑ x, ((1 + C.g x) * C.α x * t.1 x ^ 2 + (1 + C.k x) * C.β x * t.2 x ^ 2 + C.σ * t.2 x * (t.1 (C.next x) - t.1 x))
      - ∑ x, ((1 + C.g x) * C.α x * s.1 x ^ 2 + (1 + C.k x) * C.β x * s.2 x ^ 2 + C.σ * s.2 x * (s.1 (C.next x) - s.1 x))
      + ∑ x, (C.g x * C.α x * (s.1 x + t.1 x) ^ 2 + C.k x * C.β x * (s.2 x + t.2 x) ^ 2)
      = C.σ * (∑ x, t.1 x * (t.2 x - t.2 (C.next.symm x)) + ∑ x, t.2 x * (t.1 (C.next x) - t.1 x))
        + C.σ * (∑ x, s.1 x * (t.2 x - t.2 (C.next.symm x)) + ∑ x, t.2 x * (s.1 (C.next x) - s.1 x)) := by
    simp only [← Finset.sum_add_distrib, ← Finset.sum_sub_distrib, Finset.mul_sum]
    refine Finset.sum_congr rfl fun x _ => ?_
    linear_combination (s.2 x + t.2 x) * h1 x + (s.1 x + t.1 x) * h2 x
  rw [p1, p2] at key
  unfold Coef.energy Coef.loss
  linarith

theorem loss_nonneg {C : Coef ι} {θ : ℝ} (hC : C.Ok θ) (s t : (ι → ℝ) × (ι → ℝ)) : 0 ≤ C.loss s t := by
  unfold Coef.loss
  refine mul_nonneg (by norm_num) (Finset.sum_nonneg fun x _ => ?_)
  have := hC.g x; have := hC.k x; have := (hC.α x).le; have := (hC.β x).le
  positivity

/-- The fields squared, weighted. -/
noncomputable def Coef.sq (C : Coef ι) (s : (ι → ℝ) × (ι → ℝ)) : ℝ := ∑ x, (C.α x * s.1 x ^ 2 + C.β x * s.2 x ^ 2)

theorem cross_le {a b p q θ : ℝ} (ha : 0 < a) (hb : 0 < b) (hθ : 0 ≤ θ) (h : 1 ≤ θ ^ 2 * (a * b)) : 2 * |p * q| ≤ θ * (a * p ^ 2 + b * q ^ 2) := by
  have h1 : |p * q| ^ 2 = p ^ 2 * q ^ 2 := by rw [sq_abs]; ring
  have h2 : (2 * |p * q|) ^ 2 ≤ (θ * (a * p ^ 2 + b * q ^ 2)) ^ 2 := by
    have h3 : 0 ≤ (θ * (a * p ^ 2 - b * q ^ 2)) ^ 2 := sq_nonneg _
    have h4 : 0 ≤ (θ ^ 2 * (a * b) - 1) * (p ^ 2 * q ^ 2) := mul_nonneg (by linarith) (by positivity)
    have e1 : (2 * |p * q|) ^ 2 = 4 * (p ^ 2 * q ^ 2) := by rw [mul_pow, h1]; ring
    rw [e1]; nlinarith
  exact abs_le_of_sq_le_sq' h2 (by positivity) |>.2

/-- Below the Courant limit the energy dominates the squared fields. -/
theorem energy_ge {C : Coef ι} {θ : ℝ} (hC : C.Ok θ) (s : (ι → ℝ) × (ι → ℝ)) : (1 - θ) / 2 * C.sq s ≤ C.energy s := by
  have h1 : ∀ x, 2 * |s.1 x * s.2 x| ≤ θ * (C.α x * s.1 x ^ 2 + C.β x * s.2 x ^ 2) := fun x =>
    cross_le (hC.α x) (hC.β x) hC.θ0 (hC.here x)
  have h2 : ∀ x, 2 * |s.1 (C.next x) * s.2 x| ≤ θ * (C.α (C.next x) * s.1 (C.next x) ^ 2 + C.β x * s.2 x ^ 2) := fun x =>
    cross_le (hC.α _) (hC.β x) hC.θ0 (hC.there x)
  have hσ : |C.σ| = 1 := by rw [← sq_eq_sq₀ (abs_nonneg _) (by norm_num), sq_abs, hC.σ]; norm_num
  have h3 : ∀ x, -(|s.1 (C.next x) * s.2 x| + |s.1 x * s.2 x|) ≤ C.σ * s.2 x * (s.1 (C.next x) - s.1 x) := by
    intro x
    refine neg_le_of_abs_le ?_
    have e : C.σ * s.2 x * (s.1 (C.next x) - s.1 x) = C.σ * (s.1 (C.next x) * s.2 x - s.1 x * s.2 x) := by ring
    rw [e, abs_mul, hσ, one_mul]
    exact abs_sub _ _
  have e : ∑ x, C.α (C.next x) * s.1 (C.next x) ^ 2 = ∑ x, C.α x * s.1 x ^ 2 := Equiv.sum_comp C.next fun x => C.α x * s.1 x ^ 2
  have h4 : ∑ x, ((C.α x * s.1 x ^ 2 + C.β x * s.2 x ^ 2)
      - θ / 2 * (C.α (C.next x) * s.1 (C.next x) ^ 2 + C.β x * s.2 x ^ 2) - θ / 2 * (C.α x * s.1 x ^ 2 + C.β x * s.2 x ^ 2)) ≤
      ∑ x, ((1 + C.g x) * C.α x * s.1 x ^ 2 + (1 + C.k x) * C.β x * s.2 x ^ 2 + C.σ * s.2 x * (s.1 (C.next x) - s.1 x)) := by
    refine Finset.sum_le_sum fun x _ => ?_
    have q1 : 0 ≤ C.g x * C.α x * s.1 x ^ 2 := mul_nonneg (mul_nonneg (hC.g x) (hC.α x).le) (sq_nonneg _)
    have q2 : 0 ≤ C.k x * C.β x * s.2 x ^ 2 := mul_nonneg (mul_nonneg (hC.k x) (hC.β x).le) (sq_nonneg _)
    have := h1 x; have := h2 x; have := h3 x
    nlinarith
  have h5 : ∑ x, ((C.α x * s.1 x ^ 2 + C.β x * s.2 x ^ 2)
      - θ / 2 * (C.α (C.next x) * s.1 (C.next x) ^ 2 + C.β x * s.2 x ^ 2) - θ / 2 * (C.α x * s.1 x ^ 2 + C.β x * s.2 x ^ 2)) = (1 - θ) * C.sq s := by
    unfold Coef.sq
    simp only [Finset.sum_sub_distrib, ← Finset.mul_sum, Finset.sum_add_distrib]
    rw [e]; ring
  unfold Coef.energy
  rw [h5] at h4
  linarith

/-- And is dominated by them if the fields vanish where there are losses. -/
theorem energy_le {C : Coef ι} {θ : ℝ} (hC : C.Ok θ) (s : (ι → ℝ) × (ι → ℝ)) (hs : ∀ x, (C.g x = 0 ∨ s.1 x = 0) ∧ (C.k x = 0 ∨ s.2 x = 0)) :
    C.energy s ≤ (1 + θ) / 2 * C.sq s := by
  have h1 : ∀ x, 2 * |s.1 x * s.2 x| ≤ θ * (C.α x * s.1 x ^ 2 + C.β x * s.2 x ^ 2) := fun x =>
    cross_le (hC.α x) (hC.β x) hC.θ0 (hC.here x)
  have h2 : ∀ x, 2 * |s.1 (C.next x) * s.2 x| ≤ θ * (C.α (C.next x) * s.1 (C.next x) ^ 2 + C.β x * s.2 x ^ 2) := fun x =>
    cross_le (hC.α _) (hC.β x) hC.θ0 (hC.there x)
  have hσ : |C.σ| = 1 := by rw [← sq_eq_sq₀ (abs_nonneg _) (by norm_num), sq_abs, hC.σ]; norm_num
  have h3 : ∀ x, C.σ * s.2 x * (s.1 (C.next x) - s.1 x) ≤ |s.1 (C.next x) * s.2 x| + |s.1 x * s.2 x| := by
    intro x
    refine le_trans (le_abs_self _) ?_
    have e : C.σ * s.2 x * (s.1 (C.next x) - s.1 x) = C.σ * (s.1 (C.next x) * s.2 x - s.1 x * s.2 x) := by ring
    rw [e, abs_mul, hσ, one_mul]
    exact abs_sub _ _
  have e : ∑ x, C.α (C.next x) * s.1 (C.next x) ^ 2 = ∑ x, C.α x * s.1 x ^ 2 := Equiv.sum_comp C.next fun x => C.α x * s.1 x ^ 2
  have h4 : ∑ x, ((1 + C.g x) * C.α x * s.1 x ^ 2 + (1 + C.k x) * C.β x * s.2 x ^ 2 + C.σ * s.2 x * (s.1 (C.next x) - s.1 x)) ≤
      ∑ x, ((C.α x * s.1 x ^ 2 + C.β x * s.2 x ^ 2)
      + θ / 2 * (C.α (C.next x) * s.1 (C.next x) ^ 2 + C.β x * s.2 x ^ 2) + θ / 2 * (C.α x * s.1 x ^ 2 + C.β x * s.2 x ^ 2)) := by
    refine Finset.sum_le_sum fun x _ => ?_
    have q1 : C.g x * s.1 x = 0 := mul_eq_zero.2 (hs x).1
    have q2 : C.k x * s.2 x = 0 := mul_eq_zero.2 (hs x).2
    have e1 : (1 + C.g x) * C.α x * s.1 x ^ 2 = C.α x * s.1 x ^ 2 := by linear_combination C.α x * s.1 x * q1
    have e2 : (1 + C.k x) * C.β x * s.2 x ^ 2 = C.β x * s.2 x ^ 2 := by linear_combination C.β x * s.2 x * q2
    have := h1 x; have := h2 x; have := h3 x
    rw [e1, e2]
    linarith
  have h5 : ∑ x, ((C.α x * s.1 x ^ 2 + C.β x * s.2 x ^ 2)
      + θ / 2 * (C.α (C.next x) * s.1 (C.next x) ^ 2 + C.β x * s.2 x ^ 2) + θ / 2 * (C.α x * s.1 x ^ 2 + C.β x * s.2 x ^ 2)) = (1 + θ) * C.sq s := by
    unfold Coef.sq
    simp only [← Finset.mul_sum, Finset.sum_add_distrib]
    rw [e]; ring
  unfold Coef.energy
  rw [h5] at h4
  linarith

/-- The energy after `n` steps is the initial one less what was lost. -/
theorem energy_iter {C : Coef ι} {θ : ℝ} (hC : C.Ok θ) (s : (ι → ℝ) × (ι → ℝ)) (n : ℕ) :
    C.energy (C.step^[n] s) = C.energy s - ∑ m ∈ Finset.range n, C.loss (C.step^[m] s) (C.step^[m + 1] s) := by
  induction n with
  | zero => simp
  | succ n ih =>
    rw [Function.iterate_succ_apply', energy_step hC, ih, Finset.sum_range_succ, Function.iterate_succ_apply' _ n]
    ring

omit [Fintype ι] in
theorem continuous_step (C : Coef ι) : Continuous C.step := by
  have h1 : ∀ y, Continuous fun s : (ι → ℝ) × (ι → ℝ) => s.1 y := fun y => (continuous_apply y).comp continuous_fst
  have h2 : ∀ y, Continuous fun s : (ι → ℝ) × (ι → ℝ) => s.2 y := fun y => (continuous_apply y).comp continuous_snd
  have hv : ∀ x, Continuous fun s => (C.step s).2 x := fun x =>
    (((h2 x).add (((h1 _).sub (h1 x)).const_mul _ |>.div_const _))).div_const _
  refine Continuous.prodMk (continuous_pi fun x => ?_) (continuous_pi hv)
  exact ((h1 x).add ((((hv x).sub (hv _)).const_mul _).div_const _)).div_const _

theorem continuous_energy (C : Coef ι) : Continuous C.energy := by
  have h1 : ∀ y, Continuous fun s : (ι → ℝ) × (ι → ℝ) => s.1 y := fun y => (continuous_apply y).comp continuous_fst
  have h2 : ∀ y, Continuous fun s : (ι → ℝ) × (ι → ℝ) => s.2 y := fun y => (continuous_apply y).comp continuous_snd
  unfold Coef.energy
  refine (continuous_finsetSum _ fun x _ => ?_).const_mul _
  exact ((((h1 x).pow 2).const_mul _).add (((h2 x).pow 2).const_mul _)).add (((h2 x).const_mul _).mul ((h1 _).sub (h1 x)))

/-- If nothing is lost at any time although some cell is lossy for both fields, the state is zero: in that cell both fields alternate, so do
those of the next one, and so on around the ring; but fields alternating everywhere have no energy. -/
theorem zero_of_lossless {C : Coef ι} {θ : ℝ} (hC : C.Ok θ) (x₀ : ι) (hg : 0 < C.g x₀) (hk : 0 < C.k x₀)
    (hring : ∀ x, ∃ m : ℕ, x = C.next^[m] x₀) (s : (ι → ℝ) × (ι → ℝ)) (h : ∀ n, C.loss (C.step^[n] s) (C.step^[n + 1] s) = 0) : C.energy s = 0 := by
  have hloss : ∀ n x, C.g x * C.α x * ((C.step^[n] s).1 x + (C.step^[n + 1] s).1 x) ^ 2 = 0 ∧ C.k x * C.β x * ((C.step^[n] s).2 x + (C.step^[n + 1] s).2 x) ^ 2 = 0 := by
    intro n x
    have hn := h n
    unfold Coef.loss at hn
    have hp : ∀ y, 0 ≤ C.g y * C.α y * ((C.step^[n] s).1 y + (C.step^[n + 1] s).1 y) ^ 2 := fun y =>
      mul_nonneg (mul_nonneg (hC.g y) (hC.α y).le) (sq_nonneg _)
    have hq : ∀ y, 0 ≤ C.k y * C.β y * ((C.step^[n] s).2 y + (C.step^[n + 1] s).2 y) ^ 2 := fun y =>
      mul_nonneg (mul_nonneg (hC.k y) (hC.β y).le) (sq_nonneg _)
    have hs := (Finset.sum_eq_zero_iff_of_nonneg fun y _ => add_nonneg (hp y) (hq y)).1 (by linarith : _ = (0 : ℝ)) x (Finset.mem_univ x)
    have := hp x; have := hq x
    constructor <;> linarith
  have halt : ∀ m n : ℕ, m ≤ n → (C.step^[n + 1] s).1 (C.next^[m] x₀) = -(C.step^[n] s).1 (C.next^[m] x₀) ∧ (C.step^[n + 1] s).2 (C.next^[m] x₀) = -(C.step^[n] s).2 (C.next^[m] x₀) := by
    intro m
    induction m with
    | zero =>
      intro n _
      have e1 := (hloss n x₀).1
      have e2 := (hloss n x₀).2
      have hα := hC.α x₀; have hβ := hC.β x₀
      have f1 := pow_eq_zero_iff (two_ne_zero) |>.1 ((mul_eq_zero.1 e1).resolve_left (by positivity))
      have f2 := pow_eq_zero_iff (two_ne_zero) |>.1 ((mul_eq_zero.1 e2).resolve_left (by positivity))
      simp only [Function.iterate_zero, id_eq]
      constructor <;> linarith
    | succ m ih =>
      rw [Function.iterate_succ_apply']
      generalize C.next^[m] x₀ = x at ih
      have hs : C.σ * C.σ = 1 := by rw [← sq]; exact hC.σ
      -- `u` in the next cell from the update of `v` here
      have hu : ∀ n, m ≤ n → (C.step^[n + 1] s).1 (C.next x) = -(C.step^[n] s).1 (C.next x) := by
        intro n hn
        have a := (step_eq hC (C.step^[n] s)).1 x
        have b := (step_eq hC (C.step^[n + 1] s)).1 x
        rw [← Function.iterate_succ_apply' C.step] at a b
        rw [(ih (n + 1) (by omega)).2, (ih n hn).1, (ih n hn).2] at b
        rw [(ih n hn).2] at a
        linear_combination (-((C.step^[n + 1] s).1 (C.next x) + (C.step^[n] s).1 (C.next x))) * hs - C.σ * b - C.σ * a
      -- `v` in the next cell from the update of `u` there
      have hv : ∀ n, m ≤ n → (C.step^[n + 2] s).2 (C.next x) = -(C.step^[n + 1] s).2 (C.next x) := by
        intro n hn
        have a := (step_eq hC (C.step^[n] s)).2 (C.next x)
        have b := (step_eq hC (C.step^[n + 1] s)).2 (C.next x)
        rw [← Function.iterate_succ_apply' C.step, Equiv.symm_apply_apply] at a b
        rw [hu (n + 1) (by omega), hu n hn, (ih (n + 1) (by omega)).2] at b
        rw [hu n hn] at a
        have e : (C.step^[n + 1 + 1] s).2 (C.next x) = (C.step^[n + 2] s).2 (C.next x) := rfl
        rw [e] at b
        linear_combination (-((C.step^[n + 2] s).2 (C.next x) + (C.step^[n + 1] s).2 (C.next x))) * hs - C.σ * b - C.σ * a
      intro n hn
      obtain ⟨n, rfl⟩ : ∃ j, n = j + 1 := ⟨n - 1, by omega⟩
      exact ⟨hu _ (by omega), hv n (by omega)⟩
  choose m hm using hring
  let N := ∑ x, m x
  have hN : ∀ x, m x ≤ N := fun x => Finset.single_le_sum (fun y _ => Nat.zero_le _) (Finset.mem_univ x)
  have hE : C.energy s = C.energy (C.step^[N] s) := by
    rw [energy_iter hC, Finset.sum_eq_zero fun n _ => h n, sub_zero]
  rw [hE]
  have hall : ∀ x, (C.step (C.step^[N] s)).1 x = -(C.step^[N] s).1 x ∧ (C.step (C.step^[N] s)).2 x = -(C.step^[N] s).2 x := by
    intro x
    have := halt (m x) N (hN x)
    rw [← hm x, Function.iterate_succ_apply'] at this
    exact this
  obtain ⟨h1, h2⟩ := step_eq hC (C.step^[N] s)
  have hp := parts C (C.step^[N] s).1 (C.step^[N] s).2
  generalize C.step^[N] s = t at *
  have e1 : ∀ x, 2 * ((1 + C.k x) * C.β x * t.2 x ^ 2) = -(C.σ * t.2 x * (t.1 (C.next x) - t.1 x)) := by
    intro x
    have := h1 x
    rw [(hall x).2] at this
    linear_combination -t.2 x * this
  have e2 : ∀ x, 2 * ((1 + C.g x) * C.α x * t.1 x ^ 2) = C.σ * (t.1 x * (t.2 x - t.2 (C.next.symm x))) := by
    intro x
    have := h2 x
    rw [(hall x).1, (hall x).2, (hall (C.next.symm x)).2] at this
    linear_combination -t.1 x * this
  have s1 : 2 * ∑ x, (1 + C.k x) * C.β x * t.2 x ^ 2 = -(C.σ * ∑ x, t.2 x * (t.1 (C.next x) - t.1 x)) := by
    rw [Finset.mul_sum, Finset.mul_sum, ← Finset.sum_neg_distrib]
    exact Finset.sum_congr rfl fun x _ => by rw [e1]; ring
  have s2 : 2 * ∑ x, (1 + C.g x) * C.α x * t.1 x ^ 2 = -(C.σ * ∑ x, t.2 x * (t.1 (C.next x) - t.1 x)) := by
    rw [Finset.mul_sum, ← mul_neg, ← hp, Finset.mul_sum]
    exact Finset.sum_congr rfl fun x _ => e2 x
  have s3 : ∑ x, C.σ * t.2 x * (t.1 (C.next x) - t.1 x) = C.σ * ∑ x, t.2 x * (t.1 (C.next x) - t.1 x) := by
    rw [Finset.mul_sum]; exact Finset.sum_congr rfl fun x _ => by ring
  unfold Coef.energy
  rw [Finset.sum_add_distrib, Finset.sum_add_distrib, s3]
  linarith

/-- Every component of a state is bounded by its energy. -/
theorem norm_le {C : Coef ι} {θ : ℝ} (hC : C.Ok θ) (hθ : θ < 1) : ∃ K, ∀ s, ‖s‖ ^ 2 ≤ K * C.energy s := by
  let M := ∑ x, (1 / C.α x + 1 / C.β x)
  have hM : ∀ x, 1 / C.α x ≤ M ∧ 1 / C.β x ≤ M := by
    intro x
    have h0 : ∀ y ∈ Finset.univ, 0 ≤ 1 / C.α y + 1 / C.β y := fun y _ => by have := hC.α y; have := hC.β y; positivity
    have h1 := Finset.single_le_sum h0 (Finset.mem_univ x)
    have := one_div_pos.2 (hC.α x); have := one_div_pos.2 (hC.β x)
    constructor <;> linarith
  have hM0 : 0 ≤ M := Finset.sum_nonneg fun y _ => by have := hC.α y; have := hC.β y; positivity
  refine ⟨M * (2 / (1 - θ)), fun s => ?_⟩
  have hsq : C.sq s ≤ 2 / (1 - θ) * C.energy s := by
    have := energy_ge hC s
    have h1 : 0 < 1 - θ := by linarith
    calc C.sq s = 2 / (1 - θ) * ((1 - θ) / 2 * C.sq s) := by field_simp
      _ ≤ _ := mul_le_mul_of_nonneg_left this (by positivity)
  have hterm : ∀ y ∈ Finset.univ, 0 ≤ C.α y * s.1 y ^ 2 + C.β y * s.2 y ^ 2 := fun y _ => by have := hC.α y; have := hC.β y; positivity
  have hcomp : ∀ x, s.1 x ^ 2 ≤ M * C.sq s ∧ s.2 x ^ 2 ≤ M * C.sq s := by
    intro x
    have h1 := Finset.single_le_sum hterm (Finset.mem_univ x)
    have ha := hC.α x; have hb := hC.β x
    have h2 : C.α x * s.1 x ^ 2 ≤ C.sq s := le_trans (le_add_of_nonneg_right (by positivity)) h1
    have h3 : C.β x * s.2 x ^ 2 ≤ C.sq s := le_trans (le_add_of_nonneg_left (by positivity)) h1
    have h4 : 0 ≤ C.sq s := Finset.sum_nonneg hterm
    constructor
    · calc s.1 x ^ 2 = 1 / C.α x * (C.α x * s.1 x ^ 2) := by field_simp
        _ ≤ M * C.sq s := mul_le_mul (hM x).1 h2 (by positivity) hM0
    · calc s.2 x ^ 2 = 1 / C.β x * (C.β x * s.2 x ^ 2) := by field_simp
        _ ≤ M * C.sq s := mul_le_mul (hM x).2 h3 (by positivity) hM0
  have h0 : 0 ≤ M * C.sq s := mul_nonneg hM0 (Finset.sum_nonneg hterm)
  have hn : ‖s‖ ≤ Real.sqrt (M * C.sq s) := by
    rw [Prod.norm_def]
    refine max_le ((pi_norm_le_iff_of_nonneg (Real.sqrt_nonneg _)).2 fun x => ?_) ((pi_norm_le_iff_of_nonneg (Real.sqrt_nonneg _)).2 fun x => ?_)
    · exact Real.abs_le_sqrt (hcomp x).1
    · exact Real.abs_le_sqrt (hcomp x).2
  calc ‖s‖ ^ 2 ≤ M * C.sq s := by
        rw [← Real.sq_sqrt h0]; exact pow_le_pow_left₀ (norm_nonneg _) hn 2
    _ ≤ M * (2 / (1 - θ) * C.energy s) := mul_le_mul_of_nonneg_left hsq hM0
    _ = _ := by ring

/-- **Decay.** With a cell that is lossy for both fields every state decays to zero. -/
theorem decay {C : Coef ι} {θ : ℝ} (hC : C.Ok θ) (hθ : θ < 1) (x₀ : ι) (hg : 0 < C.g x₀) (hk : 0 < C.k x₀)
    (hring : ∀ x, ∃ m : ℕ, x = C.next^[m] x₀) (s : (ι → ℝ) × (ι → ℝ)) : Filter.Tendsto (fun n => C.step^[n] s) Filter.atTop (nhds 0) := by
  obtain ⟨K, hK⟩ := norm_le hC hθ
  have hanti : Antitone fun n => C.energy (C.step^[n] s) := antitone_nat_of_succ_le fun n => by
    rw [Function.iterate_succ_apply', energy_step hC]
    linarith [loss_nonneg hC (C.step^[n] s) (C.step (C.step^[n] s))]
  have hnn : ∀ t, 0 ≤ C.energy t := fun t => by
    refine le_trans (mul_nonneg (by linarith) ?_) (energy_ge hC t)
    exact Finset.sum_nonneg fun x _ => by have := (hC.α x).le; have := (hC.β x).le; positivity
  have hlim := tendsto_atTop_ciInf hanti ⟨0, by rintro _ ⟨n, rfl⟩; exact hnn _⟩
  set L := ⨅ n, C.energy (C.step^[n] s)
  -- a limit point
  have hb : ∀ n, C.step^[n] s ∈ Metric.closedBall (0 : (ι → ℝ) × (ι → ℝ)) (Real.sqrt (|K| * C.energy s)) := by
    intro n
    rw [mem_closedBall_zero_iff]
    refine Real.le_sqrt_of_sq_le ((hK _).trans ?_)
    refine (mul_le_mul_of_nonneg_right (le_abs_self K) (hnn _)).trans (mul_le_mul_of_nonneg_left ?_ (abs_nonneg _))
    have h := hanti (Nat.zero_le n)
    simp only [Function.iterate_zero, id_eq] at h
    exact h
  obtain ⟨t, _, φ, hφ, ht⟩ := (isCompact_closedBall _ _).tendsto_subseq hb
  have hconst : ∀ m, C.energy (C.step^[m] t) = L := by
    intro m
    have h1 : Filter.Tendsto (fun j => C.energy (C.step^[m] (C.step^[φ j] s))) Filter.atTop (nhds (C.energy (C.step^[m] t))) :=
      (((continuous_energy C).comp ((continuous_step C).iterate m)).tendsto t).comp ht
    have h2 : Filter.Tendsto (fun j => C.energy (C.step^[m] (C.step^[φ j] s))) Filter.atTop (nhds L) := by
      have hadd : Filter.Tendsto (fun j => m + φ j) Filter.atTop Filter.atTop :=
        Filter.tendsto_atTop_mono (fun j => Nat.le_add_left _ _) hφ.tendsto_atTop
      have e : (fun j => C.energy (C.step^[m] (C.step^[φ j] s))) = (fun n => C.energy (C.step^[n] s)) ∘ fun j => m + φ j := by
        funext j; simp only [Function.comp_apply, Function.iterate_add_apply]
      rw [e]
      exact hlim.comp hadd
    exact tendsto_nhds_unique h1 h2
  have hzero : C.energy t = 0 := zero_of_lossless hC x₀ hg hk hring t fun n => by
    have := energy_step hC (C.step^[n] t)
    rw [← Function.iterate_succ_apply' C.step, hconst, hconst] at this
    linarith
  have hL : L = 0 := (hconst 0).symm.trans hzero
  rw [hL] at hlim
  rw [tendsto_zero_iff_norm_tendsto_zero]
  have h2 : Filter.Tendsto (fun n => ‖C.step^[n] s‖ ^ 2) Filter.atTop (nhds 0) := by
    have h3 := hlim.const_mul K
    rw [mul_zero] at h3
    exact squeeze_zero (fun n => sq_nonneg _) (fun n => hK _) h3
  have h4 := h2.sqrt
  simpa [Real.sqrt_sq] using h4

end Meanas.Ring
