/-
C141: gradient of an FDTD measurement from one additional run.
-/
import Verif.Props.FdtdReciprocity
import Mathlib.Analysis.Calculus.Deriv.Slope
import Mathlib.Analysis.Calculus.Deriv.Mul
import Mathlib.Analysis.Calculus.Deriv.Linear
import Mathlib.Analysis.RCLike.Basic

namespace Meanas.Props

open Fdtd Spec

variable {sh : Fin 3 → ℕ}

section
variable {K : Type*} [Field K]

/-- What a probe records by step `N`: the electric field against `J'(N - n)` minus the magnetic field against `M'(N - n)`, weighted with the volumes. -/
def recorded (d : Dxes sh K) (J' M' : ℕ → VField sh K) (a : ℕ → State sh K) (N : ℕ) : K :=
  reaction (volE d.1 d.2) (fun n => (a n).e) J' N - reaction (volH d.1 d.2) (fun n => (a (n + 1)).h) M' N

/-- One half of the balance for runs in two different media. -/
theorem reaction_balance_media (S T : Sys sh K) (d : Dxes sh K) (hS : S.dxes = some d) (hT : T.dxes = some d) (hdt : T.dt = S.dt) (hE : Nonzero d.1)
    (hH : Nonzero d.2) (heps : ∀ c x, T.eps c x ≠ 0) (hmu : ∀ c x, muOr S.mu c x ≠ 0) (J1 M1 J2 M2 : ℕ → VField sh K) (N : ℕ) :
    let a : ℕ → State sh K := fun n => run S atRest (sourced S.dt J1 M1 n)
    let b : ℕ → State sh K := fun n => run T atRest (sourced T.dt J2 M2 n)
    S.dt * (reaction (volE d.1 d.2) (fun n => (a n).e) J2 N + reaction (volH d.1 d.2) M1 (fun n => (b (n + 1)).h) N)
      = ∑ c, ∑ x, (volE d.1 d.2 c x * T.eps c x
          * (convolve (fun n => (a n).e c x) (fun n => (b n).e c x) N - convolve (fun n => (a n).e c x) (fun n => (b n).e c x) (N + 1))
        + volH d.1 d.2 c x * muOr S.mu c x
          * (convolve (fun n => (a n).h c x) (fun n => (b n).h c x) (N + 1)
            - convolve (fun n => (a (n + 1)).h c x) (fun n => (b (n + 1)).h c x) N)) := by
  intro a b
  have hb0 : b 0 = atRest := rfl
  have fa : ∀ n c x, S.dt * (Functional.curlForward (some d.1) (a n).e c x) =
      -(muOr S.mu c x * ((a (n + 1)).h c x - (a n).h c x)) - S.dt * M1 n c x := by
    intro n c x
    have h := (sourced_step S d hS atRest J1 M1 n c x).1
    simp only [a]; rw [h]
    have := hmu c x
    field_simp
    ring
  have fb : ∀ n c x, S.dt * J2 n c x =
      S.dt * Functional.curlBack (some d.2) (b (n + 1)).h c x - T.eps c x * ((b (n + 1)).e c x - (b n).e c x) := by
    intro n c x
    have h := (sourced_step T d hT atRest J2 M2 n c x).2
    simp only [b]; rw [h, hdt]
    have := heps c x
    field_simp
    ring
  have key : S.dt * reaction (volE d.1 d.2) (fun n => (a n).e) J2 N
      = ∑ n ∈ Finset.range (N + 1), (∑ c, ∑ x, volH d.1 d.2 c x * ((b (n + 1)).h c x
            * (S.dt * Functional.curlForward (some d.1) (a (N - n)).e c x))
          - ∑ c, ∑ x, volE d.1 d.2 c x * T.eps c x * ((a (N - n)).e c x * ((b (n + 1)).e c x - (b n).e c x))) := by
    rw [reaction_eq, Finset.mul_sum]
    refine Finset.sum_congr rfl fun n _ => ?_
    have adj := C06_curl_adjoint_weighted d.1 d.2 hE hH (a (N - n)).e (b (n + 1)).h
    have e1 : ∑ c, ∑ x, volH d.1 d.2 c x * ((b (n + 1)).h c x * (S.dt * Functional.curlForward (some d.1) (a (N - n)).e c x))
        = S.dt * ∑ c, ∑ x, volE d.1 d.2 c x * ((a (N - n)).e c x * Functional.curlBack (some d.2) (b (n + 1)).h c x) := by
      rw [adj, Finset.mul_sum]
      refine Finset.sum_congr rfl fun c _ => ?_
      rw [Finset.mul_sum]
      exact Finset.sum_congr rfl fun x _ => by ring
    rw [e1, Finset.mul_sum, Finset.mul_sum, ← Finset.sum_sub_distrib]
    refine Finset.sum_congr rfl fun c _ => ?_
    rw [Finset.mul_sum, Finset.mul_sum, ← Finset.sum_sub_distrib]
    refine Finset.sum_congr rfl fun x _ => ?_
    linear_combination (volE d.1 d.2 c x * (a (N - n)).e c x) * fb n c x
  rw [mul_add, key, reaction_eq, Finset.mul_sum, ← Finset.sum_add_distrib]
  have step : ∀ n ∈ Finset.range (N + 1),
      ∑ c, ∑ x, volH d.1 d.2 c x * ((b (n + 1)).h c x * (S.dt * Functional.curlForward (some d.1) (a (N - n)).e c x))
          - ∑ c, ∑ x, volE d.1 d.2 c x * T.eps c x * ((a (N - n)).e c x * ((b (n + 1)).e c x - (b n).e c x))
          + S.dt * ∑ c, ∑ x, volH d.1 d.2 c x * (M1 (N - n) c x * (b (n + 1)).h c x)
        = ∑ c, ∑ x, (volE d.1 d.2 c x * T.eps c x * ((a (N - n)).e c x * (b n).e c x - (a (N - n)).e c x * (b (n + 1)).e c x)
          + volH d.1 d.2 c x * muOr S.mu c x * ((a (N - n)).h c x * (b (n + 1)).h c x - (a (N - n + 1)).h c x * (b (n + 1)).h c x)) := by
    intro n _
    rw [Finset.mul_sum, ← Finset.sum_sub_distrib, ← Finset.sum_add_distrib]
    refine Finset.sum_congr rfl fun c _ => ?_
    rw [Finset.mul_sum, ← Finset.sum_sub_distrib, ← Finset.sum_add_distrib]
    refine Finset.sum_congr rfl fun x _ => ?_
    rw [fa]; ring
  rw [Finset.sum_congr rfl step, Finset.sum_comm]
  refine Finset.sum_congr rfl fun c _ => ?_
  rw [Finset.sum_comm]
  refine Finset.sum_congr rfl fun x _ => ?_
  rw [← convolve_succ (fun n => (a n).e c x) (fun n => (b n).e c x) (by rw [hb0]; rfl),
    ← convolve_succ (fun n => (a n).h c x) (fun n => (b n).h c x) (by rw [hb0]; rfl)]
  simp only [convolve]
  rw [Finset.sum_add_distrib, ← Finset.mul_sum, ← Finset.mul_sum, Finset.sum_sub_distrib, Finset.sum_sub_distrib]

/-- The time derivative of the first record against the second, run backwards. -/
theorem convolve_diff_e (a b : ℕ → K) (ha : a 0 = 0) (N : ℕ) :
    convolve a b (N + 1) - convolve a b N = ∑ n ∈ Finset.range (N + 1), (a (n + 1) - a n) * b (N - n) := by
  rw [convolve_comm a b (N + 1), ← convolve_succ b a ha, convolve_comm a b N]
  simp only [convolve]
  rw [← Finset.sum_sub_distrib]
  exact Finset.sum_congr rfl fun n _ => by ring

theorem convolve_diff_h (a b : ℕ → K) (hb : b 0 = 0) (N : ℕ) :
    convolve a b (N + 1) - convolve (fun n => a (n + 1)) (fun n => b (n + 1)) N
      = -∑ n ∈ Finset.range (N + 1), (a (n + 1) - a n) * b (N - n + 1) := by
  rw [← convolve_succ a b hb, convolve_comm a, convolve_comm (fun n => a (n + 1))]
  simp only [convolve]
  rw [← Finset.sum_sub_distrib, ← Finset.sum_neg_distrib]
  exact Finset.sum_congr rfl fun n _ => by ring

end

section
variable {K : Type*} [Field K]

/-- **C141.** Change of a recorded value when the media change, exact for changes of any size: `a` is the run in the old media, `b` the run of the probe
(used as a source) in the new ones. The change is the sum over the steps and cells of `Δε (∂E/∂t) E'` minus `Δμ (∂H/∂t) H'`, where the probe's run is read backwards. -/
theorem C141_exact (S T : Sys sh K) (d : Dxes sh K) (hS : S.dxes = some d) (hT : T.dxes = some d) (hdt : T.dt = S.dt) (hdt0 : S.dt ≠ 0) (hE : Nonzero d.1)
    (hH : Nonzero d.2) (hepsS : ∀ c x, S.eps c x ≠ 0) (hepsT : ∀ c x, T.eps c x ≠ 0) (hmuS : ∀ c x, muOr S.mu c x ≠ 0) (hmuT : ∀ c x, muOr T.mu c x ≠ 0)
    (J M J' M' : ℕ → VField sh K) (N : ℕ) :
    let a : ℕ → State sh K := fun n => run S atRest (sourced S.dt J M n)
    let a' : ℕ → State sh K := fun n => run T atRest (sourced T.dt J M n)
    let b : ℕ → State sh K := fun n => run T atRest (sourced T.dt J' M' n)
    recorded d J' M' a' N - recorded d J' M' a N
      = ∑ c, ∑ x, (volE d.1 d.2 c x * (T.eps c x - S.eps c x) * ∑ n ∈ Finset.range (N + 1), ((a (n + 1)).e c x - (a n).e c x) / S.dt * (b (N - n)).e c x
        - volH d.1 d.2 c x * (muOr T.mu c x - muOr S.mu c x)
          * ∑ n ∈ Finset.range (N + 1), ((a (n + 1)).h c x - (a n).h c x) / S.dt * (b (N - n + 1)).h c x) := by
  intro a a' b
  have h1 := reaction_balance_media S T d hS hT hdt hE hH hepsT hmuS J M J' M' N
  have h2 := reaction_balance_media T S d hT hS hdt.symm hE hH hepsS hmuT J' M' J M N
  have h3 : recorded d J' M' a' N = recorded d J M b N := C116_reciprocity T d hT hE hH hepsT hmuT (hdt ▸ hdt0) J M J' M' N
  have hsymm : ∀ (V : VField sh K) (u v : ℕ → VField sh K), reaction V u v N = reaction V v u N := by
    intro V u v
    exact Finset.sum_congr rfl fun c _ => Finset.sum_congr rfl fun x _ => by rw [convolve_comm]
  have ha0 : a 0 = atRest := rfl
  have hb0 : b 0 = atRest := rfl
  refine mul_left_cancel₀ hdt0 ?_
  rw [h3]
  have e1 : S.dt * (recorded d J M b N - recorded d J' M' a N)
      = T.dt * (reaction (volE d.1 d.2) (fun n => (b n).e) J N + reaction (volH d.1 d.2) M' (fun n => (a (n + 1)).h) N)
        - S.dt * (reaction (volE d.1 d.2) (fun n => (a n).e) J' N + reaction (volH d.1 d.2) M (fun n => (b (n + 1)).h) N) := by
    simp only [recorded]
    rw [hsymm _ (fun n => (b (n + 1)).h) M, hsymm _ (fun n => (a (n + 1)).h) M', hdt]
    ring
  rw [e1]
  refine (congrArg₂ (· - ·) h2 h1).trans ?_
  simp only []
  rw [← Finset.sum_sub_distrib, Finset.mul_sum]
  refine Finset.sum_congr rfl fun c _ => ?_
  rw [← Finset.sum_sub_distrib, Finset.mul_sum]
  refine Finset.sum_congr rfl fun x _ => ?_
  have k1 := convolve_diff_e (fun n => (a n).e c x) (fun n => (b n).e c x) (by rw [ha0]; rfl) N
  have k2 := convolve_diff_h (fun n => (a n).h c x) (fun n => (b n).h c x) (by rw [hb0]; rfl) N
  have k3 : S.dt * ∑ n ∈ Finset.range (N + 1), ((a (n + 1)).e c x - (a n).e c x) / S.dt * (b (N - n)).e c x
      = ∑ n ∈ Finset.range (N + 1), ((a (n + 1)).e c x - (a n).e c x) * (b (N - n)).e c x := by
    rw [Finset.mul_sum]; exact Finset.sum_congr rfl fun n _ => by field_simp
  have k4 : S.dt * ∑ n ∈ Finset.range (N + 1), ((a (n + 1)).h c x - (a n).h c x) / S.dt * (b (N - n + 1)).h c x
      = ∑ n ∈ Finset.range (N + 1), ((a (n + 1)).h c x - (a n).h c x) * (b (N - n + 1)).h c x := by
    rw [Finset.mul_sum]; exact Finset.sum_congr rfl fun n _ => by field_simp
  have c1 := convolve_comm (fun n => (b n).e c x) (fun n => (a n).e c x) N
  have c2 := convolve_comm (fun n => (b n).e c x) (fun n => (a n).e c x) (N + 1)
  have c3 := convolve_comm (fun n => (b n).h c x) (fun n => (a n).h c x) (N + 1)
  have c4 := convolve_comm (fun n => (b (n + 1)).h c x) (fun n => (a (n + 1)).h c x) N
  simp only [a, b] at k1 k2 k3 k4 c1 c2 c3 c4 ⊢
  rw [c1, c2, c3, c4]
  linear_combination (volE d.1 d.2 c x * (T.eps c x - S.eps c x)) * k1 - (volE d.1 d.2 c x * (T.eps c x - S.eps c x)) * k3
    + (volH d.1 d.2 c x * (muOr T.mu c x - muOr S.mu c x)) * k2 + (volH d.1 d.2 c x * (muOr T.mu c x - muOr S.mu c x)) * k4

end

section
variable {K : Type*} [RCLike K]

/-- Fields of a run depend continuously on the media. -/
theorem run_continuousAt (d : Dxes sh K) (dt : K) (S : ℝ → Sys sh K) (hS : ∀ t, (S t).dxes = some d) (hdt : ∀ t, (S t).dt = dt) {t₀ : ℝ}
    (heps : ∀ c x, ContinuousAt (fun t => (S t).eps c x) t₀) (heps0 : ∀ c x, (S t₀).eps c x ≠ 0)
    (hmu : ∀ c x, ContinuousAt (fun t => muOr (S t).mu c x) t₀) (hmu0 : ∀ c x, muOr (S t₀).mu c x ≠ 0) (J M : ℕ → VField sh K) (n : ℕ) :
    (∀ c x, ContinuousAt (fun t => (run (S t) atRest (sourced (S t).dt J M n)).e c x) t₀) ∧
      ∀ c x, ContinuousAt (fun t => (run (S t) atRest (sourced (S t).dt J M n)).h c x) t₀ := by
  induction n with
  | zero => exact ⟨fun c x => continuousAt_const, fun c x => continuousAt_const⟩
  | succ n ih =>
    have cf : ∀ c x, ContinuousAt (fun t => Functional.curlForward (some d.1) (run (S t) atRest (sourced (S t).dt J M n)).e c x) t₀ := by
      intro c x
      revert c
      refine forall_fin3 ?_ ?_ ?_ <;> simp only [curlForward_0, curlForward_1, curlForward_2, derivForward_eq] <;>
        exact (((ih.1 _ _).sub (ih.1 _ _)).div_const _).sub (((ih.1 _ _).sub (ih.1 _ _)).div_const _)
    have hh : ∀ c x, ContinuousAt (fun t => (run (S t) atRest (sourced (S t).dt J M (n + 1))).h c x) t₀ := by
      intro c x
      have : (fun t => (run (S t) atRest (sourced (S t).dt J M (n + 1))).h c x) = fun t => (run (S t) atRest (sourced (S t).dt J M n)).h c x
          - dt * (Functional.curlForward (some d.1) (run (S t) atRest (sourced (S t).dt J M n)).e c x + M n c x) / muOr (S t).mu c x := by
        funext t
        rw [(sourced_step (S t) d (hS t) atRest J M n c x).1, hdt]
      rw [this]
      exact (ih.2 c x).sub ((continuousAt_const.mul ((cf c x).add continuousAt_const)).div (hmu c x) (hmu0 c x))
    have cb : ∀ c x, ContinuousAt (fun t => Functional.curlBack (some d.2) (run (S t) atRest (sourced (S t).dt J M (n + 1))).h c x) t₀ := by
      intro c x
      revert c
      refine forall_fin3 ?_ ?_ ?_ <;> simp only [curlBack_0, curlBack_1, curlBack_2, derivBack_eq] <;>
        exact (((hh _ _).sub (hh _ _)).div_const _).sub (((hh _ _).sub (hh _ _)).div_const _)
    refine ⟨fun c x => ?_, hh⟩
    have : (fun t => (run (S t) atRest (sourced (S t).dt J M (n + 1))).e c x) = fun t => (run (S t) atRest (sourced (S t).dt J M n)).e c x
        + dt * (Functional.curlBack (some d.2) (run (S t) atRest (sourced (S t).dt J M (n + 1))).h c x - J n c x) / (S t).eps c x := by
      funext t
      rw [(sourced_step (S t) d (hS t) atRest J M n c x).2, hdt]
    rw [this]
    exact (ih.1 c x).add ((continuousAt_const.mul ((cb c x).sub continuousAt_const)).div (heps c x) (heps0 c x))

/-- **C141.** Gradient of a recorded value: along any differentiable curve of media, its derivative is the sum over steps and cells of
`ε' (∂E/∂t) E'` minus `μ' (∂H/∂t) H'`: one run with the source and one with the probe give the derivatives with respect to all cells of ε and μ. -/
theorem C141_gradient (d : Dxes sh K) (hE : Nonzero d.1) (hH : Nonzero d.2) {dt : K} (hdt0 : dt ≠ 0) (S : ℝ → Sys sh K) (hS : ∀ t, (S t).dxes = some d)
    (hdt : ∀ t, (S t).dt = dt) (dε dμ : VField sh K) (heps : ∀ c x, HasDerivAt (fun t => (S t).eps c x) (dε c x) 0)
    (hmu : ∀ c x, HasDerivAt (fun t => muOr (S t).mu c x) (dμ c x) 0) (heps0 : ∀ c x, (S 0).eps c x ≠ 0) (hmu0 : ∀ c x, muOr (S 0).mu c x ≠ 0)
    (J M J' M' : ℕ → VField sh K) (N : ℕ) :
    let a : ℕ → State sh K := fun n => run (S 0) atRest (sourced dt J M n)
    let b : ℕ → State sh K := fun n => run (S 0) atRest (sourced dt J' M' n)
    HasDerivAt (fun t => recorded d J' M' (fun n => run (S t) atRest (sourced dt J M n)) N)
      (∑ c, ∑ x, (volE d.1 d.2 c x * dε c x * ∑ n ∈ Finset.range (N + 1), ((a (n + 1)).e c x - (a n).e c x) / dt * (b (N - n)).e c x
        - volH d.1 d.2 c x * dμ c x * ∑ n ∈ Finset.range (N + 1), ((a (n + 1)).h c x - (a n).h c x) / dt * (b (N - n + 1)).h c x)) 0 := by
  intro a b
  have hcont := run_continuousAt d dt S hS hdt (t₀ := 0) (fun c x => (heps c x).continuousAt) heps0 (fun c x => (hmu c x).continuousAt) hmu0 J' M'
  simp only [hdt] at hcont
  rw [hasDerivAt_iff_tendsto_slope]
  have hev : ∀ᶠ t in nhdsWithin (0 : ℝ) {0}ᶜ, (∀ c x, (S t).eps c x ≠ 0) ∧ ∀ c x, muOr (S t).mu c x ≠ 0 := by
    refine nhdsWithin_le_nhds ?_
    have h1 : ∀ c x, ∀ᶠ t in nhds (0 : ℝ), (S t).eps c x ≠ 0 := fun c x => (heps c x).continuousAt.eventually_ne (heps0 c x)
    have h2 : ∀ c x, ∀ᶠ t in nhds (0 : ℝ), muOr (S t).mu c x ≠ 0 := fun c x => (hmu c x).continuousAt.eventually_ne (hmu0 c x)
    filter_upwards [Filter.eventually_all.2 fun c => Filter.eventually_all.2 fun x => h1 c x,
      Filter.eventually_all.2 fun c => Filter.eventually_all.2 fun x => h2 c x] with t k1 k2
    exact ⟨k1, k2⟩
  have key : ∀ᶠ t in nhdsWithin (0 : ℝ) {0}ᶜ, ∑ c, ∑ x, (volE d.1 d.2 c x * slope (fun t => (S t).eps c x) 0 t
        * ∑ n ∈ Finset.range (N + 1), ((a (n + 1)).e c x - (a n).e c x) / dt * (run (S t) atRest (sourced dt J' M' (N - n))).e c x
      - volH d.1 d.2 c x * slope (fun t => muOr (S t).mu c x) 0 t
        * ∑ n ∈ Finset.range (N + 1), ((a (n + 1)).h c x - (a n).h c x) / dt * (run (S t) atRest (sourced dt J' M' (N - n + 1))).h c x)
      = slope (fun t => recorded d J' M' (fun n => run (S t) atRest (sourced dt J M n)) N) 0 t := by
    filter_upwards [hev] with t ht
    have h := C141_exact (S 0) (S t) d (hS 0) (hS t) ((hdt t).trans (hdt 0).symm) (by rw [hdt]; exact hdt0) hE hH heps0 ht.1 hmu0 ht.2 J M J' M' N
    simp only [hdt] at h
    simp only [slope, vsub_eq_sub, sub_zero]
    rw [h, Finset.smul_sum]
    refine Finset.sum_congr rfl fun c _ => ?_
    rw [Finset.smul_sum]
    refine Finset.sum_congr rfl fun x _ => ?_
    rw [smul_sub]
    simp only [RCLike.real_smul_eq_coe_mul]
    ring
  refine Filter.Tendsto.congr' key ?_
  refine tendsto_finsetSum _ fun c _ => tendsto_finsetSum _ fun x _ => ?_
  refine Filter.Tendsto.sub ?_ ?_
  · refine (tendsto_const_nhds.mul (hasDerivAt_iff_tendsto_slope.1 (heps c x))).mul ?_
    refine tendsto_finsetSum _ fun n _ => tendsto_const_nhds.mul ?_
    exact ((hcont (N - n)).1 c x).tendsto.mono_left nhdsWithin_le_nhds
  · refine (tendsto_const_nhds.mul (hasDerivAt_iff_tendsto_slope.1 (hmu c x))).mul ?_
    refine tendsto_finsetSum _ fun n _ => tendsto_const_nhds.mul ?_
    exact ((hcont (N - n + 1)).2 c x).tendsto.mono_left nhdsWithin_le_nhds

/-- The system with the permittivity of one cell (one component) increased by `t`. -/
def cellShift (S : Sys sh K) (c : Fin 3) (x : Idx sh) (t : ℝ) : Sys sh K :=
  { S with eps := fun c' x' => if c' = c ∧ x' = x then S.eps c x + (t : K) else S.eps c' x' }

/-- **C141.** Sensitivity of one sample to one cell: the derivative of the field recorded at `(c₂, x₂)` after `N` steps with respect to the permittivity of
the cell `(c, x)` is `V Σ_n (E(n+1) - E(n))/dt · E'(N-n)` with both fields taken in that cell only, `E'` being the field of a unit impulse at `(c₂, x₂)`. -/
theorem C141_cell (S : Sys sh K) (d : Dxes sh K) (hS : S.dxes = some d) (hE : Nonzero d.1) (hH : Nonzero d.2) (heps : ∀ c x, S.eps c x ≠ 0)
    (hmu : ∀ c x, muOr S.mu c x ≠ 0) (hdt : S.dt ≠ 0) (J M : ℕ → VField sh K) (c c₂ : Fin 3) (x x₂ : Idx sh) (N : ℕ) :
    let a : ℕ → State sh K := fun n => run S atRest (sourced S.dt J M n)
    let b : ℕ → State sh K := fun n => run S atRest
      (sourced S.dt (pointCurrent (volE d.1 d.2) c₂ x₂ fun n => if n = 0 then 1 else 0) (fun _ _ _ => 0) n)
    HasDerivAt (fun t => (run (cellShift S c x t) atRest (sourced S.dt J M N)).e c₂ x₂)
      (volE d.1 d.2 c x * ∑ n ∈ Finset.range (N + 1), ((a (n + 1)).e c x - (a n).e c x) / S.dt * (b (N - n)).e c x) 0 := by
  intro a b
  have h0 : cellShift S c x 0 = S := by
    have : (fun c' x' => if c' = c ∧ x' = x then S.eps c x + ((0 : ℝ) : K) else S.eps c' x') = S.eps := by
      funext c' x'
      split_ifs with h
      · rw [h.1, h.2]; simp
      · rfl
    simp only [cellShift, this]
  have h := C141_gradient d hE hH hdt (cellShift S c x) (fun t => hS) (fun t => rfl) (fun c' x' => if c' = c ∧ x' = x then 1 else 0) (fun _ _ => 0)
    (fun c' x' => by
      simp only [cellShift]
      split_ifs with h
      · have h1 : HasDerivAt (fun t : ℝ => (t : K)) 1 0 := by
          have := (RCLike.ofRealCLM (K := K)).hasDerivAt (x := (0 : ℝ))
          simpa using this
        exact h1.const_add _
      · exact hasDerivAt_const _ _)
    (fun c' x' => hasDerivAt_const (0 : ℝ) (muOr S.mu c' x')) (by rw [h0]; exact heps) (by rw [h0]; exact hmu) J M
    (pointCurrent (volE d.1 d.2) c₂ x₂ fun n => if n = 0 then 1 else 0) (fun _ _ _ => 0) N
  rw [h0] at h
  have z : ∀ u : ℕ → VField sh K, reaction (volH d.1 d.2) u (fun _ _ _ => 0) N = 0 := by
    intro u; simp [reaction, convolve]
  simp only [recorded, z, sub_zero, reaction_point _ _ _ (volE_nz d.1 d.2 hE hH _ _)] at h
  have e1 : ∀ u : ℕ → K, convolve u (fun n => if n = 0 then 1 else 0) N = u N := by
    intro u
    simp only [convolve]
    rw [Finset.sum_eq_single 0 (fun n _ hn => by simp [hn]) (by simp)]
    simp
  simp only [e1] at h
  refine h.congr_deriv ?_
  simp only [mul_zero, zero_mul, sub_zero]
  rw [Finset.sum_eq_single c (fun c' _ hc => Finset.sum_eq_zero fun x' _ => by simp [hc]) (by simp),
    Finset.sum_eq_single x (fun x' _ hx => by simp [hx]) (by simp)]
  simp [a, b]

end

/-! A graded medium on a 3×3×3 grid of unequal cells: the sensitivity of a sample to any cell. -/
example (c : Fin 3) (x : Idx fun _ : Fin 3 => 3) (N : ℕ) :
    let dx : DxList (fun _ : Fin 3 => 3) ℝ := fun _ i => 1 + (i : ℕ)
    let S : Sys (fun _ : Fin 3 => 3) ℝ := ⟨1 / 4, some (dx, dx), fun _ x => 2 + (x 0 : ℕ), none⟩
    let J : ℕ → VField (fun _ : Fin 3 => 3) ℝ := fun n c x => if c = 0 ∧ x = 0 then 1 / (1 + n) else 0
    let J' := pointCurrent (volE dx dx) 1 (fun _ => 2) fun n => if n = 0 then (1 : ℝ) else 0
    HasDerivAt (fun t => (run (cellShift S c x t) atRest (sourced S.dt J (fun _ _ _ => 0) N)).e 1 (fun _ => 2))
      (volE dx dx c x * ∑ n ∈ Finset.range (N + 1), ((run S atRest (sourced S.dt J (fun _ _ _ => 0) (n + 1))).e c x
        - (run S atRest (sourced S.dt J (fun _ _ _ => 0) n)).e c x) / S.dt * (run S atRest (sourced S.dt J' (fun _ _ _ => 0) (N - n))).e c x) 0 := by
  intro dx S J J'
  have hn : Nonzero dx := fun a i => by simp only [dx]; positivity
  exact C141_cell S (dx, dx) rfl hn hn (fun c x => by simp only [S]; positivity) (fun c x => by simp [muOr, S])
    (by norm_num [S]) J _ c 1 x _ N

end Meanas.Props
