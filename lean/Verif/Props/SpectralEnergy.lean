/-
C183 (the energy of a pulse, frequency by frequency). Records of fields from a script that calls `maxwell_e`, `maxwell_h` (meanas/fdtd/base.py:13-125) or `updates_with_cpml` (meanas/fdtd/pml.py:96-230),
energies from `poynting` (meanas/fdtd/energy.py:10-87), transforms compared with `poynting_e_cross_h` (meanas/fdfd/functional.py:187-221) and `e_full`, `e2h` (meanas/fdfd/operators.py:40-96, 253-282).
-/
import Verif.Props.CpmlTransform
import Verif.Props.PortAmplitudes
import Mathlib.Analysis.SpecialFunctions.Integrals.Basic
import Mathlib.MeasureTheory.Integral.DominatedConvergence
namespace Meanas.Props
open Matrix Complex Spec Fdtd Fdfd

variable {sh : Fin 3 → ℕ}

/-! ## Parseval's formula for sequences -/

theorem unit_phase (ω : ℝ) (t : ℝ) : ‖exp (-I * ω * t)‖ = 1 := by
  rw [show -I * (ω : ℂ) * t = ((-(ω * t) : ℝ) : ℂ) * I by push_cast; ring, norm_exp_ofReal_mul_I]

/-- Waves are orthogonal over the interval of frequencies below the Nyquist frequency. -/
theorem integral_phase {dt : ℝ} (hdt : 0 < dt) (n m : ℕ) :
    ∫ ω in -(Real.pi / dt)..(Real.pi / dt), exp (-I * (ω : ℝ) * (n * dt)) * (starRingEnd ℂ) (exp (-I * (ω : ℝ) * (m * dt))) = if n = m then 2 * (Real.pi : ℂ) / dt else 0 := by
  have hd : (dt : ℂ) ≠ 0 := ofReal_ne_zero.2 hdt.ne'
  have e : ∀ ω : ℝ, exp (-I * (ω : ℝ) * (n * dt)) * (starRingEnd ℂ) (exp (-I * (ω : ℝ) * (m * dt))) = exp ((I * ((m : ℂ) - n) * dt) * ω) := fun ω => by
    rw [← exp_conj, ← exp_add]
    congr 1
    simp only [map_mul, map_neg, conj_I, conj_ofReal, map_natCast]
    ring
  simp only [e]
  split_ifs with h
  · subst h
    simp
    ring
  · have hc : I * ((m : ℂ) - n) * dt ≠ 0 := mul_ne_zero (mul_ne_zero I_ne_zero (sub_ne_zero.2 fun q => h (by exact_mod_cast q.symm))) hd
    rw [integral_exp_mul_complex hc, div_eq_zero_iff]
    left
    have e1 : I * ((m : ℂ) - n) * dt * ((Real.pi / dt : ℝ) : ℂ) = I * ((m : ℂ) - n) * dt * ((-(Real.pi / dt) : ℝ) : ℂ) + ((m - n : ℤ) : ℂ) * (2 * Real.pi * I) := by
      push_cast; field_simp; ring
    rw [e1, exp_add, exp_int_mul_two_pi_mul_I, mul_one, sub_self]

theorem parseval_seq {dt : ℝ} (hdt : 0 < dt) {a b : ℕ → ℂ} (ha : Summable fun n => ‖a n‖) (hb : Summable fun n => ‖b n‖) :
    ∫ ω in -(Real.pi / dt)..(Real.pi / dt), (∑' n : ℕ, exp (-I * (ω : ℝ) * (n * dt)) * a n) * (starRingEnd ℂ) (∑' n : ℕ, exp (-I * (ω : ℝ) * (n * dt)) * b n)
      = 2 * Real.pi / dt * ∑' n, a n * (starRingEnd ℂ) (b n) := by
  have ph : ∀ (ω : ℝ) (n : ℕ), ‖exp (-I * (ω : ℝ) * (n * dt))‖ = 1 := fun ω n => by simpa using unit_phase ω (n * dt)
  have sa : ∀ ω : ℝ, Summable fun n : ℕ => ‖exp (-I * (ω : ℝ) * (n * dt)) * a n‖ := fun ω => by simpa only [norm_mul, ph, one_mul] using ha
  have sb : ∀ ω : ℝ, Summable fun n : ℕ => ‖(starRingEnd ℂ) (exp (-I * (ω : ℝ) * (n * dt)) * b n)‖ := fun ω => by simpa only [RCLike.norm_conj, norm_mul, ph, one_mul] using hb
  have hs : Summable fun z : ℕ × ℕ => ‖a z.1‖ * ‖b z.2‖ := ha.mul_of_nonneg hb (fun _ => norm_nonneg _) fun _ => norm_nonneg _
  have hl : ∀ ω : ℝ, HasSum (fun z : ℕ × ℕ => exp (-I * (ω : ℝ) * (z.1 * dt)) * a z.1 * (starRingEnd ℂ) (exp (-I * (ω : ℝ) * (z.2 * dt)) * b z.2))
      ((∑' n : ℕ, exp (-I * (ω : ℝ) * (n * dt)) * a n) * (starRingEnd ℂ) (∑' n : ℕ, exp (-I * (ω : ℝ) * (n * dt)) * b n)) := fun ω => by
    rw [conj_tsum, tsum_mul_tsum_of_summable_norm (sa ω) (sb ω)]
    exact (summable_mul_of_summable_norm (sa ω) (sb ω)).hasSum
  have key := intervalIntegral.hasSum_integral_of_dominated_convergence (μ := MeasureTheory.volume) (a := -(Real.pi / dt)) (b := Real.pi / dt)
    (F := fun (z : ℕ × ℕ) (ω : ℝ) => exp (-I * (ω : ℝ) * (z.1 * dt)) * a z.1 * (starRingEnd ℂ) (exp (-I * (ω : ℝ) * (z.2 * dt)) * b z.2))
    (f := fun ω => (∑' n : ℕ, exp (-I * (ω : ℝ) * (n * dt)) * a n) * (starRingEnd ℂ) (∑' n : ℕ, exp (-I * (ω : ℝ) * (n * dt)) * b n))
    (fun z _ => ‖a z.1‖ * ‖b z.2‖)
    (fun z => (by fun_prop : Continuous _).aestronglyMeasurable)
    (fun z => Filter.Eventually.of_forall fun ω _ => by rw [norm_mul, RCLike.norm_conj, norm_mul, norm_mul, ph, ph, one_mul, one_mul])
    (Filter.Eventually.of_forall fun ω _ => hs) intervalIntegrable_const
    (Filter.Eventually.of_forall fun ω _ => hl ω)
  rw [← key.tsum_eq, ← tsum_mul_left]
  have e : ∀ z : ℕ × ℕ, ∫ ω in -(Real.pi / dt)..(Real.pi / dt), exp (-I * (ω : ℝ) * (z.1 * dt)) * a z.1 * (starRingEnd ℂ) (exp (-I * (ω : ℝ) * (z.2 * dt)) * b z.2)
      = a z.1 * (starRingEnd ℂ) (b z.2) * if z.1 = z.2 then 2 * (Real.pi : ℂ) / dt else 0 := fun z => by
    rw [← integral_phase hdt z.1 z.2, ← intervalIntegral.integral_const_mul]
    refine intervalIntegral.integral_congr fun ω _ => ?_
    simp only [map_mul]
    ring
  simp only [e]
  have hinj : Function.Injective fun n : ℕ => (n, n) := fun n m h => (Prod.ext_iff.1 h).1
  rw [← hinj.tsum_eq]
  · exact tsum_congr fun n => by rw [if_pos rfl]; ring
  · intro z hz
    rw [Function.mem_support] at hz
    have : z.1 = z.2 := by
      by_contra h
      exact hz (by rw [if_neg h, mul_zero])
    exact ⟨z.1, Prod.ext rfl this⟩

/-! ## Records and their spectra -/

/-- The discrete-time Fourier transform `dt Σ e^{-iwt} f(t)` of a record whose sample `n` is taken at the time `(n + τ) dt`. -/
noncomputable def fieldSpectrum (dt τ : ℝ) (w : ℂ) (f : ℕ → VField sh ℂ) : VField sh ℂ := fun c x => dt * ∑' n : ℕ, exp (-I * w * ((n + τ) * dt)) * f n c x

/-- The samples of the record, weighted with `e^{-γt}`, can be summed (with `γ = 0`: the record itself). -/
def Damped (dt γ : ℝ) (f : ℕ → VField sh ℂ) : Prop := ∀ c x, Summable fun n : ℕ => Real.exp (-(γ * (n * dt))) * ‖f n c x‖

/-- The complex conjugate of a field. -/
noncomputable def conjF (F : VField sh ℂ) : VField sh ℂ := fun c x => (starRingEnd ℂ) (F c x)

section spectra
variable {dt γ : ℝ} {f g : ℕ → VField sh ℂ}

theorem Damped.weighted (hf : Damped dt γ f) (τ : ℝ) (c : Fin 3) (x : Idx sh) : Summable fun n : ℕ => ‖(Real.exp (-(γ * ((n + τ) * dt))) : ℂ) * f n c x‖ := by
  refine ((hf c x).mul_left (Real.exp (-(γ * (τ * dt))))).congr fun n => ?_
  rw [norm_mul, ← mul_assoc, ← Real.exp_add, norm_real, Real.norm_eq_abs, Real.abs_exp]
  congr 2; ring

theorem spectrum_eq (τ ω : ℝ) (c : Fin 3) (x : Idx sh) : fieldSpectrum dt τ (ω - γ * I) f c x
    = dt * exp (-I * ω * (τ * dt)) * ∑' n : ℕ, exp (-I * ω * (n * dt)) * ((Real.exp (-(γ * ((n + τ) * dt))) : ℂ) * f n c x) := by
  rw [fieldSpectrum, mul_assoc]
  congr 1
  rw [← tsum_mul_left]
  refine tsum_congr fun n => ?_
  have h : exp (-I * (ω - γ * I) * ((n + τ) * dt)) = exp (-I * ω * (τ * dt)) * exp (-I * ω * (n * dt)) * (Real.exp (-(γ * ((n + τ) * dt))) : ℂ) := by
    rw [ofReal_exp, ← exp_add, ← exp_add]
    congr 1
    push_cast
    linear_combination (γ * ((n + τ) * dt) : ℂ) * I_sq
  rw [h]
  ring

theorem spectrum_continuous (hf : Damped dt γ f) (τ : ℝ) (c : Fin 3) (x : Idx sh) : Continuous fun ω : ℝ => fieldSpectrum dt τ (ω - γ * I) f c x := by
  simp only [spectrum_eq]
  have h1 : Continuous fun ω : ℝ => (dt : ℂ) * exp (-I * ω * (τ * dt)) := by fun_prop
  refine h1.mul (continuous_tsum (fun n => by fun_prop) (hf.weighted τ c x) fun n ω => ?_)
  have := unit_phase ω (n * dt)
  push_cast at this
  rw [norm_mul, this, one_mul]

/-- Two records half a step apart. -/
theorem spectrum_pair (hdt : 0 < dt) (hf : Damped dt γ f) (hg : Damped dt γ g) (c c' : Fin 3) (x y : Idx sh) :
    ∫ ω in -(Real.pi / dt)..(Real.pi / dt), exp (-I * (ω : ℝ) * (dt / 2)) * (fieldSpectrum dt 0 (ω - γ * I) f c x * (starRingEnd ℂ) (fieldSpectrum dt (1 / 2) (ω - γ * I) g c' y))
      = 2 * Real.pi * dt * ∑' n : ℕ, (Real.exp (-(γ * ((2 * n + 1 / 2) * dt))) : ℂ) * (f n c x * (starRingEnd ℂ) (g n c' y)) := by
  have hd : (dt : ℂ) ≠ 0 := ofReal_ne_zero.2 hdt.ne'
  have key := parseval_seq hdt (hf.weighted 0 c x) (hg.weighted (1 / 2) c' y)
  have e : ∀ n : ℕ, (Real.exp (-(γ * ((n + 0) * dt))) : ℂ) * f n c x * (starRingEnd ℂ) ((Real.exp (-(γ * ((n + 1 / 2) * dt))) : ℂ) * g n c' y)
      = (Real.exp (-(γ * ((2 * n + 1 / 2) * dt))) : ℂ) * (f n c x * (starRingEnd ℂ) (g n c' y)) := fun n => by
    rw [show -(γ * ((2 * n + 1 / 2) * dt)) = -(γ * ((n + 0) * dt)) + -(γ * ((n + 1 / 2) * dt)) by ring, Real.exp_add, map_mul, conj_ofReal]
    push_cast; ring
  simp only [e] at key
  rw [show 2 * (Real.pi : ℂ) * dt * ∑' n : ℕ, (Real.exp (-(γ * ((2 * n + 1 / 2) * dt))) : ℂ) * (f n c x * (starRingEnd ℂ) (g n c' y))
    = dt ^ 2 * (2 * Real.pi / dt * ∑' n : ℕ, (Real.exp (-(γ * ((2 * n + 1 / 2) * dt))) : ℂ) * (f n c x * (starRingEnd ℂ) (g n c' y))) by
      generalize ∑' n : ℕ, (Real.exp (-(γ * ((2 * n + 1 / 2) * dt))) : ℂ) * (f n c x * (starRingEnd ℂ) (g n c' y)) = Z
      field_simp, ← key, ← intervalIntegral.integral_const_mul]
  refine intervalIntegral.integral_congr fun ω _ => ?_
  simp only [spectrum_eq, map_mul, conj_ofReal]
  have h1 : exp (-I * (ω : ℂ) * (dt / 2)) * (starRingEnd ℂ) (exp (-I * (ω : ℂ) * (((1 / 2 : ℝ) : ℂ) * dt))) = 1 := by
    rw [← exp_conj, ← exp_add, ← exp_zero]
    congr 1
    simp only [map_mul, map_neg, conj_I, conj_ofReal]
    push_cast; ring
  have h0 : exp (-I * (ω : ℂ) * (((0 : ℝ) : ℂ) * dt)) = 1 := by simp
  rw [h0]
  generalize exp (-I * (ω : ℂ) * (dt / 2)) = p at *
  generalize (starRingEnd ℂ) (exp (-I * (ω : ℂ) * (((1 / 2 : ℝ) : ℂ) * dt))) = q at *
  generalize ∑' n : ℕ, exp (-I * (ω : ℂ) * (n * dt)) * ((Real.exp (-(γ * ((n + 0) * dt))) : ℂ) * f n c x) = A
  generalize (starRingEnd ℂ) (∑' n : ℕ, exp (-I * (ω : ℂ) * (n * dt)) * ((Real.exp (-(γ * ((n + 1 / 2) * dt))) : ℂ) * g n c' y)) = B
  linear_combination (dt ^ 2 * A * B : ℂ) * h1

/-- The sample of the first record half a step later. -/
theorem spectrum_pair' (hdt : 0 < dt) (hf : Damped dt γ f) (hg : Damped dt γ g) (c c' : Fin 3) (x y : Idx sh) (h0 : f 0 c x = 0) :
    ∫ ω in -(Real.pi / dt)..(Real.pi / dt), exp (I * (ω : ℝ) * (dt / 2)) * (fieldSpectrum dt 0 (ω - γ * I) f c x * (starRingEnd ℂ) (fieldSpectrum dt (1 / 2) (ω - γ * I) g c' y))
      = 2 * Real.pi * dt * ∑' n : ℕ, (Real.exp (-(γ * ((2 * n + 3 / 2) * dt))) : ℂ) * (f (n + 1) c x * (starRingEnd ℂ) (g n c' y)) := by
  have hf' : Damped dt γ fun n => f (n + 1) := fun c x => by
    refine (((summable_nat_add_iff 1).2 (hf c x)).mul_left (Real.exp (γ * dt))).congr fun n => ?_
    rw [← mul_assoc, ← Real.exp_add]
    congr 2; push_cast; ring
  have key := spectrum_pair hdt hf' hg c c' x y
  have e : ∀ n : ℕ, (Real.exp (-(γ * ((2 * n + 3 / 2) * dt))) : ℂ) * (f (n + 1) c x * (starRingEnd ℂ) (g n c' y))
      = (Real.exp (-(γ * dt)) : ℂ) * ((Real.exp (-(γ * ((2 * n + 1 / 2) * dt))) : ℂ) * (f (n + 1) c x * (starRingEnd ℂ) (g n c' y))) := fun n => by
    rw [show -(γ * ((2 * n + 3 / 2) * dt)) = -(γ * dt) + -(γ * ((2 * n + 1 / 2) * dt)) by ring, Real.exp_add, ofReal_mul, mul_assoc]
  simp only [e]
  rw [tsum_mul_left, mul_left_comm, ← key, ← intervalIntegral.integral_const_mul]
  refine intervalIntegral.integral_congr fun ω _ => ?_
  have hs : fieldSpectrum dt 0 (ω - γ * I) f c x = exp (-I * (ω - γ * I) * dt) * fieldSpectrum dt 0 (ω - γ * I) (fun n => f (n + 1)) c x := by
    have sm : Summable fun n : ℕ => exp (-I * (ω - γ * I) * ((n + (0 : ℝ)) * dt)) * f n c x := by
      refine ((hf.weighted 0 c x).congr fun n => ?_).of_norm
      rw [norm_mul, norm_mul, norm_real, Real.norm_eq_abs, Real.abs_exp, norm_exp]
      congr 2
      simp
    rw [fieldSpectrum, fieldSpectrum, sm.tsum_eq_zero_add, h0, mul_zero, zero_add, mul_left_comm _ (dt : ℂ)]
    congr 1
    rw [← tsum_mul_left]
    refine tsum_congr fun n => ?_
    have h : exp (-I * (ω - γ * I) * (((n + 1 : ℕ) + (0 : ℝ)) * dt)) = exp (-I * (ω - γ * I) * dt) * exp (-I * (ω - γ * I) * ((n + (0 : ℝ)) * dt)) := by
      rw [← exp_add]
      congr 1; push_cast; ring
    rw [h, mul_assoc]
  simp only [hs]
  have h1 : exp (I * (ω : ℂ) * (dt / 2)) * exp (-I * (ω - γ * I) * dt) = (Real.exp (-(γ * dt)) : ℂ) * exp (-I * (ω : ℂ) * (dt / 2)) := by
    rw [ofReal_exp, ← exp_add, ← exp_add]
    congr 1
    push_cast
    linear_combination (γ * dt : ℂ) * I_sq
  linear_combination (fieldSpectrum dt 0 (ω - γ * I) (fun n => f (n + 1)) c x * (starRingEnd ℂ) (fieldSpectrum dt (1 / 2) (ω - γ * I) g c' y)) * h1

/-- The products of samples can be summed. -/
theorem pair_summable (hf : Damped dt γ f) (hg : Damped dt γ g) (c c' : Fin 3) (x y : Idx sh) :
    Summable fun n : ℕ => (Real.exp (-(γ * ((2 * n + 1 / 2) * dt))) : ℂ) * (f n c x * (starRingEnd ℂ) (g n c' y)) := by
  have hs := ((hf.weighted 0 c x).mul_of_nonneg (hg.weighted (1 / 2) c' y) (fun _ => norm_nonneg _) fun _ => norm_nonneg _).comp_injective
    (i := fun n : ℕ => (n, n)) fun n m h => (Prod.ext_iff.1 h).1
  refine (hs.congr fun n => ?_).of_norm
  simp only [Function.comp_apply, norm_mul, RCLike.norm_conj, norm_real, Real.norm_eq_abs, Real.abs_exp]
  rw [show -(γ * ((2 * n + 1 / 2) * dt)) = -(γ * ((n + 0) * dt)) + -(γ * ((n + 1 / 2) * dt)) by ring, Real.exp_add]
  ring

theorem Damped.next (hf : Damped dt γ f) : Damped dt γ fun n => f (n + 1) := fun c x => by
  refine (((summable_nat_add_iff 1).2 (hf c x)).mul_left (Real.exp (γ * dt))).congr fun n => ?_
  rw [← mul_assoc, ← Real.exp_add]
  congr 2; push_cast; ring

theorem pair_summable' (hf : Damped dt γ f) (hg : Damped dt γ g) (c c' : Fin 3) (x y : Idx sh) :
    Summable fun n : ℕ => (Real.exp (-(γ * ((2 * n + 3 / 2) * dt))) : ℂ) * (f (n + 1) c x * (starRingEnd ℂ) (g n c' y)) := by
  refine ((pair_summable hf.next hg c c' x y).mul_left (Real.exp (-(γ * dt)) : ℂ)).congr fun n => ?_
  rw [show -(γ * ((2 * n + 3 / 2) * dt)) = -(γ * dt) + -(γ * ((2 * n + 1 / 2) * dt)) by ring, Real.exp_add, ofReal_mul, mul_assoc]

theorem poynting_fdfd (d : Dxes sh ℂ) (e h : VField sh ℂ) : poynting e h (some d) = FdfdF.poyntingECrossH d e h := rfl

/-- Combining products of records as `poynting` does. -/
theorem flux_aux (d : Dx sh) (e h : ℕ → VField sh ℂ) (F G : ℝ → VField sh ℂ) (p : ℝ → ℂ) (u : ℕ → ℂ) (K : ℂ) (L : ℝ) (a : Fin 3) (x : Idx sh) (hp : Continuous p)
    (hF : ∀ c x, Continuous fun ω => F ω c x) (hG : ∀ c x, Continuous fun ω => G ω c x)
    (hs : ∀ c c' y, Summable fun n => u n * (e n c y * (starRingEnd ℂ) (h n c' x)))
    (hi : ∀ c c' y, ∫ ω in -L..L, p ω * (F ω c y * (starRingEnd ℂ) (G ω c' x)) = K * ∑' n, u n * (e n c y * (starRingEnd ℂ) (h n c' x))) :
    (Summable fun n => u n * poynting (e n) (conjF (h n)) (some d) a x) ∧
    ∫ ω in -L..L, p ω * FdfdF.poyntingECrossH d (F ω) (conjF (G ω)) a x = K * ∑' n, u n * poynting (e n) (conjF (h n)) (some d) a x := by
  simp only [poynting_fdfd, cross_axis, conjF]
  set y := shiftIdx a 1 x
  set k1 := d.1 (a + 1) (x (a + 1)) * d.2 (a + 2) (x (a + 2))
  set k2 := d.1 (a + 2) (x (a + 2)) * d.2 (a + 1) (x (a + 1))
  have s1 := (hs (a + 1) (a + 2) y).mul_left k1
  have s2 := (hs (a + 2) (a + 1) y).mul_left k2
  have eq1 : ∀ n, u n * (e n (a + 1) y * d.1 (a + 1) (x (a + 1)) * ((starRingEnd ℂ) (h n (a + 2) x) * d.2 (a + 2) (x (a + 2)))
      - e n (a + 2) y * d.1 (a + 2) (x (a + 2)) * ((starRingEnd ℂ) (h n (a + 1) x) * d.2 (a + 1) (x (a + 1))))
      = k1 * (u n * (e n (a + 1) y * (starRingEnd ℂ) (h n (a + 2) x))) - k2 * (u n * (e n (a + 2) y * (starRingEnd ℂ) (h n (a + 1) x))) := fun n => by
    simp only [k1, k2]; ring
  have eq2 : ∀ ω, p ω * (F ω (a + 1) y * d.1 (a + 1) (x (a + 1)) * ((starRingEnd ℂ) (G ω (a + 2) x) * d.2 (a + 2) (x (a + 2)))
      - F ω (a + 2) y * d.1 (a + 2) (x (a + 2)) * ((starRingEnd ℂ) (G ω (a + 1) x) * d.2 (a + 1) (x (a + 1))))
      = k1 * (p ω * (F ω (a + 1) y * (starRingEnd ℂ) (G ω (a + 2) x))) - k2 * (p ω * (F ω (a + 2) y * (starRingEnd ℂ) (G ω (a + 1) x))) := fun ω => by
    simp only [k1, k2]; ring
  simp only [eq1, eq2]
  refine ⟨s1.sub s2, ?_⟩
  have cont : ∀ k c c', IntervalIntegrable (fun ω => k * (p ω * (F ω c y * (starRingEnd ℂ) (G ω c' x)))) MeasureTheory.volume (-L) L := fun k c c' =>
    (continuous_const.mul (hp.mul ((hF c y).mul (continuous_conj.comp (hG c' x))))).intervalIntegrable _ _
  rw [intervalIntegral.integral_sub (cont _ _ _) (cont _ _ _), intervalIntegral.integral_const_mul, intervalIntegral.integral_const_mul, hi, hi, s1.tsum_sub s2, tsum_mul_left, tsum_mul_left]
  ring

/-- **C183.** The spectra of two records half a step apart (`e n` taken at `n dt`, `h n` at `(n + 1/2) dt`), weighted with `e^{-γt}` if the records do not decay: what `fdtd.energy.poynting` adds up to over
all steps is the integral of what `fdfd.functional.poynting_e_cross_h` makes of the transforms, over all frequencies below the Nyquist frequency. -/
theorem C183_spectrum (hdt : 0 < dt) (hf : Damped dt γ f) (hg : Damped dt γ g) (d : Dx sh) (a : Fin 3) (x : Idx sh) :
    let Z : ℝ → ℂ := fun ω => FdfdF.poyntingECrossH d (fieldSpectrum dt 0 (ω - γ * I) f) (conjF (fieldSpectrum dt (1 / 2) (ω - γ * I) g)) a x
    (dt * ∑' n : ℕ, (Real.exp (-(γ * ((2 * n + 1 / 2) * dt))) : ℂ) * poynting (f n) (conjF (g n)) (some d) a x
      = 1 / (2 * Real.pi) * ∫ ω in -(Real.pi / dt)..(Real.pi / dt), exp (-I * ω * (dt / 2)) * Z ω) ∧
    ((∀ c x, f 0 c x = 0) → dt * ∑' n : ℕ, (Real.exp (-(γ * ((2 * n + 3 / 2) * dt))) : ℂ) * poynting (f (n + 1)) (conjF (g n)) (some d) a x
      = 1 / (2 * Real.pi) * ∫ ω in -(Real.pi / dt)..(Real.pi / dt), exp (I * ω * (dt / 2)) * Z ω) := by
  intro Z
  have hpi : (Real.pi : ℂ) ≠ 0 := ofReal_ne_zero.2 Real.pi_ne_zero
  refine ⟨?_, fun h0 => ?_⟩
  · rw [(flux_aux d f g (fun ω => fieldSpectrum dt 0 (ω - γ * I) f) (fun ω => fieldSpectrum dt (1 / 2) (ω - γ * I) g) _ _ _ _ a x (by fun_prop) (spectrum_continuous hf 0) (spectrum_continuous hg _)
      (fun c c' y => pair_summable hf hg c c' y x) fun c c' y => spectrum_pair hdt hf hg c c' y x).2]
    generalize ∑' n : ℕ, (Real.exp (-(γ * ((2 * n + 1 / 2) * dt))) : ℂ) * poynting (f n) (conjF (g n)) (some d) a x = Y
    field_simp
  · rw [(flux_aux d (fun n => f (n + 1)) g (fun ω => fieldSpectrum dt 0 (ω - γ * I) f) (fun ω => fieldSpectrum dt (1 / 2) (ω - γ * I) g) _ _ _ _ a x (by fun_prop) (spectrum_continuous hf 0) (spectrum_continuous hg _)
      (fun c c' y => pair_summable' hf hg c c' y x) fun c c' y => spectrum_pair' hdt hf hg c c' y x (h0 c y)).2]
    generalize ∑' n : ℕ, (Real.exp (-(γ * ((2 * n + 3 / 2) * dt))) : ℂ) * poynting (f (n + 1)) (conjF (g n)) (some d) a x = Y
    field_simp

end spectra

/-! ## Real records -/

/-- A real field as a complex one. -/
noncomputable def castF (F : VField sh ℝ) : VField sh ℂ := fun c x => (F c x : ℂ)

theorem poynting_cast (d : DxList sh ℝ × DxList sh ℝ) (e h : VField sh ℝ) (a : Fin 3) (x : Idx sh) :
    poynting (castF e) (conjF (castF h)) (some (cDx d)) a x = (poynting e h (some d) a x : ℝ) := by
  revert a
  refine forall_fin3 ?_ ?_ ?_ <;> simp [poynting, dxesOrOnes, cDx, castF, conjF, roll]

/-- The two half steps of a real record together. -/
theorem real_fold {dt : ℝ} {Z : ℝ → ℂ} (hZ : Continuous Z) (hsym : ∀ ω, Z (-ω) = (starRingEnd ℂ) (Z ω)) {s1 s2 : ℝ}
    (h1 : (dt * s1 : ℂ) = 1 / (2 * Real.pi) * ∫ ω in -(Real.pi / dt)..(Real.pi / dt), exp (-I * (ω : ℝ) * (dt / 2)) * Z ω)
    (h2 : (dt * s2 : ℂ) = 1 / (2 * Real.pi) * ∫ ω in -(Real.pi / dt)..(Real.pi / dt), exp (I * (ω : ℝ) * (dt / 2)) * Z ω) :
    dt * (s1 + s2) = 2 / Real.pi * ∫ ω in (0 : ℝ)..(Real.pi / dt), Real.cos (ω * dt / 2) * (Z ω).re := by
  set L := Real.pi / dt
  have c1 : Continuous fun ω : ℝ => exp (-I * (ω : ℝ) * (dt / 2)) * Z ω := by fun_prop
  have c2 : Continuous fun ω : ℝ => exp (I * (ω : ℝ) * (dt / 2)) * Z ω := by fun_prop
  have c3 : Continuous fun ω : ℝ => Real.cos (ω * dt / 2) * (Z ω).re := by fun_prop
  have hsum : ((dt * (s1 + s2) : ℝ) : ℂ) = 1 / Real.pi * ∫ ω in -L..L, (Real.cos (ω * dt / 2) : ℂ) * Z ω := by
    push_cast
    rw [mul_add, h1, h2, ← mul_add, ← intervalIntegral.integral_add (c1.intervalIntegrable _ _) (c2.intervalIntegrable _ _)]
    have e : ∀ ω : ℝ, exp (-I * (ω : ℝ) * (dt / 2)) * Z ω + exp (I * (ω : ℝ) * (dt / 2)) * Z ω = 2 * ((Real.cos (ω * dt / 2) : ℂ) * Z ω) := fun ω => by
      rw [ofReal_cos, Complex.cos]
      push_cast
      rw [show (ω : ℂ) * dt / 2 * I = I * ω * (dt / 2) by ring, show -((ω : ℂ) * dt / 2) * I = -I * ω * (dt / 2) by ring]
      ring
    simp only [e]
    rw [intervalIntegral.integral_const_mul]
    push_cast
    ring
  have hre := congrArg Complex.re hsum
  rw [ofReal_re, show (1 / Real.pi : ℂ) = ((1 / Real.pi : ℝ) : ℂ) by push_cast; rfl, re_ofReal_mul] at hre
  have hint : (∫ ω in -L..L, (Real.cos (ω * dt / 2) : ℂ) * Z ω).re = ∫ ω in -L..L, Real.cos (ω * dt / 2) * (Z ω).re := by
    have c4 : Continuous fun ω : ℝ => (Real.cos (ω * dt / 2) : ℂ) * Z ω := by fun_prop
    have := Complex.reCLM.intervalIntegral_comp_comm (c4.intervalIntegrable (μ := MeasureTheory.volume) (-L) L)
    rw [← Complex.reCLM_apply, ← this]
    refine intervalIntegral.integral_congr fun ω _ => ?_
    simp only [Complex.reCLM_apply, re_ofReal_mul]
  rw [hre, hint, ← intervalIntegral.integral_add_adjacent_intervals (c3.intervalIntegrable (-L) 0) (c3.intervalIntegrable 0 L)]
  have hneg : ∫ ω in -L..0, Real.cos (ω * dt / 2) * (Z ω).re = ∫ ω in (0 : ℝ)..L, Real.cos (ω * dt / 2) * (Z ω).re := by
    have := intervalIntegral.integral_comp_neg (a := 0) (b := L) fun ω : ℝ => Real.cos (ω * dt / 2) * (Z ω).re
    rw [neg_zero] at this
    rw [← this]
    refine intervalIntegral.integral_congr fun ω _ => ?_
    simp only [hsym, conj_re]
    rw [show -ω * dt / 2 = -(ω * dt / 2) by ring, Real.cos_neg]
  rw [hneg]
  ring

theorem spectrum_neg (dt τ ω : ℝ) (f : ℕ → VField sh ℝ) (c : Fin 3) (x : Idx sh) :
    fieldSpectrum dt τ ((-ω : ℝ) : ℂ) (fun n => castF (f n)) c x = (starRingEnd ℂ) (fieldSpectrum dt τ (ω : ℂ) (fun n => castF (f n)) c x) := by
  simp only [fieldSpectrum, map_mul, conj_ofReal, conj_tsum, ← exp_conj, castF, map_neg, conj_I, map_add, map_natCast]
  congr 1
  refine tsum_congr fun n => ?_
  congr 2
  push_cast
  ring

theorem damped_cast {dt : ℝ} {f : ℕ → VField sh ℝ} (hf : ∀ c x, Summable fun n => |f n c x|) : Damped dt 0 fun n => castF (f n) := fun c x => by
  simpa [castF] using hf c x

/-- **C183.** The energy that passes a face of the grid during a whole run, as `fdtd.energy.poynting` counts it in both half steps of every step, is an integral over the frequencies `0 … π/dt` of what
`fdfd.functional.poynting_e_cross_h` makes of the Fourier transforms of the recorded fields (with the conjugate of H), times `cos(ω dt/2)`. `e n` is the electric field at `n dt`, `h n` the magnetic field
at `(n + 1/2) dt`; the fields start from zero and can be summed. -/
theorem C183_flux {dt : ℝ} (hdt : 0 < dt) (e h : ℕ → VField sh ℝ) (h0 : ∀ c x, e 0 c x = 0) (he : ∀ c x, Summable fun n => |e n c x|) (hh : ∀ c x, Summable fun n => |h n c x|)
    (d : DxList sh ℝ × DxList sh ℝ) (a : Fin 3) (x : Idx sh) :
    let E : ℝ → VField sh ℂ := fun ω => fieldSpectrum dt 0 ω fun n => castF (e n)
    let H : ℝ → VField sh ℂ := fun ω => fieldSpectrum dt (1 / 2) ω fun n => castF (h n)
    dt * ((∑' n, poynting (e n) (h n) (some d) a x) + ∑' n, poynting (e (n + 1)) (h n) (some d) a x)
      = 2 / Real.pi * ∫ ω in (0 : ℝ)..(Real.pi / dt), Real.cos (ω * dt / 2) * (FdfdF.poyntingECrossH (cDx d) (E ω) (conjF (H ω)) a x).re := by
  intro E H
  have key := C183_spectrum hdt (damped_cast he) (damped_cast hh) (cDx d) a x
  simp only [zero_mul, neg_zero, Real.exp_zero, ofReal_one, one_mul, ofReal_zero, sub_zero, poynting_cast, ← ofReal_tsum] at key
  have cE : ∀ c x, Continuous fun ω => E ω c x := fun c x => by simpa using spectrum_continuous (damped_cast (dt := dt) he) 0 c x
  have cH : ∀ c x, Continuous fun ω => H ω c x := fun c x => by
    have := spectrum_continuous (damped_cast (dt := dt) hh) (1 / 2) c x
    simpa only [ofReal_zero, zero_mul, sub_zero] using this
  refine real_fold ?_ (fun ω => ?_) key.1 (key.2 fun c x => by simp [castF, h0])
  · simp only [cross_axis, conjF]
    have := fun c x => continuous_conj.comp (cH c x)
    have cH' : ∀ c x, Continuous fun ω => (starRingEnd ℂ) (H ω c x) := this
    fun_prop
  · simp only [cross_axis, conjF, E, H, spectrum_neg, map_sub, map_mul, conj_conj, cDx, conj_ofReal]

/-- **C183.** Likewise the work of a current `j` injected at half steps on the field, at any component and cell. -/
theorem C183_work {dt : ℝ} (hdt : 0 < dt) (e j : ℕ → VField sh ℝ) (h0 : ∀ c x, e 0 c x = 0) (he : ∀ c x, Summable fun n => |e n c x|) (hj : ∀ c x, Summable fun n => |j n c x|)
    (c : Fin 3) (x : Idx sh) :
    dt * ((∑' n, e n c x * j n c x) + ∑' n, e (n + 1) c x * j n c x)
      = 2 / Real.pi * ∫ ω in (0 : ℝ)..(Real.pi / dt), Real.cos (ω * dt / 2) *
        (fieldSpectrum dt 0 ω (fun n => castF (e n)) c x * (starRingEnd ℂ) (fieldSpectrum dt (1 / 2) ω (fun n => castF (j n)) c x)).re := by
  have hpi : (Real.pi : ℂ) ≠ 0 := ofReal_ne_zero.2 Real.pi_ne_zero
  have k1 := spectrum_pair hdt (damped_cast he) (damped_cast hj) c c x x
  have k2 := spectrum_pair' hdt (damped_cast he) (damped_cast hj) c c x x (by simp [castF, h0])
  have t1 : (∑' n, castF (e n) c x * (starRingEnd ℂ) (castF (j n) c x)) = ((∑' n, e n c x * j n c x : ℝ) : ℂ) := by
    rw [ofReal_tsum]; exact tsum_congr fun n => by simp [castF]
  have t2 : (∑' n, castF (e (n + 1)) c x * (starRingEnd ℂ) (castF (j n) c x)) = ((∑' n, e (n + 1) c x * j n c x : ℝ) : ℂ) := by
    rw [ofReal_tsum]; exact tsum_congr fun n => by simp [castF]
  simp only [zero_mul, neg_zero, Real.exp_zero, ofReal_one, one_mul, ofReal_zero, sub_zero, t1, t2] at k1 k2
  have cE : Continuous fun ω : ℝ => fieldSpectrum dt 0 ω (fun n => castF (e n)) c x := by simpa using spectrum_continuous (damped_cast (dt := dt) he) 0 c x
  have cJ : Continuous fun ω : ℝ => fieldSpectrum dt (1 / 2) ω (fun n => castF (j n)) c x := by
    have := spectrum_continuous (damped_cast (dt := dt) hj) (1 / 2) c x
    simpa only [ofReal_zero, zero_mul, sub_zero] using this
  have cJ' : Continuous fun ω : ℝ => (starRingEnd ℂ) (fieldSpectrum dt (1 / 2) ω (fun n => castF (j n)) c x) := continuous_conj.comp cJ
  refine real_fold (Z := fun ω : ℝ => fieldSpectrum dt 0 ω (fun n => castF (e n)) c x * (starRingEnd ℂ) (fieldSpectrum dt (1 / 2) ω (fun n => castF (j n)) c x)) (by fun_prop) (fun ω => ?_) ?_ ?_
  · simp only [spectrum_neg, map_mul, conj_conj]
  · rw [k1]
    generalize ((∑' n, e n c x * j n c x : ℝ) : ℂ) = Y
    field_simp
  · rw [k2]
    generalize ((∑' n, e (n + 1) c x * j n c x : ℝ) : ℂ) = Y
    field_simp

/-! ## Runs -/

theorem damped_of_summable {dt γ τ : ℝ} {f : ℕ → VField sh ℂ} (h : ∀ c x, Summable fun n : ℕ => exp (-I * ((0 : ℝ) - γ * I) * ((n + τ) * dt)) * f n c x) : Damped dt γ f := fun c x => by
  refine ((h c x).norm.mul_left (Real.exp (γ * (τ * dt)))).congr fun n => ?_
  have e : ‖exp (-I * ((0 : ℝ) - γ * I) * ((n + τ) * dt))‖ = Real.exp (-(γ * ((n + τ) * dt))) := by
    rw [norm_exp]
    congr 1
    simp
  rw [norm_mul, e, ← mul_assoc, ← Real.exp_add]
  congr 2; ring

/-- **C183.** For a lossless run below the stability limit that starts at rest and is driven by currents that stop, the sums converge with every damping `γ > 0`, and the transforms in the integral are the one
and only solution of the FDFD system at the frequency `2 sin(w dt/2)/dt`, `w = ω - iγ`, with the transform of the currents as its source, and its magnetic field. -/
theorem C183_run (S : Sys sh ℝ) (d : DxList sh ℝ × DxList sh ℝ) (hS : S.dxes = some d) (m : Fin 3 → ℝ) (εm μm : ℝ)
    (hC : Courant S m εm μm) (hdt : 0 < S.dt) {γ : ℝ} (hγ : 0 < γ) (J : ℕ → VField sh ℝ) (N₀ : ℕ) (hJ : ∀ n, N₀ ≤ n → J n = fun _ _ => 0) :
    let st : ℕ → State sh ℝ := fun n => run S ⟨fun _ _ => 0, fun _ _ => 0⟩ (sourced S.dt J (fun _ _ _ => 0) n)
    let Ω : ℝ → ℂ := fun ω => 2 * Complex.sin ((ω - γ * I) * S.dt / 2) / S.dt
    let eps : Vec sh := vecS fun c x => (S.eps c x : ℂ)
    let mu : Option (Vec sh) := S.mu.map fun m => vecS fun c x => (m c x : ℂ)
    let E : ℝ → VField sh ℂ := fun ω => fieldSpectrum S.dt 0 (ω - γ * I) fun n => castF (st n).e
    let H : ℝ → VField sh ℂ := fun ω => fieldSpectrum S.dt (1 / 2) (ω - γ * I) fun n => castF (st (n + 1)).h
    (∀ ω, (∀ F : Vec sh, eFull (Ω ω) (cDx d) eps mu none none *ᵥ F = (-I * Ω ω) • vecS (fieldSpectrum S.dt (1 / 2) (ω - γ * I) fun n => castF (J n)) ↔ F = vecS (E ω)) ∧
      vecS (H ω) = Fdfd.e2h (Ω ω) (cDx d) mu none *ᵥ vecS (E ω)) ∧
    ∀ a x, ((S.dt * ∑' n : ℕ, Real.exp (-(γ * ((2 * n + 1 / 2) * S.dt))) * poynting (st n).e (st (n + 1)).h (some d) a x : ℝ) : ℂ)
        = 1 / (2 * Real.pi) * (∫ ω in -(Real.pi / S.dt)..(Real.pi / S.dt), exp (-I * ω * (S.dt / 2)) * FdfdF.poyntingECrossH (cDx d) (E ω) (conjF (H ω)) a x) ∧
      ((S.dt * ∑' n : ℕ, Real.exp (-(γ * ((2 * n + 3 / 2) * S.dt))) * poynting (st (n + 1)).e (st (n + 1)).h (some d) a x : ℝ) : ℂ)
        = 1 / (2 * Real.pi) * (∫ ω in -(Real.pi / S.dt)..(Real.pi / S.dt), exp (I * ω * (S.dt / 2)) * FdfdF.poyntingECrossH (cDx d) (E ω) (conjF (H ω)) a x) := by
  intro st Ω eps mu E H
  have hw : ∀ ω : ℝ, ((ω : ℂ) - γ * I).im < 0 := fun ω => by simpa using hγ
  have key := fun ω : ℝ => C115_pulse S d hS m εm μm hC hdt (ω - γ * I) (hw ω) J (fun _ _ _ => 0) N₀ hJ fun _ _ => rfl
  have dE : Damped S.dt γ fun n => castF (st n).e := damped_of_summable (τ := 0) fun c x => by
    simpa [castF] using ((key 0).1 c x).1
  have dH : Damped S.dt γ fun n => castF (st (n + 1)).h := damped_of_summable (τ := 1 / 2) fun c x => by
    have := ((key 0).1 c x).2
    simpa [castF] using this
  refine ⟨fun ω => ?_, fun a x => ?_⟩
  · obtain ⟨-, h1, h2⟩ := key ω
    have eE : (fun c x => (S.dt : ℂ) * ∑' n : ℕ, exp (-I * (ω - γ * I) * (n * S.dt)) * ((st n).e c x : ℂ)) = E ω := by
      funext c x
      simp [E, fieldSpectrum, castF]
    have eH : (fun c x => (S.dt : ℂ) * ∑' n : ℕ, exp (-I * (ω - γ * I) * ((n + 1 / 2) * S.dt)) * ((st (n + 1)).h c x : ℂ)) = H ω := by
      funext c x
      simp [H, fieldSpectrum, castF]
    have eJ : (fun c x => (S.dt : ℂ) * ∑ n ∈ Finset.range N₀, exp (-I * (ω - γ * I) * ((n + 1 / 2) * S.dt)) * (J n c x : ℂ))
        = fieldSpectrum S.dt (1 / 2) (ω - γ * I) fun n => castF (J n) := by
      funext c x
      simp only [fieldSpectrum, castF]
      rw [tsum_eq_sum (s := Finset.range N₀) fun n hn => by rw [hJ n (by simpa using hn)]; simp]
      push_cast; rfl
    have eM : vecS (fun c x => (S.dt : ℂ) * ∑ n ∈ Finset.range N₀, exp (-I * (ω - γ * I) * (n * S.dt)) * (((fun _ _ _ => 0 : ℕ → VField sh ℝ) n c x : ℝ) : ℂ)) = (0 : Vec sh) := by
      funext p; simp [vecS]
    rw [eE, eJ, eM, mulVec_zero, add_zero] at h1
    rw [eE, eH, eM] at h2
    refine ⟨h1, h2.trans ?_⟩
    funext p
    simp only [Pi.add_apply, Pi.zero_apply, zero_div, add_zero]
    rfl
  · have k := C183_spectrum hdt dE dH (cDx d) a x
    simp only [poynting_cast, ← ofReal_mul, ← ofReal_tsum] at k
    exact ⟨k.1, k.2 fun c x => by simp [castF, st, sourced, run]⟩

/-- **C183.** For a run with CPML: as soon as the recorded fields and currents can be summed with the damping `γ` (`γ = 0` if the layers have absorbed everything; by `C120_damped` some `γ` will always do), the
transforms in the integral solve the FDFD system on the grid stretched by the layers. -/
theorem C183_cpml (layers : Layers sh ℂ) (hd : DisjointLayers layers) {dt : ℝ} (hdt : 0 < dt) (dxes : Dxes sh ℂ) (eps mu : VField sh ℂ)
    (heps : ∀ c x, eps c x ≠ 0) (hmu : ∀ c x, mu c x ≠ 0) {γ : ℝ} (hp : ∀ ω : ℝ, InnerPoles layers (exp (I * (ω - γ * I) * dt))) (J : ℕ → VField sh ℂ)
    (sE : Damped dt γ fun n => (cpmlRun layers dt dxes eps mu J n).e) (sH : Damped dt γ fun n => (cpmlRun layers dt dxes eps mu J (n + 1)).h) (sJ : Damped dt γ J) :
    let E : ℝ → VField sh ℂ := fun ω => fieldSpectrum dt 0 (ω - γ * I) fun n => (cpmlRun layers dt dxes eps mu J n).e
    let H : ℝ → VField sh ℂ := fun ω => fieldSpectrum dt (1 / 2) (ω - γ * I) fun n => (cpmlRun layers dt dxes eps mu J (n + 1)).h
    (∀ ω : ℝ, Omega (ω - γ * I) dt ≠ 0 →
      let g := stretchedGrid layers (exp (I * (ω - γ * I) * dt)) dxes
      eFull (Omega (ω - γ * I) dt) g (vecS eps) (some (vecS mu)) none none *ᵥ vecS (E ω) = (-I * Omega (ω - γ * I) dt) • vecS (fieldSpectrum dt (1 / 2) (ω - γ * I) J) ∧
        vecS (H ω) = Fdfd.e2h (Omega (ω - γ * I) dt) g (some (vecS mu)) none *ᵥ vecS (E ω)) ∧
    ∀ a x, dt * ∑' n : ℕ, (Real.exp (-(γ * ((2 * n + 1 / 2) * dt))) : ℂ) * poynting (cpmlRun layers dt dxes eps mu J n).e (conjF (cpmlRun layers dt dxes eps mu J (n + 1)).h) (some dxes) a x
        = 1 / (2 * Real.pi) * (∫ ω in -(Real.pi / dt)..(Real.pi / dt), exp (-I * ω * (dt / 2)) * FdfdF.poyntingECrossH dxes (E ω) (conjF (H ω)) a x) ∧
      dt * ∑' n : ℕ, (Real.exp (-(γ * ((2 * n + 3 / 2) * dt))) : ℂ) * poynting (cpmlRun layers dt dxes eps mu J (n + 1)).e (conjF (cpmlRun layers dt dxes eps mu J (n + 1)).h) (some dxes) a x
        = 1 / (2 * Real.pi) * (∫ ω in -(Real.pi / dt)..(Real.pi / dt), exp (I * ω * (dt / 2)) * FdfdF.poyntingECrossH dxes (E ω) (conjF (H ω)) a x) := by
  intro E H
  have back : ∀ {f : ℕ → VField sh ℂ} (_ : Damped dt γ f) (τ ω : ℝ) (c : Fin 3) (x : Idx sh), Summable fun n : ℕ => exp (-I * (ω - γ * I) * ((n + τ) * dt)) * f n c x := fun hf τ ω c x => by
    refine ((hf.weighted τ c x).congr fun n => ?_).of_norm
    rw [norm_mul, norm_mul, norm_real, Real.norm_eq_abs, Real.abs_exp, norm_exp]
    congr 2
    simp
  refine ⟨fun ω hΩ => ?_, fun a x => ?_⟩
  · intro g
    have k := C120_transform layers hd dt (ofReal_ne_zero.2 hdt.ne') dxes eps mu heps hmu (ω - γ * I) hΩ (hp ω) J
      (fun c x => by simpa using back sE 0 ω c x) (fun c x => by have := back sH (1 / 2) ω c x; simpa using this) (fun c x => by have := back sJ (1 / 2) ω c x; simpa using this)
    have eE : (fun c x => (dt : ℂ) * ∑' n : ℕ, exp (-I * (ω - γ * I) * (n * dt)) * (cpmlRun layers dt dxes eps mu J n).e c x) = E ω := by
      funext c x
      simp [E, fieldSpectrum]
    have eH : (fun c x => (dt : ℂ) * ∑' n : ℕ, exp (-I * (ω - γ * I) * ((n + 1 / 2) * dt)) * (cpmlRun layers dt dxes eps mu J (n + 1)).h c x) = H ω := by
      funext c x
      simp [H, fieldSpectrum]
    have eJ : (fun c x => (dt : ℂ) * ∑' n : ℕ, exp (-I * (ω - γ * I) * ((n + 1 / 2) * dt)) * J n c x) = fieldSpectrum dt (1 / 2) (ω - γ * I) J := by
      funext c x
      simp [fieldSpectrum]
    simp only [eE, eH, eJ] at k
    exact k
  · have k := C183_spectrum hdt sE sH dxes a x
    exact ⟨k.1, k.2 fun c x => rfl⟩

/-! ## The hypotheses can be met -/

/-- A record that ends, with energy passing a face. -/
example : ∃ e h : ℕ → VField (fun _ => 2) ℝ, (∀ c x, e 0 c x = 0) ∧ (∀ c x, Summable fun n => |e n c x|) ∧ (∀ c x, Summable fun n => |h n c x|) ∧
    poynting (e 1) (h 1) (some (fun _ _ => 1, fun _ _ => 1)) 0 (fun _ => 0) ≠ 0 := by
  refine ⟨fun n c _ => if n = 1 ∧ c = 1 then 1 else 0, fun n c _ => if n = 1 ∧ c = 2 then 1 else 0, fun _ _ => by simp, fun c x => ?_, fun c x => ?_, ?_⟩
  · exact summable_of_ne_finset_zero (s := {1}) fun n hn => by simp [show n ≠ 1 by simpa using hn]
  · exact summable_of_ne_finset_zero (s := {1}) fun n hn => by simp [show n ≠ 1 by simpa using hn]
  · simp [poynting, dxesOrOnes, roll]

/-- A pulse below the stability limit. -/
example : ∃ (S : Sys ![3, 2, 2] ℝ) (d : DxList ![3, 2, 2] ℝ × DxList ![3, 2, 2] ℝ) (m : Fin 3 → ℝ) (J : ℕ → VField ![3, 2, 2] ℝ),
    S.dxes = some d ∧ Courant S m 1 1 ∧ 0 < S.dt ∧ (∃ c x, J 0 c x ≠ 0) ∧ ∀ n, 1 ≤ n → J n = fun _ _ => 0 := by
  refine ⟨⟨1 / 2, some (fun _ _ => 1, fun _ _ => 1), fun _ _ => 2, none⟩, _, fun _ => 1,
    fun n _ _ => if n = 0 then 1 else 0, rfl, ⟨fun _ => one_pos, fun _ _ => le_refl _, fun _ _ => le_refl _, one_pos, one_pos,
      fun _ _ => one_le_two, fun _ _ => le_refl _, ?_⟩, by norm_num, ⟨0, fun a => ⟨0, by fin_cases a <;> simp⟩, by simp⟩,
      fun n hn => by funext c x; simp [Nat.one_le_iff_ne_zero.1 hn]⟩
  norm_num

/-- Every run with CPML and bounded currents, with enough damping. -/
example (hsh : ∀ a, 0 < sh a) (layers : Layers sh ℂ) (hd : DisjointLayers layers) {dt : ℝ} (hdt : 0 < dt) (dxes : Dxes sh ℂ) (eps mu : VField sh ℂ) (J : ℕ → VField sh ℂ) (Jm : ℝ)
    (hJ : ∀ n c x, ‖J n c x‖ ≤ Jm) : ∃ γ : ℝ, (∀ ω : ℝ, InnerPoles layers (exp (I * (ω - γ * I) * dt))) ∧ (Damped dt γ fun n => (cpmlRun layers dt dxes eps mu J n).e) ∧
      (Damped dt γ fun n => (cpmlRun layers dt dxes eps mu J (n + 1)).h) ∧ Damped dt γ J := by
  obtain ⟨γ, h⟩ := C120_damped hsh layers hd dt hdt dxes eps mu
  have him : ∀ ω : ℝ, ((ω : ℂ) - ((γ + 1 : ℝ) : ℂ) * I).im < -γ := fun ω => by simp
  obtain ⟨-, -, h3⟩ := h _ (him 0)
  obtain ⟨s1, s2, s3⟩ := h3 J Jm hJ
  refine ⟨γ + 1, fun ω => (h _ (him ω)).2.1, damped_of_summable (τ := 0) fun c x => ?_, damped_of_summable (τ := 1 / 2) fun c x => ?_, damped_of_summable (τ := 1 / 2) fun c x => ?_⟩
  · simpa using s1 c x
  · simpa using s2 c x
  · simpa using s3 c x
end Meanas.Props
