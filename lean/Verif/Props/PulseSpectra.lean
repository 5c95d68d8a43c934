/-
C139: spectra of the source pulses (meanas/fdtd/misc.py). Specification: the Fourier integral over time, with the pulses read as functions of the time
`t = ii * dt`.
-/
import Verif.Props.FdtdMisc
import Mathlib.Analysis.SpecialFunctions.Gaussian.FourierTransform
import Mathlib.MeasureTheory.Integral.IntegralEqImproper
import Mathlib.Analysis.Complex.RealDeriv
import Mathlib.Tactic.Linarith

namespace Meanas.Props

open Misc Real MeasureTheory

/-- Fourier integral of a signal. -/
noncomputable def spectrum (f : ℝ → ℂ) (w : ℝ) : ℂ := ∫ t : ℝ, f t * Complex.exp (-Complex.I * w * t)

/-- The returned packet as a function of time: envelope and carrier `cos + i sin`. -/
noncomputable def packetSignal (A : PacketArgs) (t : ℝ) : ℂ :=
  let p := packetPhasor A (t / A.dt)
  p.1 * (p.2.1 + Complex.I * p.2.2)

/-- The real signal `envelope * cos` that is injected. -/
noncomputable def packetReal (A : PacketArgs) (t : ℝ) : ℝ := (packetPhasor A (t / A.dt)).1 * (packetPhasor A (t / A.dt)).2.1

/-- The Ricker pulse as a function of time. -/
noncomputable def rickerSignal (wl dt root t : ℝ) : ℝ := (rickerPhasor wl dt root (t / dt)).1

/-- Fourier integral of a shifted gaussian. -/
theorem gauss_fourier {a : ℝ} (ha : 0 < a) (D k : ℝ) :
    ∫ t : ℝ, (Real.exp (-a * (t - D) ^ 2) : ℂ) * Complex.exp (-Complex.I * k * (t - D : ℝ)) = ((√(π / a) * Real.exp (-k ^ 2 / (4 * a)) : ℝ) : ℂ) := by
  have h1 : ∫ t : ℝ, (Real.exp (-a * (t - D) ^ 2) : ℂ) * Complex.exp (-Complex.I * k * (t - D : ℝ))
      = ∫ t : ℝ, (Real.exp (-a * t ^ 2) : ℂ) * Complex.exp (-Complex.I * k * (t : ℝ)) :=
    integral_sub_right_eq_self (fun t : ℝ => (Real.exp (-a * t ^ 2) : ℂ) * Complex.exp (-Complex.I * k * (t : ℝ))) D
  rw [h1]
  have h2 := fourierIntegral_gaussian (b := (a : ℂ)) (by simpa using ha) (-k : ℂ)
  have h3 : ∀ t : ℝ, (Real.exp (-a * t ^ 2) : ℂ) * Complex.exp (-Complex.I * k * (t : ℝ))
      = Complex.exp (Complex.I * (-k : ℂ) * t) * Complex.exp (-(a : ℂ) * (t : ℂ) ^ 2) := by
    intro t
    push_cast
    rw [mul_comm]
    congr 2
    ring
  simp only [h3]
  rw [h2]
  have h4 : ((π : ℂ) / (a : ℂ)) ^ (1 / 2 : ℂ) = ((√(π / a) : ℝ) : ℂ) := by
    rw [Real.sqrt_eq_rpow, Complex.ofReal_cpow (by positivity)]
    push_cast; rfl
  rw [h4]
  push_cast
  congr 2
  ring

/-- Peak of the packet's spectrum. -/
noncomputable def packetPeak (A : PacketArgs) : ℝ := √(√(2 * packetAlpha A / π)) * √(π / packetAlpha A)

theorem packetPeak_pos (A : PacketArgs) (hA : GoodPacket A) : 0 < packetPeak A := by
  have := packetAlpha_pos A hA
  unfold packetPeak
  positivity

/-- C139: the spectrum of the packet is a gaussian around `2 π / wl`, with the phase of the delay. -/
theorem C139_packet_spectrum (A : PacketArgs) (hA : GoodPacket A) (hdt : A.dt ≠ 0) (h1 : A.oneSided = false) (w : ℝ) :
    spectrum (packetSignal A) w
      = Complex.exp (-Complex.I * w * packetDelay A) * ((packetPeak A * Real.exp (-(w - 2 * π / A.wl) ^ 2 / (4 * packetAlpha A)) : ℝ) : ℂ) := by
  have ha := packetAlpha_pos A hA
  have hint : ∀ t : ℝ, packetSignal A t * Complex.exp (-Complex.I * w * t)
      = (√(√(2 * packetAlpha A / π)) * Complex.exp (-Complex.I * w * packetDelay A))
        * ((Real.exp (-packetAlpha A * (t - packetDelay A) ^ 2) : ℂ) * Complex.exp (-Complex.I * (w - omega A.wl : ℝ) * (t - packetDelay A : ℝ))) := by
    intro t
    have ht : t / A.dt * A.dt = t := div_mul_cancel₀ t hdt
    simp only [packetSignal, packetPhasor, ht, h1, Bool.false_eq_true, false_and, if_false]
    have e1 : (Real.cos (omega A.wl * (t - packetDelay A)) : ℂ) + Complex.I * (Real.sin (omega A.wl * (t - packetDelay A)) : ℂ)
        = Complex.exp (Complex.I * (omega A.wl * (t - packetDelay A) : ℝ)) := by
      rw [mul_comm Complex.I, mul_comm Complex.I, Complex.exp_mul_I, ← Complex.ofReal_cos, ← Complex.ofReal_sin]
    rw [e1, show -packetAlpha A * (t - packetDelay A) * (t - packetDelay A) = -packetAlpha A * (t - packetDelay A) ^ 2 by ring]
    push_cast
    have e2 : Complex.exp (Complex.I * (omega A.wl * (t - packetDelay A))) * Complex.exp (-Complex.I * w * t)
        = Complex.exp (-Complex.I * w * packetDelay A) * Complex.exp (-Complex.I * (w - omega A.wl) * (t - packetDelay A)) := by
      rw [← Complex.exp_add, ← Complex.exp_add]; congr 1; ring
    linear_combination (√(√(2 * packetAlpha A / π)) : ℂ) * Complex.exp (-packetAlpha A * (t - packetDelay A) ^ 2) * e2
  rw [spectrum]
  simp only [hint]
  rw [integral_const_mul, gauss_fourier ha, packetPeak, omega]
  push_cast
  ring

/-- C139: the spectrum of the real signal `envelope * cos` consists of the gaussians around `± 2 π / wl`. -/
theorem C139_packet_real_spectrum (A : PacketArgs) (hA : GoodPacket A) (hdt : A.dt ≠ 0) (h1 : A.oneSided = false) (w : ℝ) :
    spectrum (fun t => (packetReal A t : ℂ)) w
      = Complex.exp (-Complex.I * w * packetDelay A) * ((packetPeak A / 2 * (Real.exp (-(w - 2 * π / A.wl) ^ 2 / (4 * packetAlpha A))
        + Real.exp (-(w + 2 * π / A.wl) ^ 2 / (4 * packetAlpha A))) : ℝ) : ℂ) := by
  have ha := packetAlpha_pos A hA
  have hint : ∀ t : ℝ, (packetReal A t : ℂ) * Complex.exp (-Complex.I * w * t)
      = (√(√(2 * packetAlpha A / π)) / 2 * Complex.exp (-Complex.I * w * packetDelay A))
        * ((Real.exp (-packetAlpha A * (t - packetDelay A) ^ 2) : ℂ) * Complex.exp (-Complex.I * (w - omega A.wl : ℝ) * (t - packetDelay A : ℝ)))
        + (√(√(2 * packetAlpha A / π)) / 2 * Complex.exp (-Complex.I * w * packetDelay A))
        * ((Real.exp (-packetAlpha A * (t - packetDelay A) ^ 2) : ℂ) * Complex.exp (-Complex.I * (w + omega A.wl : ℝ) * (t - packetDelay A : ℝ))) := by
    intro t
    have ht : t / A.dt * A.dt = t := div_mul_cancel₀ t hdt
    simp only [packetReal, packetPhasor, ht, h1, Bool.false_eq_true, false_and, if_false]
    rw [show -packetAlpha A * (t - packetDelay A) * (t - packetDelay A) = -packetAlpha A * (t - packetDelay A) ^ 2 by ring]
    push_cast
    rw [Complex.cos]
    have e2 : Complex.exp ((omega A.wl * (t - packetDelay A)) * Complex.I) * Complex.exp (-Complex.I * w * t)
        = Complex.exp (-Complex.I * w * packetDelay A) * Complex.exp (-Complex.I * (w - omega A.wl) * (t - packetDelay A)) := by
      rw [← Complex.exp_add, ← Complex.exp_add]; congr 1; ring
    have e3 : Complex.exp (-(omega A.wl * (t - packetDelay A)) * Complex.I) * Complex.exp (-Complex.I * w * t)
        = Complex.exp (-Complex.I * w * packetDelay A) * Complex.exp (-Complex.I * (w + omega A.wl) * (t - packetDelay A)) := by
      rw [← Complex.exp_add, ← Complex.exp_add]; congr 1; ring
    linear_combination (√(√(2 * packetAlpha A / π)) : ℂ) / 2 * Complex.exp (-packetAlpha A * (t - packetDelay A) ^ 2) * (e2 + e3)
  have hi : ∀ k : ℝ, Integrable fun t : ℝ => (Real.exp (-packetAlpha A * (t - packetDelay A) ^ 2) : ℂ) * Complex.exp (-Complex.I * k * (t - packetDelay A : ℝ)) := by
    intro k
    have g : Integrable fun t : ℝ => Complex.exp (-(packetAlpha A : ℂ) * (t : ℂ) ^ 2 + (-Complex.I * k) * t + 0) :=
      integrable_cexp_quadratic (by simpa using ha) _ _
    have g2 := g.comp_sub_right (packetDelay A)
    refine g2.congr (Filter.Eventually.of_forall fun t => ?_)
    simp only
    push_cast
    rw [← Complex.exp_add]
    congr 1
    ring
  rw [spectrum]
  simp only [hint]
  rw [integral_add ((hi _).const_mul _) ((hi _).const_mul _), integral_const_mul, integral_const_mul, gauss_fourier ha, gauss_fourier ha, packetPeak, omega]
  push_cast
  ring

/-- C139: the envelope has unit energy. -/
theorem C139_packet_energy (A : PacketArgs) (hA : GoodPacket A) (hdt : A.dt ≠ 0) (h1 : A.oneSided = false) :
    ∫ t : ℝ, (packetPhasor A (t / A.dt)).1 ^ 2 = 1 := by
  have ha := packetAlpha_pos A hA
  have hint : ∀ t : ℝ, (packetPhasor A (t / A.dt)).1 ^ 2 = √(2 * packetAlpha A / π) * Real.exp (-(2 * packetAlpha A) * (t - packetDelay A) ^ 2) := by
    intro t
    have ht : t / A.dt * A.dt = t := div_mul_cancel₀ t hdt
    simp only [packetPhasor, ht, h1, Bool.false_eq_true, false_and, if_false]
    rw [mul_pow, Real.sq_sqrt (Real.sqrt_nonneg _), ← Real.exp_nat_mul]
    congr 2
    push_cast; ring
  simp only [hint]
  rw [integral_const_mul, integral_sub_right_eq_self (fun t : ℝ => Real.exp (-(2 * packetAlpha A) * t ^ 2)) (packetDelay A), integral_gaussian,
    ← Real.sqrt_mul (by positivity)]
  rw [show 2 * packetAlpha A / π * (π / (2 * packetAlpha A)) = 1 by field_simp, Real.sqrt_one]

/-- The documented width in angular frequency that corresponds to `dwl` (misc.py:46). -/
noncomputable def docWidth (A : PacketArgs) : ℝ := A.dwl * (2 * π / A.wl) ^ 2 / (2 * π)

theorem packetAlpha_eq (A : PacketArgs) : packetAlpha A = docWidth A ^ 2 * Real.log 2 / 8 := by
  simp only [packetAlpha, docWidth, omega]; ring

/-- C139 (partial): the full width at half maximum of the spectrum is `√2 log 2 ≈ 0.980` times the width corresponding to `dwl`, which is documented to be
the full width at half maximum: at half the documented width from the centre the spectrum has fallen to `exp (-1 / (2 log 2)) ≈ 0.486` of its peak. -/
theorem C139_packet_width_partial (A : PacketArgs) (hA : GoodPacket A) (hdt : A.dt ≠ 0) (h1 : A.oneSided = false) :
    (∀ w, ‖spectrum (packetSignal A) (2 * π / A.wl)‖ / 2 ≤ ‖spectrum (packetSignal A) w‖ ↔ |w - 2 * π / A.wl| ≤ √2 * Real.log 2 * docWidth A / 2)
    ∧ ‖spectrum (packetSignal A) (2 * π / A.wl + docWidth A / 2)‖ = Real.exp (-1 / (2 * Real.log 2)) * ‖spectrum (packetSignal A) (2 * π / A.wl)‖
    ∧ ‖spectrum (packetSignal A) (2 * π / A.wl + docWidth A / 2)‖ < ‖spectrum (packetSignal A) (2 * π / A.wl)‖ / 2
    ∧ √2 * Real.log 2 < 0.981 ∧ 0.98 < √2 * Real.log 2 := by
  have ha := packetAlpha_pos A hA
  have hP := packetPeak_pos A hA
  have hW : 0 < docWidth A := by
    have := hA.wl; have := hA.dwl
    unfold docWidth; positivity
  have l1 := Real.log_two_gt_d9
  have l2 := Real.log_two_lt_d9
  have s1 : √2 < 1.41422 := by
    rw [Real.sqrt_lt' (by norm_num)]; norm_num
  have s2 : 1.41421 < √2 := by
    rw [Real.lt_sqrt (by norm_num)]; norm_num
  have nrm : ∀ w, ‖spectrum (packetSignal A) w‖ = packetPeak A * Real.exp (-(w - 2 * π / A.wl) ^ 2 / (4 * packetAlpha A)) := by
    intro w
    rw [C139_packet_spectrum A hA hdt h1, norm_mul,
      show -Complex.I * w * packetDelay A = ((-(w * packetDelay A) : ℝ) : ℂ) * Complex.I by push_cast; ring, Complex.norm_exp_ofReal_mul_I, one_mul,
      Complex.norm_real, Real.norm_of_nonneg (by positivity)]
  have e0 : packetPeak A * Real.exp (-(2 * π / A.wl - 2 * π / A.wl) ^ 2 / (4 * packetAlpha A)) = packetPeak A := by simp
  have e2 : Real.exp (-(2 * π / A.wl + docWidth A / 2 - 2 * π / A.wl) ^ 2 / (4 * packetAlpha A)) = Real.exp (-1 / (2 * Real.log 2)) := by
    rw [packetAlpha_eq]
    congr 1
    have : Real.log 2 ≠ 0 := by linarith
    field_simp
    ring
  refine ⟨fun w => ?_, ?_, ?_, ?_, ?_⟩
  · rw [nrm, nrm, e0]
    have h2 : packetPeak A / 2 = packetPeak A * Real.exp (-Real.log 2) := by
      rw [Real.exp_neg, Real.exp_log (by norm_num)]; ring
    rw [h2, mul_le_mul_iff_right₀ hP, Real.exp_le_exp, neg_div, neg_le_neg_iff, div_le_iff₀ (by positivity)]
    have h3 : Real.log 2 * (4 * packetAlpha A) = (√2 * Real.log 2 * docWidth A / 2) ^ 2 := by
      rw [packetAlpha_eq, div_pow, mul_pow, mul_pow, Real.sq_sqrt (by norm_num)]; ring
    rw [h3, sq_le_sq, abs_of_nonneg (show 0 ≤ √2 * Real.log 2 * docWidth A / 2 by positivity)]
  · rw [nrm, nrm, e0, e2]; ring
  · rw [nrm, nrm, e0, e2, div_eq_mul_inv (packetPeak A)]
    refine mul_lt_mul_of_pos_left ?_ hP
    have : (2 : ℝ)⁻¹ = Real.exp (-Real.log 2) := by rw [Real.exp_neg, Real.exp_log (by norm_num)]
    rw [this, Real.exp_lt_exp, neg_div, neg_lt_neg_iff, lt_div_iff₀ (by linarith)]
    nlinarith
  · nlinarith
  · nlinarith

/-- C139 (partial): the full width at half maximum of the envelope is `2 √(log 2 / a)`; the docstring says `2 √(2 log 2) √(2 / a)`, twice as much. -/
theorem C139_packet_time_width_partial (A : PacketArgs) (hA : GoodPacket A) (hdt : A.dt ≠ 0) (h1 : A.oneSided = false) :
    (∀ t, (packetPhasor A (packetDelay A / A.dt)).1 / 2 ≤ (packetPhasor A (t / A.dt)).1 ↔ |t - packetDelay A| ≤ √(Real.log 2 / packetAlpha A))
    ∧ 2 * √(2 * Real.log 2) * √(2 / packetAlpha A) = 2 * (2 * √(Real.log 2 / packetAlpha A)) := by
  have ha := packetAlpha_pos A hA
  have l1 : 0 < Real.log 2 := Real.log_pos (by norm_num)
  refine ⟨fun t => ?_, ?_⟩
  · have ht : t / A.dt * A.dt = t := div_mul_cancel₀ t hdt
    have hD : packetDelay A / A.dt * A.dt = packetDelay A := div_mul_cancel₀ _ hdt
    simp only [packetPhasor, ht, hD, h1, Bool.false_eq_true, false_and, if_false, sub_self, mul_zero, Real.exp_zero, mul_one]
    have hp : 0 < √(√(2 * packetAlpha A / π)) := by positivity
    have h2 : √(√(2 * packetAlpha A / π)) / 2 = √(√(2 * packetAlpha A / π)) * Real.exp (-Real.log 2) := by
      rw [Real.exp_neg, Real.exp_log (by norm_num)]; ring
    rw [h2, mul_le_mul_iff_right₀ hp, Real.exp_le_exp,
      show -packetAlpha A * (t - packetDelay A) * (t - packetDelay A) = -((t - packetDelay A) ^ 2 * packetAlpha A) by ring, neg_le_neg_iff,
      ← le_div_iff₀ ha, ← Real.sqrt_le_sqrt_iff (by positivity), Real.sqrt_sq_eq_abs]
  · rw [mul_assoc, ← Real.sqrt_mul (by positivity), show 2 * Real.log 2 * (2 / packetAlpha A) = 2 ^ 2 * (Real.log 2 / packetAlpha A) by ring,
      Real.sqrt_mul (by norm_num), Real.sqrt_sq (by norm_num)]

/-- C139: the spectrum of the Ricker pulse. -/
theorem C139_ricker_spectrum (wl dt root : ℝ) (hw : 0 < wl) (hdt : dt ≠ 0) (w : ℝ) :
    spectrum (fun t => (rickerSignal wl dt root t : ℂ)) w
      = Complex.exp (-Complex.I * w * rickerDelay wl root) * ((4 * √π * w ^ 2 / (2 * π / wl) ^ 3 * Real.exp (-(w / (2 * π / wl)) ^ 2) : ℝ) : ℂ) := by
  have ho := omega_pos hw
  set o := omega wl with ho'
  set D := rickerDelay wl root with hD
  -- `g` is the gaussian times the Fourier factor; the pulse times the factor is `F'` plus a multiple of `g`
  set a : ℝ := o ^ 2 / 4 with hA
  have ha : 0 < a := by positivity
  set g : ℝ → ℂ := fun t => Complex.exp (-(a : ℂ) * (t : ℂ) ^ 2 + (-Complex.I * w) * t + 0) with hg
  have ig : Integrable g := integrable_cexp_quadratic (by simpa using ha) _ _
  have ngr : ∀ t : ℝ, ‖g t‖ = Real.exp (-a * t ^ 2) := by
    intro t
    simp only [hg]
    rw [Complex.norm_exp]
    congr 1
    have : -(a : ℂ) * (t : ℂ) ^ 2 + (-Complex.I * w) * t + 0 = ((-a * t ^ 2 : ℝ) : ℂ) + ((-(w * t) : ℝ) : ℂ) * Complex.I := by push_cast; ring
    rw [this, Complex.add_re, Complex.ofReal_re, Complex.re_ofReal_mul, Complex.I_re, mul_zero, add_zero]
  have cg : Continuous g := by simp only [hg]; fun_prop
  have itg : Integrable fun t : ℝ => (t : ℂ) * g t := by
    refine (integrable_mul_exp_neg_mul_sq ha).norm.mono' (by fun_prop) (Filter.Eventually.of_forall fun t => ?_)
    rw [norm_mul, ngr, Complex.norm_real, norm_mul, Real.norm_of_nonneg (Real.exp_pos _).le]
  have ittg : Integrable fun t : ℝ => (t : ℂ) ^ 2 * g t := by
    have := integrable_rpow_mul_exp_neg_mul_sq ha (s := 2) (by norm_num)
    refine this.norm.mono' (by fun_prop) (Filter.Eventually.of_forall fun t => ?_)
    rw [norm_mul, ngr, norm_pow, Complex.norm_real, norm_mul, Real.norm_of_nonneg (Real.exp_pos _).le, Real.rpow_two, norm_pow]
  have dg : ∀ t : ℝ, HasDerivAt g ((-2 * a * t - Complex.I * w) * g t) t := by
    intro t
    have h1 : HasDerivAt (fun t : ℝ => (t : ℂ)) 1 t := by simpa using (hasDerivAt_id (t : ℝ)).ofReal_comp
    have h2 : HasDerivAt (fun t : ℝ => -(a : ℂ) * (t : ℂ) ^ 2 + (-Complex.I * w) * t + 0) (-(a : ℂ) * (2 * (t : ℂ)) + (-Complex.I * w) * 1) t := by
      have h3 := ((h1.pow 2).const_mul (-(a : ℂ))).add (h1.const_mul (-Complex.I * w))
      have h4 := h3.add_const (0 : ℂ)
      exact h4.congr_deriv (by push_cast; ring)
    exact h2.cexp.congr_deriv (by simp only [hg]; ring)
  -- F = (t - i w / (2 a)) g
  have dF : ∀ t : ℝ, HasDerivAt (fun t : ℝ => ((t : ℂ) - Complex.I * w / (2 * a)) * g t) ((1 - 2 * a * (t : ℂ) ^ 2) * g t - (w ^ 2 / (2 * a)) * g t) t := by
    intro t
    have h1 : HasDerivAt (fun t : ℝ => (t : ℂ) - Complex.I * w / (2 * a)) 1 t := by
      simpa using ((hasDerivAt_id (t : ℝ)).ofReal_comp).sub_const (Complex.I * w / (2 * a))
    refine (h1.mul (dg t)).congr_deriv ?_
    have hac : (a : ℂ) ≠ 0 := by exact_mod_cast ha.ne'
    have hI : Complex.I ^ 2 = -1 := Complex.I_sq
    rw [← sub_eq_zero]
    field_simp
    linear_combination ((w : ℂ) ^ 2 * g t) * hI
  have iF : Integrable fun t : ℝ => ((t : ℂ) - Complex.I * w / (2 * a)) * g t := by
    simp only [sub_mul]
    exact itg.sub (ig.const_mul _)
  have iP : Integrable fun t : ℝ => (1 - 2 * a * (t : ℂ) ^ 2) * g t := by
    have : (fun t : ℝ => (1 - 2 * a * (t : ℂ) ^ 2) * g t) = fun t : ℝ => g t - 2 * a * ((t : ℂ) ^ 2 * g t) := by funext t; ring
    rw [this]
    exact ig.sub (ittg.const_mul _)
  have key : ∫ t : ℝ, (1 - 2 * a * (t : ℂ) ^ 2) * g t = (w ^ 2 / (2 * a)) * ∫ t : ℝ, g t := by
    have h0 := integral_eq_zero_of_hasDerivAt_of_integrable dF (iP.sub (ig.const_mul _)) iF
    rw [integral_sub iP (ig.const_mul _), integral_const_mul, sub_eq_zero] at h0
    exact h0
  have gint : ∫ t : ℝ, g t = ((√(π / a) * Real.exp (-w ^ 2 / (4 * a)) : ℝ) : ℂ) := by
    rw [← gauss_fourier ha 0 w]
    refine integral_congr_ae (Filter.Eventually.of_forall fun t => ?_)
    simp only [hg]
    push_cast
    rw [← Complex.exp_add]
    congr 1
    simp
  have hint : ∀ t : ℝ, (rickerSignal wl dt root t : ℂ) * Complex.exp (-Complex.I * w * t)
      = Complex.exp (-Complex.I * w * D) * ((1 - 2 * a * ((t - D : ℝ) : ℂ) ^ 2) * g (t - D)) := by
    intro t
    have ht : t / dt * dt = t := div_mul_cancel₀ t hdt
    simp only [rickerSignal, rickerPhasor, ht, ← hD, ← ho', hg]
    have e1 : Complex.exp (-Complex.I * w * D) * Complex.exp (-(a : ℂ) * ((t - D : ℝ) : ℂ) ^ 2 + (-Complex.I * w) * ((t - D : ℝ) : ℂ) + 0)
        = (Real.exp (-(o * (t - D) / 2) * (o * (t - D) / 2)) : ℂ) * Complex.exp (-Complex.I * w * t) := by
      push_cast
      rw [← Complex.exp_add, ← Complex.exp_add]
      congr 1
      rw [hA]; push_cast; ring
    rw [mul_left_comm, e1, hA]
    push_cast
    ring
  rw [spectrum]
  simp only [hint]
  rw [integral_const_mul, integral_sub_right_eq_self (fun t : ℝ => (1 - 2 * a * (t : ℂ) ^ 2) * g t) D, key, gint]
  congr 1
  have hs : √(π / a) = 2 * √π / o := by
    rw [hA, show π / (o ^ 2 / 4) = (2 / o) ^ 2 * π by field_simp; ring, Real.sqrt_mul (by positivity), Real.sqrt_sq (by positivity)]; ring
  rw [hs, show (2 * π / wl) = o from rfl, show -w ^ 2 / (4 * a) = -(w / o) ^ 2 by rw [hA]; field_simp]
  have hac : (a : ℂ) = (o : ℂ) ^ 2 / 4 := by rw [hA]; push_cast; ring
  rw [hac]
  push_cast
  have hoc : (o : ℂ) ≠ 0 := by exact_mod_cast ho.ne'
  field_simp

/-- C139: the spectrum of the Ricker pulse is largest exactly at the frequency `2 π / wl` and its negative, and it has no component at frequency zero. -/
theorem C139_ricker_peak (wl dt root : ℝ) (hw : 0 < wl) (hdt : dt ≠ 0) :
    spectrum (fun t => (rickerSignal wl dt root t : ℂ)) 0 = 0 ∧
    ∀ w, |w| ≠ 2 * π / wl → ‖spectrum (fun t => (rickerSignal wl dt root t : ℂ)) w‖ < ‖spectrum (fun t => (rickerSignal wl dt root t : ℂ)) (2 * π / wl)‖ := by
  have ho : 0 < 2 * π / wl := omega_pos hw
  refine ⟨by rw [C139_ricker_spectrum wl dt root hw hdt]; simp, fun w hne => ?_⟩
  have nrm : ∀ w, ‖spectrum (fun t => (rickerSignal wl dt root t : ℂ)) w‖ = 4 * √π * w ^ 2 / (2 * π / wl) ^ 3 * Real.exp (-(w / (2 * π / wl)) ^ 2) := by
    intro w
    rw [C139_ricker_spectrum wl dt root hw hdt, norm_mul,
      show -Complex.I * w * rickerDelay wl root = ((-(w * rickerDelay wl root) : ℝ) : ℂ) * Complex.I by push_cast; ring, Complex.norm_exp_ofReal_mul_I,
      one_mul, Complex.norm_real, Real.norm_of_nonneg (by positivity)]
  rw [nrm, nrm]
  generalize 2 * π / wl = o at *
  set y := (w / o) ^ 2 with hy
  have y1 : y ≠ 1 := by
    intro h
    apply hne
    have : |w / o| = 1 := by
      rw [← sq_eq_sq₀ (abs_nonneg _) zero_le_one, sq_abs]; simpa [hy] using h
    rwa [abs_div, abs_of_pos ho, div_eq_one_iff_eq ho.ne'] at this
  have hx : y * Real.exp (-y) < Real.exp (-1) := by
    have := Real.add_one_lt_exp (x := y - 1) (sub_ne_zero.mpr y1)
    have h2 : Real.exp (y - 1) * Real.exp (-y) = Real.exp (-1) := by rw [← Real.exp_add]; congr 1; ring
    nlinarith [Real.exp_pos (-y)]
  have e1 : 4 * √π * w ^ 2 / o ^ 3 * Real.exp (-y) = 4 * √π / o * (y * Real.exp (-y)) := by
    rw [hy, div_pow]; field_simp
  have e2 : 4 * √π * o ^ 2 / o ^ 3 * Real.exp (-(o / o) ^ 2) = 4 * √π / o * Real.exp (-1) := by
    rw [div_self ho.ne', one_pow]; field_simp
  rw [e1, e2]
  exact mul_lt_mul_of_pos_left hx (by positivity)

/-- The hypotheses are met. -/
example : ∃ A : PacketArgs, GoodPacket A ∧ A.dt ≠ 0 ∧ A.oneSided = false ∧ 0 < docWidth A :=
  ⟨⟨20, 4, 1 / 2, 1e-10, false⟩, ⟨by norm_num, by norm_num, by norm_num, by norm_num⟩, by norm_num, rfl, by unfold docWidth; positivity⟩

end Meanas.Props
