/-
C22, C23: source pulses and gaussian beams (meanas/fdtd/misc.py).
-/
import Verif.Model.Misc
import Mathlib.Analysis.SpecialFunctions.Trigonometric.Deriv
import Mathlib.Analysis.SpecialFunctions.ExpDeriv
import Mathlib.Analysis.Real.Pi.Bounds
import Mathlib.Analysis.Complex.ExponentialBounds
import Mathlib.Algebra.BigOperators.Field

namespace Meanas.Props

open Misc Real

/-! ### C22: gaussian packet -/

/-- Meaningful arguments. -/
structure GoodPacket (A : PacketArgs) : Prop where
  wl : 0 < A.wl
  dwl : 0 < A.dwl
  on0 : 0 < A.turnOn
  on1 : A.turnOn < 1

theorem omega_pos {wl : ℝ} (h : 0 < wl) : 0 < omega wl := by unfold omega; positivity

theorem packetAlpha_pos (A : PacketArgs) (hA : GoodPacket A) : 0 < packetAlpha A := by
  have h1 := omega_pos hA.wl; have h2 := hA.dwl; have h3 : 0 < Real.log 2 := Real.log_pos (by norm_num)
  unfold packetAlpha; positivity

/-- C22: the delay is a whole number of periods, at least the time after which the gaussian has decayed to
`turn_on`. -/
theorem C22_delay (A : PacketArgs) (hA : GoodPacket A) :
    (∃ n : ℕ, packetDelay A = n * A.wl) ∧ Real.exp (-packetAlpha A * packetDelay A ^ 2) ≤ A.turnOn := by
  have hw := hA.wl
  have ha := packetAlpha_pos A hA
  set r := Real.sqrt (-Real.log A.turnOn / packetAlpha A) with hr
  have hd : packetDelay A = (⌈r * (1 / A.wl)⌉ : ℝ) * A.wl := by simp [packetDelay, ← hr]
  have hr0 : 0 ≤ r := Real.sqrt_nonneg _
  have hceil : 0 ≤ ⌈r * (1 / A.wl)⌉ := Int.ceil_nonneg (by positivity)
  constructor
  · refine ⟨⌈r * (1 / A.wl)⌉.toNat, ?_⟩
    rw [hd]; congr 1
    exact_mod_cast (Int.toNat_of_nonneg hceil).symm
  · have h1 : r ≤ packetDelay A := by
      rw [hd]
      have := Int.le_ceil (r * (1 / A.wl))
      calc r = r * (1 / A.wl) * A.wl := by field_simp
        _ ≤ _ := mul_le_mul_of_nonneg_right this hw.le
    have h2 : r ^ 2 = -Real.log A.turnOn / packetAlpha A := by
      rw [hr, Real.sq_sqrt]
      have : Real.log A.turnOn < 0 := Real.log_neg hA.on0 hA.on1
      exact div_nonneg (by linarith) ha.le
    have h3 : r ^ 2 ≤ packetDelay A ^ 2 := by nlinarith
    have h4 : -packetAlpha A * packetDelay A ^ 2 ≤ Real.log A.turnOn := by
      have : packetAlpha A * r ^ 2 = -Real.log A.turnOn := by rw [h2]; field_simp
      nlinarith
    calc Real.exp (-packetAlpha A * packetDelay A ^ 2) ≤ Real.exp (Real.log A.turnOn) := Real.exp_le_exp.2 h4
      _ = A.turnOn := Real.exp_log hA.on0

/-- C22: because the delay is a whole number of periods, the carrier keeps its phase: it is `cos(ω t)`, `sin(ω t)` with
`t` counted from step 0. -/
theorem C22_phase (A : PacketArgs) (hA : GoodPacket A) (ii : ℝ) :
    (packetPhasor A ii).2.1 = Real.cos (2 * π * (ii * A.dt) / A.wl) ∧
    (packetPhasor A ii).2.2 = Real.sin (2 * π * (ii * A.dt) / A.wl) := by
  obtain ⟨⟨n, hn⟩, _⟩ := C22_delay A hA
  have hw := hA.wl.ne'
  have e : omega A.wl * (ii * A.dt - packetDelay A) = 2 * π * (ii * A.dt) / A.wl - n * (2 * π) := by
    rw [hn, omega]; field_simp
  simp only [packetPhasor, e]
  exact ⟨Real.cos_sub_nat_mul_two_pi _ _, Real.sin_sub_nat_mul_two_pi _ _⟩

/-- C22: the largest value of a two-sided packet. -/
noncomputable def peak (A : PacketArgs) : ℝ := Real.sqrt (Real.sqrt (2 * packetAlpha A / π))

theorem envelope_twoSided (A : PacketArgs) (h1 : A.oneSided = false) (ii : ℝ) :
    (packetPhasor A ii).1 = peak A * Real.exp (-packetAlpha A * (ii * A.dt - packetDelay A) ^ 2) := by
  simp [packetPhasor, peak, h1]; left; ring_nf

theorem peak_pos (A : PacketArgs) (hA : GoodPacket A) : 0 < peak A := by
  have := packetAlpha_pos A hA
  unfold peak; positivity

/-- C22 (turn-on): the envelope at step 0 is at most `turn_on` times the envelope `env` at the peak time, also for a
one-sided source. -/
theorem C22_turn_on (A : PacketArgs) (hA : GoodPacket A) (ip : ℝ) (hip : ip * A.dt = packetDelay A) :
    (packetPhasor A 0).1 ≤ A.turnOn * (packetPhasor A ip).1 := by
  obtain ⟨⟨n, hn⟩, hd⟩ := C22_delay A hA
  have hw := hA.wl
  have hneg : ¬ (A.oneSided = true ∧ (0 : ℝ) * A.dt - packetDelay A > 0) := by
    rintro ⟨_, h⟩; rw [hn] at h
    have : (0 : ℝ) ≤ n * A.wl := by positivity
    linarith
  have hneg' : ¬ (A.oneSided = true ∧ ip * A.dt - packetDelay A > 0) := by
    rintro ⟨_, h⟩; linarith
  have e0 : (packetPhasor A 0).1 = peak A * Real.exp (-packetAlpha A * packetDelay A ^ 2) := by
    simp only [packetPhasor]; rw [if_neg hneg, peak]; congr 2; ring
  have e1 : (packetPhasor A ip).1 = peak A := by
    simp only [packetPhasor]; rw [if_neg hneg', peak, hip]; simp
  rw [e0, e1, mul_comm A.turnOn]
  exact mul_le_mul_of_nonneg_left hd (peak_pos A hA).le

/-- C22 (shape of the two-sided packet): symmetric about the delay, maximal there, non-decreasing before it and
non-increasing after it. Times are written `ii * dt`. -/
theorem C22_envelope (A : PacketArgs) (hA : GoodPacket A) (h1 : A.oneSided = false) (i j : ℝ) :
    ((i * A.dt - packetDelay A = -(j * A.dt - packetDelay A)) → (packetPhasor A i).1 = (packetPhasor A j).1) ∧
    (j * A.dt = packetDelay A → (packetPhasor A i).1 ≤ (packetPhasor A j).1) ∧
    (i * A.dt ≤ j * A.dt → j * A.dt ≤ packetDelay A → (packetPhasor A i).1 ≤ (packetPhasor A j).1) ∧
    (i * A.dt ≤ j * A.dt → packetDelay A ≤ i * A.dt → (packetPhasor A j).1 ≤ (packetPhasor A i).1) := by
  have ha := packetAlpha_pos A hA
  have hp := (peak_pos A hA).le
  simp only [envelope_twoSided A h1]
  refine ⟨fun h => by rw [h]; ring_nf, fun h => ?_, fun h h' => ?_, fun h h' => ?_⟩
  all_goals
    apply mul_le_mul_of_nonneg_left _ hp
    rw [Real.exp_le_exp]
  · rw [h]
    have := mul_nonneg ha.le (sq_nonneg (i * A.dt - packetDelay A))
    nlinarith
  · have : (j * A.dt - packetDelay A) ^ 2 ≤ (i * A.dt - packetDelay A) ^ 2 := by nlinarith
    nlinarith
  · have : (i * A.dt - packetDelay A) ^ 2 ≤ (j * A.dt - packetDelay A) ^ 2 := by nlinarith
    nlinarith

/-- C22 (one-sided, partial): the amplitude never decreases provided the gaussian's peak `(2 α/π)^(1/4)` does not exceed
1. Missing: larger peaks, for which the claim is false (`C22_one_sided_drop_partial`). -/
theorem C22_one_sided_partial (A : PacketArgs) (hA : GoodPacket A) (h1 : A.oneSided = true) (hpk : packetAlpha A ≤ π / 2)
    (i j : ℝ) (hij : i * A.dt ≤ j * A.dt) : (packetPhasor A i).1 ≤ (packetPhasor A j).1 := by
  have ha := packetAlpha_pos A hA
  have hp := peak_pos A hA
  have hp1 : peak A ≤ 1 := by
    unfold peak
    rw [Real.sqrt_le_one, Real.sqrt_le_one, div_le_one pi_pos]; linarith
  have key : ∀ k, (packetPhasor A k).1 = if k * A.dt - packetDelay A > 0 then 1
      else peak A * Real.exp (-packetAlpha A * (k * A.dt - packetDelay A) ^ 2) := by
    intro k
    simp only [packetPhasor, h1, true_and, peak]
    split_ifs
    · rfl
    · congr 2; ring
  rw [key, key]
  split_ifs with q1 q2 q2
  · rfl
  · linarith
  · have : Real.exp (-packetAlpha A * (i * A.dt - packetDelay A) ^ 2) ≤ 1 := by
      rw [Real.exp_le_one_iff]
      have := mul_nonneg ha.le (sq_nonneg (i * A.dt - packetDelay A))
      linarith
    nlinarith [Real.exp_pos (-packetAlpha A * (i * A.dt - packetDelay A) ^ 2)]
  · apply mul_le_mul_of_nonneg_left _ hp.le
    rw [Real.exp_le_exp]
    have : (j * A.dt - packetDelay A) ^ 2 ≤ (i * A.dt - packetDelay A) ^ 2 := by nlinarith
    nlinarith

/-- C22 (one-sided, the disagreement): for a wide-band pulse the amplitude *does* drop after its maximum, from the
gaussian's peak value to 1. The two steps are integer step numbers. -/
theorem C22_one_sided_drop_partial :
    ∃ A : PacketArgs, GoodPacket A ∧ 0 < A.dt ∧ A.oneSided = true ∧
      ∃ n : ℕ, (packetPhasor A ((n + 1 : ℕ) : ℝ)).1 < (packetPhasor A (n : ℝ)).1 := by
  let A : PacketArgs := { wl := 1, dwl := 1, dt := 1, turnOn := 1/2, oneSided := true }
  have hA : GoodPacket A := ⟨by norm_num [A], by norm_num [A], by norm_num [A], by norm_num [A]⟩
  obtain ⟨⟨n, hn⟩, _⟩ := C22_delay A hA
  have hn' : packetDelay A = n := by rw [hn]; simp [A]
  refine ⟨A, hA, by norm_num [A], rfl, n, ?_⟩
  have e1 : (packetPhasor A ((n + 1 : ℕ) : ℝ)).1 = 1 := by
    simp only [packetPhasor]
    rw [if_pos ⟨rfl, by rw [hn']; simp [A]⟩]
  have e0 : (packetPhasor A (n : ℝ)).1 = peak A := by
    simp only [packetPhasor]
    rw [if_neg ?_]
    · rw [hn']; simp [A, peak]
    · rw [hn']; simp [A]
  rw [e1, e0]
  have hal : packetAlpha A = π ^ 2 * Real.log 2 / 2 := by
    simp only [packetAlpha, omega, A]; field_simp; ring
  have hpi := pi_gt_three
  have hlog := Real.log_two_gt_d9
  unfold peak
  rw [Real.lt_sqrt (by norm_num), Real.lt_sqrt (by norm_num), hal, lt_div_iff₀ pi_pos]
  nlinarith [mul_pos pi_pos (sub_pos.2 hpi), mul_pos pi_pos pi_pos]

/-! ### C22: Ricker pulse -/

/-- C22: for whatever delay was found, the Ricker pulse has the documented shape, its delay is a whole number of
periods and its phase is kept. -/
theorem C22_ricker (wl dt root ii : ℝ) (hw : 0 < wl) :
    (∃ n : ℤ, rickerDelay wl root = n * wl) ∧
    (let f := 1 / wl
     let t0 := ii * dt - rickerDelay wl root
     (rickerPhasor wl dt root ii).1 = (1 - 2 * (π * f * t0) ^ 2) * Real.exp (-(π * f * t0) ^ 2)) ∧
    (rickerPhasor wl dt root ii).2.1 = Real.cos (2 * π * (ii * dt) / wl) ∧
    (rickerPhasor wl dt root ii).2.2 = Real.sin (2 * π * (ii * dt) / wl) := by
  have hd : rickerDelay wl root = (⌈root * (1 / wl)⌉ : ℤ) * wl := by simp [rickerDelay]
  have e : omega wl * (ii * dt - rickerDelay wl root) = 2 * π * (ii * dt) / wl - (⌈root * (1 / wl)⌉ : ℤ) * (2 * π) := by
    rw [hd, omega]; field_simp
  refine ⟨⟨_, hd⟩, ?_, ?_, ?_⟩
  · simp only [rickerPhasor, omega]
    congr 1
    · ring
    · congr 1; ring
  · simp only [rickerPhasor, e]; exact Real.cos_sub_int_mul_two_pi _ _
  · simp only [rickerPhasor, e]; exact Real.sin_sub_int_mul_two_pi _ _

/-- C22: "second derivative of a gaussian pulse". -/
theorem C22_ricker_second_derivative (wl root t : ℝ) (hw : 0 < wl) :
    let g : ℝ → ℝ := fun s => Real.exp (-(π / wl * (s - rickerDelay wl root)) ^ 2)
    (rickerPhasor wl 1 root t).1 = -(2 / (2 * π / wl) ^ 2) * deriv (deriv g) t := by
  intro g
  set D := rickerDelay wl root
  set a := π / wl with ha
  have ha0 : a ≠ 0 := by rw [ha]; positivity
  have d1 : ∀ s, HasDerivAt g (-(2 * a ^ 2 * (s - D)) * Real.exp (-(a * (s - D)) ^ 2)) s := by
    intro s
    have h1 : HasDerivAt (fun s => a * (s - D)) (a * 1) s := ((hasDerivAt_id s).sub_const D).const_mul a
    have h2 := (h1.pow 2).neg.exp
    have e : -(2 * a ^ 2 * (s - D)) * Real.exp (-(a * (s - D)) ^ 2)
        = Real.exp (-(a * (s - D)) ^ 2) * -(((2 : ℕ) : ℝ) * (a * (s - D)) ^ (2 - 1) * (a * 1)) := by
      norm_num; ring
    rw [e]; exact h2
  have d1' : deriv g = fun s => -(2 * a ^ 2 * (s - D)) * Real.exp (-(a * (s - D)) ^ 2) := by
    funext s; exact (d1 s).deriv
  have d2 : HasDerivAt (deriv g) ((-(2 * a ^ 2)) * Real.exp (-(a * (t - D)) ^ 2)
      + -(2 * a ^ 2 * (t - D)) * (-(2 * a ^ 2 * (t - D)) * Real.exp (-(a * (t - D)) ^ 2))) t := by
    rw [d1']
    have h1 : HasDerivAt (fun s => -(2 * a ^ 2 * (s - D))) (-(2 * a ^ 2 * 1)) t :=
      (((hasDerivAt_id t).sub_const D).const_mul (2 * a ^ 2)).neg
    have := h1.mul (d1 t)
    rw [mul_one] at this
    exact this
  rw [d2.deriv]
  have h3 := (C22_ricker wl 1 root t hw).2.1
  simp only at h3
  rw [h3, show π * (1 / wl) * (t * 1 - rickerDelay wl root) = a * (t - D) by rw [ha]; ring,
    show 2 * π / wl = 2 * a by rw [ha]; ring]
  field_simp
  ring

-- Non-vacuous.
example : GoodPacket { wl := 1.55, dwl := 0.1, dt := 0.5, turnOn := 1e-10, oneSided := false } :=
  ⟨by norm_num, by norm_num, by norm_num, by norm_num⟩

/-! ### C67: `turn_on` of the Ricker pulse -/

/-- C67 (the disagreement): whichever root of its own equation the solver finds, rounding up to whole periods leaves a
delay of 0 or 1 periods, so the amplitude at step 0 is 1 or `(1 - 2π²) e^{-π²}`. It exceeds `turn_on` in magnitude for every
`turn_on` below `(2π² - 1) e^{-π²}` (about 9.7e-4). -/
theorem C67_ricker_turn_on_partial (wl dt turnOn root : ℝ) (hw : 0 < wl) (hon : 0 < turnOn)
    (hroot : rickerObjective wl turnOn root = 0) :
    (rickerDelay wl root = 0 ∨ rickerDelay wl root = wl) ∧
    ((rickerPhasor wl dt root 0).1 = 1 ∨ (rickerPhasor wl dt root 0).1 = (1 - 2 * π ^ 2) * Real.exp (-π ^ 2)) ∧
    (turnOn < (2 * π ^ 2 - 1) * Real.exp (-π ^ 2) → turnOn < |(rickerPhasor wl dt root 0).1|) := by
  have hom := omega_pos hw
  have hpi := pi_gt_three
  have h1 : 0 < 1 - omega wl * omega wl * root * root / 2 := by
    unfold rickerObjective at hroot
    by_contra hneg
    have := Real.exp_pos (-omega wl * omega wl / 4 * root * root)
    nlinarith
  have h2 : (omega wl * root) ^ 2 < 2 := by nlinarith
  have h3 : omega wl * root = 2 * π * (root * (1 / wl)) := by unfold omega; ring
  rw [h3] at h2
  have h4 : (root * (1 / wl)) ^ 2 < 1 := by
    have hp : 9 < π ^ 2 := by nlinarith
    rw [mul_pow] at h2
    nlinarith [sq_nonneg (root * (1 / wl))]
  have h5 := abs_lt.1 ((sq_lt_one_iff_abs_lt_one _).1 h4)
  have hd : rickerDelay wl root = (⌈root * (1 / wl)⌉ : ℤ) * wl := by simp [rickerDelay]
  have hc : ⌈root * (1 / wl)⌉ = 0 ∨ ⌈root * (1 / wl)⌉ = 1 := by
    have a1 : ⌈root * (1 / wl)⌉ ≤ 1 := Int.ceil_le.2 (by push_cast; linarith)
    have a2 : -1 < ⌈root * (1 / wl)⌉ := Int.lt_ceil.2 (by push_cast; linarith)
    omega
  have hval := (C22_ricker wl dt root 0 hw).2.1
  simp only at hval
  have hE : Real.exp (-π ^ 2) < 1 := by rw [Real.exp_lt_one_iff]; nlinarith
  have hE0 := Real.exp_pos (-π ^ 2)
  have hbnd : (2 * π ^ 2 - 1) * Real.exp (-π ^ 2) ≤ 1 := by
    have : 2 * π ^ 2 - 1 ≤ Real.exp (π ^ 2) := by
      have := Real.quadratic_le_exp_of_nonneg (sq_nonneg π)
      nlinarith
    calc (2 * π ^ 2 - 1) * Real.exp (-π ^ 2) ≤ Real.exp (π ^ 2) * Real.exp (-π ^ 2) :=
          mul_le_mul_of_nonneg_right this hE0.le
      _ = 1 := by rw [← Real.exp_add]; simp
  rcases hc with hc | hc
  · have hd0 : rickerDelay wl root = 0 := by rw [hd, hc]; simp
    have hv : (rickerPhasor wl dt root 0).1 = 1 := by rw [hval, hd0]; simp
    exact ⟨Or.inl hd0, Or.inl hv, fun h => by rw [hv]; simp; linarith⟩
  · have hd1 : rickerDelay wl root = wl := by rw [hd, hc]; simp
    have hv : (rickerPhasor wl dt root 0).1 = (1 - 2 * π ^ 2) * Real.exp (-π ^ 2) := by
      rw [hval, hd1]
      have : (π * (1 / wl) * (0 * dt - wl)) ^ 2 = π ^ 2 := by field_simp; ring
      rw [this]
    refine ⟨Or.inr hd1, Or.inr hv, fun h => ?_⟩
    rw [hv, abs_mul, abs_of_neg (by nlinarith : 1 - 2 * π ^ 2 < 0), abs_of_pos hE0]
    linarith

/-- The default `turn_on = 1e-10` is in the range where the promise is broken. -/
theorem C67_default_turn_on : (1e-10 : ℝ) < (2 * π ^ 2 - 1) * Real.exp (-π ^ 2) := by
  have h1 := pi_gt_three
  have h2 := pi_lt_d2
  have h3 : Real.exp (-10) ≤ Real.exp (-π ^ 2) := Real.exp_le_exp.2 (by nlinarith)
  have h4 : (1 / 3 : ℝ) ^ 10 ≤ Real.exp (-10) := by
    have : Real.exp (-10) = (Real.exp 1)⁻¹ ^ 10 := by
      rw [inv_pow, ← Real.exp_nat_mul, ← Real.exp_neg]; norm_num
    rw [this]
    apply pow_le_pow_left₀ (by norm_num)
    rw [one_div]
    exact inv_anti₀ (Real.exp_pos 1) (by linarith [Real.exp_one_lt_d9])
  have h5 : (1 : ℝ) ≤ 2 * π ^ 2 - 1 := by nlinarith
  have h6 : (1e-10 : ℝ) < (1 / 3 : ℝ) ^ 10 := by norm_num
  nlinarith

-- Non-vacuous: the equation has a root (wl = 2π, so omega = 1; turn_on = e^{-1/4}/2, root 1).
example : rickerObjective (2 * π) (Real.exp (-1/4) / 2) 1 = 0 := by
  have : omega (2 * π) = 1 := by unfold omega; exact div_self (by positivity)
  simp only [rickerObjective, this]; norm_num; ring

/-! ### C23 -/

variable {nx ny nz : ℕ}

/-- Distance of a location along the beam axis from the waist plane: the coordinate along `(-sin tilt, 0, cos tilt)`. -/
noncomputable def depth (A : BeamArgs nx ny nz) (i : Fin nx) (k : Fin nz) : ℝ :=
  Real.cos A.tilt * (A.zs k - A.center 2) - Real.sin A.tilt * (A.xs i - A.center 0)

theorem beamCoords_depth (A : BeamArgs nx ny nz) (i : Fin nx) (j : Fin ny) (k : Fin nz) : (beamCoords A i j k).2.2 = depth A i k := by
  simp only [beamCoords, depth]; ring

theorem beamRaw_isSome (A : BeamArgs nx ny nz) (i : Fin nx) (j : Fin ny) (k : Fin nz) :
    (beamRaw A i j k).isSome = true ↔ depth A i k ≠ 0 := by
  rw [← beamCoords_depth A i j k]
  simp only [beamRaw, Option.isSome_map]
  split_ifs with h
  · simpa using h
  · simpa using h

theorem beamRaw_ne_zero (A : BeamArgs nx ny nz) (hw : 0 < A.w0) (i : Fin nx) (j : Fin ny)
    (k : Fin nz) (g : ℂ) (h : beamRaw A i j k = some g) : g ≠ 0 := by
  simp only [beamRaw, Option.map_eq_some_iff] at h
  obtain ⟨R, _, rfl⟩ := h
  refine mul_ne_zero ?_ (Complex.exp_ne_zero _)
  rw [Ne, Complex.ofReal_eq_zero]
  refine mul_ne_zero (div_ne_zero hw.ne' ?_) (Real.exp_pos _).ne'
  apply (Real.sqrt_pos.2 _).ne'
  have : 0 ≤ (beamCoords A i j k).2.2 * (beamCoords A i j k).2.2
      / (π * A.w0 * A.w0 / A.wl * (π * A.w0 * A.w0 / A.wl)) :=
    div_nonneg (mul_self_nonneg _) (mul_self_nonneg _)
  have := mul_pos hw hw
  nlinarith

/-- C23 (exactly when it works): the value at a location is finite iff neither that location nor any location of
the middle z-row lies in the waist plane `zz = 0`. So the claim as stated ("every grid") is false; this is the exact extent to which it
holds. -/
theorem C23_finite_iff_partial (A : BeamArgs nx ny nz) (hw : 0 < A.w0) (_hl : A.wl ≠ 0) (i : Fin nx) (j : Fin ny) (k : Fin nz)
    (m : Fin nz) (hm : (m : ℕ) = nz / 2) :
    (gaussianBeam A i j k).isSome = true ↔
      depth A i k ≠ 0 ∧ ∀ i', depth A i' m ≠ 0 := by
  have hlt : nz / 2 < nz := hm ▸ m.isLt
  have hm' : (⟨nz / 2, hlt⟩ : Fin nz) = m := Fin.ext hm.symm
  unfold gaussianBeam beamNorm
  rw [dif_pos hlt, hm']
  by_cases hrow : ∀ i' j', (beamRaw A i' j' m).isSome = true
  · rw [if_pos hrow]
    have hrow' := hrow
    simp only [beamRaw_isSome] at hrow'
    cases hr : beamRaw A i j k with
    | none =>
      have : ¬ (beamRaw A i j k).isSome = true := by rw [hr]; simp
      rw [beamRaw_isSome] at this
      simp; intro h; exact absurd h this
    | some g =>
      have h1 : depth A i k ≠ 0 := (beamRaw_isSome A i j k).1 (by rw [hr]; rfl)
      have hn : Real.sqrt (∑ i, ∑ j, Complex.normSq ((beamRaw A i j m).getD 0)) ≠ 0 := by
        apply (Real.sqrt_pos.2 _).ne'
        have hpos : ∀ i j, 0 < Complex.normSq ((beamRaw A i j m).getD 0) := by
          intro i j
          obtain ⟨g, hg⟩ := Option.isSome_iff_exists.1 (hrow i j)
          rw [hg]; exact Complex.normSq_pos.2 (beamRaw_ne_zero A hw i j m g hg)
        exact Finset.sum_pos (fun i _ => Finset.sum_pos (fun j _ => hpos i j) ⟨j, Finset.mem_univ _⟩) ⟨i, Finset.mem_univ _⟩
      simp only [if_neg hn, Option.isSome_some, true_iff]
      exact ⟨h1, fun i' => hrow' i' j⟩
  · rw [if_neg hrow]
    simp only [beamRaw_isSome] at hrow
    cases beamRaw A i j k <;> simp <;> intro _ <;> push Not at hrow <;> obtain ⟨i', _, h'⟩ := hrow <;> exact ⟨i', h'⟩

/-- C23 (partial): away from the waist plane everything is finite and the middle row has unit norm. Missing: grids that
contain the waist plane, for which `C23_nan_partial` shows the claim false. -/
theorem C23_normalised_partial (A : BeamArgs nx ny nz) (hw : 0 < A.w0) (hl : A.wl ≠ 0) (hx : 0 < nx) (hy : 0 < ny)
    (m : Fin nz) (hm : (m : ℕ) = nz / 2) (hz : ∀ i k, depth A i k ≠ 0) :
    (∀ i j k, (gaussianBeam A i j k).isSome = true) ∧
    ∑ i, ∑ j, Complex.normSq ((gaussianBeam A i j m).getD 0) = 1 := by
  have hfin : ∀ i j k, (gaussianBeam A i j k).isSome = true := fun i j k =>
    (C23_finite_iff_partial A hw hl i j k m hm).2 ⟨hz i k, fun i' => hz i' m⟩
  refine ⟨hfin, ?_⟩
  have hlt : nz / 2 < nz := hm ▸ m.isLt
  have hm' : (⟨nz / 2, hlt⟩ : Fin nz) = m := Fin.ext hm.symm
  have hrow : ∀ i' j', (beamRaw A i' j' m).isSome = true := fun i' j' => (beamRaw_isSome A i' j' m).2 (hz i' m)
  set S := ∑ i, ∑ j, Complex.normSq ((beamRaw A i j m).getD 0) with hS
  have hnorm : beamNorm A = some (Real.sqrt S) := by
    unfold beamNorm; rw [dif_pos hlt, hm', if_pos hrow]
  have hpos : 0 < S := by
    have hpos : ∀ i j, 0 < Complex.normSq ((beamRaw A i j m).getD 0) := by
      intro i j
      obtain ⟨g, hg⟩ := Option.isSome_iff_exists.1 (hrow i j)
      rw [hg]; exact Complex.normSq_pos.2 (beamRaw_ne_zero A hw i j m g hg)
    exact Finset.sum_pos (fun i _ => Finset.sum_pos (fun j _ => hpos i j) ⟨⟨0, hy⟩, Finset.mem_univ _⟩)
      ⟨⟨0, hx⟩, Finset.mem_univ _⟩
  have hval : ∀ i j, Complex.normSq ((gaussianBeam A i j m).getD 0) = Complex.normSq ((beamRaw A i j m).getD 0) / S := by
    intro i j
    obtain ⟨g, hg⟩ := Option.isSome_iff_exists.1 (hrow i j)
    unfold gaussianBeam
    rw [hg, hnorm]
    simp only [if_neg (Real.sqrt_pos.2 hpos).ne', Option.getD_some]
    rw [Complex.normSq_div, Complex.normSq_ofReal, Real.mul_self_sqrt hpos.le]
  simp only [hval, ← Finset.sum_div]
  exact div_self hpos.ne'

/-- C23 (the disagreement): for the default tilt, if the middle z position is the beam centre, *every* returned value is
NaN. -/
theorem C23_nan_partial (A : BeamArgs nx ny nz) (ht : A.tilt = 0) (m : Fin nz) (hm : (m : ℕ) = nz / 2)
    (hc : A.zs m = A.center 2) (i : Fin nx) (j : Fin ny) (k : Fin nz) : gaussianBeam A i j k = none := by
  have hlt : nz / 2 < nz := hm ▸ m.isLt
  have hm' : (⟨nz / 2, hlt⟩ : Fin nz) = m := Fin.ext hm.symm
  have h0 : ¬ (beamRaw A i j m).isSome = true := by
    rw [beamRaw_isSome]; simp [depth, ht, hc]
  have hn : beamNorm A = none := by
    unfold beamNorm
    rw [dif_pos hlt, hm', if_neg]
    exact fun h => h0 (h i j)
  unfold gaussianBeam
  rw [hn]
  cases beamRaw A i j k <;> rfl

-- Both situations occur: a 1×1×3 grid around z = 0 (all NaN), and the same grid shifted by 1/2 (all finite).
example : ∃ A : BeamArgs 1 1 3, 0 < A.w0 ∧ A.wl ≠ 0 ∧ A.tilt = 0 ∧ A.zs 1 = A.center 2 :=
  ⟨{ xs := fun _ => 0, ys := fun _ => 0, zs := fun k => (k : ℕ) - 1, center := 0, w0 := 1, wl := 1, tilt := 0 },
    by norm_num, one_ne_zero, rfl, by simp⟩
example : ∃ A : BeamArgs 1 1 3, 0 < A.w0 ∧ A.wl ≠ 0 ∧ ∀ i k, depth A i k ≠ 0 :=
  ⟨{ xs := fun _ => 0, ys := fun _ => 0, zs := fun k => (k : ℕ) + 1/2, center := 0, w0 := 1, wl := 1, tilt := 0 },
    by norm_num, one_ne_zero, fun i k => by simp [depth]; positivity⟩

end Meanas.Props
