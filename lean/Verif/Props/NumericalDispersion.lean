/-
C117: the phase velocity of waves on the grid.
-/
import Verif.Props.FdfdWaves
import Mathlib.Analysis.SpecialFunctions.Trigonometric.Bounds
import Mathlib.Analysis.SpecialFunctions.Trigonometric.Inverse

namespace Meanas.Props

open Matrix Fdfd Spec Fdtd

variable {sh : Fin 3 → ℕ}

/-! ### Bounds for the sine -/

theorem mul_cos_le_sin {x : ℝ} (h0 : 0 ≤ x) (hπ : x ≤ Real.pi) : x * Real.cos x ≤ Real.sin x := by
  rcases lt_or_ge x (Real.pi / 2) with h | h
  · rcases h0.eq_or_lt with rfl | h0
    · simp
    · have hc : 0 < Real.cos x := Real.cos_pos_of_mem_Ioo ⟨by linarith, h⟩
      have := Real.lt_tan h0 h
      rw [Real.tan_eq_sin_div_cos, lt_div_iff₀ hc] at this
      exact this.le
  · have hc : Real.cos x ≤ 0 := Real.cos_nonpos_of_pi_div_two_le_of_le h (by linarith [Real.pi_pos])
    have hs : 0 ≤ Real.sin x := Real.sin_nonneg_of_nonneg_of_le_pi h0 hπ
    nlinarith

/-- `sinc(u + v) ≤ sinc u · sinc v`. -/
theorem sin_add_le {u v : ℝ} (hu : 0 ≤ u) (hv : 0 ≤ v) (huv : u + v ≤ Real.pi) :
    Real.sin (u + v) * (u * v) ≤ Real.sin u * Real.sin v * (u + v) := by
  have h1 := mul_cos_le_sin hu (by linarith)
  have h2 := mul_cos_le_sin hv (by linarith)
  have h3 : 0 ≤ Real.sin u := Real.sin_nonneg_of_nonneg_of_le_pi hu (by linarith)
  have h4 : 0 ≤ Real.sin v := Real.sin_nonneg_of_nonneg_of_le_pi hv (by linarith)
  rw [Real.sin_add]
  nlinarith [mul_le_mul_of_nonneg_left h2 (mul_nonneg hu h3), mul_le_mul_of_nonneg_left h1 (mul_nonneg hv h4)]

/-- `sin² √·` lies below its tangents. -/
theorem sin_sq_tangent {x r : ℝ} (hx : 0 ≤ x) (hx' : x ≤ Real.pi / 2) (hr : 0 < r) (hr' : r ≤ Real.pi / 2) :
    Real.sin x ^ 2 * r ≤ Real.sin r ^ 2 * r + Real.sin r * Real.cos r * (x ^ 2 - r ^ 2) := by
  have hd : Real.sin x ^ 2 - Real.sin r ^ 2 = Real.sin (x + r) * Real.sin (x - r) := by
    rw [Real.sin_add, Real.sin_sub]
    nlinarith [Real.sin_sq_add_cos_sq x, Real.sin_sq_add_cos_sq r]
  have h2 : 2 * (Real.sin r * Real.cos r) = Real.sin (2 * r) := by rw [Real.sin_two_mul]; ring
  suffices 2 * r * (Real.sin (x + r) * Real.sin (x - r)) ≤ Real.sin (2 * r) * ((x + r) * (x - r)) by
    have e : Real.sin x ^ 2 * r = Real.sin r ^ 2 * r + r * (Real.sin (x + r) * Real.sin (x - r)) := by rw [← hd]; ring
    rw [e]
    rw [← h2] at this
    nlinarith
  rcases le_total x r with h | h
  · have := sin_add_le (u := x + r) (v := r - x) (by linarith) (by linarith) (by linarith)
    rw [show x + r + (r - x) = 2 * r by ring] at this
    have e : Real.sin (x - r) = -Real.sin (r - x) := by rw [← Real.sin_neg]; congr 1; ring
    rw [e]
    nlinarith
  · have h3 : Real.sin (x - r) ≤ x - r := Real.sin_le (by linarith)
    have h4 : 0 ≤ Real.sin (x - r) := Real.sin_nonneg_of_nonneg_of_le_pi (by linarith) (by linarith)
    have h5 := sin_add_le (u := 2 * r) (v := x - r) (by linarith) (by linarith) (by linarith)
    rw [show 2 * r + (x - r) = x + r by ring] at h5
    have h6 : 0 ≤ Real.sin (2 * r) := Real.sin_nonneg_of_nonneg_of_le_pi (by linarith) (by linarith)
    rcases h.eq_or_lt with rfl | hlt
    · simp
    have h7 : Real.sin (x + r) * (2 * r) ≤ Real.sin (2 * r) * (x + r) := by
      have : Real.sin (x + r) * (2 * r) * (x - r) ≤ Real.sin (2 * r) * (x + r) * (x - r) := by
        nlinarith [mul_le_mul_of_nonneg_left h3 (mul_nonneg h6 (by linarith : 0 ≤ x + r))]
      exact le_of_mul_le_mul_right this (by linarith)
    have h8 : 0 ≤ Real.sin (2 * r) * (x + r) := mul_nonneg h6 (by linarith)
    nlinarith [mul_le_mul_of_nonneg_right h7 h4, mul_le_mul_of_nonneg_left h3 h8]

/-- Jensen's inequality for `sin² √·` with weights that sum to at most one. -/
theorem sin_sq_jensen {ι : Type*} (s : Finset ι) (m x : ι → ℝ) (hm : ∀ a ∈ s, 0 ≤ m a) (hm1 : ∑ a ∈ s, m a ≤ 1)
    (hx : ∀ a ∈ s, |x a| ≤ Real.pi / 2) (r : ℝ) (hr : 0 ≤ r) (hr' : r ≤ Real.pi / 2) (hrr : r ^ 2 = ∑ a ∈ s, m a * x a ^ 2) :
    ∑ a ∈ s, m a * Real.sin (x a) ^ 2 ≤ Real.sin r ^ 2 := by
  rcases hr.eq_or_lt with rfl | h0
  · have hz : ∀ a ∈ s, m a * x a ^ 2 = 0 := by
      refine (Finset.sum_eq_zero_iff_of_nonneg fun a ha => mul_nonneg (hm a ha) (sq_nonneg _)).mp ?_
      rw [← hrr]; simp
    rw [Real.sin_zero]
    refine (Finset.sum_eq_zero fun a ha => ?_).le.trans (sq_nonneg _)
    rcases mul_eq_zero.mp (hz a ha) with h | h
    · rw [h, zero_mul]
    · rw [pow_eq_zero_iff two_ne_zero] at h; rw [h]; simp
  · have hs : 0 ≤ Real.sin r := Real.sin_nonneg_of_nonneg_of_le_pi hr (by linarith [Real.pi_pos])
    have h1 : ∀ a ∈ s, m a * (Real.sin (x a) ^ 2 * r)
        ≤ m a * (Real.sin r ^ 2 * r + Real.sin r * Real.cos r * (x a ^ 2 - r ^ 2)) := by
      intro a ha
      refine mul_le_mul_of_nonneg_left ?_ (hm a ha)
      have := sin_sq_tangent (abs_nonneg (x a)) (hx a ha) h0 hr'
      rw [sq_abs] at this
      rcases abs_choice (x a) with h | h <;> rw [h] at this
      · exact this
      · rwa [Real.sin_neg, neg_sq] at this
    have h2 := Finset.sum_le_sum h1
    have e1 : ∑ a ∈ s, m a * (Real.sin (x a) ^ 2 * r) = (∑ a ∈ s, m a * Real.sin (x a) ^ 2) * r := by
      rw [Finset.sum_mul]; exact Finset.sum_congr rfl fun a _ => by ring
    have e2 : ∑ a ∈ s, m a * (Real.sin r ^ 2 * r + Real.sin r * Real.cos r * (x a ^ 2 - r ^ 2))
        = (∑ a ∈ s, m a) * (Real.sin r ^ 2 * r - Real.sin r * Real.cos r * r ^ 2)
          + Real.sin r * Real.cos r * ∑ a ∈ s, m a * x a ^ 2 := by
      rw [Finset.sum_mul, Finset.mul_sum, ← Finset.sum_add_distrib]
      exact Finset.sum_congr rfl fun a _ => by ring
    rw [e1, e2, ← hrr] at h2
    have h3 := mul_cos_le_sin hr (by linarith [Real.pi_pos])
    have h4 : 0 ≤ Real.sin r ^ 2 * r - Real.sin r * Real.cos r * r ^ 2 := by
      have := mul_nonneg (mul_nonneg hs hr) (sub_nonneg.mpr h3)
      nlinarith
    have h5 := mul_le_mul_of_nonneg_right hm1 h4
    have h6 : (∑ a ∈ s, m a * Real.sin (x a) ^ 2) * r ≤ Real.sin r ^ 2 * r := by linarith
    exact le_of_mul_le_mul_right h6 h0

/-- `y - y³/6 ≤ sin y`. -/
theorem sub_cube_le_sin {y : ℝ} (hy : 0 ≤ y) : y - y ^ 3 / 6 ≤ Real.sin y := by
  have hd : ∀ t : ℝ, HasDerivAt (fun t => Real.sin t - (t - t ^ 3 / 6)) (Real.cos t - (1 - t ^ 2 / 2)) t := by
    intro t
    have h := ((Real.hasDerivAt_sin t).sub ((hasDerivAt_id t).sub ((hasDerivAt_pow 3 t).div_const 6)))
    refine (h.congr_deriv ?_)
    norm_num; ring
  have hmono : Monotone fun t => Real.sin t - (t - t ^ 3 / 6) :=
    monotone_of_deriv_nonneg (fun t => (hd t).differentiableAt) fun t => by
      rw [(hd t).deriv]; linarith [Real.one_sub_sq_div_two_le_cos (x := t)]
  have := hmono hy
  simp at this
  linarith

/-- The discrete wave number is between `|k| (1 - θ²/24)` and `|k|`, `θ` the phase per cell. -/
theorem Kd_bounds {k d θ : ℝ} (hd : 0 < d) (hθ : |k * d| ≤ θ) (hθπ : θ ≤ Real.pi) :
    (k * (1 - θ ^ 2 / 24)) ^ 2 ≤ (2 * Real.sin (k * d / 2) / d) ^ 2 ∧ (2 * Real.sin (k * d / 2) / d) ^ 2 ≤ k ^ 2 := by
  have key : ∀ y : ℝ, 0 ≤ y → y ≤ θ / 2 → (y * (1 - θ ^ 2 / 24)) ^ 2 ≤ Real.sin y ^ 2 ∧ Real.sin y ^ 2 ≤ y ^ 2 := by
    intro y h0 h1
    have hπ := Real.pi_le_four
    have h2 := sub_cube_le_sin h0
    have h3 := Real.sin_le h0
    have h4 : θ ^ 2 ≤ 16 := by nlinarith
    have h5 : 0 ≤ y * (1 - θ ^ 2 / 24) := mul_nonneg h0 (by linarith)
    have h6 : y * (1 - θ ^ 2 / 24) ≤ Real.sin y := by
      refine le_trans ?_ h2
      have : y ^ 2 ≤ (θ / 2) ^ 2 := by nlinarith
      nlinarith
    exact ⟨pow_le_pow_left₀ h5 h6 2, pow_le_pow_left₀ (h5.trans h6) h3 2⟩
  have h := key (|k * d| / 2) (by positivity) (by linarith)
  have hs : Real.sin (|k * d| / 2) ^ 2 = Real.sin (k * d / 2) ^ 2 := by
    rcases abs_choice (k * d) with e | e <;> rw [e]
    rw [neg_div, Real.sin_neg, neg_sq]
  have hq : (|k * d| / 2) ^ 2 = (k * d / 2) ^ 2 := by rw [div_pow, div_pow, sq_abs]
  rw [hs, mul_pow, hq] at h
  have e1 : (2 * Real.sin (k * d / 2) / d) ^ 2 = 4 * Real.sin (k * d / 2) ^ 2 / d ^ 2 := by ring
  rw [e1, le_div_iff₀ (by positivity), div_le_iff₀ (by positivity)]
  constructor <;> nlinarith [h.1, h.2]

/-- The run of a plane wave: some H field makes every step multiply the wave by the phase `e^{-iw dt}`. -/
def CarriesWave (sh : Fin 3 → ℕ) (w dt ε μ : ℝ) (k d : Fin 3 → ℝ) (v : Fin 3 → ℂ) : Prop :=
  ∃ H : VField sh ℂ, ∀ n : ℤ,
    run ⟨(dt : ℂ), some (uniDx fun a => (d a : ℂ)), fun _ _ => (ε : ℂ), some fun _ _ => (μ : ℂ)⟩
      ⟨fun c x => Complex.exp (-Complex.I * w * n * dt) * planeWave (fun a => (k a : ℂ)) (fun a => (d a : ℂ)) v c x,
        fun c x => Complex.exp (-Complex.I * w * (n - 1 / 2) * dt) * H c x⟩ [.stepH, .stepE]
      = ⟨fun c x => Complex.exp (-Complex.I * w * (n + 1) * dt) * planeWave (fun a => (k a : ℂ)) (fun a => (d a : ℂ)) v c x,
        fun c x => Complex.exp (-Complex.I * w * (n + 1 / 2) * dt) * H c x⟩

/-- A transverse plane wave that fits the periodic grid. -/
structure WaveOk (sh : Fin 3 → ℕ) (k d : Fin 3 → ℝ) (v : Fin 3 → ℂ) : Prop where
  width : ∀ a, 0 < d a
  fits : ∀ a, Complex.exp (Complex.I * ((k a : ℂ) * (d a : ℂ) * (sh a : ℕ))) = 1
  nonzero : v ≠ 0
  transverse : ∑ a, 2 * Complex.sin ((k a : ℂ) * (d a : ℂ) / 2) / (d a : ℂ) * v a = 0
  cells : ∀ a, 0 < sh a

theorem carriesWave_iff {w dt ε μ : ℝ} (hε : 0 < ε) (hμ : 0 < μ) (hdt : 0 < dt) (hw : 0 < w) (hw' : w * dt ≤ Real.pi)
    {k d : Fin 3 → ℝ} {v : Fin 3 → ℂ} (ok : WaveOk sh k d v) :
    CarriesWave sh w dt ε μ k d v ↔
      (2 * Real.sin (w * dt / 2) / dt) ^ 2 * (ε * μ) = ∑ a, (2 * Real.sin (k a * d a / 2) / d a) ^ 2 := by
  have hs : 0 < Real.sin (w * dt / 2) := Real.sin_pos_of_pos_of_lt_pi (by positivity) (by linarith [Real.pi_pos])
  have hcast : (2 * Complex.sin ((w : ℂ) * dt / 2) / dt) = ((2 * Real.sin (w * dt / 2) / dt : ℝ) : ℂ) := by push_cast; rfl
  have h := C36_fdtd (sh := sh) (w : ℂ) (dt : ℂ) (ε : ℂ) (μ : ℂ) (by exact_mod_cast hε.ne') (by exact_mod_cast hμ.ne')
    (by exact_mod_cast hdt.ne') (fun a => (k a : ℂ)) (fun a => (d a : ℂ)) v ok.fits (fun a => by exact_mod_cast (ok.width a).ne')
    ok.nonzero ok.transverse ok.cells (by rw [hcast]; exact_mod_cast (by positivity : 2 * Real.sin (w * dt / 2) / dt ≠ 0))
  unfold CarriesWave
  rw [← h, hcast, mul_assoc]
  have e : ∑ a, (2 * Complex.sin ((k a : ℂ) * (d a : ℂ) / 2) / (d a : ℂ)) ^ 2
      = ((∑ a, (2 * Real.sin (k a * d a / 2) / d a) ^ 2 : ℝ) : ℂ) := by push_cast; rfl
  rw [e]
  norm_cast

/-- The medium's phase velocity relation: `w = |k| / √(εμ)`. -/
noncomputable def vacuumFrequency (ε μ : ℝ) (k : Fin 3 → ℝ) : ℝ := Real.sqrt (∑ a, k a ^ 2) / Real.sqrt (ε * μ)

/-- **C117.** FDTD waves never run ahead of the light in the medium, and lag behind by at most the fraction `θ²/24`, where `θ` bounds the
phase advance per cell. The time step obeys the Courant condition of the axes along which the wave varies. -/
theorem C117_phase_velocity {w dt ε μ : ℝ} (hε : 0 < ε) (hμ : 0 < μ) (hdt : 0 < dt) (hw : 0 < w) (hw' : w * dt ≤ Real.pi)
    {k d : Fin 3 → ℝ} {v : Fin 3 → ℂ} (ok : WaveOk sh k d v) {θ : ℝ} (hθ : ∀ a, |k a * d a| ≤ θ) (hθπ : θ ≤ Real.pi)
    (hc : dt ^ 2 * ∑ a with k a ≠ 0, 1 / d a ^ 2 ≤ ε * μ) (hrun : CarriesWave sh w dt ε μ k d v) :
    (1 - θ ^ 2 / 24) * vacuumFrequency ε μ k ≤ w ∧ w ≤ vacuumFrequency ε μ k := by
  have hrel := (carriesWave_iff hε hμ hdt hw hw' ok).mp hrun
  have hem : 0 < ε * μ := mul_pos hε hμ
  set X := ∑ a, (2 * Real.sin (k a * d a / 2) / d a) ^ 2 with hX
  set κ := Real.sqrt (∑ a, k a ^ 2) with hκ
  have hk0 : 0 ≤ ∑ a, k a ^ 2 := Finset.sum_nonneg fun a _ => sq_nonneg _
  have hκ2 : κ ^ 2 = ∑ a, k a ^ 2 := Real.sq_sqrt hk0
  have hκ0 : 0 ≤ κ := Real.sqrt_nonneg _
  set η := Real.sqrt (ε * μ) with hη
  have hη0 : 0 < η := Real.sqrt_pos.mpr hem
  have hη2 : η ^ 2 = ε * μ := Real.sq_sqrt hem.le
  have hs0 : 0 < Real.sin (w * dt / 2) := Real.sin_pos_of_pos_of_lt_pi (by positivity) (by linarith [Real.pi_pos])
  have hv : vacuumFrequency ε μ k = κ / η := rfl
  rw [hv]
  constructor
  · have h1 : (κ * (1 - θ ^ 2 / 24)) ^ 2 ≤ X := by
      rw [mul_pow, hκ2, Finset.sum_mul, hX]
      exact Finset.sum_le_sum fun a _ => by
        rw [← mul_pow]; exact (Kd_bounds (ok.width a) (hθ a) hθπ).1
    have h2 : X ≤ (w * η) ^ 2 := by
      rw [← hrel, mul_pow, ← hη2]
      refine mul_le_mul_of_nonneg_right ?_ (sq_nonneg _)
      refine pow_le_pow_left₀ (by positivity) ?_ 2
      rw [div_le_iff₀ hdt]
      have := Real.sin_le (x := w * dt / 2) (by positivity)
      linarith
    have h3 := abs_le_of_sq_le_sq (h1.trans h2) (by positivity)
    rw [← mul_div_assoc, div_le_iff₀ hη0]
    linarith [(abs_le.mp h3).2]
  · rw [le_div_iff₀ hη0]
    by_contra hlt
    push Not at hlt
    set r := dt * κ / (2 * η) with hr
    have hr0 : 0 ≤ r := by positivity
    have hrw : r < w * dt / 2 := by
      rw [hr, div_lt_iff₀ (by positivity)]
      nlinarith
    have hr' : r ≤ Real.pi / 2 := by linarith
    have hj := sin_sq_jensen (Finset.univ.filter fun a => k a ≠ 0) (fun a => dt ^ 2 / (ε * μ) * (1 / d a ^ 2)) (fun a => k a * d a / 2)
      (fun a _ => by have := ok.width a; positivity)
      (by rw [← Finset.mul_sum, div_mul_eq_mul_div, div_le_one hem]; exact hc)
      (fun a _ => by rw [abs_div, abs_two]; linarith [hθ a]) r hr0 hr'
      (by
        rw [hr, div_pow, mul_pow, hκ2, mul_pow, hη2]
        have : ∑ a, k a ^ 2 = ∑ a with k a ≠ 0, k a ^ 2 := by
          rw [Finset.sum_filter]
          exact Finset.sum_congr rfl fun a _ => by split_ifs with h <;> simp_all
        rw [this, mul_div_right_comm, Finset.mul_sum]
        refine Finset.sum_congr rfl fun a _ => ?_
        have := (ok.width a).ne'
        field_simp)
    have e : ∑ a with k a ≠ 0, dt ^ 2 / (ε * μ) * (1 / d a ^ 2) * Real.sin (k a * d a / 2) ^ 2 = Real.sin (w * dt / 2) ^ 2 := by
      have e1 : ∑ a with k a ≠ 0, dt ^ 2 / (ε * μ) * (1 / d a ^ 2) * Real.sin (k a * d a / 2) ^ 2 = dt ^ 2 / (4 * (ε * μ)) * X := by
        rw [hX, Finset.mul_sum, Finset.sum_filter]
        refine Finset.sum_congr rfl fun a _ => ?_
        have := (ok.width a).ne'
        split_ifs with h
        · field_simp; ring
        · have h : k a = 0 := not_not.mp h
          simp [h]
      rw [e1, ← hrel]
      field_simp; norm_num
    rw [e] at hj
    have hlt2 : Real.sin r < Real.sin (w * dt / 2) := Real.sin_lt_sin_of_lt_of_le_pi_div_two (by linarith [Real.pi_pos]) (by linarith) hrw
    have hsr : 0 ≤ Real.sin r := Real.sin_nonneg_of_nonneg_of_le_pi hr0 (by linarith [Real.pi_pos])
    exact absurd hj (not_le.mpr (pow_lt_pow_left₀ hlt2 hsr two_ne_zero))

/-- **C117.** Below the Courant limit every wave vector other than zero has exactly one frequency. -/
theorem C117_frequency {dt ε μ : ℝ} (hε : 0 < ε) (hμ : 0 < μ) (hdt : 0 < dt) {k d : Fin 3 → ℝ} {v : Fin 3 → ℂ} (ok : WaveOk sh k d v)
    (hk : ∃ a, k a ≠ 0) (hkd : ∀ a, |k a * d a| ≤ Real.pi) (hc : dt ^ 2 * ∑ a with k a ≠ 0, 1 / d a ^ 2 ≤ ε * μ) :
    ∃! w : ℝ, 0 < w ∧ w * dt ≤ Real.pi ∧ CarriesWave sh w dt ε μ k d v := by
  have hem : 0 < ε * μ := mul_pos hε hμ
  set X := ∑ a, (2 * Real.sin (k a * d a / 2) / d a) ^ 2 with hX
  have hX0 : 0 < X := by
    obtain ⟨a, ha⟩ := hk
    refine Finset.sum_pos' (fun a _ => sq_nonneg _) ⟨a, Finset.mem_univ _, ?_⟩
    have hd := ok.width a
    have hs : Real.sin (k a * d a / 2) ≠ 0 := by
      intro h0
      have h1 := abs_le.mp (hkd a)
      have hlt : -Real.pi < k a * d a / 2 := by linarith [Real.pi_pos]
      have hlt' : k a * d a / 2 < Real.pi := by linarith [Real.pi_pos]
      rw [Real.sin_eq_zero_iff_of_lt_of_lt hlt hlt'] at h0
      have : k a * d a ≠ 0 := mul_ne_zero ha hd.ne'
      exact this (by linarith)
    positivity
  set q := dt / 2 * Real.sqrt (X / (ε * μ)) with hq
  have hq0 : 0 < q := by positivity
  have hq2 : q ^ 2 = dt ^ 2 / 4 * (X / (ε * μ)) := by rw [hq, mul_pow, Real.sq_sqrt (by positivity)]; ring
  have hq1 : q ≤ 1 := by
    have hXle : X ≤ 4 * ∑ a with k a ≠ 0, 1 / d a ^ 2 := by
      rw [hX, Finset.mul_sum, Finset.sum_filter]
      refine Finset.sum_le_sum fun a _ => ?_
      have hd := ok.width a
      split_ifs with h
      · have := Real.sin_sq_le_one (k a * d a / 2)
        rw [div_pow, mul_pow, mul_one_div]
        exact div_le_div_of_nonneg_right (by linarith) (by positivity)
      · rw [not_not.mp h]; simp
    have : q ^ 2 ≤ 1 := by
      rw [hq2, ← mul_div_assoc, div_le_one hem]
      nlinarith [mul_le_mul_of_nonneg_left hXle (sq_nonneg dt)]
    nlinarith
  have hiff : ∀ w : ℝ, 0 < w → w * dt ≤ Real.pi → (CarriesWave sh w dt ε μ k d v ↔ Real.sin (w * dt / 2) = q) := by
    intro w hw hw'
    rw [carriesWave_iff hε hμ hdt hw hw' ok]
    have hs : 0 < Real.sin (w * dt / 2) := Real.sin_pos_of_pos_of_lt_pi (by positivity) (by linarith [Real.pi_pos])
    rw [← pow_left_inj₀ hs.le hq0.le two_ne_zero, hq2, ← hX]
    constructor
    · intro h
      rw [← h]; field_simp; norm_num
    · intro h
      rw [div_pow, mul_pow, h]; field_simp; norm_num
  refine ⟨2 / dt * Real.arcsin q, ⟨by have := Real.arcsin_pos.mpr hq0; positivity, ?_, ?_⟩, ?_⟩
  · have := Real.arcsin_le_pi_div_two q
    rw [show 2 / dt * Real.arcsin q * dt = 2 * Real.arcsin q by field_simp]
    linarith
  · have h1 := Real.arcsin_pos.mpr hq0
    rw [hiff _ (by positivity) (by
      rw [show 2 / dt * Real.arcsin q * dt = 2 * Real.arcsin q by field_simp]
      linarith [Real.arcsin_le_pi_div_two q]), show 2 / dt * Real.arcsin q * dt / 2 = Real.arcsin q by field_simp]
    exact Real.sin_arcsin (by linarith) hq1
  · rintro w ⟨hw, hw', hrun⟩
    have h := (hiff w hw hw').mp hrun
    rw [← h, Real.arcsin_sin (by have : 0 < w * dt := by positivity
                                 linarith [Real.pi_pos]) (by linarith)]
    field_simp

/-- **C117.** The magic time step: for a wave along one axis with `dt = d √(εμ)` the frequency is exactly that of the medium. -/
theorem C117_magic {w dt ε μ : ℝ} (hε : 0 < ε) (hμ : 0 < μ) (hdt : 0 < dt) (hw : 0 < w) (hw' : w * dt ≤ Real.pi)
    {k d : Fin 3 → ℝ} {v : Fin 3 → ℂ} (ok : WaveOk sh k d v) (a : Fin 3) (hka : ∀ b, b ≠ a → k b = 0) (hkd : |k a * d a| ≤ Real.pi)
    (hmagic : dt = d a * Real.sqrt (ε * μ)) : CarriesWave sh w dt ε μ k d v ↔ w = vacuumFrequency ε μ k := by
  have hem : 0 < ε * μ := mul_pos hε hμ
  rw [carriesWave_iff hε hμ hdt hw hw' ok]
  have hd := ok.width a
  set η := Real.sqrt (ε * μ) with hη
  have hη0 : 0 < η := Real.sqrt_pos.mpr hem
  have hη2 : η ^ 2 = ε * μ := Real.sq_sqrt hem.le
  have e1 : ∑ b, (2 * Real.sin (k b * d b / 2) / d b) ^ 2 = (2 * Real.sin (k a * d a / 2) / d a) ^ 2 :=
    Finset.sum_eq_single a (fun b _ hb => by simp [hka b hb]) (by simp)
  have e2 : vacuumFrequency ε μ k = |k a| / η := by
    have : ∑ b, k b ^ 2 = k a ^ 2 := Finset.sum_eq_single a (fun b _ hb => by simp [hka b hb]) (by simp)
    rw [vacuumFrequency, this, Real.sqrt_sq_eq_abs]
  have e3 : (2 * Real.sin (k a * d a / 2) / d a) ^ 2 = (2 * Real.sin (|k a| * d a / 2) / d a) ^ 2 := by
    rcases abs_choice (k a) with h | h <;> rw [h]
    rw [show -k a * d a / 2 = -(k a * d a / 2) by ring, Real.sin_neg]; ring
  have hkd' : |k a| * d a ≤ Real.pi := by rwa [abs_mul, abs_of_pos hd] at hkd
  have hs : 0 < Real.sin (w * dt / 2) := Real.sin_pos_of_pos_of_lt_pi (by positivity) (by linarith [Real.pi_pos])
  have hs' : 0 ≤ Real.sin (|k a| * d a / 2) := Real.sin_nonneg_of_nonneg_of_le_pi (by positivity) (by linarith [Real.pi_pos])
  rw [e1, e2, e3]
  have h1 : (2 * Real.sin (w * dt / 2) / dt) ^ 2 * (ε * μ) = (2 * Real.sin (|k a| * d a / 2) / d a) ^ 2 ↔
      Real.sin (w * dt / 2) = Real.sin (|k a| * d a / 2) := by
    rw [← pow_left_inj₀ hs.le hs' two_ne_zero, ← hη2]
    have : (2 * Real.sin (w * dt / 2) / dt) ^ 2 * η ^ 2 = 4 * Real.sin (w * dt / 2) ^ 2 / d a ^ 2 := by
      rw [hmagic]; field_simp; ring
    rw [this, div_pow, mul_pow, div_left_inj' (by positivity)]
    constructor <;> intro h <;> linarith
  rw [h1]
  have h2 : Real.sin (w * dt / 2) = Real.sin (|k a| * d a / 2) ↔ w * dt / 2 = |k a| * d a / 2 := by
    refine Real.injOn_sin.eq_iff ⟨?_, by linarith⟩ ⟨?_, by linarith⟩
    · have : 0 < w * dt := by positivity
      linarith [Real.pi_pos]
    · have : 0 ≤ |k a| * d a := by positivity
      linarith [Real.pi_pos]
  rw [h2, hmagic, eq_div_iff hη0.ne']
  constructor
  · intro h
    have : w * η * d a = |k a| * d a := by linarith
    exact mul_right_cancel₀ hd.ne' this
  · intro h; rw [← h]; ring

/-- **C117.** FDFD: a plane wave that solves the wave equation at the real frequency `w` has a wave vector at least as long as that of the
medium, by at most the same fraction. -/
theorem C117_fdfd {w ε μ : ℝ} (hε : 0 < ε) (hμ : 0 < μ) (hw : 0 < w) {k d : Fin 3 → ℝ} {v : Fin 3 → ℂ} (ok : WaveOk sh k d v) {θ : ℝ}
    (hθ : ∀ a, |k a * d a| ≤ θ) (hθπ : θ ≤ Real.pi)
    (hsol : eFull (w : ℂ) (uniDx fun a => (d a : ℂ)) (fun _ : Pos sh => (ε : ℂ)) (some fun _ => (μ : ℂ)) none none
      *ᵥ vecS (planeWave (fun a => (k a : ℂ)) (fun a => (d a : ℂ)) v) = 0) :
    (1 - θ ^ 2 / 24) * vacuumFrequency ε μ k ≤ w ∧ w ≤ vacuumFrequency ε μ k := by
  have h := (C36_dispersion (sh := sh) (w : ℂ) (ε : ℂ) (μ : ℂ) (by exact_mod_cast hμ.ne') (fun a => (k a : ℂ)) (fun a => (d a : ℂ)) v ok.fits
    (fun a => by exact_mod_cast (ok.width a).ne') ok.nonzero ok.transverse ok.cells).mp hsol
  have hrel : w ^ 2 * (ε * μ) = ∑ a, (2 * Real.sin (k a * d a / 2) / d a) ^ 2 := by
    have e : ∑ a, (2 * Complex.sin ((k a : ℂ) * (d a : ℂ) / 2) / (d a : ℂ)) ^ 2
        = ((∑ a, (2 * Real.sin (k a * d a / 2) / d a) ^ 2 : ℝ) : ℂ) := by push_cast; rfl
    rw [e, mul_assoc] at h
    exact_mod_cast h
  have hem : 0 < ε * μ := mul_pos hε hμ
  have hη0 : 0 < Real.sqrt (ε * μ) := Real.sqrt_pos.mpr hem
  have hη2 : Real.sqrt (ε * μ) ^ 2 = ε * μ := Real.sq_sqrt hem.le
  have hκ2 : Real.sqrt (∑ a, k a ^ 2) ^ 2 = ∑ a, k a ^ 2 := Real.sq_sqrt (Finset.sum_nonneg fun a _ => sq_nonneg _)
  have hb := fun a => Kd_bounds (ok.width a) (hθ a) hθπ
  have h1 : (Real.sqrt (∑ a, k a ^ 2) * (1 - θ ^ 2 / 24)) ^ 2 ≤ (w * Real.sqrt (ε * μ)) ^ 2 := by
    rw [mul_pow, hκ2, Finset.sum_mul, mul_pow, hη2, hrel]
    exact Finset.sum_le_sum fun a _ => by rw [← mul_pow]; exact (hb a).1
  have h2 : (w * Real.sqrt (ε * μ)) ^ 2 ≤ Real.sqrt (∑ a, k a ^ 2) ^ 2 := by
    rw [hκ2, mul_pow, hη2, hrel]
    exact Finset.sum_le_sum fun a _ => (hb a).2
  have h3 := (abs_le.mp (abs_le_of_sq_le_sq h1 (by positivity))).2
  have h4 := (abs_le.mp (abs_le_of_sq_le_sq h2 (Real.sqrt_nonneg _))).2
  unfold vacuumFrequency
  rw [← mul_div_assoc, div_le_iff₀ hη0, le_div_iff₀ hη0]
  exact ⟨by linarith, h4⟩

/-- The hypotheses: a wave along x on a 4×4×4 grid of cells of size 1/2, polarised along y, with the time step at the limit. -/
example : ∃! w : ℝ, 0 < w ∧ w * (1 / 2) ≤ Real.pi ∧ CarriesWave (fun _ => 4) w (1 / 2) 1 1 ![Real.pi, 0, 0] (fun _ => 1 / 2) ![0, 1, 0] := by
  have ok : WaveOk (fun _ => 4) ![Real.pi, 0, 0] (fun _ => 1 / 2) ![0, 1, 0] := by
    refine ⟨fun _ => by norm_num, forall_fin3 ?_ ?_ ?_, fun h => one_ne_zero (congrFun h 1), ?_, fun _ => by norm_num⟩
    · show Complex.exp (Complex.I * ((Real.pi : ℂ) * ((1 / 2 : ℝ) : ℂ) * ((4 : ℕ) : ℂ))) = 1
      rw [show Complex.I * ((Real.pi : ℂ) * ((1 / 2 : ℝ) : ℂ) * ((4 : ℕ) : ℂ)) = 2 * Real.pi * Complex.I by push_cast; ring,
        Complex.exp_two_pi_mul_I]
    · simp
    · simp
    · simp [Fin.sum_univ_three]
  refine C117_frequency one_pos one_pos (by norm_num) ok ⟨0, by simp [Real.pi_ne_zero]⟩ (forall_fin3 ?_ ?_ ?_) ?_
  · show |Real.pi * (1 / 2)| ≤ Real.pi
    rw [abs_of_pos (by positivity)]; linarith [Real.pi_pos]
  · simp [Real.pi_nonneg]
  · simp [Real.pi_nonneg]
  · rw [Finset.sum_filter, Fin.sum_univ_three]
    have h2 : (![Real.pi, 0, 0] : Fin 3 → ℝ) 2 = 0 := rfl
    norm_num [Real.pi_ne_zero, h2]

end Meanas.Props
