/-
C125: a source-free FDTD run (meanas/fdtd/base.py) is a superposition of the resonant fields of the wave operator of meanas/fdfd/operators.py:40-96.
-/
import Verif.Props.Resonances
import Verif.Props.FdtdTransform
import Mathlib.Analysis.SpecialFunctions.Trigonometric.Inverse

namespace Meanas.Props

open Matrix Complex Fdfd Spec Fdtd

variable {sh : Fin 3 → ℕ}

/-- The permittivity of a simulation, as a vector. -/
def epsOf (S : Sys sh ℝ) (p : Pos sh) : ℝ := S.eps p.1 p.2
/-- The permeability of a simulation, as a vector. -/
def muOf (S : Sys sh ℝ) : Option (Pos sh → ℝ) := S.mu.map fun m p => m p.1 p.2
/-- The electric field after `n` steps (an E update and an H update each) without sources. -/
noncomputable def fieldE (S : Sys sh ℝ) (s : State sh ℝ) (n : ℕ) : Vec sh := fun p => ((run S s (leapfrog n)).e p.1 p.2 : ℂ)
/-- The magnetic field after `n` steps without sources. -/
noncomputable def fieldH (S : Sys sh ℝ) (s : State sh ℝ) (n : ℕ) : Vec sh := fun p => ((run S s (leapfrog n)).h p.1 p.2 : ℂ)

theorem leapfrog_append (n : ℕ) : leapfrog (sh := sh) (K := ℝ) (n + 1) = leapfrog n ++ [.stepE, .stepH] := by
  simp [leapfrog, List.replicate_succ']

theorem muR_muOf (S : Sys sh ℝ) (p : Pos sh) : muR (muOf S) p = muOr S.mu p.1 p.2 := by
  unfold muOf; cases S.mu <;> rfl

variable (S : Sys sh ℝ) (d : DxList sh ℝ × DxList sh ℝ) (hS : S.dxes = some d)

include hS in
theorem fieldE_succ (heps : ∀ p, 0 < epsOf S p) (s : State sh ℝ) (n : ℕ) (p : Pos sh) :
    rEps (epsOf S) p * (fieldE S s (n + 1) p - fieldE S s n p) = S.dt * cH (cDx d) (fieldH S s n) p := by
  have h0 : ((S.eps p.1 p.2 : ℝ) : ℂ) ≠ 0 := ofReal_ne_zero.2 (heps p).ne'
  have h1 := curlBack_ofReal (some d) (run S s (leapfrog n)).h p.1 p.2
  have h2 : cH (cDx d) (fieldH S s n) p = (Functional.curlBack (some d.2) (run S s (leapfrog n)).h p.1 p.2 : ℝ) := h1
  rw [h2]
  simp only [fieldE, leapfrog_append, run_append, rEps, epsOf]
  simp only [run, List.foldl, step, maxwellE_eq, hS, Option.map_some]
  push_cast
  field_simp
  ring

include hS in
theorem fieldH_succ (s : State sh ℝ) (n : ℕ) (p : Pos sh) :
    fieldH S s (n + 1) p - fieldH S s n p = -S.dt * (cE (cDx d) (fieldE S s (n + 1)) p / muV (realMu (muOf S)) p) := by
  have h1 := curlForward_ofReal (some d) (run S s (leapfrog (n + 1))).e p.1 p.2
  have h2 : cE (cDx d) (fieldE S s (n + 1)) p = (Functional.curlForward (some d.1) (run S s (leapfrog (n + 1))).e p.1 p.2 : ℝ) := h1
  rw [h2, muV_realMu, muR_muOf]
  simp only [fieldH, leapfrog_append, run_append]
  simp only [run, List.foldl, step, maxwellH_eq, hS, Option.map_some]
  push_cast
  ring

include hS in
/-- The second-order recursion of the electric field. -/
theorem fieldE_wave (heps : ∀ p, 0 < epsOf S p) (s : State sh ℝ) (n : ℕ) :
    Pencil.dg (mass d (epsOf S)) *ᵥ (fieldE S s (n + 2) - (2 : ℂ) • fieldE S s (n + 1) + fieldE S s n)
      = -(S.dt : ℂ) ^ 2 • (stiff d (epsOf S) (muOf S) none none *ᵥ fieldE S s (n + 1)) := by
  funext p
  have h1 := fieldE_succ S d hS heps s n p
  have h2 := fieldE_succ S d hS heps s (n + 1) p
  have h3 : cH (cDx d) (fieldH S s (n + 1)) p - cH (cDx d) (fieldH S s n) p
      = -S.dt * (eFull 0 (cDx d) (rEps (epsOf S)) (realMu (muOf S)) none none *ᵥ fieldE S s (n + 1)) p := by
    rw [eFull_mulVec, ← curlBack_mulVec, ← curlBack_mulVec, ← Pi.sub_apply, ← mulVec_sub]
    have : fieldH S s (n + 1) - fieldH S s n = (-(S.dt : ℂ)) • fun q => cE (cDx d) (fieldE S s (n + 1)) q / muV (realMu (muOf S)) q := by
      funext q
      rw [Pi.sub_apply, fieldH_succ S d hS s n q, Pi.smul_apply, smul_eq_mul]
    rw [this, mulVec_smul, Pi.smul_apply, smul_eq_mul, ← curlBack_mulVec]
    ring
  rw [Pencil.dg_mulVec, mass, Pi.smul_apply, smul_eq_mul, stiff, ← mulVec_mulVec, mulVec_diagonal, pSquared_real]
  simp only [Pi.add_apply, Pi.sub_apply, Pi.smul_apply, smul_eq_mul]
  rw [rEps] at h1 h2
  push_cast
  linear_combination ((volE d.1 d.2 p.1 p.2 : ℝ) : ℂ) * (h2 - h1 + S.dt * h3)

variable {S d hS}

theorem Courant.posGrid {m : Fin 3 → ℝ} {εm μm : ℝ} (hC : Courant S m εm μm) (hS : S.dxes = some d) : PosGrid d := by
  have hE := hC.dxE
  have hH := hC.dxH
  rw [hS] at hE hH
  exact ⟨fun a i => lt_of_lt_of_le (hC.m_pos a) (hE a i), fun a i => lt_of_lt_of_le (hC.m_pos a) (hH a i)⟩

theorem Courant.epsOf_ge {m : Fin 3 → ℝ} {εm μm : ℝ} (hC : Courant S m εm μm) (p : Pos sh) : εm ≤ epsOf S p := hC.eps p.1 p.2

theorem Courant.muOf_ge {m : Fin 3 → ℝ} {εm μm : ℝ} (hC : Courant S m εm μm) (p : Pos sh) : μm ≤ muR (muOf S) p := by
  have := hC.mu p.1 p.2
  unfold muOf
  cases h : S.mu <;> simpa [h, muR] using this

/-- The magnetic form is bounded by the electric one. -/
theorem curlEnergy_le {m : Fin 3 → ℝ} {εm μm : ℝ} (hC : Courant S m εm μm) (hS : S.dxes = some d) (E : Vec sh) :
    curlEnergy d (muOf S) none E
      ≤ 4 * (∑ a, 1 / m a ^ 2) / (εm * μm) * ∑ p : Pos sh, volE d.1 d.2 p.1 p.2 * epsOf S p * normSq (E p) := by
  have hd := hC.posGrid hS
  have hE := hC.dxE
  have hH := hC.dxH
  rw [hS] at hE hH
  have hr : ∀ p, normSq (cE (cDx d) E p) = Functional.curlForward (some d.1) (fun c x => (E (c, x)).re) p.1 p.2 ^ 2
      + Functional.curlForward (some d.1) (fun c x => (E (c, x)).im) p.1 p.2 ^ 2 := by
    intro p
    have h1 : (cE (cDx d) E p).re = Functional.curlForward (some d.1) (fun c x => (E (c, x)).re) p.1 p.2 :=
      (re_curls reLm (some d) (fun c x => E (c, x)) p.1 p.2).1
    have h2 : (cE (cDx d) E p).im = Functional.curlForward (some d.1) (fun c x => (E (c, x)).im) p.1 p.2 :=
      (re_curls imLm (some d) (fun c x => E (c, x)) p.1 p.2).1
    rw [normSq_apply, h1, h2]
    ring
  have h1 := norm_curlForward d.1 d.2 m hC.m_pos hE hH fun c x => (E (c, x)).re
  have h2 := norm_curlForward d.1 d.2 m hC.m_pos hE hH fun c x => (E (c, x)).im
  have hε := hC.eps_pos
  have hμ := hC.mu_pos
  have hsum : 0 ≤ ∑ a, 1 / m a ^ 2 := Finset.sum_nonneg fun a _ => by positivity
  have hA : curlEnergy d (muOf S) none E ≤ μm⁻¹ * ∑ p : Pos sh, volH d.1 d.2 p.1 p.2 * normSq (cE (cDx d) E p) := by
    rw [curlEnergy, Finset.mul_sum]
    refine Finset.sum_le_sum fun p _ => ?_
    have h3 : (muR (muOf S) p)⁻¹ ≤ μm⁻¹ := inv_anti₀ hμ (hC.muOf_ge p)
    have h4 : (openAt (none : Option (Pos sh → Bool)) p : ℝ) = 1 := rfl
    have h5 := mul_le_mul_of_nonneg_right h3 (mul_nonneg (hd.volH p.1 p.2).le (normSq_nonneg (cE (cDx d) E p)))
    rw [h4]
    linarith
  have hB : ∑ p : Pos sh, volH d.1 d.2 p.1 p.2 * normSq (cE (cDx d) E p)
      ≤ 4 * (∑ a, 1 / m a ^ 2) * ∑ p : Pos sh, volE d.1 d.2 p.1 p.2 * normSq (E p) := by
    rw [Fintype.sum_prod_type_right, Fintype.sum_prod_type_right]
    simp only [hr, normSq_apply, mul_add, Finset.sum_add_distrib, ← sq]
    linarith
  have hD : ∑ p : Pos sh, volE d.1 d.2 p.1 p.2 * normSq (E p) ≤ εm⁻¹ * ∑ p : Pos sh, volE d.1 d.2 p.1 p.2 * epsOf S p * normSq (E p) := by
    rw [le_inv_mul_iff₀ hε, Finset.mul_sum]
    refine Finset.sum_le_sum fun p _ => ?_
    have h5 := mul_le_mul_of_nonneg_right (hC.epsOf_ge p) (mul_nonneg (hd.vol p.1 p.2).le (normSq_nonneg (E p)))
    linarith
  calc curlEnergy d (muOf S) none E ≤ μm⁻¹ * _ := hA
    _ ≤ μm⁻¹ * (4 * (∑ a, 1 / m a ^ 2) * (εm⁻¹ * ∑ p : Pos sh, volE d.1 d.2 p.1 p.2 * epsOf S p * normSq (E p))) := by
        refine mul_le_mul_of_nonneg_left (hB.trans (mul_le_mul_of_nonneg_left hD (by positivity))) (inv_pos.2 hμ).le
    _ = _ := by field_simp

/-- C125: below the time-step bound every resonance of the cavity is real and lies below the highest frequency the time step can represent. -/
theorem C125_highest {m : Fin 3 → ℝ} {εm μm : ℝ} (hC : Courant S m εm μm) (hS : S.dxes = some d) (ω : ℂ)
    (h : ω ∈ resonances (cDx d) (rEps (epsOf S)) (realMu (muOf S)) none none) : ω.im = 0 ∧ |ω.re * S.dt| < 2 := by
  have hd := hC.posGrid hS
  have heps : ∀ p, 0 < epsOf S p := fun p => hC.eps_pos.trans_le (hC.epsOf_ge p)
  have hmu : ∀ p, 0 < muR (muOf S) p := fun p => hC.mu_pos.trans_le (hC.muOf_ge p)
  have him := C124_real d hd (epsOf S) (muOf S) none none heps hmu ω h
  refine ⟨him, ?_⟩
  obtain ⟨E, h0, hE⟩ := h
  have hr := C124_rayleigh d hd (epsOf S) (muOf S) none none heps ω h0 hE
  have hp := eps_energy_pos d (epsOf S) hd heps h0
  have hle := curlEnergy_le hC hS E
  generalize (∑ p : Pos sh, volE d.1 d.2 p.1 p.2 * epsOf S p * normSq (E p)) = T at hr hp hle
  obtain ⟨r, rfl⟩ : ∃ r : ℝ, ω = r := ⟨ω.re, Complex.ext rfl (by simpa using him)⟩
  have hr' : r ^ 2 = curlEnergy d (muOf S) none E / T := by exact_mod_cast hr
  have hq : r ^ 2 ≤ 4 * (∑ a, 1 / m a ^ 2) / (εm * μm) := by rw [hr', div_le_iff₀ hp]; exact hle
  have hεμ : 0 < εm * μm := mul_pos hC.eps_pos hC.mu_pos
  rw [le_div_iff₀ hεμ] at hq
  have hdt := hC.dt
  rw [ofReal_re]
  refine abs_lt_of_sq_lt_sq ?_ (by norm_num)
  have h4 := mul_le_mul_of_nonneg_right hq (sq_nonneg S.dt)
  have h5 : (r * S.dt) ^ 2 * (εm * μm) < 2 ^ 2 * (εm * μm) := by nlinarith
  exact lt_of_mul_lt_mul_right h5 hεμ.le

/-! ### The scalar recursion -/

/-- A bounded solution of `c(n+2) - 2 c(n+1) + c(n) = -4 sin²(θ/2) c(n+1)` is an oscillation. -/
theorem osc_of_rec {c : ℕ → ℂ} {θ : ℝ} (h0 : 0 ≤ θ) (hπ : θ < Real.pi) (hrec : ∀ n, c (n + 2) = 2 * (Real.cos θ : ℂ) * c (n + 1) - c n)
    {B : ℝ} (hB : ∀ n, ‖c n‖ ≤ B) : ∃ a b : ℂ, (θ ≠ 0 → b * Real.sin θ = c 1 - c 0 * Real.cos θ) ∧ a = c 0 ∧
      ∀ n : ℕ, c n = a * (Real.cos (θ * n) : ℂ) + b * (Real.sin (θ * n) : ℂ) := by
  rcases h0.eq_or_lt with rfl | hpos
  · have hlin : ∀ n : ℕ, c n = c 0 + n * (c 1 - c 0) ∧ c (n + 1) = c 0 + (n + 1) * (c 1 - c 0) := by
      intro n
      induction n with
      | zero => simp
      | succ n ih =>
        refine ⟨by rw [ih.2]; push_cast; ring, ?_⟩
        rw [hrec n, ih.1, ih.2, Real.cos_zero]
        push_cast
        ring
    have hc : c 1 - c 0 = 0 := by
      by_contra hne
      obtain ⟨n, hn⟩ := exists_nat_gt (2 * B / ‖c 1 - c 0‖)
      rw [div_lt_iff₀ (norm_pos_iff.2 hne)] at hn
      have h1 : ((n : ℂ) * (c 1 - c 0)) = c n - c 0 := by rw [(hlin n).1]; ring
      have h2 : ‖(n : ℂ) * (c 1 - c 0)‖ ≤ 2 * B := by
        rw [h1]; exact (norm_sub_le _ _).trans (by linarith [hB n, hB 0])
      rw [norm_mul, Complex.norm_natCast] at h2
      linarith
    refine ⟨c 0, 0, fun h => absurd rfl h, rfl, fun n => ?_⟩
    rw [(hlin n).1, hc]
    simp
  · have hs : (Real.sin θ : ℂ) ≠ 0 := ofReal_ne_zero.2 (Real.sin_pos_of_pos_of_lt_pi hpos hπ).ne'
    refine ⟨c 0, (c 1 - c 0 * Real.cos θ) / Real.sin θ, fun _ => div_mul_cancel₀ _ hs, rfl, ?_⟩
    have key : ∀ n : ℕ, c n = c 0 * (Real.cos (θ * n) : ℂ) + (c 1 - c 0 * Real.cos θ) / Real.sin θ * (Real.sin (θ * n) : ℂ) ∧
        c (n + 1) = c 0 * (Real.cos (θ * (n + 1 : ℕ)) : ℂ) + (c 1 - c 0 * Real.cos θ) / Real.sin θ * (Real.sin (θ * (n + 1 : ℕ)) : ℂ) := by
      intro n
      induction n with
      | zero =>
        refine ⟨by simp, ?_⟩
        simp only [zero_add, Nat.cast_one, mul_one]
        rw [div_mul_cancel₀ _ hs]; ring
      | succ n ih =>
        refine ⟨ih.2, ?_⟩
        have e1 : Real.cos (θ * (n + 1 + 1 : ℕ)) = 2 * Real.cos θ * Real.cos (θ * (n + 1 : ℕ)) - Real.cos (θ * n) := by
          have h1 : θ * (n + 1 + 1 : ℕ) = θ * (n + 1 : ℕ) + θ := by push_cast; ring
          have h2 : θ * n = θ * (n + 1 : ℕ) - θ := by push_cast; ring
          rw [h1, h2, Real.cos_add, Real.cos_sub]; ring
        have e2 : Real.sin (θ * (n + 1 + 1 : ℕ)) = 2 * Real.cos θ * Real.sin (θ * (n + 1 : ℕ)) - Real.sin (θ * n) := by
          have h1 : θ * (n + 1 + 1 : ℕ) = θ * (n + 1 : ℕ) + θ := by push_cast; ring
          have h2 : θ * n = θ * (n + 1 : ℕ) - θ := by push_cast; ring
          rw [h1, h2, Real.sin_add, Real.sin_sub]; ring
        rw [hrec n, e1, e2, ofReal_sub, ofReal_sub]
        conv_lhs => rw [ih.1, ih.2]
        push_cast
        ring
    exact fun n => (key n).1

/-- Mean of the powers of a number on the unit circle. -/
theorem tendsto_mean_pow {z : ℂ} (hz : ‖z‖ = 1) :
    Filter.Tendsto (fun N : ℕ => (N : ℂ)⁻¹ * ∑ n ∈ Finset.range N, z ^ n) Filter.atTop (nhds (if z = 1 then 1 else 0)) := by
  split_ifs with h
  · subst h
    refine Filter.Tendsto.congr' ?_ tendsto_const_nhds
    filter_upwards [Filter.eventually_ne_atTop 0] with N hN
    have : (N : ℂ) ≠ 0 := Nat.cast_ne_zero.2 hN
    simp [this]
  · refine squeeze_zero_norm (a := fun N : ℕ => (2 / ‖z - 1‖) / N) (fun N => ?_) (tendsto_const_div_atTop_nhds_zero_nat _)
    rw [geom_sum_eq h, norm_mul, norm_inv, Complex.norm_natCast, norm_div, inv_mul_eq_div]
    gcongr
    exact (norm_sub_le _ _).trans (by rw [norm_pow, hz, one_pow, norm_one]; norm_num)

/-- The frequency at which a field resonant at `w` rings in a run with time step `dt`. -/
noncomputable def ringFreq (dt w : ℝ) : ℝ := 2 / dt * Real.arcsin (w * dt / 2)

theorem ringFreq_spec {dt w : ℝ} (hdt : 0 < dt) (hw : 0 ≤ w) (h2 : w * dt < 2) :
    0 ≤ ringFreq dt w * dt ∧ ringFreq dt w * dt < Real.pi ∧ 2 * Real.cos (ringFreq dt w * dt) = 2 - dt ^ 2 * w ^ 2 ∧
      (ringFreq dt w * dt = 0 ↔ w = 0) := by
  have hw2 : 0 ≤ w * dt := mul_nonneg hw hdt.le
  have e : ringFreq dt w * dt = 2 * Real.arcsin (w * dt / 2) := by unfold ringFreq; field_simp
  have hs : Real.sin (Real.arcsin (w * dt / 2)) = w * dt / 2 := Real.sin_arcsin (by linarith) (by linarith)
  rw [e]
  refine ⟨by have := Real.arcsin_nonneg.2 (show 0 ≤ w * dt / 2 by linarith); linarith, ?_, ?_, ?_⟩
  · have := Real.arcsin_lt_pi_div_two.2 (show w * dt / 2 < 1 by linarith)
    linarith
  · rw [Real.cos_two_mul, Real.cos_sq', hs]; ring
  · rw [mul_eq_zero, Real.arcsin_eq_zero_iff]
    constructor
    · rintro (h | h)
      · norm_num at h
      · have : w * dt = 0 := by linarith
        exact (mul_eq_zero.1 this).resolve_right hdt.ne'
    · rintro rfl; right; simp

/-- The inner product of two fields, weighted by the permittivity and the cell volumes. -/
noncomputable def weighted (d : DxList sh ℝ × DxList sh ℝ) (eps : Pos sh → ℝ) (G E : Vec sh) : ℂ :=
  ∑ p : Pos sh, ((volE d.1 d.2 p.1 p.2 * eps p : ℝ) : ℂ) * ((starRingEnd ℂ) (G p) * E p)

theorem weighted_eq (eps : Pos sh → ℝ) (G E : Vec sh) : weighted d eps G E = star G ⬝ᵥ (Pencil.dg (mass d eps) *ᵥ E) := by
  rw [weighted, dotProduct]
  refine Finset.sum_congr rfl fun p _ => ?_
  rw [Pencil.dg_mulVec, Pi.star_apply, RCLike.star_def, mass]
  ring

/-- The component of a run along a resonant field obeys the recursion of an oscillator. -/
theorem component_rec (hd : PosGrid d) (hS : S.dxes = some d) (heps : ∀ p, 0 < epsOf S p) (s : State sh ℝ) {w : ℝ} {G : Vec sh}
    (hG : IsResonant w (cDx d) (rEps (epsOf S)) (realMu (muOf S)) none none G) (n : ℕ) :
    weighted d (epsOf S) G (fieldE S s (n + 2))
      = (2 - S.dt ^ 2 * w ^ 2 : ℝ) * weighted d (epsOf S) G (fieldE S s (n + 1)) - weighted d (epsOf S) G (fieldE S s n) := by
  have h1 := congrArg (fun v => star G ⬝ᵥ v) (fieldE_wave S d hS heps s n)
  have h2 := (resonant_iff d hd (epsOf S) (muOf S) none none w hG.off).1 hG.free
  have hH := stiff_hermitian d hd (epsOf S) (muOf S) none none
  have h3 : star G ⬝ᵥ (stiff d (epsOf S) (muOf S) none none *ᵥ fieldE S s (n + 1)) = (w : ℂ) ^ 2 * weighted d (epsOf S) G (fieldE S s (n + 1)) := by
    rw [weighted_eq, dotProduct_mulVec, ← hH.eq, ← star_mulVec, h2, star_smul, star_mulVec, Pencil.dg_conj, smul_dotProduct, ← dotProduct_mulVec]
    simp
  simp only [mulVec_add, mulVec_sub, mulVec_smul, dotProduct_add, dotProduct_sub, dotProduct_smul, ← weighted_eq, smul_eq_mul] at h1
  rw [h3] at h1
  push_cast
  linear_combination h1

theorem component_bounded {m : Fin 3 → ℝ} {εm μm : ℝ} (hC : Courant S m εm μm) (d : DxList sh ℝ × DxList sh ℝ) (s : State sh ℝ) (G : Vec sh) :
    ∃ B : ℝ, ∀ n, ‖weighted d (epsOf S) G (fieldE S s n)‖ ≤ B := by
  obtain ⟨C, hCb⟩ := C12_stability S m εm μm hC s
  refine ⟨∑ p : Pos sh, ‖((volE d.1 d.2 p.1 p.2 * epsOf S p : ℝ) : ℂ)‖ * (‖G p‖ * C), fun n => (norm_sum_le _ _).trans (Finset.sum_le_sum fun p _ => ?_)⟩
  rw [norm_mul, norm_mul, RCLike.norm_conj]
  refine mul_le_mul_of_nonneg_left (mul_le_mul_of_nonneg_left ?_ (norm_nonneg _)) (norm_nonneg _)
  rw [fieldE, Complex.norm_real]
  exact (hCb n p.1 p.2).1

/-- The component along a resonant field rings at one frequency. -/
theorem component_osc {m : Fin 3 → ℝ} {εm μm : ℝ} (hC : Courant S m εm μm) (hS : S.dxes = some d) (hdt : 0 < S.dt) (s : State sh ℝ) {w : ℝ}
    (hw : 0 ≤ w) (hw2 : w * S.dt < 2) {G : Vec sh} (hG : IsResonant w (cDx d) (rEps (epsOf S)) (realMu (muOf S)) none none G) :
    ∃ a b : ℂ, (w ≠ 0 → b * Real.sin (ringFreq S.dt w * S.dt)
          = weighted d (epsOf S) G (fieldE S s 1) - weighted d (epsOf S) G (fieldE S s 0) * Real.cos (ringFreq S.dt w * S.dt)) ∧
      a = weighted d (epsOf S) G (fieldE S s 0) ∧
      ∀ n : ℕ, weighted d (epsOf S) G (fieldE S s n)
        = a * (Real.cos (ringFreq S.dt w * (n * S.dt)) : ℂ) + b * (Real.sin (ringFreq S.dt w * (n * S.dt)) : ℂ) := by
  obtain ⟨t0, t1, t2, t3⟩ := ringFreq_spec hdt hw hw2
  have heps : ∀ p, 0 < epsOf S p := fun p => hC.eps_pos.trans_le (hC.epsOf_ge p)
  obtain ⟨B, hB⟩ := component_bounded hC d s G
  obtain ⟨a, b, h1, h2, h3⟩ := osc_of_rec (c := fun n => weighted d (epsOf S) G (fieldE S s n)) t0 t1 (fun n => by
    have := component_rec (hC.posGrid hS) hS heps s hG n
    rw [← t2] at this
    rw [this]
    push_cast
    ring) hB
  refine ⟨a, b, fun hne => h1 fun h => hne (t3.1 h), h2, fun n => ?_⟩
  have e : ringFreq S.dt w * (n * S.dt) = ringFreq S.dt w * S.dt * n := by ring
  rw [e]
  exact h3 n

/-- C125: below the time-step bound, the electric field of every source-free run is a superposition of the fields resonant in `e_full`, each ringing
at its own resonance frequency `w` up to the dispersion of the time step, `sin(Ω dt / 2) = w dt / 2`. The resonant fields do not depend on the
initial state, and there are as many as field components. -/
theorem C125_ringing {m : Fin 3 → ℝ} {εm μm : ℝ} (hC : Courant S m εm μm) (hS : S.dxes = some d) (hdt : 0 < S.dt) :
    ∃ (w : Pos sh → ℝ) (F : Pos sh → Vec sh),
      (∀ j, 0 ≤ w j ∧ w j * S.dt < 2 ∧ IsResonant (w j) (cDx d) (rEps (epsOf S)) (realMu (muOf S)) none none (F j)) ∧
      (∀ i j, ∑ p : Pos sh, ((volE d.1 d.2 p.1 p.2 * S.eps p.1 p.2 : ℝ) : ℂ) * ((starRingEnd ℂ) (F i p) * F j p) = if i = j then 1 else 0) ∧
      ∀ s : State sh ℝ, ∃ a b : Pos sh → ℂ, ∀ n c x, ((run S s (leapfrog n)).e c x : ℂ)
        = ∑ j, (a j * (Real.cos (ringFreq S.dt (w j) * (n * S.dt)) : ℂ) + b j * (Real.sin (ringFreq S.dt (w j) * (n * S.dt)) : ℂ)) * F j (c, x) := by
  have hd := hC.posGrid hS
  have heps : ∀ p, 0 < epsOf S p := fun p => hC.eps_pos.trans_le (hC.epsOf_ge p)
  have hmu : ∀ p, 0 < muR (muOf S) p := fun p => hC.mu_pos.trans_le (hC.muOf_ge p)
  obtain ⟨F, l, h1, h2⟩ := Pencil.exists_diag (stiff_hermitian d hd (epsOf S) (muOf S) none none) (mass_pos d (epsOf S) hd heps)
  have hcol : ∀ j, stiff d (epsOf S) (muOf S) none none *ᵥ (F.col j) = (l j : ℂ) • (Pencil.dg (mass d (epsOf S)) *ᵥ F.col j) := by
    intro j
    funext p
    have := congrFun (congrFun h2 p) j
    rw [Pencil.mul_dg] at this
    rw [Pi.smul_apply, smul_eq_mul, mul_comm]
    exact this
  have horth : ∀ i j, weighted d (epsOf S) (F.col i) (F.col j) = if i = j then 1 else 0 := by
    intro i j
    have := congrFun (congrFun h1 i) j
    rw [one_apply, Matrix.mul_assoc] at this
    rw [weighted_eq, ← this]
    rfl
  have hoff : ∀ E : Vec sh, OffPec none E := fun E m hm => by cases hm
  have hl : ∀ j, 0 ≤ l j := by
    intro j
    have h3 := stiff_form d hd (epsOf S) (muOf S) none none (hoff (F.col j))
    rw [hcol j, dotProduct_smul, ← weighted_eq, horth j j, if_pos rfl, smul_eq_mul, mul_one, ofReal_re] at h3
    rw [h3]
    exact curlEnergy_nonneg d hd (muOf S) none hmu _
  have hres : ∀ j, IsResonant (Real.sqrt (l j) : ℝ) (cDx d) (rEps (epsOf S)) (realMu (muOf S)) none none (F.col j) := fun j =>
    ⟨hoff _, (resonant_iff d hd (epsOf S) (muOf S) none none _ (hoff _)).2 (by rw [hcol j, ← ofReal_pow, Real.sq_sqrt (hl j)])⟩
  have hlt : ∀ j, Real.sqrt (l j) * S.dt < 2 := fun j => by
    have h0 : F.col j ≠ 0 := fun h => by
      have := horth j j
      rw [if_pos rfl, h, weighted] at this
      simp at this
    have := (C125_highest hC hS _ ⟨_, h0, hres j⟩).2
    rw [ofReal_re] at this
    exact (le_abs_self _).trans_lt this
  refine ⟨fun j => Real.sqrt (l j), fun j => F.col j, fun j => ⟨Real.sqrt_nonneg _, hlt j, hres j⟩, horth, fun s => ?_⟩
  choose a b _ _ hab using fun j => component_osc hC hS hdt s (Real.sqrt_nonneg (l j)) (hlt j) (hres j)
  refine ⟨a, b, fun n c x => ?_⟩
  have h4 := congrFun (Pencil.expand h1 (fieldE S s n)) (c, x)
  have h5 : ∀ j, ((Fᴴ * Pencil.dg (mass d (epsOf S))) *ᵥ fieldE S s n) j = weighted d (epsOf S) (F.col j) (fieldE S s n) := by
    intro j
    rw [weighted_eq, ← mulVec_mulVec]
    rfl
  change fieldE S s n (c, x) = _
  rw [← h4, mulVec, dotProduct]
  refine Finset.sum_congr rfl fun j _ => ?_
  rw [h5, hab j n, mul_comm]
  rfl

/-- The running mean of a record against an oscillation at frequency `w₀`: the normalised Fourier transform. -/
noncomputable def meanAt (dt w₀ : ℝ) (N : ℕ) (f : ℕ → ℂ) : ℂ := (N : ℂ)⁻¹ * ∑ n ∈ Finset.range N, exp (-I * w₀ * (n * dt)) * f n

theorem meanAt_osc (dt w₀ w : ℝ) (a b : ℂ) :
    Filter.Tendsto (fun N => meanAt dt w₀ N fun n => a * (Real.cos (w * (n * dt)) : ℂ) + b * (Real.sin (w * (n * dt)) : ℂ)) Filter.atTop
      (nhds ((a - I * b) / 2 * (if exp (I * ((w - w₀) * dt : ℝ)) = 1 then 1 else 0) + (a + I * b) / 2 * (if exp (I * ((-w - w₀) * dt : ℝ)) = 1 then 1 else 0))) := by
  have hz : ∀ r : ℝ, ‖exp (I * (r : ℂ))‖ = 1 := fun r => by rw [mul_comm]; exact norm_exp_ofReal_mul_I r
  have h1 := (tendsto_mean_pow (hz ((w - w₀) * dt))).const_mul ((a - I * b) / 2)
  have h2 := (tendsto_mean_pow (hz ((-w - w₀) * dt))).const_mul ((a + I * b) / 2)
  refine (h1.add h2).congr fun N => ?_
  rw [meanAt, mul_left_comm, mul_left_comm ((a + I * b) / 2), ← mul_add, Finset.mul_sum, Finset.mul_sum, ← Finset.sum_add_distrib]
  congr 1
  refine Finset.sum_congr rfl fun n _ => ?_
  rw [← exp_nat_mul, ← exp_nat_mul, ofReal_cos, ofReal_sin, Complex.cos, Complex.sin]
  have e1 : (n : ℂ) * (I * (((w - w₀) * dt : ℝ) : ℂ)) = -I * w₀ * (n * dt) + ((w * (n * dt) : ℝ) : ℂ) * I := by push_cast; ring
  have e2 : (n : ℂ) * (I * (((-w - w₀) * dt : ℝ) : ℂ)) = -I * w₀ * (n * dt) + -((w * (n * dt) : ℝ) : ℂ) * I := by push_cast; ring
  rw [e1, e2, exp_add, exp_add]
  generalize exp (-I * w₀ * (n * dt)) = x
  generalize exp (((w * (n * dt) : ℝ) : ℂ) * I) = y
  generalize exp (-((w * (n * dt) : ℝ) : ℂ) * I) = z
  linear_combination (x * b * (z - y) / 2) * I_sq - (x * b * (z - y) / 2) * I_sq

/-- C125: the spectrum of a run. At every frequency `w₀` the normalised transform of the recorded field converges, and its limit is a field resonant
in `e_full` at `2 sin(w₀ dt / 2) / dt`; in particular it is zero unless this is a resonance. -/
theorem C125_spectrum {m : Fin 3 → ℝ} {εm μm : ℝ} (hC : Courant S m εm μm) (hS : S.dxes = some d) (hdt : 0 < S.dt) (s : State sh ℝ) (w₀ : ℝ) :
    ∃ P : Vec sh, (∀ c x, Filter.Tendsto (fun N => meanAt S.dt w₀ N fun n => ((run S s (leapfrog n)).e c x : ℂ)) Filter.atTop (nhds (P (c, x)))) ∧
      IsResonant (2 * Real.sin (w₀ * S.dt / 2) / S.dt : ℝ) (cDx d) (rEps (epsOf S)) (realMu (muOf S)) none none P ∧
      (((2 * Real.sin (w₀ * S.dt / 2) / S.dt : ℝ) : ℂ) ∉ resonances (cDx d) (rEps (epsOf S)) (realMu (muOf S)) none none → P = 0) := by
  obtain ⟨w, F, hw, -, hrun⟩ := C125_ringing hC hS hdt
  obtain ⟨a, b, hab⟩ := hrun s
  set L : Pos sh → ℂ := fun j => (a j - I * b j) / 2 * (if exp (I * ((ringFreq S.dt (w j) - w₀) * S.dt : ℝ)) = 1 then 1 else 0)
    + (a j + I * b j) / 2 * (if exp (I * ((-ringFreq S.dt (w j) - w₀) * S.dt : ℝ)) = 1 then 1 else 0) with hL
  have hres : IsResonant (2 * Real.sin (w₀ * S.dt / 2) / S.dt : ℝ) (cDx d) (rEps (epsOf S)) (realMu (muOf S)) none none (∑ j, L j • F j) := by
    refine ⟨fun _ hm => (by cases hm), ?_⟩
    have hsum : eFull (2 * Real.sin (w₀ * S.dt / 2) / S.dt : ℝ) (cDx d) (rEps (epsOf S)) (realMu (muOf S)) none none *ᵥ (∑ j, L j • F j)
        = ∑ j, L j • (eFull (2 * Real.sin (w₀ * S.dt / 2) / S.dt : ℝ) (cDx d) (rEps (epsOf S)) (realMu (muOf S)) none none *ᵥ F j) := by
      rw [Matrix.mulVec_sum]
      exact Finset.sum_congr rfl fun j _ => mulVec_smul _ _ _
    rw [hsum]
    refine Finset.sum_eq_zero fun j _ => ?_
    by_cases hj : Real.cos (ringFreq S.dt (w j) * S.dt) = Real.cos (w₀ * S.dt)
    · have h1 : (w j) ^ 2 = (2 * Real.sin (w₀ * S.dt / 2) / S.dt) ^ 2 := by
        have h2 := (ringFreq_spec hdt (hw j).1 (hw j).2.1).2.2.1
        have h3 : Real.cos (w₀ * S.dt) = 1 - 2 * Real.sin (w₀ * S.dt / 2) ^ 2 := by
          rw [show w₀ * S.dt = 2 * (w₀ * S.dt / 2) by ring, Real.cos_two_mul, Real.cos_sq']; ring_nf
        rw [hj, h3] at h2
        rw [div_pow, eq_div_iff (pow_ne_zero _ hdt.ne')]
        linarith
      have h4 := (hw j).2.2.free
      have h5 : eFull (2 * Real.sin (w₀ * S.dt / 2) / S.dt : ℝ) (cDx d) (rEps (epsOf S)) (realMu (muOf S)) none none *ᵥ F j
          = eFull (w j : ℝ) (cDx d) (rEps (epsOf S)) (realMu (muOf S)) none none *ᵥ F j := by
        funext p
        rw [eFull_mulVec, eFull_mulVec, ← ofReal_pow, ← ofReal_pow, h1]
      rw [h5, h4, smul_zero]
    · have hz : L j = 0 := by
        have hcos : ∀ r : ℝ, exp (I * (r : ℂ)) = 1 → Real.cos r = 1 ∧ Real.sin r = 0 := fun r h => by
          rw [mul_comm, exp_mul_I, ← ofReal_cos, ← ofReal_sin] at h
          have h1 := congrArg re h
          have h2 := congrArg im h
          simp only [add_re, add_im, mul_re, mul_im, ofReal_re, ofReal_im, I_re, I_im, one_re, one_im] at h1 h2
          exact ⟨by linarith, by linarith⟩
        rw [hL]
        simp only
        rw [if_neg, if_neg, mul_zero, mul_zero, add_zero]
        · intro h
          obtain ⟨h1, h2⟩ := hcos _ h
          apply hj
          have : ringFreq S.dt (w j) * S.dt = -(w₀ * S.dt + (-ringFreq S.dt (w j) - w₀) * S.dt) := by ring
          rw [this, Real.cos_neg, Real.cos_add, h1, h2]; ring
        · intro h
          obtain ⟨h1, h2⟩ := hcos _ h
          apply hj
          have : ringFreq S.dt (w j) * S.dt = w₀ * S.dt + (ringFreq S.dt (w j) - w₀) * S.dt := by ring
          rw [this, Real.cos_add, h1, h2]; ring
      rw [hz, zero_smul]
  refine ⟨∑ j, L j • F j, fun c x => ?_, hres, fun hn => ?_⟩
  · have h1 : ∀ N, meanAt S.dt w₀ N (fun n => ((run S s (leapfrog n)).e c x : ℂ)) = ∑ j, meanAt S.dt w₀ N (fun n =>
        a j * (Real.cos (ringFreq S.dt (w j) * (n * S.dt)) : ℂ) + b j * (Real.sin (ringFreq S.dt (w j) * (n * S.dt)) : ℂ)) * F j (c, x) := by
      intro N
      simp only [meanAt, hab]
      simp only [Finset.mul_sum, Finset.sum_mul]
      rw [Finset.sum_comm]
      refine Finset.sum_congr rfl fun j _ => Finset.sum_congr rfl fun n _ => ?_
      generalize exp (-I * (w₀ : ℂ) * (n * S.dt)) = y
      ring
    simp only [h1, Finset.sum_apply, Pi.smul_apply, smul_eq_mul]
    exact tendsto_finsetSum _ fun j _ => (meanAt_osc S.dt w₀ (ringFreq S.dt (w j)) (a j) (b j)).mul_const _
  · by_contra h0
    exact hn ⟨_, h0, hres⟩

/-- C125: the height of a peak. For a field `G` resonant in `e_full` at `w > 0`, the transform of the run at the ringing frequency overlaps with `G` by an
amount fixed by the first two samples of the run; the factor `sin` is not zero. -/
theorem C125_peak {m : Fin 3 → ℝ} {εm μm : ℝ} (hC : Courant S m εm μm) (hS : S.dxes = some d) (hdt : 0 < S.dt) (s : State sh ℝ) {w : ℝ} (hw : 0 < w)
    {G : Vec sh} (h0 : G ≠ 0) (hG : IsResonant w (cDx d) (rEps (epsOf S)) (realMu (muOf S)) none none G) (P : Vec sh)
    (hP : ∀ c x, Filter.Tendsto (fun N => meanAt S.dt (ringFreq S.dt w) N fun n => ((run S s (leapfrog n)).e c x : ℂ)) Filter.atTop (nhds (P (c, x)))) :
    Real.sin (ringFreq S.dt w * S.dt) ≠ 0 ∧
    (2 * I * Real.sin (ringFreq S.dt w * S.dt)) * ∑ p : Pos sh, ((volE d.1 d.2 p.1 p.2 * S.eps p.1 p.2 : ℝ) : ℂ) * ((starRingEnd ℂ) (G p) * P p)
      = ∑ p : Pos sh, ((volE d.1 d.2 p.1 p.2 * S.eps p.1 p.2 : ℝ) : ℂ) * ((starRingEnd ℂ) (G p) *
          ((run S s (leapfrog 1)).e p.1 p.2 - exp (-I * (ringFreq S.dt w * S.dt : ℝ)) * s.e p.1 p.2)) := by
  have hw2 : w * S.dt < 2 := by
    have := (C125_highest hC hS _ ⟨G, h0, hG⟩).2
    rw [ofReal_re] at this
    exact (le_abs_self _).trans_lt this
  obtain ⟨t0, t1, -, t3⟩ := ringFreq_spec hdt hw.le hw2
  have tpos : 0 < ringFreq S.dt w * S.dt := lt_of_le_of_ne t0 fun h => hw.ne' (t3.1 h.symm)
  have hs := (Real.sin_pos_of_pos_of_lt_pi tpos t1).ne'
  refine ⟨hs, ?_⟩
  obtain ⟨a, b, hb, ha, hab⟩ := component_osc hC hS hdt s hw.le hw2 hG
  have hb := hb hw.ne'
  have hT1 : Filter.Tendsto (fun N => meanAt S.dt (ringFreq S.dt w) N fun n => weighted d (epsOf S) G (fieldE S s n)) Filter.atTop
      (nhds (weighted d (epsOf S) G P)) := by
    have h1 : ∀ N, meanAt S.dt (ringFreq S.dt w) N (fun n => weighted d (epsOf S) G (fieldE S s n)) = ∑ p : Pos sh,
        ((volE d.1 d.2 p.1 p.2 * epsOf S p : ℝ) : ℂ) * ((starRingEnd ℂ) (G p) * meanAt S.dt (ringFreq S.dt w) N fun n => ((run S s (leapfrog n)).e p.1 p.2 : ℂ)) := by
      intro N
      simp only [meanAt, weighted, fieldE, Finset.mul_sum]
      rw [Finset.sum_comm]
      refine Finset.sum_congr rfl fun j _ => Finset.sum_congr rfl fun n _ => ?_
      generalize exp (-I * (ringFreq S.dt w : ℂ) * (n * S.dt)) = x
      ring
    simp only [h1]
    exact tendsto_finsetSum _ fun p _ => ((hP p.1 p.2).const_mul _).const_mul _
  have hT2 := meanAt_osc S.dt (ringFreq S.dt w) (ringFreq S.dt w) a b
  simp only [← hab] at hT2
  have heq := tendsto_nhds_unique hT1 hT2
  have hne : exp (I * ((-ringFreq S.dt w - ringFreq S.dt w) * S.dt : ℝ)) ≠ 1 := by
    intro h
    rw [exp_eq_one_iff] at h
    obtain ⟨k, hk⟩ := h
    have h1 : ((-ringFreq S.dt w - ringFreq S.dt w) * S.dt : ℝ) = k * (2 * Real.pi) := by
      have h2 : I * ((((-ringFreq S.dt w - ringFreq S.dt w) * S.dt : ℝ) : ℂ) - ((k * (2 * Real.pi) : ℝ) : ℂ)) = 0 := by
        rw [mul_sub, hk]; push_cast; ring
      have h3 := (mul_eq_zero.1 h2).resolve_left I_ne_zero
      exact_mod_cast sub_eq_zero.1 h3
    have hpi := Real.pi_pos
    have h4 : -1 < (k : ℝ) := by
      by_contra hcon
      push Not at hcon
      nlinarith
    have h5 : (k : ℝ) < 0 := by
      by_contra hcon
      push Not at hcon
      nlinarith
    have h6 : (-1 : ℤ) < k := by exact_mod_cast h4
    have h7 : k < 0 := by exact_mod_cast h5
    omega
  rw [if_neg hne, sub_self, zero_mul, ofReal_zero, mul_zero, exp_zero, if_pos rfl, mul_one, mul_zero, add_zero] at heq
  have hrhs : (∑ p : Pos sh, ((volE d.1 d.2 p.1 p.2 * S.eps p.1 p.2 : ℝ) : ℂ) * ((starRingEnd ℂ) (G p) *
          ((run S s (leapfrog 1)).e p.1 p.2 - exp (-I * (ringFreq S.dt w * S.dt : ℝ)) * s.e p.1 p.2)))
      = weighted d (epsOf S) G (fieldE S s 1) - exp (-I * (ringFreq S.dt w * S.dt : ℝ)) * weighted d (epsOf S) G (fieldE S s 0) := by
    rw [weighted, weighted, Finset.mul_sum, ← Finset.sum_sub_distrib]
    refine Finset.sum_congr rfl fun p _ => ?_
    have : fieldE S s 0 p = s.e p.1 p.2 := rfl
    rw [this]
    simp only [fieldE, epsOf]
    ring
  change _ * weighted d (epsOf S) G P = _
  rw [hrhs, heq]
  have hexp : exp (-I * (ringFreq S.dt w * S.dt : ℝ)) = (Real.cos (ringFreq S.dt w * S.dt) : ℂ) - I * Real.sin (ringFreq S.dt w * S.dt) := by
    rw [show -I * ((ringFreq S.dt w * S.dt : ℝ) : ℂ) = (-(ringFreq S.dt w * S.dt : ℝ) : ℂ) * I by ring, exp_mul_I, Complex.cos_neg, Complex.sin_neg,
      ← ofReal_cos, ← ofReal_sin]
    ring
  rw [hexp, ← ha]
  linear_combination hb + (-(Real.sin (ringFreq S.dt w * S.dt) : ℂ) * b) * I_sq + (Real.cos (ringFreq S.dt w * S.dt) : ℂ) * ha

/-- A cube of eight unit cells of vacuum meets the hypotheses: its time step is below the bound, and the field along z that alternates along x is
resonant at the frequency 2. -/
example :
    let S : Sys (fun _ => 2) ℝ := ⟨1 / 2, some (fun _ _ => 1, fun _ _ => 1), fun _ _ => 1, none⟩
    let G : Vec fun _ => 2 := fun p => if p.1 = 2 then (if p.2 0 = 0 then 1 else -1) else 0
    Courant S (fun _ => 1) 1 1 ∧ 0 < S.dt ∧ G ≠ 0 ∧
      IsResonant (2 : ℝ) (cDx (fun _ _ => 1, fun _ _ => 1)) (rEps (epsOf S)) (realMu (muOf S)) none none G := by
  intro S G
  refine ⟨⟨fun _ => one_pos, fun _ _ => le_rfl, fun _ _ => le_rfl, one_pos, one_pos, fun _ _ => le_rfl, fun _ _ => le_rfl, ?_⟩, by norm_num [S], ?_, ?_⟩
  · simp [S]; norm_num
  · intro h
    have := congrFun h (2, fun _ => 0)
    simp [G] at this
  · refine ⟨fun _ hm => (by cases hm), ?_⟩
    funext p
    obtain ⟨c, x⟩ := p
    rw [eFull_mulVec]
    have hw : ∀ i : Fin 2, (wrap i 1 : Fin 2) = 1 - i ∧ (wrap i (-1) : Fin 2) = 1 - i := by decide
    have hx : x 0 = 0 ∨ x 0 = 1 := by
      have h := (x 0).2
      have h2 : (x 0 : ℕ) < 2 := h
      rcases Nat.lt_succ_iff_lt_or_eq.1 h2 with h | h
      · left; exact Fin.ext (by simpa using h)
      · right; exact Fin.ext (by simpa using h)
    revert c
    refine forall_fin3 ?_ ?_ ?_ <;>
    rcases hx with hx | hx <;>
    simp [vecS, unS, Functional.curlForward, Functional.curlBack, Functional.derivForward, Functional.derivBack, roll, shiftIdx, G, hw, hx, cDx, S,
      muOf, realMu, rEps, epsOf] <;> norm_num

end Meanas.Props
