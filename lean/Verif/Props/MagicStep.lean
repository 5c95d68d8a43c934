/-
C117, continued: at the magic time step pulses of any shape move exactly one cell per step.
-/
import Verif.Props.NumericalDispersion
import Verif.Props.Static

namespace Meanas.Props

open Fdtd Spec
open Functional (curlForward curlBack derivForward derivBack)

variable {sh : Fin 3 → ℕ} {K : Type*} [Field K]

/-- A pair of plane pulses along axis `a`, polarised along the next axis: `f` runs forward, `g` backward; `η` is the wave impedance. H is sampled half a cell
and half a step later than E. -/
def pulses (a : Fin 3) (η : K) (f g : Fin (sh a) → K) : State sh K :=
  ⟨fun c x => if c = a + 1 then f (x a) + g (x a) else 0, fun c x => if c = a + 2 then (f (x a) - g (wrap (x a) 1)) / η else 0⟩

/-- The time step is magic along axis `a`: light takes exactly one step for every cell, `dt = width · √(εμ)`, and the impedance `η` is the same
everywhere. -/
structure Magic (S : Sys sh K) (a : Fin 3) (η : K) : Prop where
  /-- impedance -/
  nz : η ≠ 0
  /-- permittivity -/
  eps : ∀ x, S.eps (a + 1) x ≠ 0
  /-- permeability -/
  mu : ∀ x, muOr S.mu (a + 2) x ≠ 0
  /-- widths of the H cells -/
  wH : ∀ x : Idx sh, wOf (S.dxes.map (·.2)) a (x a) ≠ 0
  /-- widths of the E cells -/
  wE : ∀ x : Idx sh, wOf (S.dxes.map (·.1)) a (x a) ≠ 0
  /-- `dt = η ε Δ` -/
  dtE : ∀ x : Idx sh, S.dt = η * (S.eps (a + 1) x * wOf (S.dxes.map (·.2)) a (x a))
  /-- `dt = μ Δ / η` -/
  dtH : ∀ x : Idx sh, η * S.dt = muOr S.mu (a + 2) x * wOf (S.dxes.map (·.1)) a (x a)

theorem curlBack_single (a : Fin 3) (dx : Option (DxList sh K)) (φ : Arr sh K) (c : Fin 3) (x : Idx sh) :
    curlBack dx (fun c x => if c = a + 2 then φ x else 0) c x
      = if c = a + 1 then -derivBack dx a φ x else if c = a then derivBack dx (a + 1) φ x else 0 := by
  revert a c
  refine forall_fin3 ?_ ?_ ?_ <;> refine forall_fin3 ?_ ?_ ?_ <;> simp [derivBack_eq]

theorem curlForward_single (a : Fin 3) (dx : Option (DxList sh K)) (φ : Arr sh K) (c : Fin 3) (x : Idx sh) :
    curlForward dx (fun c x => if c = a + 1 then φ x else 0) c x
      = if c = a + 2 then derivForward dx a φ x else if c = a then -derivForward dx (a + 2) φ x else 0 := by
  revert a c
  refine forall_fin3 ?_ ?_ ?_ <;> refine forall_fin3 ?_ ?_ ?_ <;> simp [derivForward_eq]

theorem magic_step (S : Sys sh K) (a : Fin 3) (η : K) (hM : Magic S a η) (f g : Fin (sh a) → K) :
    run S (pulses a η f g) [.stepE, .stepH] = pulses a η (fun i => f (wrap i (-1))) fun i => g (wrap i 1) := by
  have hη := hM.nz
  have n1 : a ≠ a + 1 := (by decide : ∀ a : Fin 3, a ≠ a + 1) a
  have n2 : a ≠ a + 2 := (by decide : ∀ a : Fin 3, a ≠ a + 2) a
  have he : maxwellE S.dt S.dxes (pulses a η f g).e (pulses a η f g).h S.eps = (pulses a η (fun i => f (wrap i (-1))) fun i => g (wrap i 1)).e := by
    funext c x
    rw [maxwellE_eq]
    simp only [pulses]
    rw [curlBack_single a _ fun x => (f (x a) - g (wrap (x a) 1)) / η]
    simp only [derivBack_eq, shiftIdx_same, shiftIdx_of_ne n1, wrap_wrap, neg_add_cancel, wrap_zero, sub_self, zero_div, ite_self]
    by_cases hc : c = a + 1
    · subst hc
      have hw := hM.wH x
      have hε := hM.eps x
      simp only [if_true]
      rw [hM.dtE x]; field_simp; ring
    · simp [hc]
  refine State.ext' (fun c x => congrFun (congrFun he c) x) fun c x => ?_
  show maxwellH S.dt S.dxes (maxwellE S.dt S.dxes (pulses a η f g).e (pulses a η f g).h S.eps) (pulses a η f g).h S.mu c x = _
  rw [he, maxwellH_eq]
  simp only [pulses]
  rw [curlForward_single a _ fun x => f (wrap (x a) (-1)) + g (wrap (x a) 1)]
  simp only [derivForward_eq, shiftIdx_same, shiftIdx_of_ne n2, wrap_wrap, add_neg_cancel, wrap_zero, sub_self, zero_div, neg_zero, ite_self]
  by_cases hc : c = a + 2
  · subst hc
    have hw := hM.wE x
    have hμ := hM.mu x
    have hd := hM.dtH x
    have : S.dt = muOr S.mu (a + 2) x * wOf (S.dxes.map (·.1)) a (x a) / η := by rw [← hd]; field_simp
    simp only [if_true]
    rw [this]; field_simp; ring
  · simp [hc]

/-- **C117.** At the magic time step pulses of any shape move exactly one cell per step, forward and backward ones through each other, without
dispersion, distortion or reflection, also through media and widths that vary from cell to cell at constant impedance. -/
theorem C117_pulse (S : Sys sh K) (a : Fin 3) (η : K) (hM : Magic S a η) (f g : Fin (sh a) → K) (n : ℕ) :
    run S (pulses a η f g) (leapfrog n) = pulses a η (fun i => f (wrap i (-n))) fun i => g (wrap i n) := by
  induction n with
  | zero => simp [leapfrog, run]
  | succ n ih =>
    rw [Static.leap_succ, ih, magic_step S a η hM]
    congr 1
    · funext i; rw [wrap_wrap]; congr 2; push_cast; ring
    · funext i; rw [wrap_wrap]; congr 2; push_cast; ring

/-- **C117.** After as many steps as there are cells along the axis the fields are exactly what they were. -/
theorem C117_revival (S : Sys sh K) (a : Fin 3) (η : K) (hM : Magic S a η) (f g : Fin (sh a) → K) :
    run S (pulses a η f g) (leapfrog (sh a)) = pulses a η f g := by
  rw [C117_pulse S a η hM]
  congr 1
  · funext i
    have := wrap_add_mul i 0 (-1)
    rw [zero_add, neg_one_mul, wrap_zero] at this
    rw [this]
  · funext i
    have := wrap_add_mul i 0 1
    rw [zero_add, one_mul, wrap_zero] at this
    rw [this]

/-- A uniform grid and medium with `dt = d √(εμ)` is magic, with impedance `√(μ/ε)`. -/
theorem magic_uniform {ε μ d : ℝ} (hε : 0 < ε) (hμ : 0 < μ) (hd : 0 < d) (a : Fin 3) :
    Magic (sh := sh) ⟨d * Real.sqrt (ε * μ), some (fun _ _ => d, fun _ _ => d), fun _ _ => ε, some fun _ _ => μ⟩ a (Real.sqrt (μ / ε)) := by
  have h1 : Real.sqrt (μ / ε) * ε = Real.sqrt (ε * μ) := by
    rw [← Real.sqrt_sq hε.le, ← Real.sqrt_mul (div_nonneg hμ.le (by positivity)), Real.sqrt_sq hε.le]; congr 1; field_simp
  have h2 : Real.sqrt (μ / ε) * Real.sqrt (ε * μ) = μ := by
    rw [← Real.sqrt_mul (div_nonneg hμ.le hε.le), show μ / ε * (ε * μ) = μ ^ 2 by field_simp, Real.sqrt_sq hμ.le]
  refine ⟨(Real.sqrt_pos.2 (div_pos hμ hε)).ne', fun _ => hε.ne', fun _ => hμ.ne', fun _ => hd.ne', fun _ => hd.ne', fun x => ?_, fun x => ?_⟩
  · show d * Real.sqrt (ε * μ) = Real.sqrt (μ / ε) * (ε * d)
    rw [← h1]; ring
  · show Real.sqrt (μ / ε) * (d * Real.sqrt (ε * μ)) = μ * d
    linear_combination d * h2

end Meanas.Props
