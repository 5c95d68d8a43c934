/-
C120: the Fourier transform of an FDTD run with CPML solves the FDFD system on the stretched grid.
-/
import Verif.Props.CpmlSteady
import Verif.Props.FdtdTransform

namespace Meanas.Props

open Matrix Complex Fdfd Spec Fdtd

variable {sh : Fin 3 → ℕ}

/-- A simulation with CPML: everything starts at 0, then `n` time steps `update_H; update_E; e -= dt * J / epsilon`. -/
noncomputable def cpmlRun (layers : Layers sh ℂ) (dt : ℂ) (dxes : Dxes sh ℂ) (eps mu : VField sh ℂ) (J : ℕ → VField sh ℂ) : ℕ → CpmlState sh
  | 0 => ⟨fun _ _ => 0, fun _ _ => 0, psiZero, psiZero⟩
  | n + 1 => cpmlCycle layers dt dxes eps mu (J n) (cpmlRun layers dt dxes eps mu J n)

/-! ### Sums -/

theorem hasSum_of_eq {f g : ℕ → ℂ} {s : ℂ} (h : HasSum f s) (e : ∀ n, g n = f n) : HasSum g s := by
  rwa [show g = f from funext e]

/-- A stable recursion driven by a summable sequence. -/
theorem recursion_sum {r : ℂ} (hr : ‖r‖ < 1) {a g : ℕ → ℂ} (h0 : a 0 = 0) (hs : ∀ n, a (n + 1) = r * a n + g n) {G : ℂ} (hg : HasSum g G) :
    HasSum (fun n => a (n + 1)) (G / (1 - r)) := by
  have hr1 : 1 - r ≠ 0 := by
    intro hc
    rw [← sub_eq_zero.1 hc] at hr
    simp at hr
  have hgn := hg.summable.norm
  have hb : ∀ N, ∑ n ∈ Finset.range N, ‖a n‖ ≤ (∑' n, ‖g n‖) / (1 - ‖r‖) := by
    intro N
    rw [le_div_iff₀ (by linarith)]
    have h1 : ∑ n ∈ Finset.range (N + 1), ‖a n‖ ≤ ‖r‖ * ∑ n ∈ Finset.range N, ‖a n‖ + ∑ n ∈ Finset.range N, ‖g n‖ := by
      rw [Finset.sum_range_succ', h0, norm_zero, add_zero, Finset.mul_sum, ← Finset.sum_add_distrib]
      refine Finset.sum_le_sum fun n _ => ?_
      rw [hs, ← norm_mul]
      exact norm_add_le _ _
    have h2 := hgn.sum_le_tsum (Finset.range N) fun n _ => norm_nonneg _
    rw [Finset.sum_range_succ] at h1
    have h3 := norm_nonneg (a N)
    nlinarith
  have hsum : Summable a := (summable_of_sum_range_le (fun n => norm_nonneg _) hb).of_norm
  have h1 : HasSum (fun n => a (n + 1)) (r * (∑' n, a n) + G) := by
    simp only [hs]
    exact (hsum.hasSum.mul_left r).add hg
  have h2 := (hasSum_nat_add_iff (f := a) 1).1 h1
  simp only [Finset.range_one, Finset.sum_singleton, h0, add_zero] at h2
  have h3 := h2.unique hsum.hasSum
  have h4 : r * (∑' n, a n) + G = G / (1 - r) := by
    rw [h3, eq_div_iff hr1]
    linear_combination -h3
  rwa [h4] at h1

/-- The poles of the layers lie within the circle of radius `|z|`. -/
def InnerPoles (layers : Layers sh ℂ) (z : ℂ) : Prop :=
  ∀ a pp L, layers a pp = some L → ∀ i, L.reg i = true → ‖(L.pe i).1‖ < ‖z‖ ∧ ‖(L.ph i).1‖ < ‖z‖

/-- In the transform the layer divides the derivative by the stretch factor. -/
theorem stretched_sum {layers : Layers sh ℂ} {par : {n : ℕ} → Layer n ℂ → Fin n → ℂ × ℂ × ℂ} {z : ℂ} (hz : z ≠ 0) {psi : ℕ → Psi sh ℂ}
    {a c : Fin 3} {d : ℕ → Arr sh ℂ} {x : Idx sh} (hp : ∀ pp p, layerAt layers par a pp x = some p → ‖p.1‖ < ‖z‖)
    (h0 : ∀ pp, auxOf (psi 0) a pp c x = 0)
    (hpsi : ∀ pp p, layerAt layers par a pp x = some p → ∀ n, auxOf (psi (n + 1)) a pp c x = p.1 * auxOf (psi n) a pp c x + p.2.1 * (p.2.2 * d n x))
    {D : ℂ} (hD : HasSum (fun n => z⁻¹ ^ n * d n x) D) :
    HasSum (fun n => z⁻¹ ^ n * stretched layers par (psi (n + 1)) a c (d n) x) (D / stretchAt layers par z a (x a)) := by
  have e : ∀ pp, layerIdx layers par a pp (x a) = layerAt layers par a pp x := fun pp => by
    unfold layerIdx layerAt; cases layers a pp <;> rfl
  have key : ∀ pp p, layerAt layers par a pp x = some p →
      HasSum (fun n => z⁻¹ ^ n * (p.2.2 * d n x + auxOf (psi (n + 1)) a pp c x)) (D / stretchFactor z p) := by
    intro pp p h
    have hzn : 0 < ‖z‖ := norm_pos_iff.2 hz
    have hr : ‖p.1 / z‖ < 1 := by rw [norm_div, div_lt_one hzn]; exact hp pp p h
    have hr1 : 1 - p.1 / z ≠ 0 := by
      intro hc
      rw [← sub_eq_zero.1 hc] at hr
      simp at hr
    have k := recursion_sum hr (a := fun n => z⁻¹ ^ n * auxOf (psi n) a pp c x) (g := fun n => z⁻¹ * (p.2.1 * p.2.2) * (z⁻¹ ^ n * d n x))
      (by simp [h0]) (fun n => by simp only [hpsi pp p h n, pow_succ]; ring) (hD.mul_left _)
    have k2 := (hD.mul_left p.2.2).add (k.mul_left z)
    have e1 : D / stretchFactor z p = p.2.2 * D + z * (z⁻¹ * (p.2.1 * p.2.2) * D / (1 - p.1 / z)) := by
      rw [stretchFactor, div_div_eq_mul_div, div_one]
      generalize 1 - p.1 / z = y at hr1
      field_simp
    rw [e1]
    refine hasSum_of_eq k2 fun n => ?_
    rw [pow_succ]
    field_simp
  unfold stretched stretchAt
  rw [e, e]
  cases h1 : layerAt layers par a 0 x with
  | some p => exact key 0 p h1
  | none =>
    cases h2 : layerAt layers par a 1 x with
    | some p => exact key 1 p h2
    | none => simpa using hD

/-! ### First-order equations -/

section
variable {layers : Layers sh ℂ} (hd : DisjointLayers layers) {dt : ℂ} {dxes : Dxes sh ℂ} {eps mu : VField sh ℂ} {J : ℕ → VField sh ℂ} {z : ℂ} (hz : z ≠ 0)
  (hp : InnerPoles layers z)

theorem psiZero_aux (a : Fin 3) (pp : Fin 2) (c : Fin 3) (x : Idx sh) : auxOf (psiZero : Psi sh ℂ) a pp c x = 0 := by
  unfold auxOf psiZero
  split_ifs <;> rfl

include hd hz hp

/-- The sum of the H equation of all steps. -/
theorem sumH {E : VField sh ℂ} {H : VField sh ℂ} (hE : ∀ c x, HasSum (fun n => z⁻¹ ^ n * (cpmlRun layers dt dxes eps mu J n).e c x) (E c x))
    (hH : ∀ c x, HasSum (fun n => z⁻¹ ^ n * (cpmlRun layers dt dxes eps mu J (n + 1)).h c x) (H c x)) (c : Fin 3) (x : Idx sh) :
    (1 - z⁻¹) * H c x = -(dt / mu c x * Functional.curlForward (some (stretchedGrid layers z dxes).1) E c x) := by
  set st := cpmlRun layers dt dxes eps mu J with hst
  let D (n : ℕ) (a c : Fin 3) : ℂ := stretched layers (fun L => L.ph) (st (n + 1)).psiH a c
      (fun y => ((st n).e c (shiftIdx a 1 y) - (st n).e c y) / dxes.2 a (y a)) x
  have hD : ∀ a c, c ≠ a → HasSum (fun n => z⁻¹ ^ n * D n a c) (Functional.derivForward (some (stretchedGrid layers z dxes).1) a (E c) x) := by
    intro a c hc
    have hs : HasSum (fun n => z⁻¹ ^ n * (((st n).e c (shiftIdx a 1 x) - (st n).e c x) / dxes.2 a (x a)))
        ((E c (shiftIdx a 1 x) - E c x) / dxes.2 a (x a)) := by
      have := ((hE c (shiftIdx a 1 x)).sub (hE c x)).div_const (dxes.2 a (x a))
      exact hasSum_of_eq this fun n => by ring
    have := stretched_sum (layers := layers) (par := fun L => L.ph) hz (psi := fun n => (st n).psiH) (a := a) (c := c)
      (d := fun n y => ((st n).e c (shiftIdx a 1 y) - (st n).e c y) / dxes.2 a (y a)) (x := x) (fun pp p h => ?_) (fun pp => psiZero_aux a pp c x)
      (fun pp p h n => ?_) hs
    · rw [derivForward_eq, wOf_some, stretchedGrid, ← div_div]
      exact this
    · obtain ⟨L, hL, hx, rfl⟩ := layerAt_some h
      exact (hp a pp L hL _ hx).2
    · obtain ⟨L, hL, hx, rfl⟩ := layerAt_some h
      exact C21_recursion_h layers hd dt dxes (st n).psiH (st n).e (st n).h mu a c hc pp L hL x hx
  have hstep : ∀ n, ((st (n + 1)).h 0 x = (st n).h 0 x - dt / mu 0 x * (D n 1 2 - D n 2 1)) ∧
      ((st (n + 1)).h 1 x = (st n).h 1 x - dt / mu 1 x * (D n 2 0 - D n 0 2)) ∧
      ((st (n + 1)).h 2 x = (st n).h 2 x - dt / mu 2 x * (D n 0 1 - D n 1 0)) :=
    fun n => C21_update_h layers hd dt dxes (st n).psiH (st n).e (st n).h mu x
  have fin : ∀ (c : Fin 3) (C : ℕ → ℂ) (T : ℂ), (∀ n, (st (n + 1)).h c x = (st n).h c x - dt / mu c x * C n) → HasSum (fun n => z⁻¹ ^ n * C n) T →
      (1 - z⁻¹) * H c x = -(dt / mu c x * T) := by
    intro c C T h1 h2
    have k1 : HasSum (fun n => z⁻¹ ^ (n + 1) * (st (n + 1)).h c x) (z⁻¹ * H c x) := by
      exact hasSum_of_eq ((hH c x).mul_left z⁻¹) fun n => by rw [pow_succ]; ring
    have k2 := (hasSum_nat_add_iff (f := fun n => z⁻¹ ^ n * (st n).h c x) 1).1 k1
    have h00 : (st 0).h c x = 0 := rfl
    simp only [Finset.range_one, Finset.sum_singleton, h00, mul_zero, add_zero] at k2
    have k3 := k2.sub (h2.mul_left (dt / mu c x))
    have k4 : HasSum (fun n => z⁻¹ ^ n * (st (n + 1)).h c x) (z⁻¹ * H c x - dt / mu c x * T) := by
      exact hasSum_of_eq k3 fun n => by rw [h1 n]; ring
    have := k4.unique (hH c x)
    linear_combination -this
  revert c
  refine forall_fin3 ?_ ?_ ?_
  · rw [fin 0 _ _ (fun n => (hstep n).1) (hasSum_of_eq ((hD 1 2 (by decide)).sub (hD 2 1 (by decide))) fun n => by ring), curlForward_0]
  · rw [fin 1 _ _ (fun n => (hstep n).2.1) (hasSum_of_eq ((hD 2 0 (by decide)).sub (hD 0 2 (by decide))) fun n => by ring), curlForward_1]
  · rw [fin 2 _ _ (fun n => (hstep n).2.2) (hasSum_of_eq ((hD 0 1 (by decide)).sub (hD 1 0 (by decide))) fun n => by ring), curlForward_2]

/-- The sum of the E equation of all steps. -/
theorem sumE {E H J' : VField sh ℂ} (hE : ∀ c x, HasSum (fun n => z⁻¹ ^ n * (cpmlRun layers dt dxes eps mu J n).e c x) (E c x))
    (hH : ∀ c x, HasSum (fun n => z⁻¹ ^ n * (cpmlRun layers dt dxes eps mu J (n + 1)).h c x) (H c x))
    (hJ : ∀ c x, HasSum (fun n => z⁻¹ ^ n * J n c x) (J' c x)) (c : Fin 3) (x : Idx sh) :
    (z - 1) * E c x = dt / eps c x * (Functional.curlBack (some (stretchedGrid layers z dxes).2) H c x - J' c x) := by
  set st := cpmlRun layers dt dxes eps mu J with hst
  let D (n : ℕ) (a c : Fin 3) : ℂ := stretched layers (fun L => L.pe) (st (n + 1)).psiE a c
      (fun y => ((st (n + 1)).h c y - (st (n + 1)).h c (shiftIdx a (-1) y)) / dxes.2 a (y a)) x
  have hD : ∀ a c, c ≠ a → HasSum (fun n => z⁻¹ ^ n * D n a c) (Functional.derivBack (some (stretchedGrid layers z dxes).2) a (H c) x) := by
    intro a c hc
    have hs : HasSum (fun n => z⁻¹ ^ n * (((st (n + 1)).h c x - (st (n + 1)).h c (shiftIdx a (-1) x)) / dxes.2 a (x a)))
        ((H c x - H c (shiftIdx a (-1) x)) / dxes.2 a (x a)) := by
      have := ((hH c x).sub (hH c (shiftIdx a (-1) x))).div_const (dxes.2 a (x a))
      exact hasSum_of_eq this fun n => by ring
    have := stretched_sum (layers := layers) (par := fun L => L.pe) hz (psi := fun n => (st n).psiE) (a := a) (c := c)
      (d := fun n y => ((st (n + 1)).h c y - (st (n + 1)).h c (shiftIdx a (-1) y)) / dxes.2 a (y a)) (x := x) (fun pp p h => ?_)
      (fun pp => psiZero_aux a pp c x) (fun pp p h n => ?_) hs
    · rw [derivBack_eq, wOf_some, stretchedGrid, ← div_div]
      exact this
    · obtain ⟨L, hL, hx, rfl⟩ := layerAt_some h
      exact (hp a pp L hL _ hx).1
    · obtain ⟨L, hL, hx, rfl⟩ := layerAt_some h
      exact C21_recursion_e layers hd dt dxes (st n).psiE (st n).e (st (n + 1)).h eps a c hc pp L hL x hx
  have hstep : ∀ n, ((st (n + 1)).e 0 x = (st n).e 0 x + dt / eps 0 x * (D n 1 2 - D n 2 1) - dt * J n 0 x / eps 0 x) ∧
      ((st (n + 1)).e 1 x = (st n).e 1 x + dt / eps 1 x * (D n 2 0 - D n 0 2) - dt * J n 1 x / eps 1 x) ∧
      ((st (n + 1)).e 2 x = (st n).e 2 x + dt / eps 2 x * (D n 0 1 - D n 1 0) - dt * J n 2 x / eps 2 x) := by
    intro n
    obtain ⟨h0, h1, h2⟩ := C21_update_e layers hd dt dxes (st n).psiE (st n).e (st (n + 1)).h eps x
    refine ⟨?_, ?_, ?_⟩
    · exact congrArg (fun v => v - dt * J n 0 x / eps 0 x) h0
    · exact congrArg (fun v => v - dt * J n 1 x / eps 1 x) h1
    · exact congrArg (fun v => v - dt * J n 2 x / eps 2 x) h2
  have fin : ∀ (c : Fin 3) (C : ℕ → ℂ) (T : ℂ), (∀ n, (st (n + 1)).e c x = (st n).e c x + dt / eps c x * C n - dt * J n c x / eps c x) →
      HasSum (fun n => z⁻¹ ^ n * C n) T → (z - 1) * E c x = dt / eps c x * (T - J' c x) := by
    intro c C T h1 h2
    have h00 : (st 0).e c x = 0 := rfl
    have k1 : HasSum (fun n => z⁻¹ ^ (n + 1) * (st (n + 1)).e c x) (E c x) := by
      refine (hasSum_nat_add_iff (f := fun n => z⁻¹ ^ n * (st n).e c x) 1).2 ?_
      simp only [Finset.range_one, Finset.sum_singleton, h00, mul_zero, add_zero]
      exact hE c x
    have k2 := (hE c x).add ((h2.sub (hJ c x)).mul_left (dt / eps c x))
    have k3 := k2.mul_left z⁻¹
    have k4 : HasSum (fun n => z⁻¹ ^ (n + 1) * (st (n + 1)).e c x) (z⁻¹ * (E c x + dt / eps c x * (T - J' c x))) := by
      exact hasSum_of_eq k3 fun n => by rw [h1 n, pow_succ]; ring
    have := k4.unique k1
    have h5 : z⁻¹ * z = 1 := inv_mul_cancel₀ hz
    have h6 := congrArg (fun v => z * v) this
    simp only [← mul_assoc, mul_inv_cancel₀ hz, one_mul] at h6
    linear_combination -h6
  revert c
  refine forall_fin3 ?_ ?_ ?_
  · rw [fin 0 _ _ (fun n => (hstep n).1) (hasSum_of_eq ((hD 1 2 (by decide)).sub (hD 2 1 (by decide))) fun n => by ring), curlBack_0]
  · rw [fin 1 _ _ (fun n => (hstep n).2.1) (hasSum_of_eq ((hD 2 0 (by decide)).sub (hD 0 2 (by decide))) fun n => by ring), curlBack_1]
  · rw [fin 2 _ _ (fun n => (hstep n).2.2) (hasSum_of_eq ((hD 0 1 (by decide)).sub (hD 1 0 (by decide))) fun n => by ring), curlBack_2]

end

/-- The FDFD system from the two sums. -/
theorem cpml_second {layers : Layers sh ℂ} (hd : DisjointLayers layers) {dt : ℂ} {dxes : Dxes sh ℂ} {eps mu : VField sh ℂ} (heps : ∀ c x, eps c x ≠ 0)
    (hmu : ∀ c x, mu c x ≠ 0) {J : ℕ → VField sh ℂ} {z q Ω : ℂ} (hz : z ≠ 0) (hΩ : Ω ≠ 0) (hq0 : q ≠ 0) (hqz : q ^ 2 = z⁻¹) (hqi : q⁻¹ - q = I * Ω * dt)
    (hdt : dt ≠ 0) (hp : InnerPoles layers z) {E H J' : VField sh ℂ} (hE : ∀ c x, HasSum (fun n => z⁻¹ ^ n * (cpmlRun layers dt dxes eps mu J n).e c x) (E c x))
    (hH : ∀ c x, HasSum (fun n => z⁻¹ ^ n * (cpmlRun layers dt dxes eps mu J (n + 1)).h c x) (H c x))
    (hJ : ∀ c x, HasSum (fun n => z⁻¹ ^ n * J n c x) (J' c x)) :
    eFull Ω (stretchedGrid layers z dxes) (vecS eps) (some (vecS mu)) none none *ᵥ vecS (fun c x => dt * E c x)
        = (-I * Ω) • vecS (fun c x => dt * q * J' c x) ∧
      vecS (fun c x => dt * q * H c x) = Fdfd.e2h Ω (stretchedGrid layers z dxes) (some (vecS mu)) none *ᵥ vecS (fun c x => dt * E c x) := by
  have k1 := sumH hd hz hp hE hH
  have k2 := sumE hd hz hp hE hH hJ
  have key := second_of_first Ω hΩ (stretchedGrid layers z dxes) eps (some mu) (fun m hm => by cases hm; exact hmu) (fun c x => dt * E c x)
    (fun c x => dt * q * H c x) (fun c x => dt * q * J' c x) (fun _ _ => 0) (fun c x => ?_) (fun c x => ?_)
  · simp only [Option.map_some] at key
    have hM : (vecS fun _ _ => 0 : Vec sh) = 0 := rfl
    obtain ⟨g1, g2⟩ := key
    rw [hM, mulVec_zero, add_zero] at g1
    refine ⟨g1, g2.trans ?_⟩
    funext p
    simp
  · have h := k1 c x
    rw [Meanas.curlForward_smul]
    show _ + I * Ω * (mu c x * _) = _
    have hm := hmu c x
    have e1 : 1 - z⁻¹ = q * (I * Ω * dt) := by rw [← hqi, ← hqz]; field_simp
    rw [e1] at h
    generalize Functional.curlForward (some (stretchedGrid layers z dxes).1) E c x = X at h ⊢
    generalize H c x = Y at h ⊢
    field_simp at h
    linear_combination dt * h
  · have h := k2 c x
    rw [Meanas.curlBack_smul]
    have hm := heps c x
    have e1 : q * (z - 1) = I * Ω * dt := by
      rw [← hqi]
      have : z = (q ^ 2)⁻¹ := by rw [hqz, inv_inv]
      rw [this]; field_simp
    have h' := congrArg (fun v => q * v) h
    simp only [← mul_assoc] at h'
    rw [e1] at h'
    generalize Functional.curlBack (some (stretchedGrid layers z dxes).2) H c x = X at h' ⊢
    generalize E c x = Y at h' ⊢
    generalize J' c x = Z at h' ⊢
    field_simp at h'
    linear_combination -dt * h'

/-- **C120.** Whenever the transforms of the fields recorded in a simulation with CPML converge, they are the FDFD solution at `Ω = 2 sin(ω dt/2)/dt` on the
grid stretched by the layers, with the transform of the currents as source. The layers' poles have to lie inside of the circle of `exp(iω dt)`, as they do for
real frequencies. -/
theorem C120_transform (layers : Layers sh ℂ) (hd : DisjointLayers layers) (dt : ℂ) (hdt : dt ≠ 0) (dxes : Dxes sh ℂ) (eps mu : VField sh ℂ)
    (heps : ∀ c x, eps c x ≠ 0) (hmu : ∀ c x, mu c x ≠ 0) (w : ℂ) (hΩ : Omega w dt ≠ 0) (hp : InnerPoles layers (exp (I * w * dt))) (J : ℕ → VField sh ℂ)
    (sE : ∀ c x, Summable fun n : ℕ => exp (-I * w * (n * dt)) * (cpmlRun layers dt dxes eps mu J n).e c x)
    (sH : ∀ c x, Summable fun n : ℕ => exp (-I * w * ((n + 1 / 2) * dt)) * (cpmlRun layers dt dxes eps mu J (n + 1)).h c x)
    (sJ : ∀ c x, Summable fun n : ℕ => exp (-I * w * ((n + 1 / 2) * dt)) * J n c x) :
    let E : VField sh ℂ := fun c x => dt * ∑' n : ℕ, exp (-I * w * (n * dt)) * (cpmlRun layers dt dxes eps mu J n).e c x
    let H : VField sh ℂ := fun c x => dt * ∑' n : ℕ, exp (-I * w * ((n + 1 / 2) * dt)) * (cpmlRun layers dt dxes eps mu J (n + 1)).h c x
    let J' : VField sh ℂ := fun c x => dt * ∑' n : ℕ, exp (-I * w * ((n + 1 / 2) * dt)) * J n c x
    let g := stretchedGrid layers (exp (I * w * dt)) dxes
    eFull (Omega w dt) g (vecS eps) (some (vecS mu)) none none *ᵥ vecS E = (-I * Omega w dt) • vecS J' ∧
      vecS H = Fdfd.e2h (Omega w dt) g (some (vecS mu)) none *ᵥ vecS E := by
  intro E H J' g
  set z := exp (I * w * dt) with hzd
  set q := exp (-I * w * (dt / 2)) with hq
  have hz : z ≠ 0 := exp_ne_zero _
  have hq0 : q ≠ 0 := exp_ne_zero _
  have hqz : q ^ 2 = z⁻¹ := by rw [hq, hzd, ← exp_neg, ← exp_nat_mul]; congr 1; push_cast; ring
  have hqi : q⁻¹ - q = I * Omega w dt * dt := by
    have := half_step w dt hdt 1 (Or.inl rfl)
    have e1 : exp (1 * I * w * dt / 2) = q⁻¹ := by rw [hq, ← exp_neg]; congr 1; ring
    rw [e1, inv_inv] at this
    rw [this]; ring
  have w1 : ∀ n : ℕ, exp (-I * w * (n * dt)) = z⁻¹ ^ n := fun n => by rw [hzd, ← exp_neg, ← exp_nat_mul]; congr 1; ring
  have w2 : ∀ n : ℕ, exp (-I * w * ((n + 1 / 2) * dt)) = q * z⁻¹ ^ n := fun n => by
    rw [← w1, hq, ← exp_add]; congr 1; ring
  simp only [w1] at sE
  simp only [w2] at sH sJ
  simp only [mul_assoc] at sH sJ
  have sH' := fun c x => (summable_mul_left_iff hq0).1 (sH c x)
  have sJ' := fun c x => (summable_mul_left_iff hq0).1 (sJ c x)
  have key := cpml_second hd heps hmu hz hΩ hq0 hqz hqi hdt hp (fun c x => (sE c x).hasSum) (fun c x => (sH' c x).hasSum) (fun c x => (sJ' c x).hasSum)
  have hHd : ∀ c x, H c x = dt * q * ∑' n : ℕ, z⁻¹ ^ n * (cpmlRun layers dt dxes eps mu J (n + 1)).h c x := by
    intro c x; simp only [H, w2]; simp only [mul_assoc, tsum_mul_left]
  have hJd : ∀ c x, J' c x = dt * q * ∑' n : ℕ, z⁻¹ ^ n * J n c x := by
    intro c x; simp only [J', w2]; simp only [mul_assoc, tsum_mul_left]
  have hEd : ∀ c x, E c x = dt * ∑' n : ℕ, z⁻¹ ^ n * (cpmlRun layers dt dxes eps mu J n).e c x := by
    intro c x; simp only [E, w1]
  rw [show E = _ from funext fun c => funext fun x => hEd c x, show H = _ from funext fun c => funext fun x => hHd c x,
    show J' = _ from funext fun c => funext fun x => hJd c x]
  exact key

/-- **C120.** With layers made by `cpml_params` the two conditions on the layers hold at every real frequency. -/
theorem C120_params (p : Fin 3 → Fin 2 → Option CpmlDict) (hp : FromParams sh p) (w dt : ℝ) :
    DisjointLayers (cLayers (layersOf sh p)) ∧ InnerPoles (cLayers (layersOf sh p)) (exp (I * w * dt)) := by
  have hn : ‖exp (I * w * dt)‖ = 1 := by
    rw [show I * w * dt = ((w * dt : ℝ) : ℂ) * I by push_cast; ring, norm_exp_ofReal_mul_I]
  refine ⟨(C101_regular p hp (z := 1) (by simp)).1, fun a pp L hL i hi => ?_⟩
  obtain ⟨P, Q, hP, hQ, e1, e2⟩ := fromParams_layer hp hL hi
  have key : ∀ P : ℝ × ℝ × ℝ, Absorbing P → ‖(P.1 : ℂ)‖ < 1 := fun P hP => by
    rw [norm_real, Real.norm_eq_abs, abs_of_pos hP.1.1]; exact hP.1.2
  rw [e1, e2, hn]
  exact ⟨key P hP, key Q hQ⟩

/-! ### The transforms converge for strongly damped frequencies -/

/-- All numbers of a state are bounded by `B`. -/
def StateBound (layers : Layers sh ℂ) (s : CpmlState sh) (B : ℝ) : Prop :=
  (∀ c x, ‖s.e c x‖ ≤ B) ∧ (∀ c x, ‖s.h c x‖ ≤ B) ∧
    (∀ a pp c, c ≠ a → ∀ x p, layerAt layers (fun L => L.pe) a pp x = some p → ‖auxOf s.psiE a pp c x‖ ≤ B) ∧
    ∀ a pp c, c ≠ a → ∀ x p, layerAt layers (fun L => L.ph) a pp x = some p → ‖auxOf s.psiH a pp c x‖ ≤ B

/-- `K` bounds the numbers that enter an update. -/
structure CoeffBound (layers : Layers sh ℂ) (dt : ℂ) (dxes : Dxes sh ℂ) (eps mu : VField sh ℂ) (K : ℝ) : Prop where
  one : 1 ≤ K
  dx : ∀ a i, ‖(dxes.2 a i)⁻¹‖ ≤ K
  eps : ∀ c x, ‖dt / eps c x‖ ≤ K
  mu : ∀ c x, ‖dt / mu c x‖ ≤ K
  pe : ∀ a pp x p, layerAt layers (fun L => L.pe) a pp x = some p → ‖p.1‖ ≤ K ∧ ‖p.2.1‖ ≤ K ∧ ‖p.2.2‖ ≤ K
  ph : ∀ a pp x p, layerAt layers (fun L => L.ph) a pp x = some p → ‖p.1‖ ≤ K ∧ ‖p.2.1‖ ≤ K ∧ ‖p.2.2‖ ≤ K

theorem exists_bound {ι : Type*} [Finite ι] (f : ι → ℝ) : ∃ K, ∀ i, f i ≤ K := by
  obtain ⟨K, hK⟩ := (Set.finite_range f).bddAbove
  exact ⟨K, fun i => hK ⟨i, rfl⟩⟩

theorem exists_coeffBound (layers : Layers sh ℂ) (dt : ℂ) (dxes : Dxes sh ℂ) (eps mu : VField sh ℂ) : ∃ K, CoeffBound layers dt dxes eps mu K := by
  obtain ⟨k1, h1⟩ := exists_bound fun q : (a : Fin 3) × Fin (sh a) => ‖(dxes.2 q.1 q.2)⁻¹‖
  obtain ⟨k2, h2⟩ := exists_bound fun q : Fin 3 × Idx sh => ‖dt / eps q.1 q.2‖
  obtain ⟨k3, h3⟩ := exists_bound fun q : Fin 3 × Idx sh => ‖dt / mu q.1 q.2‖
  let size : Option (ℂ × ℂ × ℂ) → ℝ := fun o => match o with
    | some p => ‖p.1‖ + ‖p.2.1‖ + ‖p.2.2‖
    | none => 0
  obtain ⟨k4, h4⟩ := exists_bound fun q : Fin 3 × Fin 2 × Idx sh => size (layerAt layers (fun L => L.pe) q.1 q.2.1 q.2.2)
  obtain ⟨k5, h5⟩ := exists_bound fun q : Fin 3 × Fin 2 × Idx sh => size (layerAt layers (fun L => L.ph) q.1 q.2.1 q.2.2)
  have hs : ∀ p : ℂ × ℂ × ℂ, ‖p.1‖ ≤ size (some p) ∧ ‖p.2.1‖ ≤ size (some p) ∧ ‖p.2.2‖ ≤ size (some p) := by
    intro p
    simp only [size]
    have := norm_nonneg p.1; have := norm_nonneg p.2.1; have := norm_nonneg p.2.2
    refine ⟨?_, ?_, ?_⟩ <;> linarith
  let K := max 1 (max k1 (max k2 (max k3 (max k4 k5))))
  have m1 : k1 ≤ K := by simp [K]
  have m2 : k2 ≤ K := by simp [K]
  have m3 : k3 ≤ K := by simp [K]
  have m4 : k4 ≤ K := by simp [K]
  have m5 : k5 ≤ K := by simp [K]
  refine ⟨K, le_max_left _ _, fun a i => (h1 ⟨a, i⟩).trans m1, fun c x => (h2 (c, x)).trans m2, fun c x => (h3 (c, x)).trans m3, fun a pp x p h => ?_,
    fun a pp x p h => ?_⟩
  · have := h4 (a, pp, x)
    simp only [h] at this
    exact ⟨(hs p).1.trans (this.trans m4), (hs p).2.1.trans (this.trans m4), (hs p).2.2.trans (this.trans m4)⟩
  · have := h5 (a, pp, x)
    simp only [h] at this
    exact ⟨(hs p).1.trans (this.trans m5), (hs p).2.1.trans (this.trans m5), (hs p).2.2.trans (this.trans m5)⟩

theorem norm_stretched_le {layers : Layers sh ℂ} {par : {n : ℕ} → Layer n ℂ → Fin n → ℂ × ℂ × ℂ} {psi : Psi sh ℂ} {a c : Fin 3} {d : Arr sh ℂ} {x : Idx sh}
    {K B : ℝ} (hK : 1 ≤ K) (hB : 0 ≤ B) (hp : ∀ pp p, layerAt layers par a pp x = some p → ‖p.2.2‖ ≤ K)
    (hpsi : ∀ pp p, layerAt layers par a pp x = some p → ‖auxOf psi a pp c x‖ ≤ B) : ‖stretched layers par psi a c d x‖ ≤ K * ‖d x‖ + B := by
  have key : ∀ pp p, layerAt layers par a pp x = some p → ‖p.2.2 * d x + auxOf psi a pp c x‖ ≤ K * ‖d x‖ + B := fun pp p h =>
    (norm_add_le _ _).trans (add_le_add (by rw [norm_mul]; exact mul_le_mul_of_nonneg_right (hp pp p h) (norm_nonneg _)) (hpsi pp p h))
  unfold stretched
  cases h0 : layerAt layers par a 0 x with
  | some p => exact key 0 p h0
  | none =>
    cases h1 : layerAt layers par a 1 x with
    | some p => exact key 1 p h1
    | none =>
      simp only
      have := norm_nonneg (d x)
      nlinarith

theorem norm_diff_le {u v w : ℂ} {K B : ℝ} (hu : ‖u‖ ≤ B) (hv : ‖v‖ ≤ B) (hw : ‖w⁻¹‖ ≤ K) : ‖(u - v) / w‖ ≤ 2 * K * B := by
  rw [div_eq_mul_inv, norm_mul]
  have h1 : ‖u - v‖ ≤ 2 * B := (norm_sub_le _ _).trans (by linarith)
  have := mul_le_mul h1 hw (norm_nonneg _) (by linarith [norm_nonneg u])
  linarith

/-- The growth factor of one update. -/
noncomputable def growth (K : ℝ) : ℝ := 11 * K ^ 4

theorem growth_aux {p0 p1 p2 A d : ℂ} {K B : ℝ} (hK : 1 ≤ K) (hB : 0 ≤ B) (h0 : ‖p0‖ ≤ K) (h1 : ‖p1‖ ≤ K) (h2 : ‖p2‖ ≤ K) (hA : ‖A‖ ≤ B) (hd : ‖d‖ ≤ 2 * K * B) :
    ‖p0 * A + p1 * (p2 * d)‖ ≤ 3 * K ^ 3 * B := by
  have k1 : ‖p0 * A‖ ≤ K * B := by rw [norm_mul]; exact mul_le_mul h0 hA (norm_nonneg _) (by linarith)
  have k2 : ‖p2 * d‖ ≤ K * (2 * K * B) := by rw [norm_mul]; exact mul_le_mul h2 hd (norm_nonneg _) (by linarith)
  have k3 : ‖p1 * (p2 * d)‖ ≤ K * (K * (2 * K * B)) := by rw [norm_mul]; exact mul_le_mul h1 k2 (norm_nonneg _) (by linarith)
  have k4 : K * B ≤ K ^ 3 * B := mul_le_mul_of_nonneg_right (le_self_pow₀ hK (by norm_num)) hB
  have := norm_add_le (p0 * A) (p1 * (p2 * d))
  nlinarith

theorem growth_field {u m D1 D2 : ℂ} {K B : ℝ} (hK : 1 ≤ K) (hB : 0 ≤ B) (hu : ‖u‖ ≤ B) (hm : ‖m‖ ≤ K) (h1 : ‖D1‖ ≤ 5 * K ^ 3 * B) (h2 : ‖D2‖ ≤ 5 * K ^ 3 * B) :
    ‖u + m * (D1 - D2)‖ ≤ growth K * B ∧ ‖u - m * (D1 - D2)‖ ≤ growth K * B := by
  have k1 : ‖D1 - D2‖ ≤ 10 * K ^ 3 * B := (norm_sub_le _ _).trans (by linarith)
  have k2 : ‖m * (D1 - D2)‖ ≤ K * (10 * K ^ 3 * B) := by rw [norm_mul]; exact mul_le_mul hm k1 (norm_nonneg _) (by linarith)
  have k4 : 1 * B ≤ K ^ 4 * B := mul_le_mul_of_nonneg_right (one_le_pow₀ hK) hB
  have a1 := norm_add_le u (m * (D1 - D2))
  have a2 := norm_sub_le u (m * (D1 - D2))
  unfold growth
  constructor <;> nlinarith

theorem growth_le {K B : ℝ} (hK : 1 ≤ K) (hB : 0 ≤ B) : B ≤ growth K * B ∧ 3 * K ^ 3 * B ≤ growth K * B ∧ 1 ≤ growth K := by
  have k3 : K ^ 3 ≤ K ^ 4 := pow_le_pow_right₀ hK (by norm_num)
  have k4 : 1 ≤ K ^ 4 := one_le_pow₀ hK
  unfold growth
  have := mul_nonneg (by positivity : 0 ≤ K ^ 4) hB
  refine ⟨by nlinarith, by nlinarith, by linarith⟩

theorem cycle_bound {layers : Layers sh ℂ} (hd : DisjointLayers layers) {dt : ℂ} {dxes : Dxes sh ℂ} {eps mu J : VField sh ℂ} {K B Jm : ℝ}
    (hK : CoeffBound layers dt dxes eps mu K) {s : CpmlState sh} (hs : StateBound layers s B) (hB : 0 ≤ B) (hJ : ∀ c x, ‖J c x‖ ≤ Jm) :
    StateBound layers (cpmlCycle layers dt dxes eps mu J s) (growth K ^ 2 * B + K * Jm) := by
  obtain ⟨he, hh, hpe, hph⟩ := hs
  by_cases hne : IsEmpty (Idx sh)
  · exact ⟨fun _ x => hne.elim x, fun _ x => hne.elim x, fun _ _ _ _ x => hne.elim x, fun _ _ _ _ x => hne.elim x⟩
  have hJm : 0 ≤ Jm := by
    rw [not_isEmpty_iff] at hne
    exact (norm_nonneg _).trans (hJ 0 hne.some)
  have hK1 := hK.one
  have hKJ : 0 ≤ K * Jm := mul_nonneg (by linarith) hJm
  -- H update
  have pH : ∀ a pp c, c ≠ a → ∀ x p, layerAt layers (fun L => L.ph) a pp x = some p →
      ‖auxOf (cpmlUpdateH layers dt dxes s.psiH s.e s.h mu).2 a pp c x‖ ≤ 3 * K ^ 3 * B := by
    intro a pp c hc x p h
    obtain ⟨b0, b1, b2⟩ := hK.ph a pp x p h
    have b3 := hph a pp c hc x p h
    obtain ⟨L, hL, hx, rfl⟩ := layerAt_some h
    rw [C21_recursion_h layers hd dt dxes s.psiH s.e s.h mu a c hc pp L hL x hx]
    exact growth_aux hK1 hB b0 b1 b2 b3 (norm_diff_le (he _ _) (he _ _) (hK.dx _ _))
  have fH : ∀ c x, ‖(cpmlUpdateH layers dt dxes s.psiH s.e s.h mu).1 c x‖ ≤ growth K * B := by
    intro c x
    obtain ⟨u0, u1, u2⟩ := C21_update_h layers hd dt dxes s.psiH s.e s.h mu x
    have hD : ∀ a c, c ≠ a → ‖stretched layers (fun L => L.ph) (cpmlUpdateH layers dt dxes s.psiH s.e s.h mu).2 a c
        (fun y => (s.e c (shiftIdx a 1 y) - s.e c y) / dxes.2 a (y a)) x‖ ≤ 5 * K ^ 3 * B := by
      intro a c hc
      have h1 := norm_stretched_le (layers := layers) (par := fun L => L.ph) (psi := (cpmlUpdateH layers dt dxes s.psiH s.e s.h mu).2) (a := a) (c := c)
        (d := fun y => (s.e c (shiftIdx a 1 y) - s.e c y) / dxes.2 a (y a)) (x := x) hK1 (by positivity)
        (fun pp p h => (hK.ph a pp x p h).2.2) (fun pp p h => pH a pp c hc x p h)
      have h2 : ‖(s.e c (shiftIdx a 1 x) - s.e c x) / dxes.2 a (x a)‖ ≤ 2 * K * B := norm_diff_le (he _ _) (he _ _) (hK.dx _ _)
      have h3 : K * (2 * K * B) ≤ 2 * K ^ 3 * B := by
        have : K ^ 2 * B ≤ K ^ 3 * B := mul_le_mul_of_nonneg_right (pow_le_pow_right₀ hK1 (by norm_num)) hB
        nlinarith
      have h4 := mul_le_mul_of_nonneg_left h2 (by linarith : 0 ≤ K)
      linarith
    revert c
    refine forall_fin3 ?_ ?_ ?_
    · rw [u0]; exact (growth_field hK1 hB (hh _ _) (hK.mu _ _) (hD _ _ (by decide)) (hD _ _ (by decide))).2
    · rw [u1]; exact (growth_field hK1 hB (hh _ _) (hK.mu _ _) (hD _ _ (by decide)) (hD _ _ (by decide))).2
    · rw [u2]; exact (growth_field hK1 hB (hh _ _) (hK.mu _ _) (hD _ _ (by decide)) (hD _ _ (by decide))).2
  obtain ⟨g1, g2, g3⟩ := growth_le hK1 hB
  set B1 := growth K * B with hB1
  have hB1n : 0 ≤ B1 := hB.trans g1
  set h' := (cpmlUpdateH layers dt dxes s.psiH s.e s.h mu).1 with hh'
  -- E update
  have pE : ∀ a pp c, c ≠ a → ∀ x p, layerAt layers (fun L => L.pe) a pp x = some p →
      ‖auxOf (cpmlUpdateE layers dt dxes s.psiE s.e h' eps).2 a pp c x‖ ≤ 3 * K ^ 3 * B1 := by
    intro a pp c hc x p h
    obtain ⟨b0, b1, b2⟩ := hK.pe a pp x p h
    have b3 := hpe a pp c hc x p h
    obtain ⟨L, hL, hx, rfl⟩ := layerAt_some h
    rw [C21_recursion_e layers hd dt dxes s.psiE s.e h' eps a c hc pp L hL x hx]
    exact growth_aux hK1 hB1n b0 b1 b2 (b3.trans g1) (norm_diff_le (fH _ _) (fH _ _) (hK.dx _ _))
  have fE : ∀ c x, ‖(cpmlUpdateE layers dt dxes s.psiE s.e h' eps).1 c x‖ ≤ growth K * B1 := by
    intro c x
    obtain ⟨u0, u1, u2⟩ := C21_update_e layers hd dt dxes s.psiE s.e h' eps x
    have hD : ∀ a c, c ≠ a → ‖stretched layers (fun L => L.pe) (cpmlUpdateE layers dt dxes s.psiE s.e h' eps).2 a c
        (fun y => (h' c y - h' c (shiftIdx a (-1) y)) / dxes.2 a (y a)) x‖ ≤ 5 * K ^ 3 * B1 := by
      intro a c hc
      have h1 := norm_stretched_le (layers := layers) (par := fun L => L.pe) (psi := (cpmlUpdateE layers dt dxes s.psiE s.e h' eps).2) (a := a) (c := c)
        (d := fun y => (h' c y - h' c (shiftIdx a (-1) y)) / dxes.2 a (y a)) (x := x) hK1 (by positivity)
        (fun pp p h => (hK.pe a pp x p h).2.2) (fun pp p h => pE a pp c hc x p h)
      have h2 : ‖(h' c x - h' c (shiftIdx a (-1) x)) / dxes.2 a (x a)‖ ≤ 2 * K * B1 := norm_diff_le (fH _ _) (fH _ _) (hK.dx _ _)
      have h3 : K * (2 * K * B1) ≤ 2 * K ^ 3 * B1 := by
        have : K ^ 2 * B1 ≤ K ^ 3 * B1 := mul_le_mul_of_nonneg_right (pow_le_pow_right₀ hK1 (by norm_num)) hB1n
        nlinarith
      have h4 := mul_le_mul_of_nonneg_left h2 (by linarith : 0 ≤ K)
      linarith
    have he1 : ∀ c, ‖s.e c x‖ ≤ B1 := fun c => (he c x).trans g1
    revert c
    refine forall_fin3 ?_ ?_ ?_
    · rw [u0]; exact (growth_field hK1 hB1n (he1 _) (hK.eps _ _) (hD _ _ (by decide)) (hD _ _ (by decide))).1
    · rw [u1]; exact (growth_field hK1 hB1n (he1 _) (hK.eps _ _) (hD _ _ (by decide)) (hD _ _ (by decide))).1
    · rw [u2]; exact (growth_field hK1 hB1n (he1 _) (hK.eps _ _) (hD _ _ (by decide)) (hD _ _ (by decide))).1
  obtain ⟨f1, f2, -⟩ := growth_le hK1 hB1n
  have e2 : growth K ^ 2 * B = growth K * B1 := by rw [hB1]; ring
  rw [e2]
  refine ⟨fun c x => ?_, fun c x => (fH c x).trans (by linarith), fun a pp c hc x p h => (pE a pp c hc x p h).trans (by linarith),
    fun a pp c hc x p h => (pH a pp c hc x p h).trans (by linarith)⟩
  show ‖(cpmlUpdateE layers dt dxes s.psiE s.e h' eps).1 c x - dt * J c x / eps c x‖ ≤ _
  refine (norm_sub_le _ _).trans (add_le_add (fE c x) ?_)
  rw [mul_div_right_comm, norm_mul]
  exact mul_le_mul (hK.eps c x) (hJ c x) (norm_nonneg _) (by linarith)

/-- Every run with bounded currents grows at most exponentially. -/
theorem run_bound {layers : Layers sh ℂ} (hd : DisjointLayers layers) {dt : ℂ} {dxes : Dxes sh ℂ} {eps mu : VField sh ℂ} {J : ℕ → VField sh ℂ} {K Jm : ℝ}
    (hK : CoeffBound layers dt dxes eps mu K) (hJ : ∀ n c x, ‖J n c x‖ ≤ Jm) (hJm : 0 ≤ Jm) (n : ℕ) :
    StateBound layers (cpmlRun layers dt dxes eps mu J n) (Jm * (growth K ^ 2 + K) ^ n) := by
  have hK1 := hK.one
  have g := (growth_le hK1 le_rfl).2.2
  have hG : 1 ≤ growth K ^ 2 + K := by nlinarith
  induction n with
  | zero =>
    rw [pow_zero, mul_one]
    refine ⟨fun c x => ?_, fun c x => ?_, fun a pp c hc x p h => ?_, fun a pp c hc x p h => ?_⟩
    · show ‖(0 : ℂ)‖ ≤ _; rwa [norm_zero]
    · show ‖(0 : ℂ)‖ ≤ _; rwa [norm_zero]
    · show ‖auxOf psiZero a pp c x‖ ≤ _; rwa [psiZero_aux, norm_zero]
    · show ‖auxOf psiZero a pp c x‖ ≤ _; rwa [psiZero_aux, norm_zero]
  | succ n ih =>
    have h := cycle_bound hd hK ih (by positivity) (hJ n)
    have hle : growth K ^ 2 * (Jm * (growth K ^ 2 + K) ^ n) + K * Jm ≤ Jm * (growth K ^ 2 + K) ^ (n + 1) := by
      have h1 : 1 ≤ (growth K ^ 2 + K) ^ n := one_le_pow₀ hG
      have h2 : K * Jm * 1 ≤ K * Jm * (growth K ^ 2 + K) ^ n := mul_le_mul_of_nonneg_left h1 (mul_nonneg (by linarith) hJm)
      calc growth K ^ 2 * (Jm * (growth K ^ 2 + K) ^ n) + K * Jm ≤ growth K ^ 2 * (Jm * (growth K ^ 2 + K) ^ n) + K * Jm * (growth K ^ 2 + K) ^ n := by linarith
        _ = Jm * (growth K ^ 2 + K) ^ (n + 1) := by ring
    exact ⟨fun c x => (h.1 c x).trans hle, fun c x => (h.2.1 c x).trans hle, fun a pp c hc x p q => (h.2.2.1 a pp c hc x p q).trans hle,
      fun a pp c hc x p q => (h.2.2.2 a pp c hc x p q).trans hle⟩

/-- **C120.** For every simulation with CPML there is a rate `γ` such that at all frequencies with `Im ω < -γ` all conditions of `C120_transform` are met by
every sequence of bounded currents. -/
theorem C120_damped (hsh : ∀ a, 0 < sh a) (layers : Layers sh ℂ) (hd : DisjointLayers layers) (dt : ℝ) (hdt : 0 < dt) (dxes : Dxes sh ℂ) (eps mu : VField sh ℂ) :
    ∃ γ : ℝ, ∀ w : ℂ, w.im < -γ → Omega w dt ≠ 0 ∧ InnerPoles layers (exp (I * w * dt)) ∧ ∀ (J : ℕ → VField sh ℂ) (Jm : ℝ), (∀ n c x, ‖J n c x‖ ≤ Jm) →
      (∀ c x, Summable fun n : ℕ => exp (-I * w * (n * dt)) * (cpmlRun layers dt dxes eps mu J n).e c x) ∧
      (∀ c x, Summable fun n : ℕ => exp (-I * w * ((n + 1 / 2) * dt)) * (cpmlRun layers dt dxes eps mu J (n + 1)).h c x) ∧
      ∀ c x, Summable fun n : ℕ => exp (-I * w * ((n + 1 / 2) * dt)) * J n c x := by
  obtain ⟨K, hK⟩ := exists_coeffBound layers dt dxes eps mu
  have hK1 := hK.one
  have g := (growth_le hK1 le_rfl).2.2
  set G := growth K ^ 2 + K with hG
  have hG1 : 1 < G := by nlinarith
  have hGK : K < G := by nlinarith
  have hG0 : 0 < G := by linarith
  refine ⟨Real.log G / dt, fun w hw => ?_⟩
  have hlog : 0 < Real.log G := Real.log_pos hG1
  have hw0 : w.im < 0 := by
    have : 0 < Real.log G / dt := div_pos hlog hdt
    linarith
  have hwd : w.im * dt < -Real.log G := by
    have := mul_lt_mul_of_pos_right hw hdt
    rw [neg_mul, div_mul_cancel₀ _ hdt.ne'] at this
    exact this
  have hz : G < ‖exp (I * w * dt)‖ := by
    rw [norm_exp, ← Real.log_lt_iff_lt_exp hG0]
    have : (I * w * dt).re = -(w.im * dt) := by simp
    rw [this]; linarith
  have hr : ‖exp (-I * w * dt)‖ * G < 1 := by
    rw [norm_decay]
    have h1 : Real.exp (w.im * dt) < G⁻¹ := by
      rw [← Real.lt_log_iff_exp_lt (inv_pos.2 hG0), Real.log_inv]; exact hwd
    have := mul_lt_mul_of_pos_right h1 hG0
    rwa [inv_mul_cancel₀ hG0.ne'] at this
  refine ⟨Omega_ne_zero w hw0.ne dt hdt.ne', fun a pp L hL i hi => ?_, fun J Jm hJ => ?_⟩
  · have x : Idx sh := fun a => ⟨0, hsh a⟩
    have h1 : layerAt layers (fun L => L.pe) a pp (Function.update x a i) = some (L.pe i) := by simp [layerAt, hL, hi]
    have h2 : layerAt layers (fun L => L.ph) a pp (Function.update x a i) = some (L.ph i) := by simp [layerAt, hL, hi]
    exact ⟨(hK.pe _ _ _ _ h1).1.trans_lt (hGK.trans hz), (hK.ph _ _ _ _ h2).1.trans_lt (hGK.trans hz)⟩
  · by_cases hne : IsEmpty (Idx sh)
    · exact ⟨fun _ x => hne.elim x, fun _ x => hne.elim x, fun _ x => hne.elim x⟩
    have hJm : 0 ≤ Jm := by
      rw [not_isEmpty_iff] at hne
      exact (norm_nonneg _).trans (hJ 0 0 hne.some)
    set ρ := ‖exp (-I * w * dt)‖ with hρ
    have hρ0 : 0 ≤ ρ := norm_nonneg _
    have hw1 : ∀ n : ℕ, exp (-I * w * (n * dt)) = exp (-I * w * dt) ^ n := fun n => by rw [← exp_nat_mul]; congr 1; ring
    have hw2 : ∀ n : ℕ, exp (-I * w * ((n + 1 / 2) * dt)) = exp (-I * w * (dt / 2)) * exp (-I * w * dt) ^ n := fun n => by
      rw [← exp_nat_mul, ← exp_add]; congr 1; ring
    have hb := run_bound hd hK hJ hJm
    have geo : Summable fun n : ℕ => (ρ * G) ^ n := summable_geometric_of_lt_one (by positivity) hr
    refine ⟨fun c x => ?_, fun c x => ?_, fun c x => ?_⟩
    · simp only [hw1]
      refine Summable.of_norm_bounded (g := fun n => Jm * (ρ * G) ^ n) (geo.mul_left _) fun n => ?_
      rw [norm_mul, norm_pow, ← hρ, mul_pow]
      have := mul_le_mul_of_nonneg_left ((hb n).1 c x) (pow_nonneg hρ0 n)
      linarith
    · refine (Summable.mul_left (exp (-I * w * (dt / 2))) (Summable.of_norm_bounded (f := fun n => exp (-I * w * dt) ^ n * (cpmlRun layers dt dxes eps mu J (n + 1)).h c x)
        (g := fun n => Jm * G * (ρ * G) ^ n) (geo.mul_left _) fun n => ?_)).congr fun n => by rw [hw2]; exact (mul_assoc _ _ _).symm
      rw [norm_mul, norm_pow, ← hρ, mul_pow]
      have := mul_le_mul_of_nonneg_left ((hb (n + 1)).2.1 c x) (pow_nonneg hρ0 n)
      rw [pow_succ] at this
      linarith
    · refine (Summable.mul_left (exp (-I * w * (dt / 2))) (Summable.of_norm_bounded (f := fun n => exp (-I * w * dt) ^ n * J n c x)
        (g := fun n => Jm * (ρ * G) ^ n) (geo.mul_left _) fun n => ?_)).congr fun n => by rw [hw2]; exact (mul_assoc _ _ _).symm
      rw [norm_mul, norm_pow, ← hρ, mul_pow]
      have h1 := mul_le_mul_of_nonneg_left (hJ n c x) (pow_nonneg hρ0 n)
      have h2 : 1 ≤ G ^ n := one_le_pow₀ hG1.le
      have h3 : ρ ^ n * Jm * 1 ≤ ρ ^ n * Jm * G ^ n := mul_le_mul_of_nonneg_left h2 (mul_nonneg (pow_nonneg hρ0 n) hJm)
      linarith

/-- **C120.** Put together, for the layers of `cpml_params` and currents that stay bounded: at every sufficiently damped frequency the transform of the run is
the solution of the FDFD problem on the stretched grid. The example at the end of `CpmlSteady` shows layers of this kind. -/
theorem C120_solution (hsh : ∀ a, 0 < sh a) (p : Fin 3 → Fin 2 → Option CpmlDict) (hp : FromParams sh p) (dt : ℝ) (hdt : 0 < dt) (dxes : Dxes sh ℂ)
    (eps mu : VField sh ℂ) (heps : ∀ c x, eps c x ≠ 0) (hmu : ∀ c x, mu c x ≠ 0) :
    ∃ γ : ℝ, ∀ w : ℂ, w.im < -γ → ∀ (J : ℕ → VField sh ℂ) (Jm : ℝ), (∀ n c x, ‖J n c x‖ ≤ Jm) →
      let layers := cLayers (layersOf sh p)
      let E : VField sh ℂ := fun c x => dt * ∑' n : ℕ, exp (-I * w * (n * dt)) * (cpmlRun layers dt dxes eps mu J n).e c x
      let J' : VField sh ℂ := fun c x => dt * ∑' n : ℕ, exp (-I * w * ((n + 1 / 2) * dt)) * J n c x
      eFull (Omega w dt) (stretchedGrid layers (exp (I * w * dt)) dxes) (vecS eps) (some (vecS mu)) none none *ᵥ vecS E = (-I * Omega w dt) • vecS J' := by
  have hd := (C120_params p hp 0 0).1
  obtain ⟨γ, hγ⟩ := C120_damped hsh (cLayers (layersOf sh p)) hd dt hdt dxes eps mu
  refine ⟨γ, fun w hw J Jm hJ => ?_⟩
  obtain ⟨h1, h2, h3⟩ := hγ w hw
  obtain ⟨s1, s2, s3⟩ := h3 J Jm hJ
  exact (C120_transform _ hd dt (by exact_mod_cast hdt.ne') dxes eps mu heps hmu w h1 h2 J s1 s2 s3).1

/-- A current pulse switched on in the first step only is bounded, and the run with it is not trivial: the first step leaves a field. -/
example : let J : ℕ → VField (fun _ => 10) ℂ := fun n _ _ => if n = 0 then 1 else 0
    (∀ n c x, ‖J n c x‖ ≤ 1) ∧ (cpmlRun (fun _ _ => none) (1 / 2) (fun _ _ => 1, fun _ _ => 1) (fun _ _ => 1) (fun _ _ => 1) J 1).e 0 (fun _ => 3) ≠ 0 := by
  intro J
  refine ⟨fun n c x => ?_, ?_⟩
  · simp only [J]; split_ifs <;> simp
  · have hd : DisjointLayers (sh := fun _ => 10) (K := ℂ) (fun _ _ => none) := by intro a L0 L1 h0; simp at h0
    have hs : ∀ (par : {n : ℕ} → Layer n ℂ → Fin n → ℂ × ℂ × ℂ) psi a c (d : Arr (fun _ : Fin 3 => 10) ℂ) x, stretched (fun _ _ => none) par psi a c d x = d x :=
      fun par psi a c d x => by simp [stretched, layerAt]
    have hh : ∀ c x, (cpmlUpdateH (sh := fun _ => 10) (K := ℂ) (fun _ _ => none) (1 / 2) (fun _ _ => 1, fun _ _ => 1) psiZero (fun _ _ => 0) (fun _ _ => 0) (fun _ _ => 1)).1 c x = 0 := by
      intro c x
      obtain ⟨u0, u1, u2⟩ := C21_update_h (sh := fun _ => 10) (K := ℂ) (fun _ _ => none) hd (1 / 2) (fun _ _ => 1, fun _ _ => 1) psiZero (fun _ _ => 0) (fun _ _ => 0) (fun _ _ => 1) x
      simp only [hs] at u0 u1 u2
      revert c
      refine forall_fin3 ?_ ?_ ?_
      · rw [u0]; simp
      · rw [u1]; simp
      · rw [u2]; simp
    obtain ⟨u0, -, -⟩ := C21_update_e (sh := fun _ => 10) (K := ℂ) (fun _ _ => none) hd (1 / 2) (fun _ _ => 1, fun _ _ => 1) psiZero (fun _ _ => 0)
      (cpmlUpdateH (sh := fun _ => 10) (K := ℂ) (fun _ _ => none) (1 / 2) (fun _ _ => 1, fun _ _ => 1) psiZero (fun _ _ => 0) (fun _ _ => 0) (fun _ _ => 1)).1
      (fun _ _ => 1) (fun _ => 3)
    simp only [hs, hh] at u0
    have e1 : (cpmlRun (fun _ _ => none) (1 / 2) (fun _ _ => 1, fun _ _ => 1) (fun _ _ => 1) (fun _ _ => 1) J 1).e 0 (fun _ => 3)
        = (0 + 1 / 2 / 1 * ((0 - 0) / 1 - (0 - 0) / 1)) - 1 / 2 * J 0 0 (fun _ => 3) / 1 := congrArg (fun t : ℂ => t - 1 / 2 * J 0 0 (fun _ => 3) / 1) u0
    rw [e1]
    norm_num [J]

end Meanas.Props
