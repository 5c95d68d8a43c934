/-
C101 (the CPML in steady state is a complex-stretched grid).
-/
import Verif.Props.FdtdPml
import Verif.Props.FdfdWaves

namespace Meanas.Props

open Matrix Complex Fdfd Spec Fdtd

variable {sh : Fin 3 → ℕ}

/-- Parameters at index `i` of axis `a`, if it lies in a layer. -/
def layerIdx (layers : Layers sh ℂ) (par : {n : ℕ} → Layer n ℂ → Fin n → ℂ × ℂ × ℂ) (a : Fin 3) (pp : Fin 2) (i : Fin (sh a)) :
    Option (ℂ × ℂ × ℂ) :=
  match layers a pp with
  | some L => if L.reg i then some (par L i) else none
  | none => none

/-- Factor by which a layer with parameters `p0, p1, p2` stretches the grid for a field that changes by the factor `z` per time step. -/
noncomputable def stretchFactor (z : ℂ) (p : ℂ × ℂ × ℂ) : ℂ := 1 / (p.2.2 * (1 + p.2.1 / (1 - p.1 / z)))

/-- The stretch factor at index `i` of axis `a`; 1 outside of the layers. -/
noncomputable def stretchAt (layers : Layers sh ℂ) (par : {n : ℕ} → Layer n ℂ → Fin n → ℂ × ℂ × ℂ) (z : ℂ) (a : Fin 3) (i : Fin (sh a)) : ℂ :=
  match layerIdx layers par a 0 i with
  | some p => stretchFactor z p
  | none =>
    match layerIdx layers par a 1 i with
    | some p => stretchFactor z p
    | none => 1

/-- The stretched grid. `update_E` and `update_H` take their derivatives with `dxes[1]` (C20). -/
noncomputable def stretchedGrid (layers : Layers sh ℂ) (z : ℂ) (dxes : Dxes sh ℂ) : Dx sh :=
  (fun a i => dxes.2 a i * stretchAt layers (fun L => L.ph) z a i, fun a i => dxes.2 a i * stretchAt layers (fun L => L.pe) z a i)

/-- A simulation with CPML: the two fields and the auxiliary fields inside of the update functions. -/
@[ext] structure CpmlState (sh : Fin 3 → ℕ) where
  e : VField sh ℂ
  h : VField sh ℂ
  psiE : Psi sh ℂ
  psiH : Psi sh ℂ

/-- One time step of a script: `update_H(e, h, mu); update_E(e, h, epsilon); e -= dt * J / epsilon`. -/
noncomputable def cpmlCycle (layers : Layers sh ℂ) (dt : ℂ) (dxes : Dxes sh ℂ) (eps mu J : VField sh ℂ) (s : CpmlState sh) : CpmlState sh :=
  let rh := cpmlUpdateH layers dt dxes s.psiH s.e s.h mu
  let re := cpmlUpdateE layers dt dxes s.psiE s.e rh.1 eps
  ⟨fun c x => re.1 c x - dt * J c x / eps c x, rh.1, re.2, rh.2⟩

/-- Auxiliary fields times a number. -/
def psiMul (z : ℂ) (psi : Psi sh ℂ) : Psi sh ℂ := fun a pp => (fun x => z * (psi a pp).1 x, fun x => z * (psi a pp).2 x)

/-- The state of a harmonic run before step `n`: factor `q` per half step. -/
noncomputable def cpmlHarmonic (q : ℂ) (E H : VField sh ℂ) (PE PH : Psi sh ℂ) (n : ℤ) : CpmlState sh :=
  ⟨fun c x => q ^ (2 * n) * E c x, fun c x => q ^ (2 * n - 1) * H c x, psiMul (q ^ (2 * n - 1)) PE, psiMul (q ^ (2 * n - 2)) PH⟩

theorem psi_ext {psi psi' : Psi sh ℂ} (h : ∀ a pp c, c ≠ a → ∀ x, auxOf psi a pp c x = auxOf psi' a pp c x) : psi = psi' := by
  funext a pp
  have h1 : (transverse a).2 ≠ a := by revert a; decide
  have h2 : (transverse a).1 ≠ a := by revert a; decide
  have h3 : (transverse a).1 ≠ (transverse a).2 := by revert a; decide
  refine Prod.ext ?_ ?_ <;> funext x
  · have := h a pp _ h1 x
    simpa [auxOf] using this
  · have := h a pp _ h2 x
    simpa [auxOf, h3] using this

theorem auxOf_psiMul (z : ℂ) (psi : Psi sh ℂ) (a : Fin 3) (pp : Fin 2) (c : Fin 3) (x : Idx sh) :
    auxOf (psiMul z psi) a pp c x = z * auxOf psi a pp c x := by
  unfold auxOf psiMul
  split_ifs <;> rfl

/-- With auxiliary fields in steady state the layer divides the derivative by the stretch factor. -/
theorem stretched_steady {layers : Layers sh ℂ} {par : {n : ℕ} → Layer n ℂ → Fin n → ℂ × ℂ × ℂ} {z : ℂ} {psi : Psi sh ℂ}
    {a c : Fin 3} {d : Arr sh ℂ} {x : Idx sh} (hz : ∀ pp p, layerAt layers par a pp x = some p → 1 - p.1 / z ≠ 0)
    (hpsi : ∀ pp p, layerAt layers par a pp x = some p → auxOf psi a pp c x * (1 - p.1 / z) = p.2.1 * (p.2.2 * d x)) :
    stretched layers par psi a c d x = d x / stretchAt layers par z a (x a) := by
  have e : ∀ pp, layerIdx layers par a pp (x a) = layerAt layers par a pp x := fun pp => by
    unfold layerIdx layerAt; cases layers a pp <;> rfl
  have key : ∀ pp p, layerAt layers par a pp x = some p → p.2.2 * d x + auxOf psi a pp c x = d x / stretchFactor z p := by
    intro pp p h
    have h1 := hz pp p h
    have h2 := (eq_div_iff h1).2 (hpsi pp p h)
    rw [h2, stretchFactor, div_div_eq_mul_div, div_one]
    field_simp
  unfold stretched stretchAt
  rw [e, e]
  cases h0 : layerAt layers par a 0 x with
  | some p => exact key 0 p h0
  | none =>
    cases h1 : layerAt layers par a 1 x with
    | some p => exact key 1 p h1
    | none => exact (div_one _).symm

/-- The auxiliary fields of `update_H` belong to a steady state with amplitude `E`. -/
def SteadyH (layers : Layers sh ℂ) (dxes : Dxes sh ℂ) (z : ℂ) (E : VField sh ℂ) (PH : Psi sh ℂ) : Prop :=
  ∀ a pp c, c ≠ a → ∀ x p, layerAt layers (fun L => L.ph) a pp x = some p →
    auxOf PH a pp c x * (1 - p.1 / z) = p.2.1 * (p.2.2 * ((E c (shiftIdx a 1 x) - E c x) / dxes.2 a (x a)))

/-- The auxiliary fields of `update_E` belong to a steady state with amplitude `H`. -/
def SteadyE (layers : Layers sh ℂ) (dxes : Dxes sh ℂ) (z : ℂ) (H : VField sh ℂ) (PE : Psi sh ℂ) : Prop :=
  ∀ a pp c, c ≠ a → ∀ x p, layerAt layers (fun L => L.pe) a pp x = some p →
    auxOf PE a pp c x * (1 - p.1 / z) = p.2.1 * (p.2.2 * ((H c x - H c (shiftIdx a (-1) x)) / dxes.2 a (x a)))

/-- The factor `z` is not a pole of the layers. -/
def NoPole (layers : Layers sh ℂ) (z : ℂ) : Prop :=
  ∀ a pp L, layers a pp = some L → ∀ i, L.reg i = true → 1 - (L.pe i).1 / z ≠ 0 ∧ 1 - (L.ph i).1 / z ≠ 0

theorem layerAt_some {layers : Layers sh ℂ} {par : {n : ℕ} → Layer n ℂ → Fin n → ℂ × ℂ × ℂ} {a : Fin 3} {pp : Fin 2} {x : Idx sh} {p : ℂ × ℂ × ℂ}
    (h : layerAt layers par a pp x = some p) : ∃ L, layers a pp = some L ∧ L.reg (x a) = true ∧ p = par L (x a) := by
  unfold layerAt at h
  cases hL : layers a pp with
  | none => rw [hL] at h; cases h
  | some L =>
    rw [hL] at h
    by_cases hr : L.reg (x a) = true
    · simp only [hr, if_true, Option.some.injEq] at h
      exact ⟨L, rfl, hr, h.symm⟩
    · simp [hr] at h

/-- `update_H` on a harmonic field: the auxiliary fields stay harmonic exactly when they are steady. -/
theorem psiH_harmonic {layers : Layers sh ℂ} (hd : DisjointLayers layers) (dt : ℂ) (dxes : Dxes sh ℂ) {z ζ : ℂ} (hζ : ζ ≠ 0)
    (E h mu : VField sh ℂ) (PH : Psi sh ℂ) :
    (∀ a pp c, c ≠ a → ∀ x p, layerAt layers (fun L => L.ph) a pp x = some p →
        auxOf (cpmlUpdateH layers dt dxes (psiMul (ζ / z) PH) (fun c x => ζ * E c x) h mu).2 a pp c x = auxOf (psiMul ζ PH) a pp c x)
      ↔ SteadyH layers dxes z E PH := by
  unfold SteadyH
  refine forall_congr' fun a => forall_congr' fun pp => forall_congr' fun c => forall_congr' fun hc => forall_congr' fun x => forall_congr' fun p =>
    forall_congr' fun hp => ?_
  obtain ⟨L, hL, hx, rfl⟩ := layerAt_some hp
  rw [C21_recursion_h layers hd dt dxes _ _ _ _ a c hc pp L hL x hx, auxOf_psiMul, auxOf_psiMul]
  generalize auxOf PH a pp c x = A
  generalize (L.ph (x a)).1 = p0
  generalize (L.ph (x a)).2.1 = p1
  generalize (L.ph (x a)).2.2 = p2
  constructor
  · intro h
    exact mul_left_cancel₀ hζ (by linear_combination -h)
  · intro h
    linear_combination -ζ * h

/-- `update_E` on a harmonic field. -/
theorem psiE_harmonic {layers : Layers sh ℂ} (hd : DisjointLayers layers) (dt : ℂ) (dxes : Dxes sh ℂ) {z ζ : ℂ} (hζ : ζ ≠ 0)
    (e H eps : VField sh ℂ) (PE : Psi sh ℂ) :
    (∀ a pp c, c ≠ a → ∀ x p, layerAt layers (fun L => L.pe) a pp x = some p →
        auxOf (cpmlUpdateE layers dt dxes (psiMul (ζ / z) PE) e (fun c x => ζ * H c x) eps).2 a pp c x = auxOf (psiMul ζ PE) a pp c x)
      ↔ SteadyE layers dxes z H PE := by
  unfold SteadyE
  refine forall_congr' fun a => forall_congr' fun pp => forall_congr' fun c => forall_congr' fun hc => forall_congr' fun x => forall_congr' fun p =>
    forall_congr' fun hp => ?_
  obtain ⟨L, hL, hx, rfl⟩ := layerAt_some hp
  rw [C21_recursion_e layers hd dt dxes _ _ _ _ a c hc pp L hL x hx, auxOf_psiMul, auxOf_psiMul]
  generalize auxOf PE a pp c x = A
  generalize (L.pe (x a)).1 = p0
  generalize (L.pe (x a)).2.1 = p1
  generalize (L.pe (x a)).2.2 = p2
  constructor
  · intro h
    exact mul_left_cancel₀ hζ (by linear_combination -h)
  · intro h
    linear_combination -ζ * h

/-- `update_H` in steady state is the plain update on the stretched grid. -/
theorem updateH_steady {layers : Layers sh ℂ} (hd : DisjointLayers layers) (dt : ℂ) (dxes : Dxes sh ℂ) {z ζ : ℂ} (hζ : ζ ≠ 0) (hp : NoPole layers z)
    (E h mu : VField sh ℂ) (PH : Psi sh ℂ) (hs : SteadyH layers dxes z E PH) :
    (cpmlUpdateH layers dt dxes (psiMul (ζ / z) PH) (fun c x => ζ * E c x) h mu).1
      = maxwellH dt (some (stretchedGrid layers z dxes)) (fun c x => ζ * E c x) h (some mu) := by
  funext c x
  have hpsi := (psiH_harmonic hd dt dxes hζ E h mu PH).2 hs
  obtain ⟨u0, u1, u2⟩ := C21_update_h layers hd dt dxes (psiMul (ζ / z) PH) (fun c x => ζ * E c x) h mu x
  have hD : ∀ a c, c ≠ a → stretched layers (fun L => L.ph) (cpmlUpdateH layers dt dxes (psiMul (ζ / z) PH) (fun c x => ζ * E c x) h mu).2 a c
      (fun y => (ζ * E c (shiftIdx a 1 y) - ζ * E c y) / dxes.2 a (y a)) x
      = Functional.derivForward (some (stretchedGrid layers z dxes).1) a (fun y => ζ * E c y) x := by
    intro a c hc
    rw [stretched_steady (z := z) (fun pp p h => ?_) (fun pp p h => ?_), derivForward_eq, wOf_some, stretchedGrid, div_div]
    · obtain ⟨L, hL, hx, rfl⟩ := layerAt_some h
      exact (hp a pp L hL _ hx).2
    · rw [hpsi a pp c hc x p h, auxOf_psiMul]
      linear_combination ζ * hs a pp c hc x p h
  simp only [hD 1 2 (by decide), hD 2 1 (by decide), hD 2 0 (by decide), hD 0 2 (by decide), hD 0 1 (by decide), hD 1 0 (by decide)] at u0 u1 u2
  revert c
  refine forall_fin3 ?_ ?_ ?_
  · rw [u0]; simp only [maxwellH, curlForward_0]; ring
  · rw [u1]; simp only [maxwellH, curlForward_1]; ring
  · rw [u2]; simp only [maxwellH, curlForward_2]; ring

/-- `update_E` in steady state is the plain update on the stretched grid. -/
theorem updateE_steady {layers : Layers sh ℂ} (hd : DisjointLayers layers) (dt : ℂ) (dxes : Dxes sh ℂ) {z ζ : ℂ} (hζ : ζ ≠ 0) (hp : NoPole layers z)
    (e H eps : VField sh ℂ) (PE : Psi sh ℂ) (hs : SteadyE layers dxes z H PE) :
    (cpmlUpdateE layers dt dxes (psiMul (ζ / z) PE) e (fun c x => ζ * H c x) eps).1
      = maxwellE dt (some (stretchedGrid layers z dxes)) e (fun c x => ζ * H c x) eps := by
  funext c x
  have hpsi := (psiE_harmonic hd dt dxes hζ e H eps PE).2 hs
  obtain ⟨u0, u1, u2⟩ := C21_update_e layers hd dt dxes (psiMul (ζ / z) PE) e (fun c x => ζ * H c x) eps x
  have hD : ∀ a c, c ≠ a → stretched layers (fun L => L.pe) (cpmlUpdateE layers dt dxes (psiMul (ζ / z) PE) e (fun c x => ζ * H c x) eps).2 a c
      (fun y => (ζ * H c y - ζ * H c (shiftIdx a (-1) y)) / dxes.2 a (y a)) x
      = Functional.derivBack (some (stretchedGrid layers z dxes).2) a (fun y => ζ * H c y) x := by
    intro a c hc
    rw [stretched_steady (z := z) (fun pp p h => ?_) (fun pp p h => ?_), derivBack_eq, wOf_some, stretchedGrid, div_div]
    · obtain ⟨L, hL, hx, rfl⟩ := layerAt_some h
      exact (hp a pp L hL _ hx).1
    · rw [hpsi a pp c hc x p h, auxOf_psiMul]
      linear_combination ζ * hs a pp c hc x p h
  simp only [hD 1 2 (by decide), hD 2 1 (by decide), hD 2 0 (by decide), hD 0 2 (by decide), hD 0 1 (by decide), hD 1 0 (by decide)] at u0 u1 u2
  revert c
  refine forall_fin3 ?_ ?_ ?_
  · rw [u0]; simp only [maxwellE, curlBack_0]; ring
  · rw [u1]; simp only [maxwellE, curlBack_1]; ring
  · rw [u2]; simp only [maxwellE, curlBack_2]; ring

/-- Auxiliary fields with prescribed values. -/
theorem exists_psi (val : Fin 3 → Fin 2 → Fin 3 → Idx sh → ℂ) : ∃ P : Psi sh ℂ, ∀ a pp c, c ≠ a → ∀ x, auxOf P a pp c x = val a pp c x := by
  refine ⟨fun a pp => (val a pp (transverse a).2, val a pp (transverse a).1), fun a pp c hc x => ?_⟩
  have : c = (transverse a).1 ∨ c = (transverse a).2 := by revert a c; decide
  unfold auxOf
  rcases this with h | h
  · have h3 : ∀ a, (transverse a).1 ≠ (transverse a).2 := by decide
    rw [if_neg (by rw [h]; exact h3 a), h]
  · rw [if_pos h, h]

theorem exists_steadyH {layers : Layers sh ℂ} (dxes : Dxes sh ℂ) {z : ℂ} (hp : NoPole layers z) (E : VField sh ℂ) :
    ∃ PH : Psi sh ℂ, SteadyH layers dxes z E PH ∧ ∀ a pp c, c ≠ a → ∀ x, layerAt layers (fun L => L.ph) a pp x = none → auxOf PH a pp c x = 0 := by
  obtain ⟨P, hP⟩ := exists_psi fun a pp c x => match layerAt layers (fun L => L.ph) a pp x with
    | some p => p.2.1 * (p.2.2 * ((E c (shiftIdx a 1 x) - E c x) / dxes.2 a (x a))) / (1 - p.1 / z)
    | none => 0
  refine ⟨P, fun a pp c hc x p h => ?_, fun a pp c hc x h => ?_⟩
  · rw [hP a pp c hc x, h]
    obtain ⟨L, hL, hx, rfl⟩ := layerAt_some h
    exact div_mul_cancel₀ _ (hp a pp L hL _ hx).2
  · rw [hP a pp c hc x, h]

theorem exists_steadyE {layers : Layers sh ℂ} (dxes : Dxes sh ℂ) {z : ℂ} (hp : NoPole layers z) (H : VField sh ℂ) :
    ∃ PE : Psi sh ℂ, SteadyE layers dxes z H PE ∧ ∀ a pp c, c ≠ a → ∀ x, layerAt layers (fun L => L.pe) a pp x = none → auxOf PE a pp c x = 0 := by
  obtain ⟨P, hP⟩ := exists_psi fun a pp c x => match layerAt layers (fun L => L.pe) a pp x with
    | some p => p.2.1 * (p.2.2 * ((H c x - H c (shiftIdx a (-1) x)) / dxes.2 a (x a))) / (1 - p.1 / z)
    | none => 0
  refine ⟨P, fun a pp c hc x p h => ?_, fun a pp c hc x h => ?_⟩
  · rw [hP a pp c hc x, h]
    obtain ⟨L, hL, hx, rfl⟩ := layerAt_some h
    exact div_mul_cancel₀ _ (hp a pp L hL _ hx).1
  · rw [hP a pp c hc x, h]

/-- One cycle on a harmonic state is one plain FDTD cycle on the stretched grid. -/
theorem cycle_steady {layers : Layers sh ℂ} (hd : DisjointLayers layers) (dt : ℂ) (dxes : Dxes sh ℂ) {q : ℂ} (hq : q ≠ 0) (hp : NoPole layers (q ^ 2))
    (eps mu E H J : VField sh ℂ) (PE PH : Psi sh ℂ) (n : ℤ) :
    cpmlCycle layers dt dxes eps mu (fun c x => q ^ (2 * n + 1) * J c x) (cpmlHarmonic q E H PE PH n) = cpmlHarmonic q E H PE PH (n + 1) ↔
      run ⟨dt, some (stretchedGrid layers (q ^ 2) dxes), eps, some mu⟩ (harmonic q E H n)
          [.stepH, .stepE, .injJ fun c x => -(dt * (q ^ (2 * n + 1) * J c x))] = harmonic q E H (n + 1)
        ∧ (SteadyH layers dxes (q ^ 2) E PH ∧ ∀ a pp c, c ≠ a → ∀ x, layerAt layers (fun L => L.ph) a pp x = none →
            auxOf (psiMul (q ^ (2 * n) / q ^ 2) PH) a pp c x = auxOf (psiMul (q ^ (2 * n)) PH) a pp c x)
        ∧ (SteadyE layers dxes (q ^ 2) H PE ∧ ∀ a pp c, c ≠ a → ∀ x, layerAt layers (fun L => L.pe) a pp x = none →
            auxOf (psiMul (q ^ (2 * n + 1) / q ^ 2) PE) a pp c x = auxOf (psiMul (q ^ (2 * n + 1)) PE) a pp c x) := by
  have q1 : q ^ (2 * n - 2) = q ^ (2 * n) / q ^ 2 := by rw [zpow_sub₀ hq]; rfl
  have q2 : q ^ (2 * n - 1) = q ^ (2 * n + 1) / q ^ 2 := by
    rw [show 2 * n - 1 = (2 * n + 1) - 2 by ring, zpow_sub₀ hq]; rfl
  have q3 : q ^ (2 * (n + 1) - 2) = q ^ (2 * n) := by congr 1; ring
  have q4 : q ^ (2 * (n + 1) - 1) = q ^ (2 * n + 1) := by congr 1; ring
  have z0 : q ^ (2 * n) ≠ 0 := zpow_ne_zero _ hq
  have z1 : q ^ (2 * n + 1) ≠ 0 := zpow_ne_zero _ hq
  have split : ∀ (layers : Layers sh ℂ) (par : {n : ℕ} → Layer n ℂ → Fin n → ℂ × ℂ × ℂ) (P P' : Psi sh ℂ), P = P' ↔
      (∀ a pp c, c ≠ a → ∀ x p, layerAt layers par a pp x = some p → auxOf P a pp c x = auxOf P' a pp c x) ∧
      ∀ a pp c, c ≠ a → ∀ x, layerAt layers par a pp x = none → auxOf P a pp c x = auxOf P' a pp c x := by
    intro layers par P P'
    refine ⟨fun h => ⟨fun _ _ _ _ _ _ _ => by rw [h], fun _ _ _ _ _ _ => by rw [h]⟩, fun ⟨h1, h2⟩ => psi_ext fun a pp c hc x => ?_⟩
    cases h : layerAt layers par a pp x with
    | none => exact h2 a pp c hc x h
    | some p => exact h1 a pp c hc x p h
  have hH : ∀ h : VField sh ℂ, (cpmlUpdateH layers dt dxes (psiMul (q ^ (2 * n) / q ^ 2) PH) (fun c x => q ^ (2 * n) * E c x) h mu).2 = psiMul (q ^ (2 * n)) PH
      ↔ SteadyH layers dxes (q ^ 2) E PH ∧ ∀ a pp c, c ≠ a → ∀ x, layerAt layers (fun L => L.ph) a pp x = none →
            auxOf (psiMul (q ^ (2 * n) / q ^ 2) PH) a pp c x = auxOf (psiMul (q ^ (2 * n)) PH) a pp c x := by
    intro h
    rw [split layers (fun L => L.ph), psiH_harmonic hd dt dxes z0 E h mu PH]
    refine and_congr_right fun _ => ?_
    refine forall_congr' fun a => forall_congr' fun pp => forall_congr' fun c => forall_congr' fun hc => forall_congr' fun x => forall_congr' fun hx => ?_
    rw [(psi_outside layers dt dxes _ _ h mu a c hc pp x).2 hx]
  have hE : ∀ e : VField sh ℂ, (cpmlUpdateE layers dt dxes (psiMul (q ^ (2 * n + 1) / q ^ 2) PE) e (fun c x => q ^ (2 * n + 1) * H c x) eps).2
        = psiMul (q ^ (2 * n + 1)) PE
      ↔ SteadyE layers dxes (q ^ 2) H PE ∧ ∀ a pp c, c ≠ a → ∀ x, layerAt layers (fun L => L.pe) a pp x = none →
            auxOf (psiMul (q ^ (2 * n + 1) / q ^ 2) PE) a pp c x = auxOf (psiMul (q ^ (2 * n + 1)) PE) a pp c x := by
    intro e
    rw [split layers (fun L => L.pe), psiE_harmonic hd dt dxes z1 e H eps PE]
    refine and_congr_right fun _ => ?_
    refine forall_congr' fun a => forall_congr' fun pp => forall_congr' fun c => forall_congr' fun hc => forall_congr' fun x => forall_congr' fun hx => ?_
    rw [(psi_outside layers dt dxes _ e _ eps a c hc pp x).1 hx]
  simp only [cpmlCycle, cpmlHarmonic, q1, q2, q3, q4, CpmlState.mk.injEq, run, List.foldl, step, harmonic, State.mk.injEq]
  constructor
  · rintro ⟨k1, k2, k3, k4⟩
    have s1 := (hH _).1 k4
    rw [k2] at k1 k3
    have s2 := (hE _).1 k3
    rw [updateH_steady hd dt dxes z0 hp E _ mu PH s1.1] at k2
    rw [updateE_steady hd dt dxes z1 hp _ H eps PE s2.1] at k1
    refine ⟨⟨?_, k2⟩, s1, s2⟩
    rw [k2, ← k1]
    funext c x
    ring
  · rintro ⟨⟨k1, k2⟩, s1, s2⟩
    have k2' := updateH_steady hd dt dxes z0 hp E (fun c x => q ^ (2 * n + 1) / q ^ 2 * H c x) mu PH s1.1
    rw [k2] at k2'
    refine ⟨?_, k2', ?_, (hH _).2 s1⟩
    · rw [k2', updateE_steady hd dt dxes z1 hp _ H eps PE s2.1, ← k1, k2]
      funext c x
      ring
    · rw [k2']; exact (hE _).2 s2

/-- **C101.** Time-harmonic states of an FDTD simulation with CPML are the solutions of the FDFD equations on the grid stretched by the layers. `s = 1` is the
time dependence `exp(iωt)`, `s = -1` is `exp(-iωt)`; the currents act at half steps. -/
theorem C101_steady_state (layers : Layers sh ℂ) (hd : DisjointLayers layers) (dt : ℂ) (hdt : dt ≠ 0) (dxes : Dxes sh ℂ) (eps mu : VField sh ℂ)
    (heps : ∀ c x, eps c x ≠ 0) (hmu : ∀ c x, mu c x ≠ 0) (w s : ℂ) (hs : s = 1 ∨ s = -1) (hΩ : Omega w dt ≠ 0)
    (hp : NoPole layers (exp (s * I * w * dt / 2) ^ 2)) (E H J : VField sh ℂ) :
    (∃ PE PH : Psi sh ℂ, ∀ n : ℤ, cpmlCycle layers dt dxes eps mu (fun c x => exp (s * I * w * dt / 2) ^ (2 * n + 1) * J c x)
        (cpmlHarmonic (exp (s * I * w * dt / 2)) E H PE PH n) = cpmlHarmonic (exp (s * I * w * dt / 2)) E H PE PH (n + 1)) ↔
      eFull (Omega w dt) (stretchedGrid layers (exp (s * I * w * dt / 2) ^ 2) dxes) (vecS eps) (some (vecS mu)) none none *ᵥ vecS E
          = (-s * I * Omega w dt) • vecS J ∧
        vecS H = s • (Fdfd.e2h (Omega w dt) (stretchedGrid layers (exp (s * I * w * dt / 2) ^ 2) dxes) (some (vecS mu)) none *ᵥ vecS E) := by
  have key := harmonic_iff ⟨dt, some (stretchedGrid layers (exp (s * I * w * dt / 2) ^ 2) dxes), eps, some mu⟩ _ rfl heps
    (fun m hm => by cases hm; exact hmu) hdt w s hs hΩ E H J
  simp only [Option.map_some] at key
  rw [← key]
  have hq : exp (s * I * w * dt / 2) ≠ 0 := exp_ne_zero _
  constructor
  · rintro ⟨PE, PH, h⟩ n
    exact ((cycle_steady hd dt dxes hq hp eps mu E H J PE PH n).1 (h n)).1
  · intro h
    obtain ⟨PE, e1, e2⟩ := exists_steadyE dxes hp H
    obtain ⟨PH, h1, h2⟩ := exists_steadyH dxes hp E
    refine ⟨PE, PH, fun n => (cycle_steady hd dt dxes hq hp eps mu E H J PE PH n).2 ⟨h n, ⟨h1, fun a pp c hc x hx => ?_⟩, e1, fun a pp c hc x hx => ?_⟩⟩
    · rw [auxOf_psiMul, auxOf_psiMul, h2 a pp c hc x hx, mul_zero, mul_zero]
    · rw [auxOf_psiMul, auxOf_psiMul, e2 a pp c hc x hx, mul_zero, mul_zero]

/-! ### The stretch factors of `cpml_params` -/

/-- Layers as complex numbers. -/
noncomputable def cLayers (layers : Layers sh ℝ) : Layers sh ℂ := fun a pp => (layers a pp).map fun L =>
  ⟨L.reg, fun i => ((L.pe i).1, (L.pe i).2.1, (L.pe i).2.2), fun i => ((L.ph i).1, (L.ph i).2.1, (L.ph i).2.2)⟩

/-- Parameters that absorb. -/
def Absorbing (p : ℝ × ℝ × ℝ) : Prop := (0 < p.1 ∧ p.1 < 1) ∧ (p.1 - 1 ≤ p.2.1 ∧ p.2.1 < 0) ∧ 0 < p.2.2

theorem no_pole {p0 : ℝ} (h : 0 < p0 ∧ p0 < 1) {z : ℂ} (hz : normSq z = 1) : (1 : ℂ) - p0 / z ≠ 0 := by
  intro hc
  have hz0 : z ≠ 0 := fun h0 => by rw [h0] at hz; simp at hz
  have h1 : z = p0 := by
    rw [sub_eq_zero, eq_div_iff hz0, one_mul] at hc
    exact hc
  rw [h1, normSq_ofReal] at hz
  nlinarith

/-- For fields of constant amplitude the factor has a positive real part, and an imaginary part of the sign opposite to that of `z`. -/
theorem stretchFactor_sign {p : ℝ × ℝ × ℝ} (hp : Absorbing p) {z : ℂ} (hz : normSq z = 1) (hz1 : z ≠ 1) :
    0 < (stretchFactor z (p.1, p.2.1, p.2.2)).re ∧ (0 < z.im → (stretchFactor z (p.1, p.2.1, p.2.2)).im < 0)
      ∧ (z.im < 0 → 0 < (stretchFactor z (p.1, p.2.1, p.2.2)).im) := by
  obtain ⟨p0, p1, p2⟩ := p
  obtain ⟨h0, h1, h2⟩ := hp
  simp only at h0 h1 h2
  have hinv : z⁻¹ = (starRingEnd ℂ) z := by rw [inv_def, hz]; simp
  set f : ℂ := p2 * (1 + p1 / (1 - p0 / z)) with hf
  have hs : stretchFactor z ((p0 : ℂ), (p1 : ℂ), (p2 : ℂ)) = f⁻¹ := by rw [stretchFactor, one_div]
  have hd : (1 : ℂ) - p0 / z = ⟨1 - p0 * z.re, p0 * z.im⟩ := by
    rw [div_eq_mul_inv, hinv]
    apply Complex.ext <;> simp
  have hN : 0 < normSq ((1 : ℂ) - p0 / z) := normSq_pos.2 (no_pole h0 hz)
  set N := normSq ((1 : ℂ) - p0 / z) with hNd
  have hNv : N = 1 - 2 * p0 * z.re + p0 ^ 2 := by
    rw [hNd, hd]
    have : z.re * z.re + z.im * z.im = 1 := by rw [← normSq_apply]; exact hz
    simp only [normSq_apply]
    linear_combination p0 ^ 2 * this
  have hre : z.re < 1 := by
    have h3 : z.re * z.re + z.im * z.im = 1 := by rw [← normSq_apply]; exact hz
    by_contra hc
    push Not at hc
    have h4 : z.im = 0 := by nlinarith [sq_nonneg z.im, sq_nonneg z.re]
    have h5 : z.re = 1 := by rw [h4] at h3; nlinarith
    exact hz1 (Complex.ext h5 h4)
  have hfre : f.re = p2 * (1 + p1 * (1 - p0 * z.re) / N) := by
    rw [hf, re_ofReal_mul, add_re, one_re, div_eq_mul_inv, re_ofReal_mul, inv_re, ← hNd, hd]
    ring
  have hfim : f.im = -(p2 * p1 * p0 * z.im / N) := by
    rw [hf, im_ofReal_mul, add_im, one_im, div_eq_mul_inv, im_ofReal_mul, inv_im, ← hNd, hd]
    ring
  have hpos : 0 < f.re := by
    rw [hfre]
    refine mul_pos h2 ?_
    have hb : 0 < 1 - p0 * z.re := by nlinarith
    have : 1 + p1 * (1 - p0 * z.re) / N = (N + p1 * (1 - p0 * z.re)) / N := by field_simp
    rw [this]
    refine div_pos ?_ hN
    have h6 : (p0 - 1) * (1 - p0 * z.re) ≤ p1 * (1 - p0 * z.re) := mul_le_mul_of_nonneg_right h1.1 hb.le
    rw [hNv]
    nlinarith [mul_pos (mul_pos h0.1 (sub_pos.2 hre)) (by linarith : 0 < 1 + p0)]
  have hM : 0 < normSq f := normSq_pos.2 fun hc => by rw [hc] at hpos; simp at hpos
  rw [hs, inv_re, inv_im]
  refine ⟨div_pos hpos hM, fun hi => ?_, fun hi => ?_⟩
  · refine div_neg_of_neg_of_pos ?_ hM
    rw [hfim, neg_neg]
    exact div_neg_of_neg_of_pos (mul_neg_of_neg_of_pos (mul_neg_of_neg_of_pos (mul_neg_of_pos_of_neg h2 h1.2) h0.1) hi) hN
  · refine div_pos ?_ hM
    rw [hfim, neg_neg]
    exact div_pos (mul_pos_of_neg_of_neg (mul_neg_of_neg_of_pos (mul_neg_of_pos_of_neg h2 h1.2) h0.1) hi) hN

/-- Exact value without `cfs_alpha`, where `p1 = p0 - 1`. -/
theorem stretchFactor_value {p0 p2 : ℝ} (h0 : 0 < p0 ∧ p0 < 1) (h2 : p2 ≠ 0) (θ : ℝ) (hθ : Real.sin (θ / 2) ≠ 0) :
    stretchFactor (exp (I * θ)) (p0, p0 - 1, p2)
      = 1 / p2 * ((1 + p0) / (2 * p0)) - I * (1 / p2 * ((1 - p0) / (2 * p0)) * (Real.cos (θ / 2) / Real.sin (θ / 2))) := by
  have hw : exp (I * (θ / 2 : ℝ)) = Real.cos (θ / 2) + I * Real.sin (θ / 2) := by
    rw [mul_comm I, exp_mul_I]
    push_cast
    ring
  obtain ⟨w, hwd⟩ : ∃ w, w = exp (I * (θ / 2 : ℝ)) := ⟨_, rfl⟩
  have hz : exp (I * θ) = w * w := by
    rw [hwd, ← Complex.exp_add]; congr 1; push_cast; ring
  rw [← hwd] at hw
  have hcs : (Real.cos (θ / 2) : ℂ) ^ 2 + (Real.sin (θ / 2) : ℂ) ^ 2 = 1 := by
    rw [← ofReal_pow, ← ofReal_pow, ← ofReal_add, Real.cos_sq_add_sin_sq]; simp
  have hs0 : (Real.sin (θ / 2) : ℂ) ≠ 0 := ofReal_ne_zero.2 hθ
  have hp0 : (p0 : ℂ) ≠ 0 := ofReal_ne_zero.2 h0.1.ne'
  have hp2 : (p2 : ℂ) ≠ 0 := ofReal_ne_zero.2 h2
  have hw0 : w ≠ 0 := by rw [hwd]; exact exp_ne_zero _
  have hnp := no_pole h0 (z := exp (I * θ)) (by
    rw [mul_comm, normSq_eq_norm_sq, norm_exp_ofReal_mul_I]; norm_num)
  rw [hz] at hnp ⊢
  generalize (Real.cos (θ / 2) : ℂ) = c at *
  generalize (Real.sin (θ / 2) : ℂ) = s at *
  have e1 : w * w - 1 = w * (2 * I * s) := by
    rw [hw]; linear_combination hcs - s ^ 2 * I_sq
  have e2 : w * w - p0 = w * ((1 - p0) * c + I * (1 + p0) * s) := by
    rw [hw]; linear_combination p0 * hcs - p0 * s ^ 2 * I_sq
  have e3 : w * w - p0 ≠ 0 := by
    intro hc
    apply hnp
    rw [sub_eq_zero.1 hc, div_self hp0, sub_self]
  have e4 : (1 - p0) * c + I * (1 + p0) * s ≠ 0 := fun hc => e3 (by rw [e2, hc, mul_zero])
  have e5 : 1 + ((p0 : ℂ) - 1) / (1 - p0 / (w * w)) = p0 * (w * w - 1) / (w * w - p0) := by
    have h3 : (1 : ℂ) - p0 / (w * w) = (w * w - p0) / (w * w) := by field_simp
    rw [h3]
    have e3' : w ^ 2 - (p0 : ℂ) ≠ 0 := by rw [sq]; exact e3
    field_simp
    ring
  rw [stretchFactor]
  simp only
  rw [e5, e1, e2]
  field_simp
  linear_combination ((1 - p0) * c) * I_sq

theorem cpmlPar_absorbing (A : CpmlArgs) (hA : GoodArgs A) (he : 0 < A.epsEff) {x : ℝ} (h0 : 0 < x / A.thickness) (h1 : x / A.thickness ≤ 1) :
    Absorbing ((cpmlPar A x).p0, (cpmlPar A x).p1, (cpmlPar A x).p2) := by
  obtain ⟨b0, b1, b2, -⟩ := cpmlPar_bounds A hA he h0 h1
  refine ⟨b0, ⟨?_, b1.2⟩, b2⟩
  obtain ⟨e0, e1, -⟩ := cpmlPar_eq A hA he h0 h1
  have hr := rOf_pos A hA he h0 h1
  have ha := alphaOf_nonneg A hA h1
  have hdt := hA.dt
  have hb := b0.2
  simp only at e0 e1 ⊢
  rw [e1]
  rw [e0] at hb ⊢
  generalize rOf A (x / A.thickness) = r at *
  generalize alphaOf A (x / A.thickness) = α at *
  generalize Real.exp (-((r + α) * A.dt)) = p0 at *
  have h2 : r * A.dt * ((1 - p0) / ((r + α) * A.dt)) = r / (r + α) * (1 - p0) := by field_simp
  have h3 : r / (r + α) ≤ 1 := by rw [div_le_one (by linarith)]; linarith
  rw [h2]
  nlinarith

/-- The layers of `cpml_params` absorb. -/
theorem absorbing_layer {A : CpmlArgs} (hA : GoodArgs A) {D : CpmlDict} (h : cpmlParams A = .ok D) {n : ℕ} (hn : A.thickness ≤ n) {i : Fin n}
    (hi : (layerOf D n).reg i = true) : Absorbing ((layerOf D n).pe i) ∧ Absorbing ((layerOf D n).ph i) := by
  obtain ⟨_, hp, ht, he, _, htt, hlow, hE, hH⟩ := cpmlParams_ok h
  have hpos : (if D.low then (i : ℕ) else (i : ℕ) - (n - D.t)) < D.t := by
    have := i.isLt
    by_cases hl : D.low = true
    · simpa [layerOf, hl] using hi
    · rw [if_neg hl]; omega
  simp only [layerOf]
  rw [dif_pos hpos, dif_pos hpos, hE, hH]
  obtain ⟨⟨a1, a2⟩, b1, b2⟩ := depth_bounds h ⟨_, hpos⟩
  exact ⟨cpmlPar_absorbing A hA he a1 a2, cpmlPar_absorbing A hA he b1 b2⟩

/-- The dictionaries given to `updates_with_cpml` come from `cpml_params` with reasonable arguments, and the layers fit. -/
def FromParams (sh : Fin 3 → ℕ) (p : Fin 3 → Fin 2 → Option CpmlDict) : Prop :=
  (∀ a pp D, p a pp = some D → ∃ A : CpmlArgs, GoodArgs A ∧ cpmlParams A = .ok D ∧ A.polarity = (if pp = 0 then -1 else 1) ∧ A.thickness ≤ sh a) ∧
  ∀ a D0 D1, p a 0 = some D0 → p a 1 = some D1 → D0.t + D1.t ≤ sh a

theorem cLayers_some {layers : Layers sh ℝ} {a : Fin 3} {pp : Fin 2} {L : Layer (sh a) ℂ} (h : cLayers layers a pp = some L) :
    ∃ L', layers a pp = some L' ∧ L.reg = L'.reg ∧ (∀ i, L.pe i = (((L'.pe i).1 : ℂ), ((L'.pe i).2.1 : ℂ), ((L'.pe i).2.2 : ℂ)))
      ∧ ∀ i, L.ph i = (((L'.ph i).1 : ℂ), ((L'.ph i).2.1 : ℂ), ((L'.ph i).2.2 : ℂ)) := by
  unfold cLayers at h
  cases hL : layers a pp with
  | none => rw [hL] at h; cases h
  | some L' => rw [hL] at h; cases h; exact ⟨L', rfl, rfl, fun _ => rfl, fun _ => rfl⟩

theorem fromParams_layer {p : Fin 3 → Fin 2 → Option CpmlDict} (hp : FromParams sh p) {a : Fin 3} {pp : Fin 2} {L : Layer (sh a) ℂ}
    (hL : cLayers (layersOf sh p) a pp = some L) {i : Fin (sh a)} (hi : L.reg i = true) :
    ∃ P Q : ℝ × ℝ × ℝ, Absorbing P ∧ Absorbing Q ∧ L.pe i = ((P.1 : ℂ), (P.2.1 : ℂ), (P.2.2 : ℂ)) ∧ L.ph i = ((Q.1 : ℂ), (Q.2.1 : ℂ), (Q.2.2 : ℂ)) := by
  obtain ⟨L', hL', hr, h1, h2⟩ := cLayers_some hL
  unfold layersOf at hL'
  cases hD : p a pp with
  | none => rw [hD] at hL'; cases hL'
  | some D =>
    rw [hD] at hL'
    cases hL'
    obtain ⟨A, hA, hok, -, hn⟩ := hp.1 a pp D hD
    rw [hr] at hi
    obtain ⟨a1, a2⟩ := absorbing_layer hA hok hn hi
    exact ⟨_, _, a1, a2, h1 i, h2 i⟩

/-- **C101.** The hypotheses of `C101_steady_state` hold for every harmonic field of constant amplitude with layers made by `cpml_params`. -/
theorem C101_regular (p : Fin 3 → Fin 2 → Option CpmlDict) (hp : FromParams sh p) {z : ℂ} (hz : normSq z = 1) :
    DisjointLayers (cLayers (layersOf sh p)) ∧ NoPole (cLayers (layersOf sh p)) z := by
  constructor
  · have hd := C21_disjoint_layers sh p (fun a D hD => ?_) (fun a D hD => ?_) hp.2
    · intro a L0 L1 h0 h1 i
      obtain ⟨M0, m0, r0, -⟩ := cLayers_some h0
      obtain ⟨M1, m1, r1, -⟩ := cLayers_some h1
      rw [r0, r1]
      exact hd a M0 M1 m0 m1 i
    · obtain ⟨A, -, hok, hpol, -⟩ := hp.1 a 0 D hD
      obtain ⟨-, -, -, -, -, -, hlow, -⟩ := cpmlParams_ok hok
      exact hlow.2 (by simpa using hpol)
    · obtain ⟨A, -, hok, hpol, -⟩ := hp.1 a 1 D hD
      obtain ⟨-, -, -, -, -, -, hlow, -⟩ := cpmlParams_ok hok
      by_contra hc
      rw [Bool.not_eq_false, hlow] at hc
      rw [hc] at hpol
      simp at hpol
  · intro a pp L hL i hi
    obtain ⟨P, Q, hP, hQ, e1, e2⟩ := fromParams_layer hp hL hi
    rw [e1, e2]
    exact ⟨no_pole hP.1 hz, no_pole hQ.1 hz⟩

/-- Index `i` of axis `a` lies in one of the layers. -/
def InCpml (sh : Fin 3 → ℕ) (p : Fin 3 → Fin 2 → Option CpmlDict) (a : Fin 3) (i : Fin (sh a)) : Prop :=
  ∃ pp L, layersOf sh p a pp = some L ∧ L.reg i = true

/-- **C101.** The grid is stretched inside of the layers only, and there every width gets a positive real part and the imaginary part of an absorber. -/
theorem C101_absorbs (p : Fin 3 → Fin 2 → Option CpmlDict) (hp : FromParams sh p) {z : ℂ} (hz : normSq z = 1) (hz1 : z ≠ 1)
    (d : DxList sh ℝ × DxList sh ℝ) (hd : ∀ a i, 0 < d.2 a i) (a : Fin 3) (i : Fin (sh a)) :
    (¬ InCpml sh p a i → ∀ W ∈ [(stretchedGrid (cLayers (layersOf sh p)) z (cDx d)).1 a i, (stretchedGrid (cLayers (layersOf sh p)) z (cDx d)).2 a i],
      W = d.2 a i) ∧
    (InCpml sh p a i → ∀ W ∈ [(stretchedGrid (cLayers (layersOf sh p)) z (cDx d)).1 a i, (stretchedGrid (cLayers (layersOf sh p)) z (cDx d)).2 a i],
      0 < W.re ∧ (0 < z.im → W.im < 0) ∧ (z.im < 0 → 0 < W.im)) := by
  have hidx : ∀ (par : {n : ℕ} → Layer n ℂ → Fin n → ℂ × ℂ × ℂ) pp q, layerIdx (cLayers (layersOf sh p)) par a pp i = some q →
      ∃ L, cLayers (layersOf sh p) a pp = some L ∧ L.reg i = true ∧ q = par L i := by
    intro par pp q h
    unfold layerIdx at h
    cases hL : cLayers (layersOf sh p) a pp with
    | none => rw [hL] at h; cases h
    | some L =>
      rw [hL] at h
      by_cases hr : L.reg i = true
      · simp only [hr, if_true, Option.some.injEq] at h
        exact ⟨L, rfl, hr, h.symm⟩
      · simp [hr] at h
  have hin : ∀ (par : {n : ℕ} → Layer n ℂ → Fin n → ℂ × ℂ × ℂ) pp q, layerIdx (cLayers (layersOf sh p)) par a pp i = some q → InCpml sh p a i := by
    intro par pp q h
    obtain ⟨L, hL, hr, -⟩ := hidx par pp q h
    obtain ⟨L', hL', e, -⟩ := cLayers_some hL
    exact ⟨pp, L', hL', by rw [← e]; exact hr⟩
  have hnone : ∀ (par : {n : ℕ} → Layer n ℂ → Fin n → ℂ × ℂ × ℂ), InCpml sh p a i →
      ¬ (layerIdx (cLayers (layersOf sh p)) par a 0 i = none ∧ layerIdx (cLayers (layersOf sh p)) par a 1 i = none) := by
    rintro par ⟨pp, L, hL, hr⟩ ⟨h0, h1⟩
    have : layerIdx (cLayers (layersOf sh p)) par a pp i = none := by
      have : pp = 0 ∨ pp = 1 := by omega
      rcases this with rfl | rfl
      · exact h0
      · exact h1
    unfold layerIdx cLayers at this
    rw [hL] at this
    simp [hr] at this
  have out : ∀ (par : {n : ℕ} → Layer n ℂ → Fin n → ℂ × ℂ × ℂ), ¬ InCpml sh p a i → stretchAt (cLayers (layersOf sh p)) par z a i = 1 := by
    intro par h
    unfold stretchAt
    cases h0 : layerIdx (cLayers (layersOf sh p)) par a 0 i with
    | some q => exact absurd (hin par 0 q h0) h
    | none =>
      cases h1 : layerIdx (cLayers (layersOf sh p)) par a 1 i with
      | some q => exact absurd (hin par 1 q h1) h
      | none => rfl
  have ins : ∀ (par : {n : ℕ} → Layer n ℂ → Fin n → ℂ × ℂ × ℂ),
      (∀ pp L, cLayers (layersOf sh p) a pp = some L → L.reg i = true →
        ∃ P : ℝ × ℝ × ℝ, Absorbing P ∧ par L i = ((P.1 : ℂ), (P.2.1 : ℂ), (P.2.2 : ℂ))) → InCpml sh p a i →
      0 < (stretchAt (cLayers (layersOf sh p)) par z a i).re ∧ (0 < z.im → (stretchAt (cLayers (layersOf sh p)) par z a i).im < 0)
        ∧ (z.im < 0 → 0 < (stretchAt (cLayers (layersOf sh p)) par z a i).im) := by
    intro par hpar h
    have key : ∀ pp q, layerIdx (cLayers (layersOf sh p)) par a pp i = some q →
        0 < (stretchFactor z q).re ∧ (0 < z.im → (stretchFactor z q).im < 0) ∧ (z.im < 0 → 0 < (stretchFactor z q).im) := by
      intro pp q hq
      obtain ⟨L, hL, hr, rfl⟩ := hidx par pp q hq
      obtain ⟨P, hP, e⟩ := hpar pp L hL hr
      rw [e]
      exact stretchFactor_sign hP hz hz1
    unfold stretchAt
    cases h0 : layerIdx (cLayers (layersOf sh p)) par a 0 i with
    | some q => exact key 0 q h0
    | none =>
      cases h1 : layerIdx (cLayers (layersOf sh p)) par a 1 i with
      | some q => exact key 1 q h1
      | none => exact absurd ⟨h0, h1⟩ (hnone par h)
  have hw := hd a i
  constructor
  · intro h W hW
    simp only [List.mem_cons, List.not_mem_nil, or_false, stretchedGrid, out _ h, mul_one, cDx] at hW
    rcases hW with rfl | rfl <;> rfl
  · intro h W hW
    simp only [List.mem_cons, List.not_mem_nil, or_false, stretchedGrid, cDx] at hW
    rcases hW with rfl | rfl
    · obtain ⟨s1, s2, s3⟩ := ins (fun L => L.ph) (fun pp L hL hr => by
        obtain ⟨P, Q, hP, hQ, e1, e2⟩ := fromParams_layer hp hL hr
        exact ⟨Q, hQ, e2⟩) h
      rw [re_ofReal_mul, im_ofReal_mul]
      exact ⟨mul_pos hw s1, fun hi => mul_neg_of_pos_of_neg hw (s2 hi), fun hi => mul_pos hw (s3 hi)⟩
    · obtain ⟨s1, s2, s3⟩ := ins (fun L => L.pe) (fun pp L hL hr => by
        obtain ⟨P, Q, hP, hQ, e1, e2⟩ := fromParams_layer hp hL hr
        exact ⟨P, hP, e1⟩) h
      rw [re_ofReal_mul, im_ofReal_mul]
      exact ⟨mul_pos hw s1, fun hi => mul_neg_of_pos_of_neg hw (s2 hi), fun hi => mul_pos hw (s3 hi)⟩

/-- **C101.** Without `cfs_alpha`, at the frequency `ω`, the factor is `κ((1 + p0) - i(1 - p0) cot(ωdt/2)) / (2 p0)` with `κ = 1/p2` and the decay `p0` of C88:
for small `dt` it approaches `κ + σ/(iω)`. -/
theorem C101_factor (A : CpmlArgs) (hA : GoodArgs A) (h0 : A.cfsAlpha = 0) (D : CpmlDict) (h : cpmlParams A = .ok D) (n : ℕ) (hn : A.thickness ≤ n)
    (i : Fin n) (hi : (layerOf D n).reg i = true) (ω : ℝ) (hω : Real.sin (ω * A.dt / 2) ≠ 0) :
    ∀ P ∈ [(layerOf D n).pe i, (layerOf D n).ph i], stretchFactor (exp (I * (ω * A.dt : ℝ))) ((P.1 : ℂ), (P.2.1 : ℂ), (P.2.2 : ℂ))
      = 1 / P.2.2 * ((1 + P.1) / (2 * P.1))
        - I * (1 / P.2.2 * ((1 - P.1) / (2 * P.1)) * (Real.cos (ω * A.dt / 2) / Real.sin (ω * A.dt / 2))) := by
  obtain ⟨a1, a2⟩ := absorbing_layer hA h hn hi
  obtain ⟨S, -, hS⟩ := C88_attenuation A hA h0 D h
  intro P hP
  simp only [List.mem_cons, List.not_mem_nil, or_false] at hP
  have hp1 : P.2.1 = P.1 - 1 := by
    rcases hP with rfl | rfl
    · exact (hS n hn i hi _ _ (Or.inl ⟨rfl, rfl⟩)).2.2
    · exact (hS n hn i hi _ _ (Or.inr ⟨rfl, rfl⟩)).2.2
  have ha : Absorbing P := by rcases hP with rfl | rfl <;> assumption
  have := stretchFactor_value ha.1 ha.2.2.ne' (ω * A.dt) hω
  rw [hp1]
  push_cast at this ⊢
  exact this

/-- Layers of four cells on both ends of the x axis of a 10³ grid, at a quarter period per step (`z = i`), with any driving field. -/
example : ∃ p : Fin 3 → Fin 2 → Option CpmlDict, FromParams (fun _ => 10) p ∧ InCpml (fun _ => 10) p 0 3 ∧ ¬ InCpml (fun _ => 10) p 0 4
    ∧ normSq I = 1 ∧ I ≠ 1 ∧ 0 < I.im ∧ Omega (Real.pi : ℂ) (1 / 2) ≠ 0 := by
  let A : ℤ → CpmlArgs := fun p => { axis := 0, polarity := p, dt := 1/2, thickness := 4 }
  obtain ⟨D0, h0⟩ := (C19_accepts (A (-1))).2 (by simp [A])
  obtain ⟨D1, h1⟩ := (C19_accepts (A 1)).2 (by simp [A])
  obtain ⟨_, _, _, _, _, t0, l0, _⟩ := cpmlParams_ok h0
  obtain ⟨_, _, _, _, _, t1, l1, _⟩ := cpmlParams_ok h1
  have t0' : D0.t = 4 := Int.ofNat.inj (show (D0.t : ℤ) = (4 : ℕ) from t0)
  have t1' : D1.t = 4 := Int.ofNat.inj (show (D1.t : ℤ) = (4 : ℕ) from t1)
  have l0' : D0.low = true := l0.2 rfl
  have l1' : D1.low = false := by
    have : ¬ D1.low = true := fun q => absurd (l1.1 q) (by simp [A])
    simpa using this
  have good : ∀ q, GoodArgs (A q) := fun q => ⟨by norm_num [A], by norm_num [A], by norm_num [A], by norm_num [A], by norm_num [A], by norm_num [A]⟩
  let p : Fin 3 → Fin 2 → Option CpmlDict := fun a pp => if a = 0 then (if pp = 0 then some D0 else some D1) else none
  refine ⟨p, ⟨?_, ?_⟩, ⟨0, layerOf D0 10, rfl, ?_⟩, ?_, by simp, fun h => by simpa using congrArg Complex.re h, by simp, ?_⟩
  · intro a pp D h
    by_cases ha : a = 0
    · by_cases hpp : pp = 0
      · simp [p, ha, hpp] at h; subst h
        exact ⟨A (-1), good _, h0, by simp [A, hpp], by simp [A]⟩
      · simp [p, ha, hpp] at h; subst h
        exact ⟨A 1, good _, h1, by simp [A, hpp], by simp [A]⟩
    · simp [p, ha] at h
  · intro a D E h h'
    by_cases ha : a = 0
    · subst ha; simp [p] at h h'; rw [← h, ← h', t0', t1']; norm_num
    · simp [p, ha] at h
  · simp [layerOf, l0', t0']
  · rintro ⟨pp, L, hL, hr⟩
    have : pp = 0 ∨ pp = 1 := by omega
    rcases this with rfl | rfl
    · simp [layersOf, p] at hL; subst hL; simp [layerOf, l0', t0'] at hr
    · simp [layersOf, p] at hL; subst hL; simp [layerOf, l1', t1'] at hr
  · have : ((Real.pi : ℂ) * (1 / 2) / 2) = ((Real.pi / 4 : ℝ) : ℂ) := by push_cast; ring
    rw [Omega, this, ← ofReal_sin, Real.sin_pi_div_four]
    have h2 : Real.sqrt 2 ≠ 0 := by positivity
    simp [h2]

end Meanas.Props
