/-
C143 (in one dimension the CPML without `cfs_alpha` is a conductor, and absorbs everything).
-/
import Verif.Props.FdtdPml
import Verif.Props.CpmlSteady
import Verif.Lemmas.LossyRing

namespace Meanas.Props

open Fdtd

variable {sh : Fin 3 → ℕ}

namespace CpmlLossy

/-- A simulation with CPML: the two fields and the auxiliary fields inside of the update functions. -/
@[ext] structure St (sh : Fin 3 → ℕ) where
  e : VField sh ℝ
  h : VField sh ℝ
  psiE : Psi sh ℝ
  psiH : Psi sh ℝ

/-- One time step of a script: `update_H(e, h, mu); update_E(e, h, epsilon); e -= dt * J / epsilon`. -/
noncomputable def cycle (layers : Layers sh ℝ) (dt : ℝ) (dxes : Dxes sh ℝ) (eps mu J : VField sh ℝ) (s : St sh) : St sh :=
  let rh := cpmlUpdateH layers dt dxes s.psiH s.e s.h mu
  let re := cpmlUpdateE layers dt dxes s.psiE s.e rh.1 eps
  ⟨fun c x => re.1 c x - dt * J c x / eps c x, rh.1, re.2, rh.2⟩

/-- The run: fresh update functions, initial fields `e₀`, `h₀`, current `J n` in step `n`. -/
noncomputable def run (layers : Layers sh ℝ) (dt : ℝ) (dxes : Dxes sh ℝ) (eps mu : VField sh ℝ) (J : ℕ → VField sh ℝ) (e₀ h₀ : VField sh ℝ) : ℕ → St sh
  | 0 => ⟨e₀, h₀, psiZero, psiZero⟩
  | n + 1 => cycle layers dt dxes eps mu (J n) (run layers dt dxes eps mu J e₀ h₀ n)

/-- The parameters of a layer at an index of the axis; `(1, 0, 1)`, which changes nothing, outside of the layers. -/
noncomputable def parAt (layers : Layers sh ℝ) (par : {n : ℕ} → Layer n ℝ → Fin n → ℝ × ℝ × ℝ) (a : Fin 3) (x : Idx sh) : ℝ × ℝ × ℝ :=
  match layerAt layers par a 0 x with
  | some p => p
  | none => (layerAt layers par a 1 x).getD (1, 0, 1)

/-- The transverse component that is not `c`. -/
def other (a c : Fin 3) : Fin 3 := if c = a + 1 then a + 2 else a + 1

/-- Sign of component `c` in the curl of a field that varies along `a`. -/
def sgn (a c : Fin 3) : ℝ := if c = a + 1 then -1 else 1

/-- Specification: an FDTD step in one dimension (along `a`) in a medium that damps the transverse fields: without losses the fields would
become `h - dt/mu curl e`, `e + dt/epsilon curl h - dt/epsilon J`; what remains of them is the fraction `bH`, `bE`. Derivatives are along `a` over
cells of width `wE`, `wH`. -/
noncomputable def conductorStep (a : Fin 3) (bE bH wE wH : Idx sh → ℝ) (dt : ℝ) (eps mu J : VField sh ℝ) (s : VField sh ℝ × VField sh ℝ) : VField sh ℝ × VField sh ℝ :=
  let h : VField sh ℝ := fun c x => if c = a then s.2 c x else
    bH x * (s.2 c x - dt / mu c x * (sgn a c * ((s.1 (other a c) (shiftIdx a 1 x) - s.1 (other a c) x) / wH x)))
  (fun c x => if c = a then s.1 c x - dt * J c x / eps c x else
    bE x * (s.1 c x + dt / eps c x * (sgn a c * ((h (other a c) x - h (other a c) (shiftIdx a (-1) x)) / wE x))) - dt * J c x / eps c x, h)

/-- The run of the specification. -/
noncomputable def conductorRun (a : Fin 3) (bE bH wE wH : Idx sh → ℝ) (dt : ℝ) (eps mu : VField sh ℝ) (J : ℕ → VField sh ℝ) (e₀ h₀ : VField sh ℝ) :
    ℕ → VField sh ℝ × VField sh ℝ
  | 0 => (e₀, h₀)
  | n + 1 => conductorStep a bE bH wE wH dt eps mu (J n) (conductorRun a bE bH wE wH dt eps mu J e₀ h₀ n)

/-- One-dimensional use: a grid one cell wide across `a`, layers on `a` only. -/
structure OneD (sh : Fin 3 → ℕ) (a : Fin 3) (layers : Layers sh ℝ) : Prop where
  thin : ∀ b, b ≠ a → sh b = 1
  only : ∀ b, b ≠ a → ∀ pp, layers b pp = none
  apart : DisjointLayers layers

/-- Layers without `cfs_alpha`: `p1 = p0 - 1`. -/
def Plain (layers : Layers sh ℝ) (a : Fin 3) : Prop :=
  ∀ pp L, layers a pp = some L → ∀ i, L.reg i = true → ((L.pe i).2.1 = (L.pe i).1 - 1 ∧ (L.pe i).1 ≠ 0) ∧ (L.ph i).2.1 = (L.ph i).1 - 1 ∧ (L.ph i).1 ≠ 0

/-- The cell lies in one of the layers. -/
def InLayer (layers : Layers sh ℝ) (a : Fin 3) (x : Idx sh) : Prop := ∃ pp L, layers a pp = some L ∧ L.reg (x a) = true

theorem shift_thin {b : Fin 3} (h : sh b = 1) (s : ℤ) (x : Idx sh) : shiftIdx b s x = x := by
  funext c
  by_cases hc : c = b
  · subst hc
    apply Fin.ext
    have h1 := (shiftIdx c s x c).isLt
    have h2 := (x c).isLt
    omega
  · rw [shiftIdx_of_ne hc]

theorem stretched_thin {layers : Layers sh ℝ} {par : {n : ℕ} → Layer n ℝ → Fin n → ℝ × ℝ × ℝ} {psi : Psi sh ℝ} {b c : Fin 3} {d : Arr sh ℝ} {x : Idx sh}
    (hl : ∀ pp, layers b pp = none) (hd : d x = 0) : stretched layers par psi b c d x = 0 := by
  simp [stretched, layerAt, hl, hd]

/-- `update_E` in one dimension. -/
theorem updateE_1d {a : Fin 3} {layers : Layers sh ℝ} (h1 : OneD sh a layers) (dt : ℝ) (dxes : Dxes sh ℝ) (psi : Psi sh ℝ) (e h eps : VField sh ℝ) (x : Idx sh) (c : Fin 3) :
    (cpmlUpdateE layers dt dxes psi e h eps).1 c x = if c = a then e c x else
      e c x + dt / eps c x * (sgn a c * stretched layers (fun L => L.pe) (cpmlUpdateE layers dt dxes psi e h eps).2 a (other a c)
        (fun y => (h (other a c) y - h (other a c) (shiftIdx a (-1) y)) / dxes.2 a (y a)) x) := by
  have u := C21_update_e layers h1.apart dt dxes psi e h eps x
  have z : ∀ b, b ≠ a → ∀ c, stretched layers (fun L => L.pe) (cpmlUpdateE layers dt dxes psi e h eps).2 b c
      (fun y => (h c y - h c (shiftIdx b (-1) y)) / dxes.2 b (y b)) x = 0 := fun b hb c =>
    stretched_thin (h1.only b hb) (by simp [shift_thin (h1.thin b hb)])
  simp only at u
  obtain ⟨u0, u1, u2⟩ := u
  fin_cases a
  · have z1 := z 1 (by decide); have z2 := z 2 (by decide)
    simp only [z1, z2] at u0 u1 u2
    fin_cases c
    · simp [u0]
    · simp [u1, sgn, other]
    · simp [u2, sgn, other]
  · have z1 := z 0 (by decide); have z2 := z 2 (by decide)
    simp only [z1, z2] at u0 u1 u2
    fin_cases c
    · simp [u0, sgn, other]
    · simp [u1]
    · simp [u2, sgn, other]
  · have z1 := z 0 (by decide); have z2 := z 1 (by decide)
    simp only [z1, z2] at u0 u1 u2
    fin_cases c
    · simp [u0, sgn, other]
    · simp [u1, sgn, other]
    · simp [u2]

/-- `update_H` in one dimension. -/
theorem updateH_1d {a : Fin 3} {layers : Layers sh ℝ} (h1 : OneD sh a layers) (dt : ℝ) (dxes : Dxes sh ℝ) (psi : Psi sh ℝ) (e h mu : VField sh ℝ) (x : Idx sh) (c : Fin 3) :
    (cpmlUpdateH layers dt dxes psi e h mu).1 c x = if c = a then h c x else
      h c x - dt / mu c x * (sgn a c * stretched layers (fun L => L.ph) (cpmlUpdateH layers dt dxes psi e h mu).2 a (other a c)
        (fun y => (e (other a c) (shiftIdx a 1 y) - e (other a c) y) / dxes.2 a (y a)) x) := by
  have u := C21_update_h layers h1.apart dt dxes psi e h mu x
  have z : ∀ b, b ≠ a → ∀ c, stretched layers (fun L => L.ph) (cpmlUpdateH layers dt dxes psi e h mu).2 b c
      (fun y => (e c (shiftIdx b 1 y) - e c y) / dxes.2 b (y b)) x = 0 := fun b hb c =>
    stretched_thin (h1.only b hb) (by simp [shift_thin (h1.thin b hb)])
  simp only at u
  obtain ⟨u0, u1, u2⟩ := u
  fin_cases a
  · have z1 := z 1 (by decide); have z2 := z 2 (by decide)
    simp only [z1, z2] at u0 u1 u2
    fin_cases c
    · simp [u0]
    · simp [u1, sgn, other]
    · simp [u2, sgn, other]
  · have z1 := z 0 (by decide); have z2 := z 2 (by decide)
    simp only [z1, z2] at u0 u1 u2
    fin_cases c
    · simp [u0, sgn, other]
    · simp [u1]
    · simp [u2, sgn, other]
  · have z1 := z 0 (by decide); have z2 := z 1 (by decide)
    simp only [z1, z2] at u0 u1 u2
    fin_cases c
    · simp [u0, sgn, other]
    · simp [u1, sgn, other]
    · simp [u2]

theorem other_ne (a c : Fin 3) : other a c ≠ a := by revert a c; decide

theorem sgn_sq (a c : Fin 3) : sgn a c * sgn a c = 1 := by unfold sgn; split_ifs <;> norm_num

/-- In a layer. -/
theorem parAt_in {layers : Layers sh ℝ} (hd : DisjointLayers layers) (par : {n : ℕ} → Layer n ℝ → Fin n → ℝ × ℝ × ℝ) {a : Fin 3} {x : Idx sh} {pp : Fin 2}
    {L : Layer (sh a) ℝ} (hL : layers a pp = some L) (hr : L.reg (x a) = true) :
    parAt layers par a x = par L (x a) ∧ ∀ psi c d, stretched layers par psi a c d x = (par L (x a)).2.2 * d x + auxOf psi a pp c x := by
  have : pp = 0 ∨ pp = 1 := by omega
  rcases this with rfl | rfl
  · have h0 : layerAt layers par a 0 x = some (par L (x a)) := by simp [layerAt, hL, hr]
    exact ⟨by simp [parAt, h0], fun psi c d => by simp [stretched, h0]⟩
  · have h1 : layerAt layers par a 1 x = some (par L (x a)) := by simp [layerAt, hL, hr]
    have h0 : layerAt layers par a 0 x = none := (layerAt_disjoint hd par a x).resolve_right (by rw [h1]; simp)
    exact ⟨by simp [parAt, h0, h1], fun psi c d => by simp [stretched, h0, h1]⟩

/-- Outside of the layers. -/
theorem parAt_out {layers : Layers sh ℝ} (par : {n : ℕ} → Layer n ℝ → Fin n → ℝ × ℝ × ℝ) {a : Fin 3} {x : Idx sh} (h : ¬ InLayer layers a x) :
    parAt layers par a x = (1, 0, 1) ∧ ∀ psi c d, stretched layers par psi a c d x = d x := by
  have hn : ∀ pp, layerAt layers par a pp x = none := by
    intro pp
    unfold layerAt
    cases hL : layers a pp with
    | none => rfl
    | some L =>
      have : ¬ L.reg (x a) = true := fun hr => h ⟨pp, L, hL, hr⟩
      simp [this]
  exact ⟨by simp [parAt, hn], fun psi c d => by simp [stretched, hn]⟩

/-- Fraction of the fields that remains, and width over which they are differentiated: that of the cell times `kappa`. -/
noncomputable def keep (layers : Layers sh ℝ) (par : {n : ℕ} → Layer n ℝ → Fin n → ℝ × ℝ × ℝ) (a : Fin 3) (x : Idx sh) : ℝ := (parAt layers par a x).1

/-- See `keep`. -/
noncomputable def width (layers : Layers sh ℝ) (par : {n : ℕ} → Layer n ℝ → Fin n → ℝ × ℝ × ℝ) (dxes : Dxes sh ℝ) (a : Fin 3) (x : Idx sh) : ℝ :=
  dxes.2 a (x a) / (parAt layers par a x).2.2

/-- The conductor of a CPML. -/
noncomputable abbrev asConductor (a : Fin 3) (layers : Layers sh ℝ) (dt : ℝ) (dxes : Dxes sh ℝ) (eps mu J : VField sh ℝ) (s : VField sh ℝ × VField sh ℝ) : VField sh ℝ × VField sh ℝ :=
  conductorStep a (keep layers (fun L => L.pe) a) (keep layers (fun L => L.ph) a) (width layers (fun L => L.pe) dxes a)
    (width layers (fun L => L.ph) dxes a) dt eps mu J s

/-- What the auxiliary field of a layer is in one dimension: a multiple of the field itself. -/
structure Inv (a : Fin 3) (layers : Layers sh ℝ) (dt : ℝ) (eps mu : VField sh ℝ) (s : St sh) : Prop where
  e : ∀ c, c ≠ a → ∀ pp L, layers a pp = some L → ∀ x, L.reg (x a) = true →
    (L.pe (x a)).1 * (dt / eps c x * (sgn a c * auxOf s.psiE a pp (other a c) x)) = -(1 - (L.pe (x a)).1) * s.e c x
  h : ∀ c, c ≠ a → ∀ pp L, layers a pp = some L → ∀ x, L.reg (x a) = true →
    (L.ph (x a)).1 * (-(dt / mu c x * (sgn a c * auxOf s.psiH a pp (other a c) x))) = -(1 - (L.ph (x a)).1) * s.h c x

/-- The step: if `p0 A ψ = -(1 - p0) u` then after `ψ' = p0 ψ + (p0 - 1) p d` and `u' = u + A (p d + ψ')` again, and `u' = p0 (u + A p d)`. -/
theorem scalar {b A ψ u P : ℝ} (h : b * (A * ψ) = -(1 - b) * u) :
    u + A * (P + (b * ψ + (b - 1) * P)) = b * (u + A * P) ∧ b * (A * (b * ψ + (b - 1) * P)) = -(1 - b) * (b * (u + A * P)) :=
  ⟨by linear_combination h, by linear_combination b * h⟩

/-- One cycle. -/
theorem cycle_eq {a : Fin 3} {layers : Layers sh ℝ} (h1 : OneD sh a layers) (hp : Plain layers a) (dt : ℝ) (dxes : Dxes sh ℝ) (eps mu J : VField sh ℝ)
    (hJ : ∀ c, c ≠ a → ∀ x, InLayer layers a x → J c x = 0) (s : St sh) (hs : Inv a layers dt eps mu s) :
    Inv a layers dt eps mu (cycle layers dt dxes eps mu J s) ∧
    ((cycle layers dt dxes eps mu J s).e, (cycle layers dt dxes eps mu J s).h) = asConductor a layers dt dxes eps mu J (s.e, s.h) := by
  have hh : ∀ c x, (cycle layers dt dxes eps mu J s).h c x = (asConductor a layers dt dxes eps mu J (s.e, s.h)).2 c x ∧
      ∀ pp L, c ≠ a → layers a pp = some L → L.reg (x a) = true →
        (L.ph (x a)).1 * (-(dt / mu c x * (sgn a c * auxOf (cycle layers dt dxes eps mu J s).psiH a pp (other a c) x))) =
          -(1 - (L.ph (x a)).1) * (cycle layers dt dxes eps mu J s).h c x := by
    intro c x
    show (cpmlUpdateH layers dt dxes s.psiH s.e s.h mu).1 c x = _ ∧ ∀ pp L, _ → _ → _ →
      _ * (-(_ * (_ * auxOf (cpmlUpdateH layers dt dxes s.psiH s.e s.h mu).2 a pp (other a c) x))) = _ * (cpmlUpdateH layers dt dxes s.psiH s.e s.h mu).1 c x
    rw [updateH_1d h1]
    simp only [conductorStep, keep, width]
    by_cases hc : c = a
    · rw [if_pos hc, if_pos hc]
      exact ⟨rfl, fun _ _ h => absurd hc h⟩
    rw [if_neg hc, if_neg hc]
    have hin : ∀ pp L, layers a pp = some L → L.reg (x a) = true → _ ∧ _ := fun pp L hL hr =>
      scalar (P := (L.ph (x a)).2.2 * ((s.e (other a c) (shiftIdx a 1 x) - s.e (other a c) x) / dxes.2 a (x a)))
        (show (L.ph (x a)).1 * ((-(dt / mu c x * sgn a c)) * auxOf s.psiH a pp (other a c) x) = _ by rw [← hs.h c hc pp L hL x hr]; ring)
    have hrec : ∀ pp L, layers a pp = some L → L.reg (x a) = true → _ = _ := fun pp L hL hr =>
      C21_recursion_h layers h1.apart dt dxes s.psiH s.e s.h mu a _ (other_ne a c) pp L hL x hr
    constructor
    · by_cases hx : InLayer layers a x
      · obtain ⟨pp, L, hL, hr⟩ := hx
        obtain ⟨e1, e2⟩ := parAt_in h1.apart (fun L => L.ph) hL hr
        rw [e1, e2, hrec pp L hL hr, ((hp pp L hL _ hr).2).1]
        simp only [div_div_eq_mul_div]
        linear_combination (hin pp L hL hr).1
      · obtain ⟨e1, e2⟩ := parAt_out (fun L => L.ph) hx
        rw [e1, e2]; simp
    · intro pp L _ hL hr
      obtain ⟨e1, e2⟩ := parAt_in h1.apart (fun L => L.ph) hL hr
      rw [e2, hrec pp L hL hr, ((hp pp L hL _ hr).2).1]
      linear_combination (hin pp L hL hr).2 + (1 - (L.ph (x a)).1) * (hin pp L hL hr).1
  have hh' : (cycle layers dt dxes eps mu J s).h = (asConductor a layers dt dxes eps mu J (s.e, s.h)).2 := funext fun c => funext fun x => (hh c x).1
  have hE : ∀ c x, (cycle layers dt dxes eps mu J s).e c x = (asConductor a layers dt dxes eps mu J (s.e, s.h)).1 c x ∧
      ∀ pp L, c ≠ a → layers a pp = some L → L.reg (x a) = true →
        (L.pe (x a)).1 * (dt / eps c x * (sgn a c * auxOf (cycle layers dt dxes eps mu J s).psiE a pp (other a c) x)) =
          -(1 - (L.pe (x a)).1) * (cycle layers dt dxes eps mu J s).e c x := by
    intro c x
    show (cpmlUpdateE layers dt dxes s.psiE s.e (cycle layers dt dxes eps mu J s).h eps).1 c x - dt * J c x / eps c x = _ ∧ ∀ pp L, _ → _ → _ →
      _ * (_ * (_ * auxOf (cpmlUpdateE layers dt dxes s.psiE s.e (cycle layers dt dxes eps mu J s).h eps).2 a pp (other a c) x)) =
        _ * ((cpmlUpdateE layers dt dxes s.psiE s.e (cycle layers dt dxes eps mu J s).h eps).1 c x - dt * J c x / eps c x)
    rw [updateE_1d h1, hh']
    have hr : (asConductor a layers dt dxes eps mu J (s.e, s.h)).1 c x = if c = a then s.e c x - dt * J c x / eps c x else
      keep layers (fun L => L.pe) a x * (s.e c x + dt / eps c x * (sgn a c * (((asConductor a layers dt dxes eps mu J (s.e, s.h)).2 (other a c) x
        - (asConductor a layers dt dxes eps mu J (s.e, s.h)).2 (other a c) (shiftIdx a (-1) x)) / width layers (fun L => L.pe) dxes a x))) - dt * J c x / eps c x := rfl
    rw [hr]
    generalize (asConductor a layers dt dxes eps mu J (s.e, s.h)).2 = g
    by_cases hc : c = a
    · rw [if_pos hc, if_pos hc]
      exact ⟨rfl, fun _ _ h => absurd hc h⟩
    rw [if_neg hc, if_neg hc]
    simp only [keep, width]
    have hin : ∀ pp L, layers a pp = some L → L.reg (x a) = true → _ ∧ _ := fun pp L hL hr =>
      scalar (P := (L.pe (x a)).2.2 * ((g (other a c) x - g (other a c) (shiftIdx a (-1) x)) / dxes.2 a (x a)))
        (show (L.pe (x a)).1 * ((dt / eps c x * sgn a c) * auxOf s.psiE a pp (other a c) x) = _ by rw [← hs.e c hc pp L hL x hr]; ring)
    have hrec : ∀ pp L, layers a pp = some L → L.reg (x a) = true → _ = _ := fun pp L hL hr =>
      C21_recursion_e layers h1.apart dt dxes s.psiE s.e g eps a _ (other_ne a c) pp L hL x hr
    constructor
    · by_cases hx : InLayer layers a x
      · obtain ⟨pp, L, hL, hr⟩ := hx
        obtain ⟨e1, e2⟩ := parAt_in h1.apart (fun L => L.pe) hL hr
        rw [e1, e2, hrec pp L hL hr, ((hp pp L hL _ hr).1).1]
        simp only [div_div_eq_mul_div]
        linear_combination (hin pp L hL hr).1
      · obtain ⟨e1, e2⟩ := parAt_out (fun L => L.pe) hx
        rw [e1, e2]; simp
    · intro pp L _ hL hr
      obtain ⟨e1, e2⟩ := parAt_in h1.apart (fun L => L.pe) hL hr
      rw [e2, hrec pp L hL hr, ((hp pp L hL _ hr).1).1, hJ c hc x ⟨pp, L, hL, hr⟩]
      linear_combination (hin pp L hL hr).2 + (1 - (L.pe (x a)).1) * (hin pp L hL hr).1
  exact ⟨⟨fun c hc pp L hL x hr => (hE c x).2 pp L hc hL hr, fun c hc pp L hL x hr => (hh c x).2 pp L hc hL hr⟩,
    Prod.ext (funext fun c => funext fun x => (hE c x).1) hh'⟩

/-- The initial state. -/
theorem inv_init {a : Fin 3} {layers : Layers sh ℝ} (dt : ℝ) (eps mu e₀ h₀ : VField sh ℝ)
    (h0 : ∀ c, c ≠ a → ∀ x, InLayer layers a x → e₀ c x = 0 ∧ h₀ c x = 0) : Inv a layers dt eps mu ⟨e₀, h₀, psiZero, psiZero⟩ := by
  have hz : ∀ a pp c x, auxOf (psiZero : Psi sh ℝ) a pp c x = 0 := by
    intro a pp c x; unfold auxOf psiZero; split_ifs <;> rfl
  constructor
  · intro c hc pp L hL x hr
    show _ * (_ * (_ * auxOf psiZero a pp (other a c) x)) = _ * e₀ c x
    rw [hz, (h0 c hc x ⟨pp, L, hL, hr⟩).1]; ring
  · intro c hc pp L hL x hr
    show _ * (-(_ * (_ * auxOf psiZero a pp (other a c) x))) = _ * h₀ c x
    rw [hz, (h0 c hc x ⟨pp, L, hL, hr⟩).2]; ring

end CpmlLossy

open CpmlLossy

/-- **C143.** In one dimension, with no `cfs_alpha`, the fields of a run with CPML are those of a run without CPML in a conductor: in the layers
the transverse fields are reduced by the factor `p0` in every step (electric and magnetic ones at the same rate per depth), and cells are
wider by `kappa`. Sources and initial fields are outside of the layers. -/
theorem C143_conductor (a : Fin 3) (layers : Layers sh ℝ) (h1 : OneD sh a layers) (hp : Plain layers a) (dt : ℝ) (dxes : Dxes sh ℝ) (eps mu : VField sh ℝ)
    (J : ℕ → VField sh ℝ) (hJ : ∀ n c, c ≠ a → ∀ x, InLayer layers a x → J n c x = 0) (e₀ h₀ : VField sh ℝ)
    (h0 : ∀ c, c ≠ a → ∀ x, InLayer layers a x → e₀ c x = 0 ∧ h₀ c x = 0) (n : ℕ) :
    ((run layers dt dxes eps mu J e₀ h₀ n).e, (run layers dt dxes eps mu J e₀ h₀ n).h) =
      conductorRun a (keep layers (fun L => L.pe) a) (keep layers (fun L => L.ph) a) (width layers (fun L => L.pe) dxes a)
        (width layers (fun L => L.ph) dxes a) dt eps mu J e₀ h₀ n := by
  have key : ∀ n, Inv a layers dt eps mu (run layers dt dxes eps mu J e₀ h₀ n) ∧ ((run layers dt dxes eps mu J e₀ h₀ n).e, (run layers dt dxes eps mu J e₀ h₀ n).h) =
      conductorRun a (keep layers (fun L => L.pe) a) (keep layers (fun L => L.ph) a) (width layers (fun L => L.pe) dxes a)
        (width layers (fun L => L.ph) dxes a) dt eps mu J e₀ h₀ n := by
    intro n
    induction n with
    | zero => exact ⟨inv_init dt eps mu e₀ h₀ h0, rfl⟩
    | succ n ih =>
      obtain ⟨a1, a2⟩ := cycle_eq h1 hp dt dxes eps mu (J n) (hJ n) _ ih.1
      refine ⟨a1, a2.trans ?_⟩
      rw [ih.2]; rfl
  exact (key n).2

namespace CpmlLossy

theorem other_other {a c : Fin 3} : c ≠ a → other a (other a c) = c := by revert a c; decide

theorem sgn_other {a c : Fin 3} (_ : c ≠ a) : sgn a (other a c) = -sgn a c := by
  unfold sgn other
  by_cases h1 : c = a + 1
  · rw [if_pos h1, if_pos h1, if_neg ((by decide : ∀ a : Fin 3, a + 2 ≠ a + 1) a)]; norm_num
  · rw [if_neg h1, if_neg h1, if_pos rfl]

/-- The system of component `c` of `e` and the other transverse component of `h`. -/
noncomputable def coef (a c : Fin 3) (bE bH wE wH : Idx sh → ℝ) (dt : ℝ) (eps mu : VField sh ℝ) : Ring.Coef (Idx sh) where
  next := shiftEquiv a 1
  α := fun x => eps c x * wE x / dt
  β := fun x => mu (other a c) x * wH x / dt
  g := fun x => (1 / bE x - 1) / 2
  k := fun x => (1 / bH x - 1) / 2
  σ := sgn a c

theorem conductor_ring {a c : Fin 3} (hc : c ≠ a) {bE bH wE wH : Idx sh → ℝ} (hbE : ∀ x, bE x ≠ 0) (hbH : ∀ x, bH x ≠ 0) (hwE : ∀ x, wE x ≠ 0) (hwH : ∀ x, wH x ≠ 0)
    {dt : ℝ} {eps mu : VField sh ℝ} (heps : ∀ c x, eps c x ≠ 0) (hmu : ∀ c x, mu c x ≠ 0) (s : VField sh ℝ × VField sh ℝ) :
    ((conductorStep a bE bH wE wH dt eps mu 0 s).1 c, (conductorStep a bE bH wE wH dt eps mu 0 s).2 (other a c)) =
      (coef a c bE bH wE wH dt eps mu).step (s.1 c, s.2 (other a c)) := by
  have hv : ∀ x, (conductorStep a bE bH wE wH dt eps mu 0 s).2 (other a c) x = ((coef a c bE bH wE wH dt eps mu).step (s.1 c, s.2 (other a c))).2 x := by
    intro x
    simp only [conductorStep, Ring.Coef.step, coef, if_neg (other_ne a c), other_other hc, sgn_other hc]
    have e : (shiftEquiv a 1) x = shiftIdx a 1 x := rfl
    have e2 : 1 + 2 * ((1 / bH x - 1) / 2) = 1 / bH x := by ring
    rw [e, e2]
    have := hbH x; have := hwH x; have := hmu (other a c) x
    field_simp
    ring
  refine Prod.ext (funext fun x => ?_) (funext hv)
  have e1 : (conductorStep a bE bH wE wH dt eps mu 0 s).1 c x = bE x * (s.1 c x + dt / eps c x * (sgn a c *
      (((conductorStep a bE bH wE wH dt eps mu 0 s).2 (other a c) x - (conductorStep a bE bH wE wH dt eps mu 0 s).2 (other a c) (shiftIdx a (-1) x)) / wE x)))
      - dt * (0 : VField sh ℝ) c x / eps c x := by
    conv_lhs => unfold conductorStep
    dsimp only
    rw [if_neg hc]; rfl
  have e2 : ((coef a c bE bH wE wH dt eps mu).step (s.1 c, s.2 (other a c))).1 x = (s.1 c x + sgn a c *
      (((coef a c bE bH wE wH dt eps mu).step (s.1 c, s.2 (other a c))).2 x - ((coef a c bE bH wE wH dt eps mu).step (s.1 c, s.2 (other a c))).2 (shiftIdx a (-1) x))
        / (eps c x * wE x / dt)) / (1 + 2 * ((1 / bE x - 1) / 2)) := rfl
  show (conductorStep a bE bH wE wH dt eps mu 0 s).1 c x = _
  rw [e1, e2, hv, hv]
  have e3 : 1 + 2 * ((1 / bE x - 1) / 2) = 1 / bE x := by ring
  rw [e3]
  generalize ((coef a c bE bH wE wH dt eps mu).step (s.1 c, s.2 (other a c))).2 = v
  have := hbE x; have := hwE x; have := heps c x
  simp only [Pi.zero_apply, mul_zero, zero_div, sub_zero]
  field_simp

/-- Layers on axis `a` only, made by `cpml_params` with the default `cfs_alpha = 0`, in media at least as dense as vacuum, and fitting into the
grid, which is one cell wide across `a`. -/
structure PlainParams (sh : Fin 3 → ℕ) (a : Fin 3) (p : Fin 3 → Fin 2 → Option CpmlDict) : Prop where
  thin : ∀ b, b ≠ a → sh b = 1
  only : ∀ b, b ≠ a → ∀ pp, p b pp = none
  made : ∀ pp D, p a pp = some D → ∃ A : CpmlArgs, GoodArgs A ∧ cpmlParams A = .ok D ∧ A.polarity = (if pp = 0 then -1 else 1) ∧ A.thickness ≤ sh a ∧
    A.cfsAlpha = 0 ∧ 1 ≤ A.epsEff * A.muEff
  fit : ∀ D0 D1, p a 0 = some D0 → p a 1 = some D1 → D0.t + D1.t ≤ sh a

theorem PlainParams.from {a : Fin 3} {p : Fin 3 → Fin 2 → Option CpmlDict} (hp : PlainParams sh a p) : FromParams sh p := by
  constructor
  · intro b pp D hD
    by_cases hb : b = a
    · subst hb
      obtain ⟨A, h1, h2, h3, h4, -⟩ := hp.made pp D hD
      exact ⟨A, h1, h2, h3, h4⟩
    · rw [hp.only b hb pp] at hD; cases hD
  · intro b D0 D1 h0 h1
    by_cases hb : b = a
    · subst hb; exact hp.fit D0 D1 h0 h1
    · rw [hp.only b hb] at h0; cases h0

/-- Parameters in such layers. -/
theorem PlainParams.layer {a : Fin 3} {p : Fin 3 → Fin 2 → Option CpmlDict} (hp : PlainParams sh a p) {pp : Fin 2} {L : Layer (sh a) ℝ}
    (hL : layersOf sh p a pp = some L) {i : Fin (sh a)} (hi : L.reg i = true) :
    ∀ P ∈ [L.pe i, L.ph i], P.2.1 = P.1 - 1 ∧ (0 < P.1 ∧ P.1 < 1) ∧ 0 < P.2.2 ∧ P.2.2 ≤ 1 := by
  unfold layersOf at hL
  cases hD : p a pp with
  | none => rw [hD] at hL; cases hL
  | some D =>
    rw [hD] at hL
    cases hL
    obtain ⟨A, hA, hok, -, hn, h0, hem⟩ := hp.made pp D hD
    obtain ⟨S, -, hS⟩ := C88_attenuation A hA h0 D hok
    have hS := hS (sh a) hn i hi
    obtain ⟨a1, a2⟩ := absorbing_layer hA hok hn hi
    obtain ⟨-, -, ht, -, -, htt, -⟩ := cpmlParams_ok hok
    have hpos : (if D.low then (i : ℕ) else (i : ℕ) - (sh a - D.t)) < D.t := by
      have := i.isLt
      by_cases hl : D.low = true
      · simpa [layerOf, hl] using hi
      · rw [if_neg hl]; omega
    have hb := C19_bounds A hA D hok ⟨_, hpos⟩
    intro P hP
    simp only [List.mem_cons, List.not_mem_nil, or_false] at hP
    rcases hP with rfl | rfl
    · refine ⟨(hS _ _ (Or.inl ⟨rfl, rfl⟩)).2.2, a1.1, a1.2.2, ?_⟩
      have := (hb (D.paramE ⟨_, hpos⟩) (by simp)).2.2.2 hem
      simp only [layerOf]; rw [dif_pos hpos]; exact this
    · refine ⟨(hS _ _ (Or.inr ⟨rfl, rfl⟩)).2.2, a2.1, a2.2.2, ?_⟩
      have := (hb (D.paramH ⟨_, hpos⟩) (by simp)).2.2.2 hem
      simp only [layerOf]; rw [dif_pos hpos]; exact this

theorem PlainParams.oneD {a : Fin 3} {p : Fin 3 → Fin 2 → Option CpmlDict} (hp : PlainParams sh a p) : OneD sh a (layersOf sh p) where
  thin := hp.thin
  only := fun b hb pp => by simp [layersOf, hp.only b hb]
  apart := by
    refine C21_disjoint_layers sh p (fun b D hD => ?_) (fun b D hD => ?_) hp.from.2
    · obtain ⟨A, -, hok, hpol, -⟩ := hp.from.1 b 0 D hD
      obtain ⟨-, -, -, -, -, -, hlow, -⟩ := cpmlParams_ok hok
      exact hlow.2 (by simpa using hpol)
    · obtain ⟨A, -, hok, hpol, -⟩ := hp.from.1 b 1 D hD
      obtain ⟨-, -, -, -, -, -, hlow, -⟩ := cpmlParams_ok hok
      by_contra hc
      rw [Bool.not_eq_false, hlow] at hc
      rw [hc] at hpol
      simp at hpol

theorem PlainParams.plain {a : Fin 3} {p : Fin 3 → Fin 2 → Option CpmlDict} (hp : PlainParams sh a p) : Plain (layersOf sh p) a := by
  intro pp L hL i hi
  have h := hp.layer hL hi
  have h1 := h (L.pe i) (by simp); have h2 := h (L.ph i) (by simp)
  exact ⟨⟨h1.1, h1.2.1.1.ne'⟩, h2.1, h2.2.1.1.ne'⟩

/-- What remains, and the factor of the widths, in and outside of such layers. -/
theorem PlainParams.parAt {a : Fin 3} {p : Fin 3 → Fin 2 → Option CpmlDict} (hp : PlainParams sh a p) (x : Idx sh) :
    (∀ P ∈ [parAt (layersOf sh p) (fun L => L.pe) a x, parAt (layersOf sh p) (fun L => L.ph) a x],
      (0 < P.1 ∧ P.1 ≤ 1) ∧ 0 < P.2.2 ∧ P.2.2 ≤ 1 ∧ (P.1 = 1 ↔ ¬ InLayer (layersOf sh p) a x)) := by
  intro P hP
  simp only [List.mem_cons, List.not_mem_nil, or_false] at hP
  by_cases hx : InLayer (layersOf sh p) a x
  · obtain ⟨pp, L, hL, hr⟩ := id hx
    have h := hp.layer hL hr
    rw [(parAt_in hp.oneD.apart (fun L => L.pe) hL hr).1, (parAt_in hp.oneD.apart (fun L => L.ph) hL hr).1] at hP
    have h' := h P (by simpa using hP)
    exact ⟨⟨h'.2.1.1, h'.2.1.2.le⟩, h'.2.2.1, h'.2.2.2, ⟨fun h1 => absurd h1 h'.2.1.2.ne, fun h1 => absurd hx h1⟩⟩
  · rw [(parAt_out (fun L => L.pe) hx).1, (parAt_out (fun L => L.ph) hx).1] at hP
    have : P = (1, 0, 1) := by tauto
    rw [this]
    exact ⟨⟨by norm_num, le_rfl⟩, by norm_num, by norm_num, by simp [hx]⟩

/-- The grid and the media: cells at least `w` wide, `epsilon ≥ εm`, `mu ≥ μm`, and a time step of `θ` times the Courant limit of one dimension. -/
structure Courant1 (a : Fin 3) (dxes : Dxes sh ℝ) (eps mu : VField sh ℝ) (dt w εm μm θ : ℝ) : Prop where
  dt_pos : 0 < dt
  w_pos : 0 < w
  εm_pos : 0 < εm
  μm_pos : 0 < μm
  dx_ge : ∀ i, w ≤ dxes.2 a i
  eps_ge : ∀ c x, εm ≤ eps c x
  mu_ge : ∀ c x, μm ≤ mu c x
  θ_nonneg : 0 ≤ θ
  courant : dt ^ 2 ≤ θ ^ 2 * (w ^ 2 * (εm * μm))

theorem coef_ok {a c : Fin 3} {p : Fin 3 → Fin 2 → Option CpmlDict} (hp : PlainParams sh a p) {dxes : Dxes sh ℝ} {eps mu : VField sh ℝ} {dt w εm μm θ : ℝ}
    (hC : Courant1 a dxes eps mu dt w εm μm θ) :
    (coef a c (keep (layersOf sh p) (fun L => L.pe) a) (keep (layersOf sh p) (fun L => L.ph) a) (width (layersOf sh p) (fun L => L.pe) dxes a)
      (width (layersOf sh p) (fun L => L.ph) dxes a) dt eps mu).Ok θ := by
  have hE : ∀ x, _ := fun x => hp.parAt x (parAt (layersOf sh p) (fun L => L.pe) a x) (by simp)
  have hH : ∀ x, _ := fun x => hp.parAt x (parAt (layersOf sh p) (fun L => L.ph) a x) (by simp)
  have hdt := hC.dt_pos; have hw := hC.w_pos; have hεm := hC.εm_pos; have hμm := hC.μm_pos
  have hwE : ∀ x, w ≤ width (layersOf sh p) (fun L => L.pe) dxes a x := fun x => by
    unfold width
    rw [le_div_iff₀ (hE x).2.1]
    exact le_trans (mul_le_of_le_one_right hw.le (hE x).2.2.1) (hC.dx_ge _)
  have hwH : ∀ x, w ≤ width (layersOf sh p) (fun L => L.ph) dxes a x := fun x => by
    unfold width
    rw [le_div_iff₀ (hH x).2.1]
    exact le_trans (mul_le_of_le_one_right hw.le (hH x).2.2.1) (hC.dx_ge _)
  have hα : ∀ x, εm * w / dt ≤ eps c x * width (layersOf sh p) (fun L => L.pe) dxes a x / dt := fun x =>
    div_le_div_of_nonneg_right (mul_le_mul (hC.eps_ge c x) (hwE x) hw.le (hεm.le.trans (hC.eps_ge c x))) hdt.le
  have hβ : ∀ x, μm * w / dt ≤ mu (other a c) x * width (layersOf sh p) (fun L => L.ph) dxes a x / dt := fun x =>
    div_le_div_of_nonneg_right (mul_le_mul (hC.mu_ge _ x) (hwH x) hw.le (hμm.le.trans (hC.mu_ge _ x))) hdt.le
  have h0 : 1 ≤ θ ^ 2 * (εm * w / dt * (μm * w / dt)) := by
    have e : θ ^ 2 * (εm * w / dt * (μm * w / dt)) = θ ^ 2 * (w ^ 2 * (εm * μm)) / dt ^ 2 := by field_simp
    rw [e, one_le_div (by positivity)]
    exact hC.courant
  have hprod : ∀ x y, 1 ≤ θ ^ 2 * (eps c x * width (layersOf sh p) (fun L => L.pe) dxes a x / dt * (mu (other a c) y * width (layersOf sh p) (fun L => L.ph) dxes a y / dt)) :=
    fun x y => h0.trans (mul_le_mul_of_nonneg_left (mul_le_mul (hα x) (hβ y) (by positivity) (le_trans (by positivity) (hα x))) (sq_nonneg _))
  refine ⟨fun x => lt_of_lt_of_le (by positivity) (hα x), fun x => lt_of_lt_of_le (by positivity) (hβ x), fun x => ?_, fun x => ?_, ?_, hC.θ_nonneg, fun x => hprod x x, fun x => hprod _ x⟩
  · have := (hE x).1
    have h1 : 1 ≤ 1 / keep (layersOf sh p) (fun L => L.pe) a x := (one_le_div this.1).2 this.2
    show 0 ≤ (1 / _ - 1) / 2
    linarith
  · have := (hH x).1
    have h1 : 1 ≤ 1 / keep (layersOf sh p) (fun L => L.ph) a x := (one_le_div this.1).2 this.2
    show 0 ≤ (1 / _ - 1) / 2
    linarith
  · show sgn a c ^ 2 = 1
    rw [sq, sgn_sq]

/-- The run after the last source. -/
theorem run_tail {a c : Fin 3} (hc : c ≠ a) {p : Fin 3 → Fin 2 → Option CpmlDict} (hp : PlainParams sh a p) {dxes : Dxes sh ℝ} {eps mu : VField sh ℝ} {dt w εm μm θ : ℝ}
    (hC : Courant1 a dxes eps mu dt w εm μm θ) (J : ℕ → VField sh ℝ) (hJ : ∀ n c, c ≠ a → ∀ x, InLayer (layersOf sh p) a x → J n c x = 0) (e₀ h₀ : VField sh ℝ)
    (h0 : ∀ c, c ≠ a → ∀ x, InLayer (layersOf sh p) a x → e₀ c x = 0 ∧ h₀ c x = 0) (N : ℕ) (hN : ∀ n, N ≤ n → J n = 0) (n : ℕ) :
    ((run (layersOf sh p) dt dxes eps mu J e₀ h₀ (N + n)).e c, (run (layersOf sh p) dt dxes eps mu J e₀ h₀ (N + n)).h (other a c)) =
      (coef a c (keep (layersOf sh p) (fun L => L.pe) a) (keep (layersOf sh p) (fun L => L.ph) a) (width (layersOf sh p) (fun L => L.pe) dxes a)
      (width (layersOf sh p) (fun L => L.ph) dxes a) dt eps mu).step^[n] ((run (layersOf sh p) dt dxes eps mu J e₀ h₀ N).e c, (run (layersOf sh p) dt dxes eps mu J e₀ h₀ N).h (other a c)) := by
  have hrun := C143_conductor a (layersOf sh p) hp.oneD hp.plain dt dxes eps mu J hJ e₀ h₀ h0
  have h1 : ∀ n, (run (layersOf sh p) dt dxes eps mu J e₀ h₀ n).e = _ := fun n => congrArg Prod.fst (hrun n)
  have h2 : ∀ n, (run (layersOf sh p) dt dxes eps mu J e₀ h₀ n).h = _ := fun n => congrArg Prod.snd (hrun n)
  have hE : ∀ x, _ := fun x => hp.parAt x (CpmlLossy.parAt (layersOf sh p) (fun L => L.pe) a x) (by simp)
  have hH : ∀ x, _ := fun x => hp.parAt x (CpmlLossy.parAt (layersOf sh p) (fun L => L.ph) a x) (by simp)
  have hdx : ∀ x : Idx sh, dxes.2 a (x a) ≠ 0 := fun x => (lt_of_lt_of_le hC.w_pos (hC.dx_ge _)).ne'
  induction n with
  | zero => rfl
  | succ n ih =>
    rw [Function.iterate_succ_apply', ← ih, h1, h2, h1, h2]
    show ((conductorStep _ _ _ _ _ _ _ _ (J (N + n)) _).1 c, (conductorStep _ _ _ _ _ _ _ _ (J (N + n)) _).2 (other a c)) = _
    rw [hN (N + n) (by omega)]
    exact conductor_ring hc (fun x => (hE x).1.1.ne') (fun x => (hH x).1.1.ne') (fun x => div_ne_zero (hdx x) (hE x).2.1.ne') (fun x => div_ne_zero (hdx x) (hH x).2.1.ne')
      (fun c x => (lt_of_lt_of_le hC.εm_pos (hC.eps_ge c x)).ne') (fun c x => (lt_of_lt_of_le hC.μm_pos (hC.mu_ge c x)).ne') _

/-- Specification: the energy of component `c` of `e` and the other transverse component of `h`, the cells counted with their width in the layers. -/
noncomputable def energy1 (a c : Fin 3) (layers : Layers sh ℝ) (dxes : Dxes sh ℝ) (eps mu : VField sh ℝ) (s : St sh) : ℝ :=
  ∑ x, (width layers (fun L => L.pe) dxes a x * eps c x * s.e c x ^ 2 + width layers (fun L => L.ph) dxes a x * mu (other a c) x * s.h (other a c) x ^ 2)

end CpmlLossy

/-- **C143.** Below the Courant limit of one dimension a source-free run with CPML is bounded for all times, by the initial energy. -/
theorem C143_bounded (a c : Fin 3) (hc : c ≠ a) (p : Fin 3 → Fin 2 → Option CpmlDict) (hp : PlainParams sh a p) (dxes : Dxes sh ℝ) (eps mu : VField sh ℝ) (dt w εm μm θ : ℝ)
    (hC : Courant1 a dxes eps mu dt w εm μm θ) (hθ : θ < 1) (e₀ h₀ : VField sh ℝ)
    (h0 : ∀ c, c ≠ a → ∀ x, InLayer (layersOf sh p) a x → e₀ c x = 0 ∧ h₀ c x = 0) (n : ℕ) :
    energy1 a c (layersOf sh p) dxes eps mu (run (layersOf sh p) dt dxes eps mu 0 e₀ h₀ n) ≤
      (1 + θ) / (1 - θ) * energy1 a c (layersOf sh p) dxes eps mu (run (layersOf sh p) dt dxes eps mu 0 e₀ h₀ 0) := by
  have ht := run_tail hc hp hC 0 (fun _ _ _ _ _ => rfl) e₀ h₀ h0 0 (fun _ _ => rfl) n
  have hok := coef_ok (c := c) hp hC
  rw [zero_add] at ht
  generalize hK : coef a c _ _ _ _ dt eps mu = K at ht hok
  have hen : ∀ s : St sh, energy1 a c (layersOf sh p) dxes eps mu s = dt * K.sq (s.e c, s.h (other a c)) := by
    intro s
    rw [← hK]
    unfold energy1 Ring.Coef.sq coef
    rw [Finset.mul_sum]
    refine Finset.sum_congr rfl fun x _ => ?_
    have := hC.dt_pos
    field_simp
  rw [hen, hen, ht]
  have h2 : (1 - θ) / 2 * K.sq (K.step^[n] ((run (layersOf sh p) dt dxes eps mu 0 e₀ h₀ 0).e c, (run (layersOf sh p) dt dxes eps mu 0 e₀ h₀ 0).h (other a c)))
      ≤ (1 + θ) / 2 * K.sq ((run (layersOf sh p) dt dxes eps mu 0 e₀ h₀ 0).e c, (run (layersOf sh p) dt dxes eps mu 0 e₀ h₀ 0).h (other a c)) := by
    refine (Ring.energy_ge hok _).trans ((?_ : _ ≤ _).trans (Ring.energy_le hok _ ?_))
    · rw [Ring.energy_iter hok]
      exact sub_le_self _ (Finset.sum_nonneg fun m _ => Ring.loss_nonneg hok _ _)
    · intro x
      by_cases hx : InLayer (layersOf sh p) a x
      · exact ⟨Or.inr (h0 c hc x hx).1, Or.inr (h0 _ (other_ne a c) x hx).2⟩
      · rw [← hK]
        refine ⟨Or.inl ?_, Or.inl ?_⟩
        · show (1 / (CpmlLossy.parAt (layersOf sh p) (fun L => L.pe) a x).1 - 1) / 2 = 0
          rw [(parAt_out _ hx).1]; norm_num
        · show (1 / (CpmlLossy.parAt (layersOf sh p) (fun L => L.ph) a x).1 - 1) / 2 = 0
          rw [(parAt_out _ hx).1]; norm_num
  have h3 : 0 < 1 - θ := by linarith
  rw [div_mul_eq_mul_div, le_div_iff₀ h3]
  have := hC.dt_pos
  nlinarith

/-- **C143.** And after the sources have ended the transverse fields decay to zero everywhere: nothing is trapped, whatever the media. -/
theorem C143_decays (a c : Fin 3) (hc : c ≠ a) (p : Fin 3 → Fin 2 → Option CpmlDict) (hp : PlainParams sh a p) (pp : Fin 2) (D : CpmlDict) (hD : p a pp = some D)
    (dxes : Dxes sh ℝ) (eps mu : VField sh ℝ) (dt w εm μm θ : ℝ)
    (hC : Courant1 a dxes eps mu dt w εm μm θ) (hθ : θ < 1) (J : ℕ → VField sh ℝ) (hJ : ∀ n c, c ≠ a → ∀ x, InLayer (layersOf sh p) a x → J n c x = 0) (e₀ h₀ : VField sh ℝ)
    (h0 : ∀ c, c ≠ a → ∀ x, InLayer (layersOf sh p) a x → e₀ c x = 0 ∧ h₀ c x = 0) (N : ℕ) (hN : ∀ n, N ≤ n → J n = 0) (x : Idx sh) :
    Filter.Tendsto (fun n => (run (layersOf sh p) dt dxes eps mu J e₀ h₀ n).e c x) Filter.atTop (nhds 0) ∧
    Filter.Tendsto (fun n => (run (layersOf sh p) dt dxes eps mu J e₀ h₀ n).h c x) Filter.atTop (nhds 0) := by
  -- a cell of the layer
  obtain ⟨i, hi⟩ : ∃ i : Fin (sh a), (layerOf D (sh a)).reg i = true := by
    obtain ⟨A, -, hok, -, hn, -⟩ := hp.made pp D hD
    obtain ⟨-, -, ht, -, -, htt, -⟩ := cpmlParams_ok hok
    by_cases hl : D.low = true
    · exact ⟨⟨0, by omega⟩, by simp [layerOf, hl]; omega⟩
    · exact ⟨⟨sh a - 1, by omega⟩, by simp [layerOf, hl]; omega⟩
  let x₀ : Idx sh := Function.update x a i
  have hx₀ : InLayer (layersOf sh p) a x₀ := ⟨pp, layerOf D (sh a), by simp [layersOf, hD], by simpa [x₀] using hi⟩
  have hreach : ∀ y : Idx sh, ∃ m : ℕ, y = (shiftEquiv a 1)^[m] x₀ := by
    intro y
    have hit : ∀ m : ℕ, (shiftEquiv a 1)^[m] x₀ = shiftIdx a m x₀ := by
      intro m
      induction m with
      | zero => simp
      | succ m ih =>
        rw [Function.iterate_succ_apply', ih]
        show shiftIdx a 1 (shiftIdx a m x₀) = _
        rw [shiftIdx_shiftIdx]; push_cast; rfl
    refine ⟨(y a : ℕ) + (sh a - (x₀ a : ℕ)), ?_⟩
    rw [hit]
    funext b
    by_cases hb : b = a
    · subst hb
      rw [shiftIdx_same]
      apply Fin.ext
      have h1 := wrap_val (x₀ b) (((y b : ℕ) + (sh b - (x₀ b : ℕ)) : ℕ) : ℤ)
      have h2 := (x₀ b).isLt
      have h3 := (y b).isLt
      have e : ((x₀ b : ℕ) : ℤ) + (((y b : ℕ) + (sh b - (x₀ b : ℕ)) : ℕ) : ℤ) = (y b : ℕ) + (sh b : ℤ) := by omega
      rw [e, Int.add_emod_right, Int.emod_eq_of_lt (by omega) (by omega)] at h1
      omega
    · rw [shiftIdx_of_ne hb]
      apply Fin.ext
      have h1 := (y b).isLt
      have h2 := (x₀ b).isLt
      have := hp.thin b hb
      omega
  have key : ∀ c, c ≠ a → Filter.Tendsto (fun n => ((run (layersOf sh p) dt dxes eps mu J e₀ h₀ n).e c, (run (layersOf sh p) dt dxes eps mu J e₀ h₀ n).h (other a c)))
      Filter.atTop (nhds 0) := by
    intro c hc
    have hok := coef_ok (c := c) hp hC
    have ht := run_tail hc hp hC J hJ e₀ h₀ h0 N hN
    rw [← Filter.tendsto_add_atTop_iff_nat N]
    have hE := hp.parAt x₀ (CpmlLossy.parAt (layersOf sh p) (fun L => L.pe) a x₀) (by simp)
    have hH := hp.parAt x₀ (CpmlLossy.parAt (layersOf sh p) (fun L => L.ph) a x₀) (by simp)
    have hg : 0 < (1 / keep (layersOf sh p) (fun L => L.pe) a x₀ - 1) / 2 := by
      have : keep (layersOf sh p) (fun L => L.pe) a x₀ < 1 := lt_of_le_of_ne hE.1.2 fun h => hE.2.2.2.1 h hx₀
      have : 1 < 1 / keep (layersOf sh p) (fun L => L.pe) a x₀ := (one_lt_div hE.1.1).2 this
      linarith
    have hk : 0 < (1 / keep (layersOf sh p) (fun L => L.ph) a x₀ - 1) / 2 := by
      have : keep (layersOf sh p) (fun L => L.ph) a x₀ < 1 := lt_of_le_of_ne hH.1.2 fun h => hH.2.2.2.1 h hx₀
      have : 1 < 1 / keep (layersOf sh p) (fun L => L.ph) a x₀ := (one_lt_div hH.1.1).2 this
      linarith
    have hd := Ring.decay hok hθ x₀ hg hk hreach
      ((run (layersOf sh p) dt dxes eps mu J e₀ h₀ N).e c, (run (layersOf sh p) dt dxes eps mu J e₀ h₀ N).h (other a c))
    refine hd.congr fun n => ?_
    rw [← ht, Nat.add_comm]
  constructor
  · exact ((continuous_apply x).tendsto _).comp ((continuous_fst.tendsto _).comp (key c hc))
  · have := ((continuous_apply x).tendsto _).comp ((continuous_snd.tendsto _).comp (key (other a c) (other_ne a c)))
    rw [other_other hc] at this
    exact this

/-- The hypotheses are met: 20 cells with the default layers of 8 cells at both ends, `epsilon = 2`, half of the Courant limit or less. -/
example : ∃ (p : Fin 3 → Fin 2 → Option CpmlDict) (D : CpmlDict), PlainParams ![20, 1, 1] 0 p ∧ p 0 0 = some D ∧
    Courant1 (sh := ![20, 1, 1]) 0 (fun _ _ => 1, fun _ _ => 1) (fun _ _ => 2) (fun _ _ => 1) (1 / 2) 1 2 1 (1 / 2) := by
  have hg : ∀ q : ℤ, GoodArgs { axis := 0, polarity := q, dt := 1 / 2 } := fun q =>
    ⟨by norm_num, by norm_num, by norm_num, by norm_num, by norm_num, by norm_num⟩
  obtain ⟨D0, h0⟩ := (C19_accepts { axis := 0, polarity := -1, dt := 1 / 2 }).2 ⟨by norm_num, by norm_num, by norm_num, by norm_num⟩
  obtain ⟨D1, h1⟩ := (C19_accepts { axis := 0, polarity := 1, dt := 1 / 2 }).2 ⟨by norm_num, by norm_num, by norm_num, by norm_num⟩
  have t0 : (D0.t : ℤ) = 8 := (cpmlParams_ok h0).2.2.2.2.2.1
  have t1 : (D1.t : ℤ) = 8 := (cpmlParams_ok h1).2.2.2.2.2.1
  refine ⟨fun a pp => if a = 0 then some (if pp = 0 then D0 else D1) else none, D0, ⟨?_, ?_, ?_, ?_⟩, rfl, ?_⟩
  · intro b hb; fin_cases b
    · exact absurd rfl hb
    · rfl
    · rfl
  · intro b hb pp; rw [if_neg hb]
  · intro pp D hD
    rw [if_pos rfl, Option.some.injEq] at hD
    have : pp = 0 ∨ pp = 1 := by omega
    rcases this with rfl | rfl
    · rw [if_pos rfl] at hD; subst hD
      exact ⟨_, hg _, h0, rfl, by norm_num, rfl, by norm_num⟩
    · rw [if_neg (by decide)] at hD; subst hD
      exact ⟨_, hg _, h1, rfl, by norm_num, rfl, by norm_num⟩
  · intro E0 E1 e0 e1
    rw [if_pos rfl, if_pos rfl, Option.some.injEq] at e0
    rw [if_pos rfl, if_neg (by decide), Option.some.injEq] at e1
    subst e0 e1
    show D0.t + D1.t ≤ 20
    omega
  · exact ⟨by norm_num, by norm_num, by norm_num, by norm_num, fun _ => le_rfl, fun _ _ => le_rfl, fun _ _ => le_rfl, by norm_num, by norm_num⟩

end Meanas.Props
