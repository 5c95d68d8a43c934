/-
C20, C21: the updates built by updates_with_cpml (meanas/fdtd/pml.py:96-230).
-/
import Verif.Model.Pml
import Verif.Lemmas.Fdtd
import Verif.Props.FdtdPmlParams

namespace Meanas.Props

open Fdtd Functional

variable {sh : Fin 3 → ℕ} {K : Type*} [Field K]

/-! ### C20 -/

/-- All six `cpml_params` entries are `None`. -/
def noLayers : Layers sh K := fun _ _ => none

theorem loop_noLayers (par : {n : ℕ} → Layer n K → Fin n → K × K × K) (s : LoopState sh K) :
    cpmlLoop noLayers par s = s := rfl

/-- C20 (E part): without layers, `update_E` is `maxwell_e(dt, dxes)`. -/
theorem C20_update_e (dt : K) (dxes : Dxes sh K) (psi : Psi sh K) (e h eps : VField sh K) :
    cpmlUpdateE noLayers dt dxes psi e h eps = (maxwellE dt (some dxes) e h eps, psi) := by
  unfold cpmlUpdateE
  rw [loop_noLayers]
  refine Prod.ext ?_ rfl
  funext c
  revert c
  refine forall_fin3 ?_ ?_ ?_ <;> funext x <;> simp [maxwellE_eq] <;> ring

/-- C20 (H part). The claim holds on grids with `dx_e = dx_h`; missing: `dx_e ≠ dx_h`, for which it is false
(`C20_update_h_wrong_lattice_partial`). -/
theorem C20_update_h_partial (dt : K) (dxes : Dxes sh K) (hd : dxes.1 = dxes.2) (psi : Psi sh K) (e h mu : VField sh K) :
    cpmlUpdateH noLayers dt dxes psi e h mu = (maxwellH dt (some dxes) e h (some mu), psi) := by
  unfold cpmlUpdateH
  rw [loop_noLayers]
  refine Prod.ext ?_ rfl
  funext c
  revert c
  refine forall_fin3 ?_ ?_ ?_ <;> funext x <;> simp [maxwellH_eq, muOr, hd] <;> ring

/-- C20 (what `update_H` computes on every grid): `maxwell_h` built from the *H-lattice* widths. -/
theorem C20_update_h_actual (dt : K) (dxes : Dxes sh K) (psi : Psi sh K) (e h mu : VField sh K) :
    cpmlUpdateH noLayers dt dxes psi e h mu = (maxwellH dt (some (dxes.2, dxes.2)) e h (some mu), psi) := by
  unfold cpmlUpdateH
  rw [loop_noLayers]
  refine Prod.ext ?_ rfl
  funext c
  revert c
  refine forall_fin3 ?_ ?_ ?_ <;> funext x <;> simp [maxwellH_eq, muOr] <;> ring

/-- C20: the claim fails on a grid with `dx_e ≠ dx_h` (pml.py:106 uses `dxes[1]` for the forward derivatives). Grid of
2×1×1 cells, all E widths 1, all H widths 2. -/
theorem C20_update_h_wrong_lattice_partial :
    ∃ (dxes : Dxes ![2, 1, 1] ℚ) (psi : Psi ![2, 1, 1] ℚ) (e h mu : VField ![2, 1, 1] ℚ),
      (∀ a i, 0 < dxes.1 a i ∧ 0 < dxes.2 a i) ∧
      (cpmlUpdateH noLayers 1 dxes psi e h mu).1 ≠ maxwellH 1 (some dxes) e h (some mu) := by
  refine ⟨(fun _ _ => 1, fun _ _ => 2), psiZero, fun c x => if c = 1 ∧ (x 0 : ℕ) = 0 then 1 else 0,
    fun _ _ => 0, fun _ _ => 1, fun a i => by norm_num, ?_⟩
  intro h
  have h2 := congrFun (congrFun h 2) (fun a => ⟨0, by fin_cases a <;> decide⟩)
  revert h2
  decide +kernel

/-! ### C21 -/

/-- Parameters of layer `(a, pp)` at `x`, if there is such a layer and `x` lies in it. -/
def layerAt (layers : Layers sh K) (par : {n : ℕ} → Layer n K → Fin n → K × K × K) (a : Fin 3) (pp : Fin 2) (x : Idx sh) :
    Option (K × K × K) :=
  match layers a pp with
  | some L => if L.reg (x a) then some (par L (x a)) else none
  | none => none

/-- The two layers on one axis do not overlap. -/
def DisjointLayers (layers : Layers sh K) : Prop :=
  ∀ a L0 L1, layers a 0 = some L0 → layers a 1 = some L1 → ∀ i, ¬ (L0.reg i = true ∧ L1.reg i = true)

omit [Field K] in
theorem layerAt_disjoint {layers : Layers sh K} (h : DisjointLayers layers)
    (par : {n : ℕ} → Layer n K → Fin n → K × K × K) (a : Fin 3) (x : Idx sh) :
    layerAt layers par a 0 x = none ∨ layerAt layers par a 1 x = none := by
  unfold layerAt
  cases h0 : layers a 0 with
  | none => exact Or.inl rfl
  | some L0 =>
    cases h1 : layers a 1 with
    | none => exact Or.inr rfl
    | some L1 =>
      have := h a L0 L1 h0 h1 (x a)
      by_cases q0 : L0.reg (x a) = true
      · right; simp [show L1.reg (x a) = false by simpa using fun q1 => this ⟨q0, q1⟩]
      · left; simp [q0]

/-- The auxiliary field of layer `(a, pp)` that belongs to the derivative along `a` of field component `c`. -/
def auxOf (psi : Psi sh K) (a : Fin 3) (pp : Fin 2) (c : Fin 3) : Arr sh K :=
  if c = (transverse a).2 then (psi a pp).1 else (psi a pp).2

/-- `derivative/kappa + auxiliary field` inside layer `(a, pp)`; the plain derivative outside of both layers of the
axis. `psi` are the auxiliary fields *after* the update. -/
def stretched (layers : Layers sh K) (par : {n : ℕ} → Layer n K → Fin n → K × K × K) (psi : Psi sh K) (a c : Fin 3)
    (d : Arr sh K) (x : Idx sh) : K :=
  match layerAt layers par a 0 x with
  | some p => p.2.2 * d x + auxOf psi a 0 c x
  | none =>
    match layerAt layers par a 1 x with
    | some p => p.2.2 * d x + auxOf psi a 1 c x
    | none => d x

/-- scaled derivative -/
private def sc (o : Option (K × K × K)) (d : K) : K := match o with
  | some p => d * p.2.2
  | none => d
/-- new auxiliary value -/
private def ps (o : Option (K × K × K)) (old d : K) : K := match o with
  | some p => old * p.1 + p.2.1 * d
  | none => old
/-- contribution to pE -/
private def inc (o : Option (K × K × K)) (old d : K) : K := match o with
  | some p => old * p.1 + p.2.1 * d
  | none => 0

section
variable (layers : Layers sh K) (par : {n : ℕ} → Layer n K → Fin n → K × K × K) (s : LoopState sh K) (x : Idx sh)

private theorem transverse_ne (a : Fin 3) :
    (transverse a).1 ≠ a ∧ (transverse a).2 ≠ a ∧ (transverse a).1 ≠ (transverse a).2 := by
  revert a; decide

private theorem transverse_cases (a c : Fin 3) : c = a ∨ c = (transverse a).1 ∨ c = (transverse a).2 := by
  revert a c; decide

private theorem ls_D (a : Fin 3) (pp : Fin 2) (b c : Fin 3) :
    (layerStep layers par a pp s).D b c x =
      if b = a ∧ c ≠ a then sc (layerAt layers par a pp x) (s.D b c x) else s.D b c x := by
  obtain ⟨n1, n2, n3⟩ := transverse_ne a
  unfold layerStep layerAt sc
  cases layers a pp with
  | none => simp
  | some L =>
    by_cases hb : b = a
    · subst hb
      simp only [Function.update_self, true_and]
      rcases transverse_cases b c with h | h | h <;> subst h
      · simp [Function.update_of_ne n1.symm, Function.update_of_ne n2.symm]
      · simp only [Function.update_of_ne n3, Function.update_self, ne_eq, n1, not_false_eq_true, if_true, onRegion]
        by_cases hr : L.reg (x b) = true <;> simp [hr]
      · simp only [Function.update_self, ne_eq, n2, not_false_eq_true, if_true, onRegion]
        by_cases hr : L.reg (x b) = true <;> simp [hr]
    · simp [hb]

private theorem ls_psi (a : Fin 3) (pp : Fin 2) (b : Fin 3) (qq : Fin 2) (c : Fin 3) (hc : c ≠ b) :
    auxOf (layerStep layers par a pp s).psi b qq c x =
      if b = a ∧ qq = pp then
        ps (layerAt layers par a pp x) (auxOf s.psi b qq c x) (sc (layerAt layers par a pp x) (s.D b c x))
      else auxOf s.psi b qq c x := by
  obtain ⟨n1, n2, n3⟩ := transverse_ne a
  unfold layerStep layerAt ps sc
  cases layers a pp with
  | none => simp
  | some L =>
    by_cases hb : b = a
    · subst hb
      by_cases hq : qq = pp
      · subst hq
        rcases transverse_cases b c with h | h | h
        · exact absurd h hc
        · subst h
          by_cases hr : L.reg (x b) = true <;> simp [hr, auxOf, onRegion, n3]
        · subst h
          by_cases hr : L.reg (x b) = true <;> simp [hr, auxOf, onRegion]
      · simp [hq, auxOf]
    · simp [hb, auxOf]

private theorem ls_p (a : Fin 3) (pp : Fin 2) (c : Fin 3) :
    (layerStep layers par a pp s).p c x = s.p c x +
      (if c = (transverse a).1 then seSign a * inc (layerAt layers par a pp x) (auxOf s.psi a pp (transverse a).2 x)
          (sc (layerAt layers par a pp x) (s.D a (transverse a).2 x))
       else if c = (transverse a).2 then
        -seSign a * inc (layerAt layers par a pp x) (auxOf s.psi a pp (transverse a).1 x)
          (sc (layerAt layers par a pp x) (s.D a (transverse a).1 x))
       else 0) := by
  obtain ⟨n1, n2, n3⟩ := transverse_ne a
  unfold layerStep layerAt inc sc
  cases layers a pp with
  | none => simp
  | some L =>
    by_cases h1 : c = (transverse a).1
    · subst h1
      by_cases hr : L.reg (x a) = true <;> simp [hr, auxOf, onRegion]
    · by_cases h2 : c = (transverse a).2
      · subst h2
        by_cases hr : L.reg (x a) = true <;> simp [hr, auxOf, onRegion, n3, n3.symm]
      · simp [h1, h2]

/-- Derivatives after the loop. -/
private theorem loop_D (b c : Fin 3) (hc : c ≠ b) :
    (cpmlLoop layers par s).D b c x = sc (layerAt layers par b 1 x) (sc (layerAt layers par b 0 x) (s.D b c x)) := by
  unfold cpmlLoop
  simp only [List.foldl, ls_D]
  fin_cases b <;> simp_all

private theorem loop_psi (b : Fin 3) (qq : Fin 2) (c : Fin 3) (hc : c ≠ b) :
    auxOf (cpmlLoop layers par s).psi b qq c x = ps (layerAt layers par b qq x) (auxOf s.psi b qq c x)
      (sc (layerAt layers par b qq x) (if qq = 0 then s.D b c x else sc (layerAt layers par b 0 x) (s.D b c x))) := by
  unfold cpmlLoop
  simp only [List.foldl, ls_psi _ _ _ _ _ _ _ _ _ hc, ls_D]
  fin_cases b <;> fin_cases qq <;> simp_all

end

/-- C21 (auxiliary fields, E side): one call of `update_E` multiplies the auxiliary field by `p0` and adds
`p1 * p2 * derivative`, in every cell of the layer. -/
theorem C21_recursion_e (layers : Layers sh K) (hd : DisjointLayers layers) (dt : K) (dxes : Dxes sh K) (psi : Psi sh K)
    (e h eps : VField sh K) (a c : Fin 3) (hc : c ≠ a) (pp : Fin 2) (L : Layer (sh a) K) (hL : layers a pp = some L)
    (x : Idx sh) (hx : L.reg (x a) = true) :
    auxOf (cpmlUpdateE layers dt dxes psi e h eps).2 a pp c x =
      (L.pe (x a)).1 * auxOf psi a pp c x
        + (L.pe (x a)).2.1 * ((L.pe (x a)).2.2 * ((h c x - h c (shiftIdx a (-1) x)) / dxes.2 a (x a))) := by
  have hl : layerAt layers (fun L => L.pe) a pp x = some (L.pe (x a)) := by simp [layerAt, hL, hx]
  have h0 : pp ≠ 0 → layerAt layers (fun L => L.pe) a 0 x = none := by
    intro hp
    have : pp = 1 := by omega
    subst this
    rcases layerAt_disjoint hd (fun L => L.pe) a x with q | q
    · exact q
    · rw [hl] at q; cases q
  unfold cpmlUpdateE
  rw [loop_psi _ _ _ _ _ _ _ hc, hl]
  have e1 : derivBack (some dxes.2) a (h c) x = (h c x - h c (shiftIdx a (-1) x)) / dxes.2 a (x a) := by
    rw [derivBack_eq]; rfl
  by_cases hp : pp = 0
  · simp only [hp, if_true, ps, sc, e1]; ring
  · simp only [hp, if_false, h0 hp, ps, sc, e1]; ring

/-- C21 (auxiliary fields, H side), with the derivative widths the code uses. -/
theorem C21_recursion_h (layers : Layers sh K) (hd : DisjointLayers layers) (dt : K) (dxes : Dxes sh K) (psi : Psi sh K)
    (e h mu : VField sh K) (a c : Fin 3) (hc : c ≠ a) (pp : Fin 2) (L : Layer (sh a) K) (hL : layers a pp = some L)
    (x : Idx sh) (hx : L.reg (x a) = true) :
    auxOf (cpmlUpdateH layers dt dxes psi e h mu).2 a pp c x =
      (L.ph (x a)).1 * auxOf psi a pp c x
        + (L.ph (x a)).2.1 * ((L.ph (x a)).2.2 * ((e c (shiftIdx a 1 x) - e c x) / dxes.2 a (x a))) := by
  have hl : layerAt layers (fun L => L.ph) a pp x = some (L.ph (x a)) := by simp [layerAt, hL, hx]
  have h0 : pp ≠ 0 → layerAt layers (fun L => L.ph) a 0 x = none := by
    intro hp
    have : pp = 1 := by omega
    subst this
    rcases layerAt_disjoint hd (fun L => L.ph) a x with q | q
    · exact q
    · rw [hl] at q; cases q
  unfold cpmlUpdateH
  rw [loop_psi _ _ _ _ _ _ _ hc, hl]
  have e1 : derivForward (some dxes.2) a (e c) x = (e c (shiftIdx a 1 x) - e c x) / dxes.2 a (x a) := by
    rw [derivForward_eq]; rfl
  by_cases hp : pp = 0
  · simp only [hp, if_true, ps, sc, e1]; ring
  · simp only [hp, if_false, h0 hp, ps, sc, e1]; ring

/-- Outside of its layer an auxiliary field is left alone. -/
theorem psi_outside (layers : Layers sh K) (dt : K) (dxes : Dxes sh K) (psi : Psi sh K) (e h m : VField sh K) (a c : Fin 3) (hc : c ≠ a)
    (pp : Fin 2) (x : Idx sh) :
    (layerAt layers (fun L => L.pe) a pp x = none → auxOf (cpmlUpdateE layers dt dxes psi e h m).2 a pp c x = auxOf psi a pp c x) ∧
    (layerAt layers (fun L => L.ph) a pp x = none → auxOf (cpmlUpdateH layers dt dxes psi e h m).2 a pp c x = auxOf psi a pp c x) := by
  constructor <;> intro hx
  · unfold cpmlUpdateE
    rw [loop_psi _ _ _ _ _ _ _ hc, hx]
    rfl
  · unfold cpmlUpdateH
    rw [loop_psi _ _ _ _ _ _ _ hc, hx]
    rfl

/-- The auxiliary fields after `n` calls of `update_E` with arbitrary arguments. -/
def psiEAfter (layers : Layers sh K) (dt : K) (dxes : Dxes sh K) (es hs eps : ℕ → VField sh K) : ℕ → Psi sh K
  | 0 => psiZero
  | n + 1 => (cpmlUpdateE layers dt dxes (psiEAfter layers dt dxes es hs eps n) (es n) (hs n) (eps n)).2

/-- The auxiliary fields after `n` calls of `update_H` with arbitrary arguments. -/
def psiHAfter (layers : Layers sh K) (dt : K) (dxes : Dxes sh K) (es hs mu : ℕ → VField sh K) : ℕ → Psi sh K
  | 0 => psiZero
  | n + 1 => (cpmlUpdateH layers dt dxes (psiHAfter layers dt dxes es hs mu n) (es n) (hs n) (mu n)).2

private theorem geom_step {p q : K} {f g : ℕ → K} (h0 : f 0 = 0) (hs : ∀ n, f (n + 1) = p * f n + q * g n) (n : ℕ) :
    f n = ∑ k ∈ Finset.range n, p ^ (n - 1 - k) * q * g k := by
  induction n with
  | zero => simp [h0]
  | succ n ih =>
    rw [hs, ih, Finset.sum_range_succ, Finset.mul_sum]
    congr 1
    · refine Finset.sum_congr rfl fun k hk => ?_
      have hk' := Finset.mem_range.1 hk
      rw [show n + 1 - 1 - k = (n - 1 - k) + 1 by omega, pow_succ]; ring
    · simp

private theorem auxOf_zero (a : Fin 3) (pp : Fin 2) (c : Fin 3) (x : Idx sh) :
    auxOf (psiZero : Psi sh K) a pp c x = 0 := by
  unfold auxOf psiZero; split_ifs <;> rfl

/-- C21 (convolution, E side): after any history of calls, each auxiliary field is the exponentially weighted sum
of the past scaled derivatives. -/
theorem C21_convolution_e (layers : Layers sh K) (hd : DisjointLayers layers) (dt : K) (dxes : Dxes sh K)
    (es hs eps : ℕ → VField sh K) (a c : Fin 3) (hc : c ≠ a) (pp : Fin 2) (L : Layer (sh a) K)
    (hL : layers a pp = some L) (x : Idx sh) (hx : L.reg (x a) = true) (n : ℕ) :
    auxOf (psiEAfter layers dt dxes es hs eps n) a pp c x =
      ∑ k ∈ Finset.range n, (L.pe (x a)).1 ^ (n - 1 - k) * ((L.pe (x a)).2.1 * (L.pe (x a)).2.2)
        * ((hs k c x - hs k c (shiftIdx a (-1) x)) / dxes.2 a (x a)) := by
  refine geom_step (f := fun n => auxOf (psiEAfter layers dt dxes es hs eps n) a pp c x) (auxOf_zero _ _ _ _) ?_ n
  intro m
  show auxOf (cpmlUpdateE _ _ _ _ _ _ _).2 _ _ _ _ = _
  rw [C21_recursion_e layers hd dt dxes _ _ _ _ a c hc pp L hL x hx]; ring

/-- C21 (convolution, H side). -/
theorem C21_convolution_h (layers : Layers sh K) (hd : DisjointLayers layers) (dt : K) (dxes : Dxes sh K)
    (es hs mu : ℕ → VField sh K) (a c : Fin 3) (hc : c ≠ a) (pp : Fin 2) (L : Layer (sh a) K)
    (hL : layers a pp = some L) (x : Idx sh) (hx : L.reg (x a) = true) (n : ℕ) :
    auxOf (psiHAfter layers dt dxes es hs mu n) a pp c x =
      ∑ k ∈ Finset.range n, (L.ph (x a)).1 ^ (n - 1 - k) * ((L.ph (x a)).2.1 * (L.ph (x a)).2.2)
        * ((es k c (shiftIdx a 1 x) - es k c x) / dxes.2 a (x a)) := by
  refine geom_step (f := fun n => auxOf (psiHAfter layers dt dxes es hs mu n) a pp c x) (auxOf_zero _ _ _ _) ?_ n
  intro m
  show auxOf (cpmlUpdateH _ _ _ _ _ _ _).2 _ _ _ _ = _
  rw [C21_recursion_h layers hd dt dxes _ _ _ _ a c hc pp L hL x hx]; ring

section
variable (layers : Layers sh K) (par : {n : ℕ} → Layer n K → Fin n → K × K × K) (s : LoopState sh K) (x : Idx sh)

/-- `pE` after the loop. -/
private theorem loop_p (hs : ∀ c, s.p c x = 0) :
    let q (a c : Fin 3) : K :=
      inc (layerAt layers par a 0 x) (auxOf s.psi a 0 c x) (sc (layerAt layers par a 0 x) (s.D a c x)) +
      inc (layerAt layers par a 1 x) (auxOf s.psi a 1 c x)
        (sc (layerAt layers par a 1 x) (sc (layerAt layers par a 0 x) (s.D a c x)))
    (cpmlLoop layers par s).p 0 x = q 1 2 - q 2 1 ∧ (cpmlLoop layers par s).p 1 x = q 2 0 - q 0 2 ∧
      (cpmlLoop layers par s).p 2 x = q 0 1 - q 1 0 := by
  intro q
  unfold cpmlLoop
  have t0 : transverse 0 = (1, 2) := rfl
  have t1 : transverse 1 = (0, 2) := rfl
  have t2 : transverse 2 = (0, 1) := rfl
  have a0 : ∀ s' : LoopState sh K, ∀ a pp b qq c, c ≠ b → _ := fun s' a pp b qq c hc => ls_psi layers par s' x a pp b qq c hc
  refine ⟨?_, ?_, ?_⟩ <;>
  · simp only [List.foldl, ls_p, t0, t1, t2, hs, ls_D]
    simp [a0, q, seSign]
    ring

/-- Curl component after the loop. -/
private theorem loop_curl (hd : DisjointLayers layers) (a c : Fin 3) (hc : c ≠ a) :
    (cpmlLoop layers par s).D a c x +
      (inc (layerAt layers par a 0 x) (auxOf s.psi a 0 c x) (sc (layerAt layers par a 0 x) (s.D a c x)) +
        inc (layerAt layers par a 1 x) (auxOf s.psi a 1 c x)
        (sc (layerAt layers par a 1 x) (sc (layerAt layers par a 0 x) (s.D a c x))))
      = stretched layers par (cpmlLoop layers par s).psi a c (s.D a c) x := by
  unfold stretched
  rw [loop_D _ _ _ _ _ _ hc]
  rcases layerAt_disjoint hd par a x with h | h <;> rw [h]
  · cases h1 : layerAt layers par a 1 x with
    | none => simp [sc, inc]
    | some p =>
      simp only [loop_psi _ _ _ _ _ _ _ hc, h, h1, sc, inc, ps, one_ne_zero, if_false]; ring
  · cases h1 : layerAt layers par a 0 x with
    | none => simp [sc, inc]
    | some p =>
      simp only [loop_psi _ _ _ _ _ _ _ hc, h1, sc, inc, ps, if_true]; ring

end

/-- C21 (E update): each derivative along an axis is replaced by `derivative/kappa + auxiliary field` inside the layer of
that axis, and is left alone elsewhere. -/
theorem C21_update_e (layers : Layers sh K) (hd : DisjointLayers layers) (dt : K) (dxes : Dxes sh K) (psi : Psi sh K)
    (e h eps : VField sh K) (x : Idx sh) :
    let r := cpmlUpdateE layers dt dxes psi e h eps
    let D (a c : Fin 3) : K := stretched layers (fun L => L.pe) r.2 a c
      (fun y => (h c y - h c (shiftIdx a (-1) y)) / dxes.2 a (y a)) x
    r.1 0 x = e 0 x + dt / eps 0 x * (D 1 2 - D 2 1) ∧
    r.1 1 x = e 1 x + dt / eps 1 x * (D 2 0 - D 0 2) ∧
    r.1 2 x = e 2 x + dt / eps 2 x * (D 0 1 - D 1 0) := by
  intro r D
  let s : LoopState sh K := { D := fun a c => derivBack (some dxes.2) a (h c), psi := psi, p := fun _ _ => 0 }
  obtain ⟨p0, p1, p2⟩ := loop_p layers (fun L => L.pe) s x (fun _ => rfl)
  have hD : ∀ a c, c ≠ a → D a c = _ := fun a c hc => (loop_curl layers (fun L => L.pe) s x hd a c hc).symm
  rw [hD 1 2 (by decide), hD 2 1 (by decide), hD 2 0 (by decide), hD 0 2 (by decide), hD 0 1 (by decide),
    hD 1 0 (by decide)]
  refine ⟨?_, ?_, ?_⟩
  · show e 0 x + dt / eps 0 x * ((cpmlLoop layers (fun L => L.pe) s).D 1 2 x - (cpmlLoop layers (fun L => L.pe) s).D 2 1 x
      + (cpmlLoop layers (fun L => L.pe) s).p 0 x) = _
    rw [p0]; ring
  · show e 1 x + dt / eps 1 x * ((cpmlLoop layers (fun L => L.pe) s).D 2 0 x - (cpmlLoop layers (fun L => L.pe) s).D 0 2 x
      + (cpmlLoop layers (fun L => L.pe) s).p 1 x) = _
    rw [p1]; ring
  · show e 2 x + dt / eps 2 x * ((cpmlLoop layers (fun L => L.pe) s).D 0 1 x - (cpmlLoop layers (fun L => L.pe) s).D 1 0 x
      + (cpmlLoop layers (fun L => L.pe) s).p 2 x) = _
    rw [p2]; ring

/-- C21 (H update), with the derivative widths the code uses. -/
theorem C21_update_h (layers : Layers sh K) (hd : DisjointLayers layers) (dt : K) (dxes : Dxes sh K) (psi : Psi sh K)
    (e h mu : VField sh K) (x : Idx sh) :
    let r := cpmlUpdateH layers dt dxes psi e h mu
    let D (a c : Fin 3) : K := stretched layers (fun L => L.ph) r.2 a c
      (fun y => (e c (shiftIdx a 1 y) - e c y) / dxes.2 a (y a)) x
    r.1 0 x = h 0 x - dt / mu 0 x * (D 1 2 - D 2 1) ∧
    r.1 1 x = h 1 x - dt / mu 1 x * (D 2 0 - D 0 2) ∧
    r.1 2 x = h 2 x - dt / mu 2 x * (D 0 1 - D 1 0) := by
  intro r D
  let s : LoopState sh K := { D := fun a c => derivForward (some dxes.2) a (e c), psi := psi, p := fun _ _ => 0 }
  obtain ⟨p0, p1, p2⟩ := loop_p layers (fun L => L.ph) s x (fun _ => rfl)
  have e1 : ∀ a c, (fun y => (e c (shiftIdx a 1 y) - e c y) / dxes.2 a (y a)) = s.D a c := by
    intro a c; funext y; simp only [s]; rw [derivForward_eq]; try rfl
  have hD : ∀ a c, c ≠ a → D a c = _ := fun a c hc =>
    (show D a c = stretched layers (fun L => L.ph) r.2 a c (s.D a c) x by simp only [D]; rw [e1]).trans
      (loop_curl layers (fun L => L.ph) s x hd a c hc).symm
  rw [hD 1 2 (by decide), hD 2 1 (by decide), hD 2 0 (by decide), hD 0 2 (by decide), hD 0 1 (by decide),
    hD 1 0 (by decide)]
  refine ⟨?_, ?_, ?_⟩
  · show h 0 x - dt / mu 0 x * ((cpmlLoop layers (fun L => L.ph) s).D 1 2 x - (cpmlLoop layers (fun L => L.ph) s).D 2 1 x
      + (cpmlLoop layers (fun L => L.ph) s).p 0 x) = _
    rw [p0]; ring
  · show h 1 x - dt / mu 1 x * ((cpmlLoop layers (fun L => L.ph) s).D 2 0 x - (cpmlLoop layers (fun L => L.ph) s).D 0 2 x
      + (cpmlLoop layers (fun L => L.ph) s).p 1 x) = _
    rw [p1]; ring
  · show h 2 x - dt / mu 2 x * ((cpmlLoop layers (fun L => L.ph) s).D 0 1 x - (cpmlLoop layers (fun L => L.ph) s).D 1 0 x
      + (cpmlLoop layers (fun L => L.ph) s).p 2 x) = _
    rw [p2]; ring

/-- `x` lies in no layer. -/
def OutsideLayers (layers : Layers sh K) (x : Idx sh) : Prop :=
  ∀ a pp L, layers a pp = some L → L.reg (x a) = false

omit [Field K] in
theorem layerAt_outside {layers : Layers sh K} {x : Idx sh} (h : OutsideLayers layers x)
    (par : {n : ℕ} → Layer n K → Fin n → K × K × K) (a : Fin 3) (pp : Fin 2) : layerAt layers par a pp x = none := by
  unfold layerAt
  cases hL : layers a pp with
  | none => rfl
  | some L => simp [h a pp L hL]

theorem loop_outside (layers : Layers sh K) (par : {n : ℕ} → Layer n K → Fin n → K × K × K) (s : LoopState sh K) (x : Idx sh)
    (h : OutsideLayers layers x) (hs : ∀ c, s.p c x = 0) :
    (∀ a c, c ≠ a → (cpmlLoop layers par s).D a c x = s.D a c x) ∧ ∀ c, (cpmlLoop layers par s).p c x = 0 := by
  constructor
  · intro a c hc
    rw [loop_D _ _ _ _ _ _ hc, layerAt_outside h, layerAt_outside h]; rfl
  · obtain ⟨p0, p1, p2⟩ := loop_p layers par s x hs
    refine forall_fin3 ?_ ?_ ?_
    · rw [p0]; simp [layerAt_outside h, inc]
    · rw [p1]; simp [layerAt_outside h, inc]
    · rw [p2]; simp [layerAt_outside h, inc]

/-- C21 (confinement): cells outside all layers are updated as if there were no PML, whatever the auxiliary fields. -/
theorem C21_outside (layers : Layers sh K) (dt : K) (dxes : Dxes sh K) (psi psi' : Psi sh K) (e h m : VField sh K)
    (x : Idx sh) (hx : OutsideLayers layers x) (c : Fin 3) :
    (cpmlUpdateE layers dt dxes psi e h m).1 c x = (cpmlUpdateE noLayers dt dxes psi' e h m).1 c x ∧
    (cpmlUpdateH layers dt dxes psi e h m).1 c x = (cpmlUpdateH noLayers dt dxes psi' e h m).1 c x := by
  unfold cpmlUpdateE cpmlUpdateH
  simp only [loop_noLayers]
  revert c
  refine forall_fin3 ?_ ?_ ?_
  all_goals
    constructor
    · obtain ⟨hD, hp⟩ := loop_outside layers (fun L => L.pe)
        { D := fun a c => derivBack (some dxes.2) a (h c), psi := psi, p := fun _ _ => 0 } x hx (fun _ => rfl)
      simp [hD, hp]
    · obtain ⟨hD, hp⟩ := loop_outside layers (fun L => L.ph)
        { D := fun a c => derivForward (some dxes.2) a (e c), psi := psi, p := fun _ _ => 0 } x hx (fun _ => rfl)
      simp [hD, hp]

/-- The layers made from `cpml_params` dictionaries. -/
noncomputable def layersOf (sh : Fin 3 → ℕ) (p : Fin 3 → Fin 2 → Option CpmlDict) : Layers sh ℝ :=
  fun a pp => (p a pp).map fun D => layerOf D (sh a)

/-- `DisjointLayers` is what `cpml_params` gives when the two thicknesses on an axis fit into the grid: so the
theorems above apply to the layers users build. -/
theorem C21_disjoint_layers (sh : Fin 3 → ℕ) (p : Fin 3 → Fin 2 → Option CpmlDict)
    (hlow : ∀ a D, p a 0 = some D → D.low = true) (hhigh : ∀ a D, p a 1 = some D → D.low = false)
    (hfit : ∀ a D0 D1, p a 0 = some D0 → p a 1 = some D1 → D0.t + D1.t ≤ sh a) :
    DisjointLayers (layersOf sh p) := by
  intro a L0 L1 h0 h1 i
  unfold layersOf at h0 h1
  cases q0 : p a 0 with
  | none => rw [q0] at h0; cases h0
  | some D0 =>
    cases q1 : p a 1 with
    | none => rw [q1] at h1; cases h1
    | some D1 =>
      rw [q0] at h0; rw [q1] at h1
      cases h0; cases h1
      have := hfit a D0 D1 q0 q1
      simp only [layerOf, hlow a D0 q0, hhigh a D1 q1, if_true, if_false, Bool.false_eq_true, decide_eq_true_eq]
      omega

/-- C21 (confinement, in terms of the arguments of `cpml_params`): a cell that is at least `thickness` cells away from
every wall that carries a layer is updated as if there were no PML. `args a pp` are the arguments of the call whose result
is passed as `cpml_params[a][pp]`. -/
theorem C21_interior (sh : Fin 3 → ℕ) (args : Fin 3 → Fin 2 → Option CpmlArgs) (p : Fin 3 → Fin 2 → Option CpmlDict)
    (hp : ∀ a pp, match args a pp with
      | none => p a pp = none
      | some A => ∃ D, cpmlParams A = .ok D ∧ p a pp = some D ∧ A.polarity = (if pp = 0 then -1 else 1) ∧ A.thickness ≤ sh a)
    (dt : ℝ) (dxes : Dxes sh ℝ) (psi psi' : Psi sh ℝ) (e h m : VField sh ℝ) (x : Idx sh)
    (hlow : ∀ a A, args a 0 = some A → A.thickness ≤ (x a : ℕ))
    (hhigh : ∀ a A, args a 1 = some A → A.thickness ≤ (sh a : ℤ) - 1 - (x a : ℕ)) (c : Fin 3) :
    (cpmlUpdateE (layersOf sh p) dt dxes psi e h m).1 c x = (cpmlUpdateE noLayers dt dxes psi' e h m).1 c x ∧
    (cpmlUpdateH (layersOf sh p) dt dxes psi e h m).1 c x = (cpmlUpdateH noLayers dt dxes psi' e h m).1 c x := by
  refine C21_outside _ dt dxes psi psi' e h m x ?_ c
  intro a pp L hL
  have hpa := hp a pp
  cases hA : args a pp with
  | none => rw [hA] at hpa; simp only [layersOf, hpa] at hL; cases hL
  | some A =>
    rw [hA] at hpa
    obtain ⟨D, hD, hpD, hpol, hfit⟩ := hpa
    simp only [layersOf, hpD, Option.map_some, Option.some.injEq] at hL
    rw [← hL]
    have hr := (C19_placement A D hD (sh a) hfit (x a)).1
    have : ¬ (layerOf D (sh a)).reg (x a) = true := by
      rw [hr, hpol]
      by_cases hpp : pp = 0
      · subst hpp
        have := hlow a A hA
        simp only [if_true]; omega
      · have h1 : pp = 1 := by omega
        subst h1
        have := hhigh a A hA
        simp; omega
    simpa using this

-- Non-vacuous: two 4-cell layers from `cpml_params` on a 10-cell axis are disjoint, and each contains cells.
example : ∃ layers : Layers (fun _ => 10) ℝ, DisjointLayers layers ∧
    ∃ L0 L1, layers 0 0 = some L0 ∧ layers 0 1 = some L1 ∧ L0.reg 3 = true ∧ L1.reg 6 = true ∧ L1.reg 5 = false := by
  let A : ℤ → CpmlArgs := fun p => { axis := 0, polarity := p, dt := 1/2, thickness := 4 }
  obtain ⟨D0, h0⟩ := (C19_accepts (A (-1))).2 (by simp [A])
  obtain ⟨D1, h1⟩ := (C19_accepts (A 1)).2 (by simp [A])
  obtain ⟨_, _, _, _, _, t0, l0, _⟩ := cpmlParams_ok h0
  obtain ⟨_, _, _, _, _, t1, l1, _⟩ := cpmlParams_ok h1
  have t0' : D0.t = 4 := Int.ofNat.inj (show (D0.t : ℤ) = (4 : ℕ) from t0)
  have t1' : D1.t = 4 := Int.ofNat.inj (show (D1.t : ℤ) = (4 : ℕ) from t1)
  have l0' : D0.low = true := l0.2 rfl
  have l1' : D1.low = false := by
    have : ¬ D1.low = true := fun q => absurd (l1.1 q) (by simp [A])
    simpa using this
  let p : Fin 3 → Fin 2 → Option CpmlDict := fun a pp => if a = 0 then (if pp = 0 then some D0 else some D1) else none
  refine ⟨layersOf _ p, C21_disjoint_layers _ p ?_ ?_ ?_, layerOf D0 10, layerOf D1 10, rfl, rfl, ?_, ?_, ?_⟩
  · intro a D h; by_cases ha : a = 0 <;> simp [p, ha] at h; rw [← h]; exact l0'
  · intro a D h; by_cases ha : a = 0 <;> simp [p, ha] at h; rw [← h]; exact l1'
  · intro a D E h h'; by_cases ha : a = 0
    · subst ha; simp [p] at h h'; rw [← h, ← h', t0', t1']; norm_num
    · simp [p, ha] at h
  · simp [layerOf, l0', t0']
  · simp [layerOf, l1', t1']
  · simp [layerOf, l1', t1']

end Meanas.Props
