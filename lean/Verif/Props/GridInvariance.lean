/-
C84–C86: invariances of the discretisation: scaling lengths and times, single-cell axes, cyclic shifts
(meanas/fdmath/functional.py, meanas/fdfd/operators.py, meanas/fdtd/base.py, meanas/fdfd/waveguide_2d.py).
-/
import Verif.Props.FdfdSystem
import Verif.Props.FdtdRun

namespace Meanas.Props

open Matrix Complex Fdfd Spec

variable {sh : Fin 3 → ℕ}

/-! ### C84: scale invariance -/

/-- All widths multiplied by `s`. -/
def scaleDx {K : Type*} [Field K] (s : K) (d : Fdtd.Dxes sh K) : Fdtd.Dxes sh K := (fun a i => s * d.1 a i, fun a i => s * d.2 a i)

theorem curlForward_scale {K : Type*} [Field K] (s : K) (dx : DxList sh K) (F : VField sh K) (c : Fin 3) (x : Idx sh) :
    Functional.curlForward (some fun a i => s * dx a i) F c x = s⁻¹ * Functional.curlForward (some dx) F c x := by
  revert c
  refine forall_fin3 ?_ ?_ ?_ <;> simp only [curlForward_0, curlForward_1, curlForward_2, derivForward_eq, wOf_some, div_eq_mul_inv, mul_inv] <;> ring

theorem curlBack_scale {K : Type*} [Field K] (s : K) (dx : DxList sh K) (F : VField sh K) (c : Fin 3) (x : Idx sh) :
    Functional.curlBack (some fun a i => s * dx a i) F c x = s⁻¹ * Functional.curlBack (some dx) F c x := by
  revert c
  refine forall_fin3 ?_ ?_ ?_ <;> simp only [curlBack_0, curlBack_1, curlBack_2, derivBack_eq, wOf_some, div_eq_mul_inv, mul_inv] <;> ring

theorem ext_mulVec {m n : Type*} [Fintype n] [DecidableEq n] {A B : Matrix m n ℂ} (h : ∀ v, A *ᵥ v = B *ᵥ v) : A = B := by
  ext i j
  have := congrFun (h (Pi.single j 1)) i
  simpa using this

theorem curlForwardS_scale (s : ℂ) (d : Dx sh) :
    OperatorsS.curlForward (scaleDx s d).1 = s⁻¹ • OperatorsS.curlForward d.1 := by
  refine ext_mulVec fun v => ?_
  rw [smul_mulVec, Fdfd.curlForward_mulVec, Fdfd.curlForward_mulVec]
  funext p
  exact curlForward_scale s d.1 (unS v) p.1 p.2

theorem curlBackS_scale (s : ℂ) (d : Dx sh) :
    OperatorsS.curlBack (scaleDx s d).2 = s⁻¹ • OperatorsS.curlBack d.2 := by
  refine ext_mulVec fun v => ?_
  rw [smul_mulVec, Fdfd.curlBack_mulVec, Fdfd.curlBack_mulVec]
  funext p
  exact curlBack_scale s d.2 (unS v) p.1 p.2

/-- C84: enlarging the grid by `s` and the wavelength by `s` divides the wave operator by `s²`. -/
theorem C84_e_full (s ω : ℂ) (hs : s ≠ 0) (dxes : Dx sh) (eps : Vec sh) (mu : Option (Vec sh)) (pec pmc : Option (Pos sh → Bool)) :
    eFull (ω / s) (scaleDx s dxes) eps mu pec pmc = (s ^ 2)⁻¹ • eFull ω dxes eps mu pec pmc := by
  simp only [eFull, curlForwardS_scale, curlBackS_scale, Matrix.smul_mul, Matrix.mul_smul, smul_smul, smul_sub, Matrix.mul_sub, Matrix.sub_mul]
  congr 2
  · rw [pow_two, mul_inv]
  · field_simp

/-- C84 for the magnetic wave operator. -/
theorem C84_h_full (s ω : ℂ) (hs : s ≠ 0) (dxes : Dx sh) (eps : Vec sh) (mu : Option (Vec sh)) (pec pmc : Option (Pos sh → Bool)) :
    hFull (ω / s) (scaleDx s dxes) eps mu pec pmc = (s ^ 2)⁻¹ • hFull ω dxes eps mu pec pmc := by
  simp only [hFull_eq, curlForwardS_scale, curlBackS_scale, Matrix.smul_mul, Matrix.mul_smul, smul_smul, smul_sub, Matrix.mul_sub, Matrix.sub_mul]
  congr 2
  · rw [pow_two, mul_inv]
  · field_simp

/-- C84: the field maps do not change. -/
theorem C84_maps (s ω : ℂ) (hs : s ≠ 0) (dxes : Dx sh) (mu : Option (Vec sh)) (pmc : Option (Pos sh → Bool)) :
    Fdfd.e2h (ω / s) (scaleDx s dxes) mu pmc = Fdfd.e2h ω dxes mu pmc ∧ Fdfd.m2j (ω / s) (scaleDx s dxes) mu = Fdfd.m2j ω dxes mu := by
  have k1 : (1 / (-I * (ω / s))) * s⁻¹ = 1 / (-I * ω) := by
    by_cases h : ω = 0
    · simp [h]
    · have := I_ne_zero; field_simp
  have k2 : (1 / (I * (ω / s))) * s⁻¹ = 1 / (I * ω) := by
    by_cases h : ω = 0
    · simp [h]
    · have := I_ne_zero; field_simp
  constructor
  · simp only [Fdfd.e2h, curlForwardS_scale, smul_smul, k1]
  · simp only [Fdfd.m2j, curlBackS_scale, smul_smul, k2]

/-- C84: solutions correspond: the same fields solve the scaled problem with the current divided by `s`. -/
theorem C84_solution (s ω : ℂ) (hs : s ≠ 0) (dxes : Dx sh) (eps : Vec sh) (mu : Option (Vec sh)) (pec pmc : Option (Pos sh → Bool))
    (E J : Vec sh) :
    eFull (ω / s) (scaleDx s dxes) eps mu pec pmc *ᵥ E = (-I * (ω / s)) • (s⁻¹ • J) ↔
      eFull ω dxes eps mu pec pmc *ᵥ E = (-I * ω) • J := by
  have h2 : s ^ 2 ≠ 0 := pow_ne_zero _ hs
  rw [C84_e_full s ω hs, smul_mulVec, smul_smul, show -I * (ω / s) * s⁻¹ = (s ^ 2)⁻¹ * (-I * ω) by field_simp, ← smul_smul]
  exact smul_right_injective _ (inv_ne_zero h2) |>.eq_iff

/-- C84 for FDTD: with time step and grid scaled together every run gives the same fields. -/
theorem C84_fdtd {K : Type*} [Field K] (s : K) (hs : s ≠ 0) (dt : K) (d : Fdtd.Dxes sh K) (eps : VField sh K) (mu : Option (VField sh K))
    (st : Fdtd.State sh K) (ops : List (Fdtd.Op sh K)) :
    Fdtd.run ⟨s * dt, some (scaleDx s d), eps, mu⟩ st ops = Fdtd.run ⟨dt, some d, eps, mu⟩ st ops := by
  have hstep : ∀ (t : Fdtd.State sh K) (op : Fdtd.Op sh K),
      Fdtd.step ⟨s * dt, some (scaleDx s d), eps, mu⟩ t op = Fdtd.step ⟨dt, some d, eps, mu⟩ t op := by
    intro t op
    cases op with
    | stepE =>
      simp only [Fdtd.step, Fdtd.maxwellE, scaleDx, curlBack_scale]
      congr 1; funext c x; field_simp
    | stepH =>
      cases mu with
      | none => simp only [Fdtd.step, Fdtd.maxwellH, scaleDx, curlForward_scale]; congr 1; funext c x; field_simp
      | some m => simp only [Fdtd.step, Fdtd.maxwellH, scaleDx, curlForward_scale]; congr 1; funext c x; field_simp
    | injJ j => rfl
    | injM m => rfl
  simp only [Fdtd.run]
  induction ops generalizing st with
  | nil => rfl
  | cons op ops ih => rw [List.foldl_cons, List.foldl_cons, hstep, ih]

/-! ### C85: single-cell axes -/

theorem shiftIdx_single {d : ℕ} {sh : Fin d → ℕ} {a : Fin d} (h : sh a = 1) (s : ℤ) (x : Idx sh) : shiftIdx a s x = x := by
  funext b
  by_cases hb : b = a
  · subst hb
    apply Fin.ext
    have h1 := (shiftIdx b s x b).2
    have h2 := (x b).2
    omega
  · exact shiftIdx_of_ne hb s x

/-- C85: differences along a single-cell axis vanish. -/
theorem C85_deriv_zero {d : ℕ} {sh : Fin d → ℕ} {K : Type*} [Field K] (dx : Option (DxList sh K)) (a : Fin d) (h : sh a = 1) (f : Arr sh K)
    (x : Idx sh) : Functional.derivForward dx a f x = 0 ∧ Functional.derivBack dx a f x = 0 := by
  rw [derivForward_eq, derivBack_eq, shiftIdx_single h, shiftIdx_single h, sub_self, zero_div]
  exact ⟨rfl, rfl⟩

/-- Two grids that agree along every axis with more than one cell. -/
def SameActive {K : Type*} (d d' : Fdtd.Dxes sh K) : Prop := ∀ a, sh a ≠ 1 → d.1 a = d'.1 a ∧ d.2 a = d'.2 a

theorem deriv_same {K : Type*} [Field K] {d d' : Fdtd.Dxes sh K} (h : SameActive d d') (a : Fin 3) (f : Arr sh K) :
    Functional.derivForward (some d.1) a f = Functional.derivForward (some d'.1) a f ∧
      Functional.derivBack (some d.2) a f = Functional.derivBack (some d'.2) a f := by
  by_cases ha : sh a = 1
  · constructor <;> funext x
    · rw [(C85_deriv_zero _ a ha f x).1, (C85_deriv_zero _ a ha f x).1]
    · rw [(C85_deriv_zero _ a ha f x).2, (C85_deriv_zero _ a ha f x).2]
  · obtain ⟨h1, h2⟩ := h a ha
    constructor <;> funext x
    · rw [derivForward_eq, derivForward_eq, wOf_some, wOf_some, h1]
    · rw [derivBack_eq, derivBack_eq, wOf_some, wOf_some, h2]

theorem curl_same {K : Type*} [Field K] {d d' : Fdtd.Dxes sh K} (h : SameActive d d') (F : VField sh K) :
    Functional.curlForward (some d.1) F = Functional.curlForward (some d'.1) F ∧
      Functional.curlBack (some d.2) F = Functional.curlBack (some d'.2) F := by
  constructor <;> funext c x <;> revert c <;> refine forall_fin3 ?_ ?_ ?_ <;>
    simp only [curlForward_0, curlForward_1, curlForward_2, curlBack_0, curlBack_1, curlBack_2, fun a f => (deriv_same h a f).1,
      fun a f => (deriv_same h a f).2]

/-- C85: the widths along single-cell axes do not affect the wave operator. -/
theorem C85_width_irrelevant (ω : ℂ) (d d' : Dx sh) (h : SameActive d d') (eps : Vec sh) (mu : Option (Vec sh))
    (pec pmc : Option (Pos sh → Bool)) : eFull ω d eps mu pec pmc = eFull ω d' eps mu pec pmc := by
  have h1 : OperatorsS.curlForward d.1 = OperatorsS.curlForward d'.1 := ext_mulVec fun v => by
    rw [Fdfd.curlForward_mulVec, Fdfd.curlForward_mulVec, cE, cE, (curl_same h _).1]
  have h2 : OperatorsS.curlBack d.2 = OperatorsS.curlBack d'.2 := ext_mulVec fun v => by
    rw [Fdfd.curlBack_mulVec, Fdfd.curlBack_mulVec, cH, cH, (curl_same h _).2]
  simp only [eFull, h1, h2]

/-- C85: nor do they affect FDTD runs. -/
theorem C85_width_irrelevant_fdtd {K : Type*} [Field K] (dt : K) (d d' : Fdtd.Dxes sh K) (h : SameActive d d') (eps : VField sh K)
    (mu : Option (VField sh K)) (st : Fdtd.State sh K) (ops : List (Fdtd.Op sh K)) :
    Fdtd.run ⟨dt, some d, eps, mu⟩ st ops = Fdtd.run ⟨dt, some d', eps, mu⟩ st ops := by
  have hstep : Fdtd.step ⟨dt, some d, eps, mu⟩ = Fdtd.step ⟨dt, some d', eps, mu⟩ := by
    funext t op
    cases op with
    | stepE => simp only [Fdtd.step, Fdtd.maxwellE, (curl_same h _).2]
    | stepH => simp only [Fdtd.step, Fdtd.maxwellH, (curl_same h _).1]
    | injJ j => rfl
    | injM m => rfl
  rw [Fdtd.run, Fdtd.run, hstep]

/-- C85: 2D simulations separate into polarisations. If axis `a` has one cell, a field with only the component along `a`
is mapped to a field with only that component, given by the scalar wave equation. -/
theorem C85_scalar (ω : ℂ) (d : Dx sh) (a : Fin 3) (ha : sh a = 1) (eps : VField sh ℂ) (mu : Option (VField sh ℂ)) (u : Arr sh ℂ)
    (c : Fin 3) (x : Idx sh) :
    (eFull ω d (vecS eps) (mu.map vecS) none none *ᵥ vecS fun c y => if c = a then u y else 0) (c, x)
      = if c = a then
          -Functional.derivBack (some d.2) (a + 1) (fun y => Functional.derivForward (some d.1) (a + 1) u y / muV (mu.map vecS) (a + 2, y)) x
          - Functional.derivBack (some d.2) (a + 2) (fun y => Functional.derivForward (some d.1) (a + 2) u y / muV (mu.map vecS) (a + 1, y)) x
          - ω ^ 2 * eps a x * u x
        else 0 := by
  rw [eFull_mulVec]
  generalize muV (mu.map vecS) = m
  have hz : ∀ (b : Fin 3) (y : Idx sh), Functional.derivForward (some d.1) b (fun _ => (0 : ℂ)) y = 0 := by
    intro b y; rw [derivForward_eq]; simp
  have hzb : ∀ (b : Fin 3) (y : Idx sh), Functional.derivBack (some d.2) b (fun _ => (0 : ℂ)) y = 0 := by
    intro b y; rw [derivBack_eq]; simp
  have hneg : ∀ (b : Fin 3) (f : Arr sh ℂ) (y : Idx sh), Functional.derivBack (some d.2) b (fun z => -f z) y
      = -Functional.derivBack (some d.2) b f y := by
    intro b f y; simp only [derivBack_eq]; ring
  have hf0 := fun f y => (C85_deriv_zero (some d.1) a ha f y).1
  have hb0 := fun f y => (C85_deriv_zero (some d.2) a ha f y).2
  have hshow : cH d (fun q => cE d (vecS fun c y => if c = a then u y else 0) q / m q) (c, x)
      = Functional.curlBack (some d.2) (fun c' y => Functional.curlForward (some d.1) (fun c y => if c = a then u y else 0) c' y / m (c', y)) c x := rfl
  rw [hshow, vecS_apply, vecS_apply]
  clear hshow
  have a01 : (0 : Fin 3) + 1 = 1 := rfl
  have a02 : (0 : Fin 3) + 2 = 2 := rfl
  have a11 : (1 : Fin 3) + 1 = 2 := rfl
  have a12 : (1 : Fin 3) + 2 = 0 := rfl
  have a21 : (2 : Fin 3) + 1 = 0 := rfl
  have a22 : (2 : Fin 3) + 2 = 1 := rfl
  have n01 : (0 : Fin 3) ≠ 1 := by decide
  have n02 : (0 : Fin 3) ≠ 2 := by decide
  have n12 : (1 : Fin 3) ≠ 2 := by decide
  revert c
  rcases (forall_fin3 (P := fun a => a = 0 ∨ a = 1 ∨ a = 2) (by simp) (by simp) (by simp) a) with rfl | rfl | rfl <;>
  refine forall_fin3 ?_ ?_ ?_ <;>
  simp only [curlBack_0, curlBack_1, curlBack_2, curlForward_0, curlForward_1, curlForward_2, hf0, hb0, hz, hzb, n01, n02, n12, n01.symm, n02.symm, n12.symm,
    if_true, if_false, a01, a02, a11, a12, a21, a22, sub_zero, zero_sub, zero_div, neg_div, hneg, mul_zero, sub_self] <;> ring

/-- C85, the other polarisation: a field without the component along the single-cell axis is mapped to such a field, and its magnetic
field points along that axis; a field with only that component has a magnetic field without it. -/
theorem C85_decoupled (ω : ℂ) (d : Dx sh) (a : Fin 3) (ha : sh a = 1) (eps : Vec sh) (mu : Option (Vec sh)) (E : VField sh ℂ) (x : Idx sh) :
    ((∀ y, E a y = 0) → (eFull ω d eps mu none none *ᵥ vecS E) (a, x) = 0 ∧
      ∀ c, c ≠ a → (Fdfd.e2h ω d mu none *ᵥ vecS E) (c, x) = 0) ∧
    ((∀ c, c ≠ a → ∀ y, E c y = 0) → (Fdfd.e2h ω d mu none *ᵥ vecS E) (a, x) = 0) := by
  have hz : ∀ (b : Fin 3) (y : Idx sh), Functional.derivForward (some d.1) b (fun _ => (0 : ℂ)) y = 0 := by
    intro b y; rw [derivForward_eq]; simp
  have hzb : ∀ (b : Fin 3) (y : Idx sh), Functional.derivBack (some d.2) b (fun _ => (0 : ℂ)) y = 0 := by
    intro b y; rw [derivBack_eq]; simp
  have hf0 := fun f y => (C85_deriv_zero (some d.1) a ha f y).1
  have hb0 := fun f y => (C85_deriv_zero (some d.2) a ha f y).2
  rw [eFull_mulVec, e2h_mulVec]
  generalize hm : muV mu = m
  have hsh : cH d (fun q => cE d (vecS E) q / m q) (a, x)
      = Functional.curlBack (some d.2) (fun c' y => Functional.curlForward (some d.1) E c' y / m (c', y)) a x := rfl
  have hse : ∀ c, cE d (vecS E) (c, x) = Functional.curlForward (some d.1) E c x := fun _ => rfl
  rw [hsh, vecS_apply]
  simp only [e2h_mulVec, hse]
  clear hsh hse hm
  have n01 : (0 : Fin 3) ≠ 1 := by decide
  have n02 : (0 : Fin 3) ≠ 2 := by decide
  have n12 : (1 : Fin 3) ≠ 2 := by decide
  have hfun : ∀ c, (∀ y, E c y = 0) → E c = fun _ => 0 := fun c h => funext h
  rcases (forall_fin3 (P := fun a => a = 0 ∨ a = 1 ∨ a = 2) (by simp) (by simp) (by simp) a) with rfl | rfl | rfl
  · constructor
    · intro h
      refine ⟨?_, fun c => ?_⟩
      · simp only [curlBack_0, curlForward_1, curlForward_2, hf0, hfun 0 h, hz, zero_div, hzb, sub_self, mul_zero]
      · revert c; refine forall_fin3 (fun h => absurd rfl h) (fun _ => ?_) (fun _ => ?_) <;>
          simp only [curlForward_1, curlForward_2, hf0, hfun 0 h, hz, sub_zero, zero_div]
    · intro h
      simp only [curlForward_0, hfun 1 (h 1 n01.symm), hfun 2 (h 2 n02.symm), hz, sub_zero, zero_div]
  · constructor
    · intro h
      refine ⟨?_, fun c => ?_⟩
      · simp only [curlBack_1, curlForward_0, curlForward_2, hf0, hfun 1 h, hz, zero_div, hzb, sub_self, mul_zero]
      · revert c; refine forall_fin3 (fun _ => ?_) (fun h => absurd rfl h) (fun _ => ?_) <;>
          simp only [curlForward_0, curlForward_2, hf0, hfun 1 h, hz, sub_zero, zero_div]
    · intro h
      simp only [curlForward_1, hfun 0 (h 0 n01), hfun 2 (h 2 n12.symm), hz, sub_zero, zero_div]
  · constructor
    · intro h
      refine ⟨?_, fun c => ?_⟩
      · simp only [curlBack_2, curlForward_0, curlForward_1, hf0, hfun 2 h, hz, zero_div, hzb, sub_self, mul_zero]
      · revert c; refine forall_fin3 (fun _ => ?_) (fun _ => ?_) (fun h => absurd rfl h) <;>
          simp only [curlForward_0, curlForward_1, hf0, hfun 2 h, hz, sub_zero, zero_div]
    · intro h
      simp only [curlForward_2, hfun 0 (h 0 n02), hfun 1 (h 1 n12), hz, sub_zero, zero_div]

/-! ### C86: cyclic shifts -/

/-- `e_full` applied to a field, with masks. -/
theorem eFull_mulVec_masks (ω : ℂ) (d : Dx sh) (eps : Vec sh) (mu : Option (Vec sh)) (pec pmc : Option (Pos sh → Bool)) (v : Vec sh)
    (p : Pos sh) :
    (eFull ω d eps mu pec pmc *ᵥ v) p = openAt pec p * (cH d (fun q => openAt pmc q * (cE d (fun r => openAt pec r * v r) q / muV mu q)) p
      - ω ^ 2 * (eps p * (openAt pec p * v p))) := by
  have h1 : ∀ (m : Option (Pos sh → Bool)) (u : Vec sh), notMask m *ᵥ u = fun q => (openAt m q : ℂ) * u q := by
    intro m u; funext q; rw [notMask_openAt, mulVec_diagonal]
  simp only [eFull, sub_mulVec, ← mulVec_mulVec, Fdfd.curlForward_mulVec, muDiv_mulVec, Fdfd.curlBack_mulVec, h1, Pi.sub_apply,
    smul_mulVec, Pi.smul_apply, mulVec_diagonal, smul_eq_mul]

/-- A vectorised field moved by `n` cells along axis `a`. -/
def trVec {K : Type*} (a : Fin 3) (n : ℤ) (v : Pos sh → K) : Pos sh → K := fun p => v (p.1, shiftIdx a n p.2)

/-- C86: moving grid, materials, conductors and field by whole cells around the periodic domain moves the result. -/
theorem C86_e_full (a : Fin 3) (n : ℤ) (ω : ℂ) (d : Dx sh) (eps : Vec sh) (mu : Option (Vec sh)) (pec pmc : Option (Pos sh → Bool))
    (E : Vec sh) :
    eFull ω (trDx a n d.1, trDx a n d.2) (trVec a n eps) (mu.map (trVec a n)) (pec.map (trVec a n)) (pmc.map (trVec a n)) *ᵥ trVec a n E
      = trVec a n (eFull ω d eps mu pec pmc *ᵥ E) := by
  have ho : ∀ (m : Option (Pos sh → Bool)) p, openAt (m.map (trVec a n)) p = openAt m (p.1, shiftIdx a n p.2) := by
    intro m p; cases m <;> rfl
  have hm : ∀ p, muV (mu.map (trVec a n)) p = muV mu (p.1, shiftIdx a n p.2) := by intro p; cases mu <;> rfl
  have h1 : ∀ u p, cE (trDx a n d.1, trDx a n d.2) (trVec a n u) p = cE d u (p.1, shiftIdx a n p.2) := fun u p =>
    curlForward_tr a n (some d.1) (unS u) p.1 p.2
  have h2 : ∀ u p, cH (trDx a n d.1, trDx a n d.2) (trVec a n u) p = cH d u (p.1, shiftIdx a n p.2) := fun u p =>
    curlBack_tr a n (some d.2) (unS u) p.1 p.2
  funext p
  show _ = (eFull ω d eps mu pec pmc *ᵥ E) (p.1, shiftIdx a n p.2)
  rw [eFull_mulVec_masks, eFull_mulVec_masks]
  have e1 : (fun r => (openAt (pec.map (trVec a n)) r : ℂ) * trVec a n E r) = trVec a n fun r => openAt pec r * E r := by
    funext r; rw [ho]; rfl
  have e2 : (fun q => (openAt (pmc.map (trVec a n)) q : ℂ) * (cE (trDx a n d.1, trDx a n d.2) (trVec a n fun r => openAt pec r * E r) q
      / muV (mu.map (trVec a n)) q)) = trVec a n fun q => openAt pmc q * (cE d (fun r => openAt pec r * E r) q / muV mu q) := by
    funext q; rw [ho, hm, h1]; rfl
  rw [e1, e2, h2, ho]; rfl

/-- `e2h` applied to a field, with a mask of magnetic conductors. -/
theorem e2h_mulVec_masks (ω : ℂ) (d : Dx sh) (mu : Option (Vec sh)) (pmc : Option (Pos sh → Bool)) (v : Vec sh) (p : Pos sh) :
    (Fdfd.e2h ω d mu pmc *ᵥ v) p = openAt pmc p * (cE d v p / (-I * ω) / muV mu p) := by
  cases pmc with
  | none => rw [e2h_mulVec]; simp [openAt]
  | some m => rw [C28_pmc_e2h, e2h_mulVec]; cases h : m p <;> simp [openAt, h]

/-- C86: so does the magnetic field. -/
theorem C86_e2h (a : Fin 3) (n : ℤ) (ω : ℂ) (d : Dx sh) (mu : Option (Vec sh)) (pmc : Option (Pos sh → Bool)) (E : Vec sh) :
    Fdfd.e2h ω (trDx a n d.1, trDx a n d.2) (mu.map (trVec a n)) (pmc.map (trVec a n)) *ᵥ trVec a n E
      = trVec a n (Fdfd.e2h ω d mu pmc *ᵥ E) := by
  have ho : ∀ p, openAt (pmc.map (trVec a n)) p = openAt pmc (p.1, shiftIdx a n p.2) := by intro p; cases pmc <;> rfl
  have hm : ∀ p, muV (mu.map (trVec a n)) p = muV mu (p.1, shiftIdx a n p.2) := by intro p; cases mu <;> rfl
  have h1 : ∀ u p, cE (trDx a n d.1, trDx a n d.2) (trVec a n u) p = cE d u (p.1, shiftIdx a n p.2) := fun u p =>
    curlForward_tr a n (some d.1) (unS u) p.1 p.2
  funext p
  show _ = (Fdfd.e2h ω d mu pmc *ᵥ E) (p.1, shiftIdx a n p.2)
  rw [e2h_mulVec_masks, e2h_mulVec_masks, h1, hm, ho]

/-- C84–C86, a concrete case: a 4×3×1 grid. Axis 2 is single-cell, so its widths (2 and 5) are irrelevant; scaling by 3 multiplies every
width, and moving by one cell along axis 0 takes the width of cell 1 to cell 0. -/
example :
    let d : Fdtd.Dxes ![4, 3, 1] ℚ := (fun a i => if a = 2 then 2 else 1 + (i : ℕ), fun a i => if a = 2 then 2 else 1 + (i : ℕ))
    let d' : Fdtd.Dxes ![4, 3, 1] ℚ := (fun a i => if a = 2 then 5 else 1 + (i : ℕ), fun a i => if a = 2 then 5 else 1 + (i : ℕ))
    SameActive d d' ∧ d ≠ d' ∧ (scaleDx 3 d).1 0 (1 : Fin 4) = 6 ∧ trDx 0 1 d.1 0 (0 : Fin 4) = 2 := by
  refine ⟨fun a => ?_, fun h => ?_, ?_, ?_⟩
  · revert a
    refine forall_fin3 (fun _ => ⟨rfl, rfl⟩) (fun _ => ⟨rfl, rfl⟩) (fun h => absurd rfl h)
  · have := congrFun (congrFun (congrArg Prod.fst h) 2) (0 : Fin 1)
    norm_num at this
  · show (3 : ℚ) * (if (0 : Fin 3) = 2 then 2 else 1 + ((1 : ℕ) : ℚ)) = 6
    norm_num
  · show (if (0 : Fin 3) = 2 then (2 : ℚ) else 1 + ((1 : ℕ) : ℚ)) = 2
    norm_num

end Meanas.Props
