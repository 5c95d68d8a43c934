/-
Properties of FDTD runs (meanas/fdtd/base.py): C09 Gauss laws, C13 reversibility, C14 superposition, C15 light cone,
C16 translation invariance.
-/
import Verif.Lemmas.Fdtd

namespace Meanas.Props

open Functional Spec Fdtd

variable {sh : Fin 3 → ℕ} {K : Type*} [Field K]

/-! ## C09 — Gauss's laws -/

/-- Sum of `div_b j` at cell `x` over the electric currents injected by a script. -/
def injectedCharge (dxH : Option (DxList sh K)) (x : Idx sh) : List (Op sh K) → K
  | [] => 0
  | .injJ j :: ops => divBack dxH j x + injectedCharge dxH x ops
  | _ :: ops => injectedCharge dxH x ops

/-- Sum of `div_f m` at cell `x` over the magnetic currents injected by a script. -/
def injectedMagCharge (dxE : Option (DxList sh K)) (x : Idx sh) : List (Op sh K) → K
  | [] => 0
  | .injM m :: ops => divForward dxE m x + injectedMagCharge dxE x ops
  | _ :: ops => injectedMagCharge dxE x ops

/-- C09 (electric): for every script, `div_b (ε E)` changes by exactly the divergence of the injected currents. -/
theorem C09_gauss_electric (S : Sys sh K) (heps : ∀ c x, S.eps c x ≠ 0) (s : State sh K) (ops : List (Op sh K))
    (x : Idx sh) :
    divBack (S.dxes.map (·.2)) (fun c y => S.eps c y * (run S s ops).e c y) x
      = divBack (S.dxes.map (·.2)) (fun c y => S.eps c y * s.e c y) x + injectedCharge (S.dxes.map (·.2)) x ops := by
  induction ops generalizing s with
  | nil => simp [run, injectedCharge]
  | cons op ops ih =>
    have : run S s (op :: ops) = run S (step S s op) ops := rfl
    rw [this, ih]
    cases op with
    | stepE =>
      have : (fun c y => S.eps c y * (step S s .stepE).e c y)
          = fun c y => S.eps c y * s.e c y + S.dt * curlBack (S.dxes.map (·.2)) s.h c y := by
        funext c y
        have := heps c y
        simp only [step, maxwellE_eq]; field_simp
      rw [this, divBack_add, divBack_smul, divBack_curlBack]
      simp [injectedCharge]
    | stepH => simp [step, injectedCharge]
    | injJ j =>
      have : (fun c y => S.eps c y * (step S s (.injJ j)).e c y) = fun c y => S.eps c y * s.e c y + j c y := by
        funext c y
        have := heps c y
        simp only [step]; field_simp
      rw [this, divBack_add]
      simp [injectedCharge, add_assoc]
    | injM m => rw [step_injM_e]; simp [injectedCharge]

/-- C09 (magnetic): for every script, `div_f (μ H)` changes by exactly minus the divergence of the injected magnetic
currents; in particular it never changes if there are none. -/
theorem C09_gauss_magnetic (S : Sys sh K) (hmu : ∀ m, S.mu = some m → ∀ c x, m c x ≠ 0) (s : State sh K)
    (ops : List (Op sh K)) (x : Idx sh) :
    divForward (S.dxes.map (·.1)) (fun c y => (S.mu.getD fun _ _ => 1) c y * (run S s ops).h c y) x
      = divForward (S.dxes.map (·.1)) (fun c y => (S.mu.getD fun _ _ => 1) c y * s.h c y) x
        - injectedMagCharge (S.dxes.map (·.1)) x ops := by
  have hmuOr : (S.mu.getD fun _ _ => 1) = muOr S.mu := by cases S.mu <;> rfl
  have hne : ∀ c y, muOr S.mu c y ≠ 0 := by
    intro c y
    cases h : S.mu with
    | none => simp [muOr]
    | some m => exact hmu m h c y
  rw [hmuOr]
  induction ops generalizing s with
  | nil => simp [run, injectedMagCharge]
  | cons op ops ih =>
    have : run S s (op :: ops) = run S (step S s op) ops := rfl
    rw [this, ih]
    cases op with
    | stepH =>
      have : (fun c y => muOr S.mu c y * (step S s .stepH).h c y)
          = fun c y => muOr S.mu c y * s.h c y - S.dt * curlForward (S.dxes.map (·.1)) s.e c y := by
        funext c y
        have := hne c y
        simp only [step, maxwellH_eq]; field_simp
      rw [this, divForward_sub, divForward_smul, divForward_curlForward]
      simp [injectedMagCharge]
    | stepE => simp [step, injectedMagCharge]
    | injM m =>
      have : (fun c y => muOr S.mu c y * (step S s (.injM m)).h c y) = fun c y => muOr S.mu c y * s.h c y - m c y := by
        funext c y
        have := hne c y
        rw [step_injM_h]; field_simp
      rw [this, divForward_sub]
      simp only [injectedMagCharge]; ring
    | injJ j => simp [step, injectedMagCharge]

-- Non-vacuous: a system with a non-constant permittivity and non-uniform widths meets the hypotheses.
example : ∃ S : Sys ![3, 2, 2] ℚ, (∀ c x, S.eps c x ≠ 0) ∧ (∀ m, S.mu = some m → ∀ c x, m c x ≠ 0)
    ∧ S.mu ≠ none ∧ S.dxes ≠ none := by
  refine ⟨⟨1/3, some (fun _ i => (i : ℚ) + 1, fun _ i => (i : ℚ) + 2), fun c x => (c : ℕ) + 1 + (x 0 : ℕ),
    some fun _ x => (x 1 : ℕ) + 1⟩, ?_, ?_, by simp, by simp⟩
  · intro c x; positivity
  · rintro m h c x; simp only [Option.some.injEq] at h; subst h; positivity

/-! ## C13 — reversibility -/

/-- The call that undoes a call (when executed with the opposite time step). -/
def undo : Op sh K → Op sh K
  | .stepE => .stepE
  | .stepH => .stepH
  | .injJ j => .injJ (fun c x => -j c x)
  | .injM m => .injM (fun c x => -m c x)

theorem run_append (S : Sys sh K) (s : State sh K) (l l' : List (Op sh K)) :
    run S s (l ++ l') = run S (run S s l) l' := List.foldl_append ..

/-- C13 (any script): executing the script backwards with `-dt` and negated currents restores the fields exactly.
In the model no condition on ε, μ and the widths is needed; numpy's and the model's divisions agree when they are
nonzero. -/
theorem C13_reversible_script (S : Sys sh K) (s : State sh K) (ops : List (Op sh K)) :
    run { S with dt := -S.dt } (run S s ops) (ops.reverse.map undo) = s := by
  induction ops generalizing s with
  | nil => rfl
  | cons op ops ih =>
    have h1 : run S s (op :: ops) = run S (step S s op) ops := rfl
    rw [h1, List.reverse_cons, List.map_append, run_append, ih]
    simp only [List.map, run, List.foldl]
    cases op with
    | stepE => simp [undo, step, undoE]
    | stepH => simp [undo, step, undoH]
    | injJ j => apply State.ext' <;> intro c x <;> simp [undo, step]; ring
    | injM m =>
      simp only [undo]
      apply State.ext' <;> intro c x
      · rw [step_injM_e, step_injM_e]
      · rw [step_injM_h, step_injM_h]; ring

/-- `n` leapfrog steps: E update then H update. -/
def leapfrog (n : ℕ) : List (Op sh K) := (List.replicate n [Op.stepE, Op.stepH]).flatten

/-- `n` leapfrog steps in the opposite order: H update then E update. -/
def leapfrogRev (n : ℕ) : List (Op sh K) := (List.replicate n [Op.stepH, Op.stepE]).flatten

omit [Field K] in
theorem leapfrog_succ (n : ℕ) : leapfrog (sh := sh) (K := K) (n + 1) = [.stepE, .stepH] ++ leapfrog n := by
  simp [leapfrog, List.replicate_succ]

omit [Field K] in
theorem leapfrogRev_succ' (n : ℕ) : leapfrogRev (sh := sh) (K := K) (n + 1) = leapfrogRev n ++ [.stepH, .stepE] := by
  simp [leapfrogRev, List.replicate_succ']

theorem leapfrog_reverse (n : ℕ) : (leapfrog (sh := sh) (K := K) n).reverse.map undo = leapfrogRev n := by
  induction n with
  | zero => rfl
  | succ n ih => rw [leapfrog_succ, leapfrogRev_succ', List.reverse_append, List.map_append, ih]; rfl

/-- C13: `n` leapfrog steps with `dt` followed by `n` steps with `-dt` in the opposite order restore every field. -/
theorem C13_reversible (S : Sys sh K) (s : State sh K) (n : ℕ) :
    run { S with dt := -S.dt } (run S s (leapfrog n)) (leapfrogRev n) = s := by
  rw [← leapfrog_reverse]; exact C13_reversible_script S s _

/-! ## C14 — superposition -/

/-- Apply a function to every number of a script. -/
def mapOp {L M : Type*} (f : L → M) : Op sh L → Op sh M
  | .stepE => .stepE
  | .stepH => .stepH
  | .injJ j => .injJ (fun c x => f (j c x))
  | .injM m => .injM (fun c x => f (m c x))

/-- Apply a function to every field value. -/
def mapState {L M : Type*} (f : L → M) (s : State sh L) : State sh M :=
  ⟨fun c x => f (s.e c x), fun c x => f (s.h c x)⟩

/-- C14: two drives (initial fields and injected currents) of the same script, given as one drive with values in
`K × K`. The run of their linear combination is the linear combination of their runs. -/
theorem C14_superposition (S : Sys sh K) (a b : K) (s : State sh (K × K)) (ops : List (Op sh (K × K))) :
    run S (mapState (fun p => a * p.1 + b * p.2) s) (ops.map (mapOp fun p => a * p.1 + b * p.2))
      = ⟨fun c x => a * (run S (mapState Prod.fst s) (ops.map (mapOp Prod.fst))).e c x
            + b * (run S (mapState Prod.snd s) (ops.map (mapOp Prod.snd))).e c x,
         fun c x => a * (run S (mapState Prod.fst s) (ops.map (mapOp Prod.fst))).h c x
            + b * (run S (mapState Prod.snd s) (ops.map (mapOp Prod.snd))).h c x⟩ := by
  induction ops generalizing s with
  | nil => rfl
  | cons op ops ih =>
    -- the pair of states after the first call
    let s1 := step S (mapState Prod.fst s) (mapOp Prod.fst op)
    let s2 := step S (mapState Prod.snd s) (mapOp Prod.snd op)
    let s' : State sh (K × K) := ⟨fun c x => (s1.e c x, s2.e c x), fun c x => (s1.h c x, s2.h c x)⟩
    have key : step S (mapState (fun p => a * p.1 + b * p.2) s) (mapOp (fun p => a * p.1 + b * p.2) op)
        = mapState (fun p => a * p.1 + b * p.2) s' := by
      cases op with
      | stepE =>
        apply State.ext' <;> intro c x
        · simp only [step, mapState, mapOp, maxwellE_eq, curlBack_add, curlBack_smul, s', s1, s2]; ring
        · rfl
      | stepH =>
        apply State.ext' <;> intro c x
        · rfl
        · simp only [step, mapState, mapOp, maxwellH_eq, curlForward_add, curlForward_smul, s', s1, s2]; ring
      | injJ j =>
        apply State.ext' <;> intro c x
        · simp only [step, mapState, mapOp, s', s1, s2]; ring
        · rfl
      | injM m =>
        apply State.ext' <;> intro c x
        · simp only [mapOp, s', s1, s2, step_injM_e, mapState]
        · simp only [mapOp, s', s1, s2, step_injM_h, mapState]; ring
    have := ih s'
    simp only [List.map_cons, run, List.foldl_cons] at this ⊢
    rw [key, this]
    rfl

/-! ## C15 — numerical light cone -/

/-- `y` is at a periodic offset between `-lo` and `hi` from `x` along every axis. -/
def Near (lo hi : ℕ) (x y : Idx sh) : Prop := ∀ a, ∃ s : ℤ, -(lo : ℤ) ≤ s ∧ s ≤ hi ∧ y a = wrap (x a) s

/-- Two scripts make the same calls, with injected currents equal on the cells in `P`. -/
inductive AgreeOp (P : Idx sh → Prop) : Op sh K → Op sh K → Prop
  | stepE : AgreeOp P .stepE .stepE
  | stepH : AgreeOp P .stepH .stepH
  | injJ (j j' : VField sh K) : (∀ c y, P y → j c y = j' c y) → AgreeOp P (.injJ j) (.injJ j')
  | injM (m m' : VField sh K) : (∀ c y, P y → m c y = m' c y) → AgreeOp P (.injM m) (.injM m')

/-- Two systems have equal time step and equal material and cell widths on the cells in `P`. -/
structure AgreeSys (P : Idx sh → Prop) (S S' : Sys sh K) : Prop where
  dt : S.dt = S'.dt
  dxE : ∀ y, P y → ∀ a, wOf (S.dxes.map (·.1)) a (y a) = wOf (S'.dxes.map (·.1)) a (y a)
  dxH : ∀ y, P y → ∀ a, wOf (S.dxes.map (·.2)) a (y a) = wOf (S'.dxes.map (·.2)) a (y a)
  eps : ∀ y, P y → ∀ c, S.eps c y = S'.eps c y
  mu : ∀ y, P y → ∀ c, (S.mu.getD fun _ _ => 1) c y = (S'.mu.getD fun _ _ => 1) c y

/-- Number of E updates in a script. -/
def numE : List (Op sh K) → ℕ
  | [] => 0
  | .stepE :: l => numE l + 1
  | _ :: l => numE l

/-- Number of H updates in a script. -/
def numH : List (Op sh K) → ℕ
  | [] => 0
  | .stepH :: l => numH l + 1
  | _ :: l => numH l

theorem Near.mono {lo hi lo' hi' : ℕ} {x y : Idx sh} (h : Near lo hi x y) (h1 : lo ≤ lo') (h2 : hi ≤ hi') :
    Near lo' hi' x y := fun a => by
  obtain ⟨s, a1, a2, a3⟩ := h a
  exact ⟨s, by omega, by omega, a3⟩

theorem Near.self (lo hi : ℕ) (x : Idx sh) : Near lo hi x x := fun a => ⟨0, by omega, by omega, by rw [wrap_zero]⟩

theorem Near.back {lo hi : ℕ} {x y : Idx sh} (h : Near lo hi x y) (a : Fin 3) :
    Near (lo + 1) hi x (shiftIdx a (-1) y) := fun b => by
  obtain ⟨s, a1, a2, a3⟩ := h b
  by_cases hb : b = a
  · subst hb
    exact ⟨s + -1, by push_cast; omega, by omega, by rw [shiftIdx_same, a3, wrap_wrap]⟩
  · exact ⟨s, by push_cast; omega, a2, by rw [shiftIdx_of_ne hb, a3]⟩

theorem Near.fwd {lo hi : ℕ} {x y : Idx sh} (h : Near lo hi x y) (a : Fin 3) :
    Near lo (hi + 1) x (shiftIdx a 1 y) := fun b => by
  obtain ⟨s, a1, a2, a3⟩ := h b
  by_cases hb : b = a
  · subst hb
    exact ⟨s + 1, by omega, by push_cast; omega, by rw [shiftIdx_same, a3, wrap_wrap]⟩
  · exact ⟨s, a1, by push_cast; omega, by rw [shiftIdx_of_ne hb, a3]⟩

theorem curlBack_local (dx dx' : Option (DxList sh K)) (F G : VField sh K) (y : Idx sh)
    (hw : ∀ a, wOf dx a (y a) = wOf dx' a (y a)) (h0 : ∀ c, F c y = G c y)
    (h1 : ∀ c a, F c (shiftIdx a (-1) y) = G c (shiftIdx a (-1) y)) (c : Fin 3) :
    curlBack dx F c y = curlBack dx' G c y := by
  revert c; apply forall_fin3 <;> simp only [curlBack_0, curlBack_1, curlBack_2, derivBack_eq, hw, h0, h1]

theorem curlForward_local (dx dx' : Option (DxList sh K)) (F G : VField sh K) (y : Idx sh)
    (hw : ∀ a, wOf dx a (y a) = wOf dx' a (y a)) (h0 : ∀ c, F c y = G c y)
    (h1 : ∀ c a, F c (shiftIdx a 1 y) = G c (shiftIdx a 1 y)) (c : Fin 3) :
    curlForward dx F c y = curlForward dx' G c y := by
  revert c; apply forall_fin3 <;> simp only [curlForward_0, curlForward_1, curlForward_2, derivForward_eq, hw, h0, h1]

/-- C15: the fields in cell `x` after a script with `nE` E-updates and `nH` H-updates depend only on initial
fields, material, cell widths and injected currents in the cells whose periodic offset from `x` lies
between `-nE` and `+nH` along every axis. -/
theorem C15_light_cone (S S' : Sys sh K) (x : Idx sh) (ops ops' : List (Op sh K)) (s s' : State sh K)
    (hS : AgreeSys (Near (numE ops) (numH ops) x) S S')
    (hops : List.Forall₂ (AgreeOp (Near (numE ops) (numH ops) x)) ops ops')
    (hs : ∀ c y, Near (numE ops) (numH ops) x y → s.e c y = s'.e c y ∧ s.h c y = s'.h c y) (c : Fin 3) :
    (run S s ops).e c x = (run S' s' ops').e c x ∧ (run S s ops).h c x = (run S' s' ops').h c x := by
  have hm : ∀ S : Sys sh K, (S.mu.getD fun _ _ => 1) = muOr S.mu := fun S => by cases S.mu <;> rfl
  have gen : ∀ (P : Idx sh → Prop) (ops ops' : List (Op sh K)) (s s' : State sh K),
      (∀ y, Near (numE ops) (numH ops) x y → P y) → AgreeSys P S S' → List.Forall₂ (AgreeOp P) ops ops' →
      (∀ c y, Near (numE ops) (numH ops) x y → s.e c y = s'.e c y ∧ s.h c y = s'.h c y) →
      ∀ c, (run S s ops).e c x = (run S' s' ops').e c x ∧ (run S s ops).h c x = (run S' s' ops').h c x := by
    clear hS hops hs ops ops' s s' c
    intro P ops
    induction ops with
    | nil =>
      intro ops' s s' _ _ hf hs c
      cases hf
      exact hs c x (Near.self _ _ x)
    | cons op ops ih =>
      intro ops' s s' hP hS hf hs c
      cases hf with
      | @cons _ op' _ ops'' hop hf =>
      refine ih ops'' (step S s op) (step S' s' op') ?_ hS hf ?_ c
      · intro y hy
        apply hP
        cases op <;> exact hy.mono (by simp [numE]) (by simp [numH])
      · intro c y hy
        have hy' : Near (numE (op :: ops)) (numH (op :: ops)) x y := by
          cases op <;> exact hy.mono (by simp [numE]) (by simp [numH])
        have hPy := hP y hy'
        have hmu := hS.mu y hPy
        rw [hm, hm] at hmu
        cases hop with
        | stepE =>
          refine ⟨?_, (hs c y hy').2⟩
          simp only [step, maxwellE_eq]
          rw [curlBack_local _ _ s.h s'.h y (hS.dxH y hPy) (fun c => (hs c y hy').2)
            (fun c a => (hs c _ (hy.back a)).2), (hs c y hy').1, hS.dt, hS.eps y hPy]
        | stepH =>
          refine ⟨(hs c y hy').1, ?_⟩
          simp only [step, maxwellH_eq]
          rw [curlForward_local _ _ s.e s'.e y (hS.dxE y hPy) (fun c => (hs c y hy').1)
            (fun c a => (hs c _ (hy.fwd a)).1), (hs c y hy').2, hS.dt, hmu]
        | injJ j j' h =>
          refine ⟨?_, (hs c y hy').2⟩
          simp only [step]
          rw [(hs c y hy').1, hS.eps y hPy, h c y hPy]
        | injM m m' h =>
          rw [step_injM_e, step_injM_e, step_injM_h, step_injM_h, (hs c y hy').1, (hs c y hy').2, hmu, h c y hPy]
          exact ⟨rfl, rfl⟩
  exact gen _ ops ops' s s' (fun y h => h) hS hops hs c

omit [Field K] in
theorem numE_leapfrog (n : ℕ) : numE (leapfrog (sh := sh) (K := K) n) = n ∧ numH (leapfrog (sh := sh) (K := K) n) = n := by
  induction n with
  | zero => exact ⟨rfl, rfl⟩
  | succ n ih => rw [leapfrog_succ]; simp [numE, numH, ih]

/-- C15 for plain runs: after `n` leapfrog steps nothing further than `n` cells away matters. -/
theorem C15_light_cone_leapfrog (S S' : Sys sh K) (x : Idx sh) (n : ℕ) (s s' : State sh K)
    (hS : AgreeSys (Near n n x) S S')
    (hs : ∀ c y, Near n n x y → s.e c y = s'.e c y ∧ s.h c y = s'.h c y) (c : Fin 3) :
    (run S s (leapfrog n)).e c x = (run S' s' (leapfrog n)).e c x
      ∧ (run S s (leapfrog n)).h c x = (run S' s' (leapfrog n)).h c x := by
  obtain ⟨h1, h2⟩ := numE_leapfrog (sh := sh) (K := K) n
  apply C15_light_cone
  · rw [h1, h2]; exact hS
  · have : ∀ (P : Idx sh → Prop) (n : ℕ), List.Forall₂ (AgreeOp (K := K) P) (leapfrog n) (leapfrog n) := by
      intro P n
      induction n with
      | zero => exact .nil
      | succ n ih => rw [leapfrog_succ]; exact .cons .stepE (.cons .stepH ih)
    exact this _ n
  · rw [h1, h2]; exact hs

-- Non-vacuous: on an 8-cell axis, two *different* initial fields satisfy the hypotheses for the cell 0 and n = 2.
example : ∃ s s' : State ![8, 1, 1] ℚ, s.e ≠ s'.e ∧
    ∀ c y, Near 2 2 (fun a => ⟨0, by fin_cases a <;> decide⟩) y → s.e c y = s'.e c y ∧ s.h c y = s'.h c y := by
  refine ⟨⟨fun _ _ => 0, fun _ _ => 0⟩, ⟨fun _ y => if (y 0 : ℕ) = 4 then 1 else 0, fun _ _ => 0⟩, ?_, ?_⟩
  · intro h
    have := congrFun (congrFun h 0) (fun a => if h : a = 0 then ⟨4, by subst h; decide⟩ else ⟨0, by fin_cases a <;> decide⟩)
    simp at this
  · intro c y h
    obtain ⟨s, h1, h2, h3⟩ := h 0
    have h4 : (y 0 : ℕ) ≠ 4 := by
      have := congrArg (fun i : Fin _ => ((i : ℕ) : ℤ)) h3
      simp only [wrap_val] at this
      simp at this
      omega
    simp [h4]

/-! ## C16 — translation invariance -/

/-- Translate a vector field by `s` cells along axis `a` (periodically). -/
def trV {L : Type*} (a : Fin 3) (s : ℤ) (F : VField sh L) : VField sh L := fun c x => F c (shiftIdx a s x)

/-- Translate the width list of axis `a`. -/
def trDx (a : Fin 3) (s : ℤ) (dx : DxList sh K) : DxList sh K := fun b i => dx b (if b = a then wrap i s else i)

/-- Translate grid and materials. -/
def trSys (a : Fin 3) (s : ℤ) (S : Sys sh K) : Sys sh K :=
  ⟨S.dt, S.dxes.map fun d => (trDx a s d.1, trDx a s d.2), trV a s S.eps, S.mu.map (trV a s)⟩

/-- Translate the fields. -/
def trState (a : Fin 3) (s : ℤ) (t : State sh K) : State sh K := ⟨trV a s t.e, trV a s t.h⟩

/-- Translate the injected currents. -/
def trOp (a : Fin 3) (s : ℤ) : Op sh K → Op sh K
  | .stepE => .stepE
  | .stepH => .stepH
  | .injJ j => .injJ (trV a s j)
  | .injM m => .injM (trV a s m)

theorem wOf_trDx (a : Fin 3) (s : ℤ) (dx : Option (DxList sh K)) (b : Fin 3) (x : Idx sh) :
    wOf (dx.map (trDx a s)) b (x b) = wOf dx b (shiftIdx a s x b) := by
  cases dx with
  | none => rfl
  | some dx =>
    simp only [Option.map, wOf_some, trDx]
    by_cases h : b = a
    · subst h; simp [shiftIdx_same]
    · simp [h, shiftIdx_of_ne h]

theorem curlBack_tr (a : Fin 3) (s : ℤ) (dx : Option (DxList sh K)) (F : VField sh K) (c : Fin 3) (x : Idx sh) :
    curlBack (dx.map (trDx a s)) (trV a s F) c x = curlBack dx F c (shiftIdx a s x) := by
  revert c; apply forall_fin3 <;>
    simp only [curlBack_0, curlBack_1, curlBack_2, derivBack_eq, wOf_trDx, trV, fun b t x => shiftIdx_comm (sh := sh) a b s t x]

theorem curlForward_tr (a : Fin 3) (s : ℤ) (dx : Option (DxList sh K)) (F : VField sh K) (c : Fin 3) (x : Idx sh) :
    curlForward (dx.map (trDx a s)) (trV a s F) c x = curlForward dx F c (shiftIdx a s x) := by
  revert c; apply forall_fin3 <;>
    simp only [curlForward_0, curlForward_1, curlForward_2, derivForward_eq, wOf_trDx, trV, fun b t x => shiftIdx_comm (sh := sh) a b s t x]

/-- C16: translating fields, materials, widths and currents commutes with every script. -/
theorem C16_translation (a : Fin 3) (n : ℤ) (S : Sys sh K) (s : State sh K) (ops : List (Op sh K)) :
    run (trSys a n S) (trState a n s) (ops.map (trOp a n)) = trState a n (run S s ops) := by
  induction ops generalizing s with
  | nil => rfl
  | cons op ops ih =>
    have hm : muOr (trSys a n S).mu = trV a n (muOr S.mu) := by
      unfold trSys muOr; cases S.mu <;> rfl
    have hH : (trSys a n S).dxes.map (·.2) = (S.dxes.map (·.2)).map (trDx a n) := by
      unfold trSys; cases S.dxes <;> rfl
    have hE : (trSys a n S).dxes.map (·.1) = (S.dxes.map (·.1)).map (trDx a n) := by
      unfold trSys; cases S.dxes <;> rfl
    have key : step (trSys a n S) (trState a n s) (trOp a n op) = trState a n (step S s op) := by
      cases op with
      | stepE =>
        apply State.ext' <;> intro c x
        · simp only [trOp, step, trState, maxwellE_eq, hH, curlBack_tr]
          simp only [trV, maxwellE_eq]
          rfl
        · rfl
      | stepH =>
        apply State.ext' <;> intro c x
        · rfl
        · simp only [trOp, step, trState, maxwellH_eq, hE, hm, curlForward_tr]
          simp only [trV, maxwellH_eq]
          rfl
      | injJ j => rfl
      | injM m =>
        apply State.ext' <;> intro c x
        · simp only [trOp, step_injM_e, trState]
        · simp only [trOp, step_injM_h, hm, trState, trV]
    have := ih (step S s op)
    simp only [List.map_cons, run, List.foldl_cons] at this ⊢
    rw [key, this]

end Meanas.Props
