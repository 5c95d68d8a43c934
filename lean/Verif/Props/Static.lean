/-
C148: static fields in FDTD: what a run never changes, and what it leaves behind after the sources have stopped.
-/
import Verif.Props.FdtdStability
import Verif.Props.Fdmath
import Verif.Props.Symmetry
import Mathlib.Analysis.SpecificLimits.Basic
import Mathlib.LinearAlgebra.BilinearForm.Orthogonal
import Mathlib.LinearAlgebra.Dual.Lemmas

namespace Meanas.Props

open Fdtd Spec Functional

variable {sh : Fin 3 → ℕ} {K : Type*} [Field K]

/-- `Σ V_E ε F·G`, with the volumes of the Yee cells around the E components. -/
def pairE (S : Sys sh K) (F G : VField sh K) : K := ∑ c, ∑ x, volE (dxesOrOnes S.dxes).1 (dxesOrOnes S.dxes).2 c x * (S.eps c x * (F c x * G c x))
/-- `Σ V_H μ F·G`. -/
def pairH (S : Sys sh K) (F G : VField sh K) : K :=
  ∑ c, ∑ x, volH (dxesOrOnes S.dxes).1 (dxesOrOnes S.dxes).2 c x * ((S.mu.getD fun _ _ => 1) c x * (F c x * G c x))
/-- `Σ V_E G·J`: the overlap of a field with a current. -/
def workE (S : Sys sh K) (G J : VField sh K) : K := ∑ c, ∑ x, volE (dxesOrOnes S.dxes).1 (dxesOrOnes S.dxes).2 c x * (G c x * J c x)
def workH (S : Sys sh K) (G M : VField sh K) : K := ∑ c, ∑ x, volH (dxesOrOnes S.dxes).1 (dxesOrOnes S.dxes).2 c x * (G c x * M c x)
/-- Sum of all electric currents of a script. -/
def totalJ : List (Op sh K) → VField sh K
  | [] => fun _ _ => 0
  | .injJ j :: ops => fun c x => j c x + totalJ ops c x
  | _ :: ops => totalJ ops
/-- Sum of all magnetic currents of a script. -/
def totalM : List (Op sh K) → VField sh K
  | [] => fun _ _ => 0
  | .injM m :: ops => fun c x => m c x + totalM ops c x
  | _ :: ops => totalM ops

namespace Static

theorem some_ones (dxes : Option (Dxes sh K)) (F : VField sh K) :
    curlForward (some (dxesOrOnes dxes).1) F = curlForward (dxes.map (·.1)) F ∧ curlBack (some (dxesOrOnes dxes).2) F = curlBack (dxes.map (·.2)) F := by
  cases dxes with
  | some d => exact ⟨rfl, rfl⟩
  | none =>
    have h1 : ∀ (a : Fin 3) (f : Arr sh K) (x : Idx sh), derivForward (some fun _ _ => 1) a f x = derivForward none a f x := by
      intro a f x; rw [derivForward_eq, derivForward_eq]; rfl
    have h2 : ∀ (a : Fin 3) (f : Arr sh K) (x : Idx sh), derivBack (some fun _ _ => 1) a f x = derivBack none a f x := by
      intro a f x; rw [derivBack_eq, derivBack_eq]; rfl
    constructor
    · funext c x; revert c; apply forall_fin3
      · exact congrArg₂ (· - ·) (h1 _ _ _) (h1 _ _ _)
      · exact congrArg₂ (· - ·) (h1 _ _ _) (h1 _ _ _)
      · exact congrArg₂ (· - ·) (h1 _ _ _) (h1 _ _ _)
    · funext c x; revert c; apply forall_fin3
      · exact congrArg₂ (· - ·) (h2 _ _ _) (h2 _ _ _)
      · exact congrArg₂ (· - ·) (h2 _ _ _) (h2 _ _ _)
      · exact congrArg₂ (· - ·) (h2 _ _ _) (h2 _ _ _)

/-- Summation by parts for the curls of a simulation. -/
theorem adjoint {S : Sys sh K} (hg : GridOk S) (E H : VField sh K) :
    workE S E (curlBack (S.dxes.map (·.2)) H) = workH S H (curlForward (S.dxes.map (·.1)) E) := by
  have h := C06_curl_adjoint_weighted _ _ hg.nz.1 hg.nz.2 E H
  rw [(some_ones S.dxes E).1, (some_ones S.dxes H).2] at h
  exact h

theorem muOr_eq (mu : Option (VField sh K)) : muOr mu = mu.getD fun _ _ => 1 := by cases mu <;> rfl

theorem pairE_add (S : Sys sh K) (G F F' : VField sh K) : pairE S G (fun c x => F c x + F' c x) = pairE S G F + pairE S G F' := by
  simp only [pairE, ← Finset.sum_add_distrib]
  exact Finset.sum_congr rfl fun c _ => Finset.sum_congr rfl fun x _ => by ring
theorem pairH_add (S : Sys sh K) (G F F' : VField sh K) : pairH S G (fun c x => F c x + F' c x) = pairH S G F + pairH S G F' := by
  simp only [pairH, ← Finset.sum_add_distrib]
  exact Finset.sum_congr rfl fun c _ => Finset.sum_congr rfl fun x _ => by ring

theorem pairE_div {S : Sys sh K} (hm : MatOk S) (G J : VField sh K) (k : K) : pairE S G (fun c x => k * J c x / S.eps c x) = k * workE S G J := by
  simp only [pairE, workE, Finset.mul_sum]
  refine Finset.sum_congr rfl fun c _ => Finset.sum_congr rfl fun x _ => ?_
  have := hm.1 c x
  field_simp
theorem pairH_div {S : Sys sh K} (hm : MatOk S) (G J : VField sh K) (k : K) : pairH S G (fun c x => k * J c x / muOr S.mu c x) = k * workH S G J := by
  simp only [pairH, workH, Finset.mul_sum, muOr_eq]
  refine Finset.sum_congr rfl fun c _ => Finset.sum_congr rfl fun x _ => ?_
  have : (S.mu.getD fun _ _ => 1) c x ≠ 0 := by
    cases h : S.mu with
    | none => exact one_ne_zero
    | some m => exact hm.2 m h c x
  field_simp

theorem workE_add (S : Sys sh K) (G F F' : VField sh K) : workE S G (fun c x => F c x + F' c x) = workE S G F + workE S G F' := by
  simp only [workE, ← Finset.sum_add_distrib]
  exact Finset.sum_congr rfl fun c _ => Finset.sum_congr rfl fun x _ => by ring
theorem workH_add (S : Sys sh K) (G F F' : VField sh K) : workH S G (fun c x => F c x + F' c x) = workH S G F + workH S G F' := by
  simp only [workH, ← Finset.sum_add_distrib]
  exact Finset.sum_congr rfl fun c _ => Finset.sum_congr rfl fun x _ => by ring
theorem workE_zero (S : Sys sh K) (G : VField sh K) : workE S G (fun _ _ => 0) = 0 := by simp [workE]
theorem workH_zero (S : Sys sh K) (G : VField sh K) : workH S G (fun _ _ => 0) = 0 := by simp [workH]

end Static

open Static

/-- C148: the states that no update changes are exactly the static ones: E and H without curl. -/
theorem C148_fixed (S : Sys sh K) (hm : MatOk S) (hdt : S.dt ≠ 0) (s : State sh K) :
    run S s [.stepE, .stepH] = s ↔ (∀ c x, curlForward (S.dxes.map (·.1)) s.e c x = 0) ∧ ∀ c x, curlBack (S.dxes.map (·.2)) s.h c x = 0 := by
  have hmu : ∀ c x, muOr S.mu c x ≠ 0 := by
    intro c x
    rw [muOr_eq]
    cases h : S.mu with
    | none => exact one_ne_zero
    | some m => exact hm.2 m h c x
  have he : ∀ s : State sh K, (run S s [.stepE, .stepH]).e = maxwellE S.dt S.dxes s.e s.h S.eps := fun _ => rfl
  have hh : ∀ s : State sh K, (run S s [.stepE, .stepH]).h = maxwellH S.dt S.dxes (maxwellE S.dt S.dxes s.e s.h S.eps) s.h S.mu := fun _ => rfl
  constructor
  · intro h
    have h1 : maxwellE S.dt S.dxes s.e s.h S.eps = s.e := (he s).symm.trans (congrArg State.e h)
    have h2 : maxwellH S.dt S.dxes s.e s.h S.mu = s.h := by
      have := (hh s).symm.trans (congrArg State.h h)
      rwa [h1] at this
    constructor
    · intro c x
      have := congrFun (congrFun h2 c) x
      rw [maxwellH_eq, sub_eq_self, div_eq_zero_iff] at this
      exact (mul_eq_zero.1 (this.resolve_right (hmu c x))).resolve_left hdt
    · intro c x
      have := congrFun (congrFun h1 c) x
      rw [maxwellE_eq, add_eq_left, div_eq_zero_iff] at this
      exact (mul_eq_zero.1 (this.resolve_right (hm.1 c x))).resolve_left hdt
  · rintro ⟨h1, h2⟩
    have e1 : maxwellE S.dt S.dxes s.e s.h S.eps = s.e := by
      funext c x; rw [maxwellE_eq, h2]; simp
    refine State.ext' (fun c x => ?_) fun c x => ?_
    · rw [he, e1]
    · rw [hh, e1, maxwellH_eq, h1]; simp

/-- C148: every curl-free field `G` gives a quantity that no update changes, `Σ V ε G·E`; currents change it by their overlap with `G`. (Gradients give the
charges of C09; the uniform fields give the mean displacement of the periodic domain.) -/
theorem C148_conserved_e (S : Sys sh K) (hg : GridOk S) (hm : MatOk S) (G : VField sh K) (hG : ∀ c x, curlForward (S.dxes.map (·.1)) G c x = 0)
    (s : State sh K) (ops : List (Op sh K)) : pairE S G (run S s ops).e = pairE S G s.e + workE S G (totalJ ops) := by
  induction ops generalizing s with
  | nil => rw [totalJ, workE_zero, add_zero]; rfl
  | cons o ops ih =>
    rw [show run S s (o :: ops) = run S (step S s o) ops from rfl, ih]
    cases o with
    | stepE =>
      have h1 : (step S s .stepE).e = fun c x => s.e c x + S.dt * curlBack (S.dxes.map (·.2)) s.h c x / S.eps c x := by
        funext c x; exact maxwellE_eq _ _ _ _ _ _ _
      rw [h1, pairE_add, pairE_div hm, adjoint hg, show curlForward (S.dxes.map (·.1)) G = fun _ _ => 0 from funext fun c => funext fun x => hG c x, workH_zero,
        mul_zero, add_zero]
      rfl
    | stepH => rfl
    | injJ j =>
      have h1 : (step S s (.injJ j)).e = fun c x => s.e c x + 1 * j c x / S.eps c x := by
        funext c x; rw [one_mul]; rfl
      rw [h1, pairE_add, pairE_div hm, totalJ, workE_add, one_mul, add_assoc]
    | injM m => rw [step_injM_e]; rfl

/-- C148: the same for H and magnetic currents. -/
theorem C148_conserved_h (S : Sys sh K) (hg : GridOk S) (hm : MatOk S) (G : VField sh K) (hG : ∀ c x, curlBack (S.dxes.map (·.2)) G c x = 0)
    (s : State sh K) (ops : List (Op sh K)) : pairH S G (run S s ops).h = pairH S G s.h - workH S G (totalM ops) := by
  induction ops generalizing s with
  | nil => rw [totalM, workH_zero, sub_zero]; rfl
  | cons o ops ih =>
    rw [show run S s (o :: ops) = run S (step S s o) ops from rfl, ih]
    cases o with
    | stepH =>
      have h1 : (step S s .stepH).h = fun c x => s.h c x + -S.dt * curlForward (S.dxes.map (·.1)) s.e c x / muOr S.mu c x := by
        funext c x; refine (maxwellH_eq _ _ _ _ _ _ _).trans ?_; ring
      rw [h1, pairH_add, pairH_div hm, ← adjoint hg, show curlBack (S.dxes.map (·.2)) G = fun _ _ => 0 from funext fun c => funext fun x => hG c x, workE_zero,
        mul_zero, add_zero]
      rfl
    | stepE => rfl
    | injM m =>
      have h1 : (step S s (.injM m)).h = fun c x => s.h c x + -1 * m c x / muOr S.mu c x := by
        funext c x; rw [step_injM_h]; ring
      rw [h1, pairH_add, pairH_div hm, totalM, workH_add]
      ring
    | injJ j => rfl

/-- C148: there are no other conserved quantities. A linear combination `Σ l·E` of the electric field is left unchanged by `maxwell_e` for all fields if and only if it is
`Σ V ε G·E` for a curl-free `G`. -/
theorem C148_only (S : Sys sh K) (hg : GridOk S) (hm : MatOk S) (hdt : S.dt ≠ 0) (l : VField sh K) :
    (∀ s : State sh K, ∑ c, ∑ x, l c x * (run S s [.stepE]).e c x = ∑ c, ∑ x, l c x * s.e c x) ↔
      ∃ G : VField sh K, (∀ c x, curlForward (S.dxes.map (·.1)) G c x = 0) ∧
        ∀ c x, l c x = volE (dxesOrOnes S.dxes).1 (dxesOrOnes S.dxes).2 c x * S.eps c x * G c x := by
  have hvE : ∀ c x, volE (dxesOrOnes S.dxes).1 (dxesOrOnes S.dxes).2 c x ≠ 0 := fun c x =>
    Finset.prod_ne_zero_iff.2 fun a _ => by split_ifs; exacts [hg.nz.1 _ _, hg.nz.2 _ _]
  have hvH : ∀ c x, volH (dxesOrOnes S.dxes).1 (dxesOrOnes S.dxes).2 c x ≠ 0 := fun c x =>
    Finset.prod_ne_zero_iff.2 fun a _ => by split_ifs; exacts [hg.nz.2 _ _, hg.nz.1 _ _]
  have key : ∀ (G : VField sh K), (∀ c x, l c x = volE (dxesOrOnes S.dxes).1 (dxesOrOnes S.dxes).2 c x * S.eps c x * G c x) →
      ∀ F : VField sh K, ∑ c, ∑ x, l c x * F c x = pairE S G F := by
    intro G hl F
    refine Finset.sum_congr rfl fun c _ => Finset.sum_congr rfl fun x _ => ?_
    rw [hl]; ring
  constructor
  · intro h
    set G : VField sh K := fun c x => l c x / (volE (dxesOrOnes S.dxes).1 (dxesOrOnes S.dxes).2 c x * S.eps c x) with hGd
    have hl : ∀ c x, l c x = volE (dxesOrOnes S.dxes).1 (dxesOrOnes S.dxes).2 c x * S.eps c x * G c x := by
      intro c x
      rw [hGd]; exact (mul_div_cancel₀ _ (mul_ne_zero (hvE c x) (hm.1 c x))).symm
    refine ⟨G, fun c x => ?_, hl⟩
    have h1 := h ⟨fun _ _ => 0, fun c' x' => if c' = c ∧ x' = x then 1 else 0⟩
    rw [key G hl, key G hl] at h1
    have h2 : (run S ⟨fun _ _ => 0, fun c' x' => if c' = c ∧ x' = x then 1 else 0⟩ [.stepE]).e
        = fun c' x' => (fun _ _ => 0 : VField sh K) c' x' + S.dt * curlBack (S.dxes.map (·.2)) (fun c' x' => if c' = c ∧ x' = x then 1 else 0) c' x' / S.eps c' x' := by
      funext c' x'; exact maxwellE_eq _ _ _ _ _ _ _
    rw [h2, pairE_add, add_eq_left, pairE_div hm, adjoint hg] at h1
    have h3 := (mul_eq_zero.1 h1).resolve_left hdt
    rw [workH, Finset.sum_eq_single c, Finset.sum_eq_single x] at h3
    · simpa [hvH c x] using h3
    · intro x' _ hx'; simp [hx']
    · intro hx; exact absurd (Finset.mem_univ _) hx
    · intro c' _ hc'; simp [hc']
    · intro hx; exact absurd (Finset.mem_univ _) hx
  · rintro ⟨G, hG, hl⟩ s
    rw [key G hl, key G hl, C148_conserved_e S hg hm G hG]
    simp only [totalJ, workE_zero, add_zero]

namespace Static

/-- Decomposition of a vector into a part in the range of `T` and a part orthogonal to it. -/
theorem split {ι V : Type*} [Fintype ι] (w : ι → ℝ) (hw : ∀ i, 0 < w i) [AddCommGroup V] [Module ℝ V] (T : V →ₗ[ℝ] (ι → ℝ)) (v : ι → ℝ) :
    ∃ (P : ι → ℝ) (h : V), (∀ i, v i = P i + T h i) ∧ ∀ h', ∑ i, w i * (T h' i * P i) = 0 := by
  classical
  let B : LinearMap.BilinForm ℝ (ι → ℝ) := LinearMap.mk₂ ℝ (fun a b => ∑ i, w i * (a i * b i))
    (fun a b c => by simp only [Pi.add_apply, ← Finset.sum_add_distrib]; exact Finset.sum_congr rfl fun i _ => by ring)
    (fun k a b => by simp only [Pi.smul_apply, smul_eq_mul, Finset.mul_sum]; exact Finset.sum_congr rfl fun i _ => by ring)
    (fun a b c => by simp only [Pi.add_apply, ← Finset.sum_add_distrib]; exact Finset.sum_congr rfl fun i _ => by ring)
    (fun k a b => by simp only [Pi.smul_apply, smul_eq_mul, Finset.mul_sum]; exact Finset.sum_congr rfl fun i _ => by ring)
  have hB : ∀ a b, B a b = ∑ i, w i * (a i * b i) := fun a b => rfl
  have hrefl : B.IsRefl := fun a b h => by
    rw [hB] at h ⊢
    rw [← h]; exact Finset.sum_congr rfl fun i _ => by ring
  have hdis : Disjoint (LinearMap.range T) (B.orthogonal (LinearMap.range T)) := by
    rw [Submodule.disjoint_def]
    intro a ha hb
    have h0 := hb a ha
    have h1 : ∑ i, w i * (a i * a i) = 0 := h0
    rw [Finset.sum_eq_zero_iff_of_nonneg fun i _ => mul_nonneg (hw i).le (mul_self_nonneg _)] at h1
    funext i
    have := h1 i (Finset.mem_univ i)
    simpa [(hw i).ne'] using this
  have hc := (LinearMap.BilinForm.isCompl_orthogonal_iff_disjoint hrefl).2 hdis
  obtain ⟨a, ⟨h, rfl⟩, P, hP, hv⟩ := Submodule.mem_sup.1 (hc.sup_eq_top ▸ Submodule.mem_top : v ∈ LinearMap.range T ⊔ B.orthogonal (LinearMap.range T))
  refine ⟨P, h, fun i => ?_, fun h' => hP (T h') ⟨h', rfl⟩⟩
  rw [← hv, Pi.add_apply, add_comm]

section
variable {S : Sys sh ℝ} {m : Fin 3 → ℝ} {εm μm : ℝ}

theorem ok (hC : Courant S m εm μm) : GridOk S ∧ MatOk S ∧ (∀ c x, 0 < volE (dxesOrOnes S.dxes).1 (dxesOrOnes S.dxes).2 c x) ∧
    (∀ c x, 0 < volH (dxesOrOnes S.dxes).1 (dxesOrOnes S.dxes).2 c x) ∧ ∀ c x, 0 < muOr S.mu c x := by
  have pE : ∀ a i, 0 < (dxesOrOnes S.dxes).1 a i := fun a i => lt_of_lt_of_le (hC.m_pos a) (by
    rw [(wOf_dxesOrOnes S.dxes a i).1]; exact hC.dxE a i)
  have pH : ∀ a i, 0 < (dxesOrOnes S.dxes).2 a i := fun a i => lt_of_lt_of_le (hC.m_pos a) (by
    rw [(wOf_dxesOrOnes S.dxes a i).2]; exact hC.dxH a i)
  refine ⟨fun d hd => ?_, ⟨fun c x => (lt_of_lt_of_le hC.eps_pos (hC.eps c x)).ne', fun mu hmu c x => ?_⟩, fun c x => ?_, fun c x => ?_, fun c x => ?_⟩
  · have : dxesOrOnes S.dxes = d := by rw [hd]; rfl
    rw [this] at pE pH
    exact ⟨fun a i => (pE a i).ne', fun a i => (pH a i).ne'⟩
  · have := hC.mu c x
    rw [hmu] at this
    exact (lt_of_lt_of_le hC.mu_pos this).ne'
  · exact Finset.prod_pos fun a _ => by split_ifs; exacts [pE _ _, pH _ _]
  · exact Finset.prod_pos fun a _ => by split_ifs; exacts [pH _ _, pE _ _]
  · rw [muOr_eq]; exact lt_of_lt_of_le hC.mu_pos (hC.mu c x)

theorem splitE (hC : Courant S m εm μm) (E : VField sh ℝ) :
    ∃ P h : VField sh ℝ, (∀ c x, curlForward (S.dxes.map (·.1)) P c x = 0) ∧ ∀ c x, E c x = P c x + curlBack (S.dxes.map (·.2)) h c x / S.eps c x := by
  obtain ⟨hg, hm, vE, vH, -⟩ := ok hC
  let T : VField sh ℝ →ₗ[ℝ] (Fin 3 × Idx sh → ℝ) :=
    { toFun := fun h p => curlBack (S.dxes.map (·.2)) h p.1 p.2 / S.eps p.1 p.2
      map_add' := fun a b => by
        funext p
        rw [Pi.add_apply, ← add_div]
        exact congrArg (· / S.eps p.1 p.2) (curlBack_add _ a b _ _)
      map_smul' := fun k a => by
        funext p
        rw [Pi.smul_apply, RingHom.id_apply, smul_eq_mul, mul_div_assoc']
        exact congrArg (· / S.eps p.1 p.2) (curlBack_smul _ k a _ _) }
  obtain ⟨P, h, h1, h2⟩ := split (fun p : Fin 3 × Idx sh => volE (dxesOrOnes S.dxes).1 (dxesOrOnes S.dxes).2 p.1 p.2 * S.eps p.1 p.2)
    (fun p => mul_pos (vE _ _) (lt_of_lt_of_le hC.eps_pos (hC.eps _ _))) T (fun p => E p.1 p.2)
  refine ⟨fun c x => P (c, x), h, ?_, fun c x => h1 (c, x)⟩
  have h3 := h2 (curlForward (S.dxes.map (·.1)) fun c x => P (c, x))
  have h4 : workE S (fun c x => P (c, x)) (curlBack (S.dxes.map (·.2)) (curlForward (S.dxes.map (·.1)) fun c x => P (c, x))) = 0 := by
    rw [← h3, workE, Fintype.sum_prod_type]
    refine Finset.sum_congr rfl fun c _ => Finset.sum_congr rfl fun x _ => ?_
    have := hm.1 c x
    show _ = _ * (curlBack (S.dxes.map (·.2)) (curlForward (S.dxes.map (·.1)) fun c x => P (c, x)) c x / S.eps c x * P (c, x))
    dsimp only
    field_simp
  rw [adjoint hg, workH, Finset.sum_eq_zero_iff_of_nonneg fun c _ => Finset.sum_nonneg fun x _ => mul_nonneg (vH c x).le (mul_self_nonneg _)] at h4
  intro c x
  have h5 := h4 c (Finset.mem_univ c)
  rw [Finset.sum_eq_zero_iff_of_nonneg fun x _ => mul_nonneg (vH c x).le (mul_self_nonneg _)] at h5
  simpa [(vH c x).ne'] using h5 x (Finset.mem_univ x)

theorem splitH (hC : Courant S m εm μm) (H : VField sh ℝ) :
    ∃ Q e : VField sh ℝ, (∀ c x, curlBack (S.dxes.map (·.2)) Q c x = 0) ∧ ∀ c x, H c x = Q c x + curlForward (S.dxes.map (·.1)) e c x / muOr S.mu c x := by
  obtain ⟨hg, hm, vE, vH, hmu⟩ := ok hC
  let T : VField sh ℝ →ₗ[ℝ] (Fin 3 × Idx sh → ℝ) :=
    { toFun := fun h p => curlForward (S.dxes.map (·.1)) h p.1 p.2 / muOr S.mu p.1 p.2
      map_add' := fun a b => by
        funext p
        rw [Pi.add_apply, ← add_div]
        exact congrArg (· / muOr S.mu p.1 p.2) (curlForward_add _ a b _ _)
      map_smul' := fun k a => by
        funext p
        rw [Pi.smul_apply, RingHom.id_apply, smul_eq_mul, mul_div_assoc']
        exact congrArg (· / muOr S.mu p.1 p.2) (curlForward_smul _ k a _ _) }
  obtain ⟨P, h, h1, h2⟩ := split (fun p : Fin 3 × Idx sh => volH (dxesOrOnes S.dxes).1 (dxesOrOnes S.dxes).2 p.1 p.2 * muOr S.mu p.1 p.2)
    (fun p => mul_pos (vH _ _) (hmu _ _)) T (fun p => H p.1 p.2)
  refine ⟨fun c x => P (c, x), h, ?_, fun c x => h1 (c, x)⟩
  have h3 := h2 (curlBack (S.dxes.map (·.2)) fun c x => P (c, x))
  have h4 : workH S (fun c x => P (c, x)) (curlForward (S.dxes.map (·.1)) (curlBack (S.dxes.map (·.2)) fun c x => P (c, x))) = 0 := by
    rw [← h3, workH, Fintype.sum_prod_type]
    refine Finset.sum_congr rfl fun c _ => Finset.sum_congr rfl fun x _ => ?_
    have := (hmu c x).ne'
    show _ = _ * (curlForward (S.dxes.map (·.1)) (curlBack (S.dxes.map (·.2)) fun c x => P (c, x)) c x / muOr S.mu c x * P (c, x))
    dsimp only
    field_simp
  rw [← adjoint hg, workE, Finset.sum_eq_zero_iff_of_nonneg fun c _ => Finset.sum_nonneg fun x _ => mul_nonneg (vE c x).le (mul_self_nonneg _)] at h4
  intro c x
  have h5 := h4 c (Finset.mem_univ c)
  rw [Finset.sum_eq_zero_iff_of_nonneg fun x _ => mul_nonneg (vE c x).le (mul_self_nonneg _)] at h5
  simpa [(vE c x).ne'] using h5 x (Finset.mem_univ x)

end

theorem curlForward_sub (dx : Option (DxList sh K)) (F G : VField sh K) (c : Fin 3) (x : Idx sh) :
    curlForward dx (fun c x => F c x - G c x) c x = curlForward dx F c x - curlForward dx G c x := by
  have h1 := curlForward_add dx F (fun c x => -1 * G c x) c x
  rw [curlForward_smul] at h1
  rw [show (fun c x => F c x - G c x) = fun c x => F c x + -1 * G c x by funext c x; ring, h1]; ring
theorem curlBack_sub (dx : Option (DxList sh K)) (F G : VField sh K) (c : Fin 3) (x : Idx sh) :
    curlBack dx (fun c x => F c x - G c x) c x = curlBack dx F c x - curlBack dx G c x := by
  have h1 := curlBack_add dx F (fun c x => -1 * G c x) c x
  rw [curlBack_smul] at h1
  rw [show (fun c x => F c x - G c x) = fun c x => F c x + -1 * G c x by funext c x; ring, h1]; ring

/-- A static field plus the difference of two runs stays so. -/
theorem follow {S : Sys sh K} {P Q : VField sh K} (hP : ∀ c x, curlForward (S.dxes.map (·.1)) P c x = 0) (hQ : ∀ c x, curlBack (S.dxes.map (·.2)) Q c x = 0)
    {s a b : State sh K} (he : ∀ c x, s.e c x = P c x + (b.e c x - a.e c x)) (hh : ∀ c x, s.h c x = Q c x + (b.h c x - a.h c x)) :
    (∀ c x, (run S s [.stepE, .stepH]).e c x = P c x + ((run S b [.stepE, .stepH]).e c x - (run S a [.stepE, .stepH]).e c x)) ∧
    ∀ c x, (run S s [.stepE, .stepH]).h c x = Q c x + ((run S b [.stepE, .stepH]).h c x - (run S a [.stepE, .stepH]).h c x) := by
  have e1 : ∀ s : State sh K, (run S s [.stepE, .stepH]).e = maxwellE S.dt S.dxes s.e s.h S.eps := fun _ => rfl
  have h1 : ∀ s : State sh K, (run S s [.stepE, .stepH]).h = maxwellH S.dt S.dxes (maxwellE S.dt S.dxes s.e s.h S.eps) s.h S.mu := fun _ => rfl
  have e2 : ∀ c x, maxwellE S.dt S.dxes s.e s.h S.eps c x
      = P c x + (maxwellE S.dt S.dxes b.e b.h S.eps c x - maxwellE S.dt S.dxes a.e a.h S.eps c x) := by
    intro c x
    simp only [maxwellE_eq]
    rw [show s.h = fun c x => Q c x + (b.h c x - a.h c x) from funext fun c => funext fun x => hh c x, curlBack_add, curlBack_sub, hQ, he]
    ring
  refine ⟨fun c x => by simp only [e1]; exact e2 c x, fun c x => ?_⟩
  simp only [h1]
  rw [show maxwellE S.dt S.dxes s.e s.h S.eps = fun c x => P c x + (maxwellE S.dt S.dxes b.e b.h S.eps c x - maxwellE S.dt S.dxes a.e a.h S.eps c x) from
    funext fun c => funext fun x => e2 c x]
  simp only [maxwellH_eq]
  rw [curlForward_add, curlForward_sub, hP, hh]
  ring

theorem leap_succ (S : Sys sh K) (s : State sh K) (n : ℕ) : run S s (leapfrog (n + 1)) = run S (run S s (leapfrog n)) [.stepE, .stepH] := by
  have : leapfrog (sh := sh) (K := K) (n + 1) = leapfrog n ++ [.stepE, .stepH] := by simp [leapfrog, List.replicate_succ']
  rw [this, run, List.foldl_append]; rfl

end Static

/-- C148: what is left behind. Below the time-step bound the time averages of E and H over a run without sources converge, with an error of at most `C / N` after `N`
steps, to static fields `P` and `Q`; these are the only static fields with the same conserved quantities as the initial state. -/
theorem C148_residual (S : Sys sh ℝ) (m : Fin 3 → ℝ) (εm μm : ℝ) (hC : Courant S m εm μm) (hdt : S.dt ≠ 0) (s : State sh ℝ) :
    ∃ P Q : VField sh ℝ, ∃ C : ℝ, (∀ c x, curlForward (S.dxes.map (·.1)) P c x = 0) ∧ (∀ c x, curlBack (S.dxes.map (·.2)) Q c x = 0) ∧
      (∀ P' : VField sh ℝ, (∀ c x, curlForward (S.dxes.map (·.1)) P' c x = 0) →
        ((∀ G : VField sh ℝ, (∀ c x, curlForward (S.dxes.map (·.1)) G c x = 0) → pairE S G P' = pairE S G s.e) ↔ P' = P)) ∧
      (∀ Q' : VField sh ℝ, (∀ c x, curlBack (S.dxes.map (·.2)) Q' c x = 0) →
        ((∀ G : VField sh ℝ, (∀ c x, curlBack (S.dxes.map (·.2)) G c x = 0) → pairH S G Q' = pairH S G s.h) ↔ Q' = Q)) ∧
      ∀ N : ℕ, 0 < N → ∀ c x, |(∑ n ∈ Finset.range N, (run S s (leapfrog n)).e c x) / N - P c x| ≤ C / N ∧
        |(∑ n ∈ Finset.range N, (run S s (leapfrog n)).h c x) / N - Q c x| ≤ C / N := by
  obtain ⟨hg, hm, vE, vH, hmu⟩ := ok hC
  obtain ⟨P, h', hP, hE⟩ := splitE hC s.e
  obtain ⟨Q, e', hQ, hH⟩ := splitH hC s.h
  -- the state whose first step makes the difference
  set q : State sh ℝ := ⟨fun c x => -(1 / S.dt) * e' c x - (s.e c x - P c x), fun c x => 1 / S.dt * h' c x⟩ with hq
  have q1 : ∀ c x, (run S q [.stepE, .stepH]).e c x = -(1 / S.dt) * e' c x := by
    intro c x
    show maxwellE S.dt S.dxes q.e q.h S.eps c x = _
    rw [maxwellE_eq, hq]
    dsimp only
    rw [curlBack_smul, hE c x]
    field_simp; ring
  have q2 : ∀ c x, (run S q [.stepE, .stepH]).h c x = q.h c x + (s.h c x - Q c x) := by
    intro c x
    show maxwellH S.dt S.dxes (run S q [.stepE, .stepH]).e q.h S.mu c x = _
    rw [maxwellH_eq, show (run S q [.stepE, .stepH]).e = fun c x => -(1 / S.dt) * e' c x from funext fun c => funext fun x => q1 c x, curlForward_smul, hH c x]
    field_simp; ring
  have tr : ∀ n, (∀ c x, (run S s (leapfrog n)).e c x = P c x + ((run S q (leapfrog (n + 1))).e c x - (run S q (leapfrog n)).e c x)) ∧
      ∀ c x, (run S s (leapfrog n)).h c x = Q c x + ((run S q (leapfrog (n + 1))).h c x - (run S q (leapfrog n)).h c x) := by
    intro n
    induction n with
    | zero =>
      constructor
      · intro c x
        have : (run S q (leapfrog (0 + 1))).e c x = -(1 / S.dt) * e' c x := q1 c x
        rw [this]
        show s.e c x = P c x + (_ - q.e c x)
        rw [hq]; dsimp only; ring
      · intro c x
        have : (run S q (leapfrog (0 + 1))).h c x = q.h c x + (s.h c x - Q c x) := q2 c x
        rw [this]
        show s.h c x = Q c x + (_ - q.h c x)
        ring
    | succ n ih =>
      have := follow (S := S) hP hQ ih.1 ih.2
      rw [← leap_succ, ← leap_succ, ← leap_succ] at this
      exact this
  obtain ⟨C, hCb⟩ := C12_stability S m εm μm hC q
  have uniqE : ∀ P' : VField sh ℝ, (∀ c x, curlForward (S.dxes.map (·.1)) P' c x = 0) →
      ((∀ G : VField sh ℝ, (∀ c x, curlForward (S.dxes.map (·.1)) G c x = 0) → pairE S G P' = pairE S G s.e) ↔ P' = P) := by
    have base : ∀ G : VField sh ℝ, (∀ c x, curlForward (S.dxes.map (·.1)) G c x = 0) → pairE S G P = pairE S G s.e := by
      intro G hG
      rw [show s.e = fun c x => P c x + 1 * curlBack (S.dxes.map (·.2)) h' c x / S.eps c x by funext c x; rw [one_mul]; exact hE c x, pairE_add, pairE_div hm,
        adjoint hg, show curlForward (S.dxes.map (·.1)) G = fun _ _ => 0 from funext fun c => funext fun x => hG c x, workH_zero, mul_zero, add_zero]
    intro P' hP'
    constructor
    · intro h
      have hD : ∀ c x, curlForward (S.dxes.map (·.1)) (fun c x => P' c x - P c x) c x = 0 := fun c x => by rw [curlForward_sub, hP', hP, sub_zero]
      have h1 := (h _ hD).trans (base _ hD).symm
      have h2 : pairE S (fun c x => P' c x - P c x) (fun c x => P' c x - P c x) = 0 := by
        have := pairE_add S (fun c x => P' c x - P c x) P (fun c x => P' c x - P c x)
        rw [show (fun c x => P c x + (P' c x - P c x)) = P' by funext c x; ring, h1] at this
        linarith
      rw [pairE, Finset.sum_eq_zero_iff_of_nonneg fun c _ => Finset.sum_nonneg fun x _ =>
        mul_nonneg (vE c x).le (mul_nonneg (hC.eps_pos.le.trans (hC.eps c x)) (mul_self_nonneg _))] at h2
      funext c x
      have h3 := h2 c (Finset.mem_univ c)
      rw [Finset.sum_eq_zero_iff_of_nonneg fun x _ =>
        mul_nonneg (vE c x).le (mul_nonneg (hC.eps_pos.le.trans (hC.eps c x)) (mul_self_nonneg _))] at h3
      have h4 := h3 x (Finset.mem_univ x)
      have h5 : (P' c x - P c x) = 0 := by simpa [(vE c x).ne', hm.1 c x] using h4
      linarith
    · rintro rfl; exact base
  have uniqH : ∀ Q' : VField sh ℝ, (∀ c x, curlBack (S.dxes.map (·.2)) Q' c x = 0) →
      ((∀ G : VField sh ℝ, (∀ c x, curlBack (S.dxes.map (·.2)) G c x = 0) → pairH S G Q' = pairH S G s.h) ↔ Q' = Q) := by
    have base : ∀ G : VField sh ℝ, (∀ c x, curlBack (S.dxes.map (·.2)) G c x = 0) → pairH S G Q = pairH S G s.h := by
      intro G hG
      rw [show s.h = fun c x => Q c x + 1 * curlForward (S.dxes.map (·.1)) e' c x / muOr S.mu c x by funext c x; rw [one_mul]; exact hH c x, pairH_add, pairH_div hm,
        ← adjoint hg, show curlBack (S.dxes.map (·.2)) G = fun _ _ => 0 from funext fun c => funext fun x => hG c x, workE_zero, mul_zero, add_zero]
    intro Q' hQ'
    have hmu' : ∀ c x, 0 < (S.mu.getD fun _ _ => 1) c x := fun c x => muOr_eq S.mu ▸ hmu c x
    constructor
    · intro h
      have hD : ∀ c x, curlBack (S.dxes.map (·.2)) (fun c x => Q' c x - Q c x) c x = 0 := fun c x => by rw [curlBack_sub, hQ', hQ, sub_zero]
      have h1 := (h _ hD).trans (base _ hD).symm
      have h2 : pairH S (fun c x => Q' c x - Q c x) (fun c x => Q' c x - Q c x) = 0 := by
        have := pairH_add S (fun c x => Q' c x - Q c x) Q (fun c x => Q' c x - Q c x)
        rw [show (fun c x => Q c x + (Q' c x - Q c x)) = Q' by funext c x; ring, h1] at this
        linarith
      rw [pairH, Finset.sum_eq_zero_iff_of_nonneg fun c _ => Finset.sum_nonneg fun x _ =>
        mul_nonneg (vH c x).le (mul_nonneg (hmu' c x).le (mul_self_nonneg _))] at h2
      funext c x
      have h3 := h2 c (Finset.mem_univ c)
      rw [Finset.sum_eq_zero_iff_of_nonneg fun x _ => mul_nonneg (vH c x).le (mul_nonneg (hmu' c x).le (mul_self_nonneg _))] at h3
      have h4 := h3 x (Finset.mem_univ x)
      have h5 : (Q' c x - Q c x) = 0 := by simpa [(vH c x).ne', (hmu' c x).ne'] using h4
      linarith
    · rintro rfl; exact base
  refine ⟨P, Q, 2 * C, hP, hQ, uniqE, uniqH, fun N hN c x => ?_⟩
  have hN' : (0 : ℝ) < N := by exact_mod_cast hN
  have sumE : ∑ n ∈ Finset.range N, (run S s (leapfrog n)).e c x = N * P c x + ((run S q (leapfrog N)).e c x - (run S q (leapfrog 0)).e c x) := by
    simp only [(tr _).1 c x, Finset.sum_add_distrib, Finset.sum_const, Finset.card_range, nsmul_eq_mul]
    rw [Finset.sum_range_sub fun n => (run S q (leapfrog n)).e c x]
  have sumH : ∑ n ∈ Finset.range N, (run S s (leapfrog n)).h c x = N * Q c x + ((run S q (leapfrog N)).h c x - (run S q (leapfrog 0)).h c x) := by
    simp only [(tr _).2 c x, Finset.sum_add_distrib, Finset.sum_const, Finset.card_range, nsmul_eq_mul]
    rw [Finset.sum_range_sub fun n => (run S q (leapfrog n)).h c x]
  rw [sumE, sumH, add_div, add_div, mul_div_cancel_left₀ _ hN'.ne', mul_div_cancel_left₀ _ hN'.ne', add_sub_cancel_left, add_sub_cancel_left, abs_div, abs_div,
    abs_of_pos hN']
  obtain ⟨b1, b2⟩ := hCb N c x
  obtain ⟨b3, b4⟩ := hCb 0 c x
  exact ⟨div_le_div_of_nonneg_right ((abs_sub _ _).trans (by linarith)) hN'.le, div_le_div_of_nonneg_right ((abs_sub _ _).trans (by linarith)) hN'.le⟩

/-- C148: after the sources. A run that starts without fields and in which the currents of `ops` are injected (between updates in any order), then continues without sources,
has the time average `P` of E: the static field with `Σ V ε G·P = Σ V G·(sum of all currents)` for all static `G`. It is zero exactly if the sum of all currents has no
overlap with a static field, in particular if the currents add up to zero in every cell. -/
theorem C148_after_sources (S : Sys sh ℝ) (m : Fin 3 → ℝ) (εm μm : ℝ) (hC : Courant S m εm μm) (hdt : S.dt ≠ 0) (ops : List (Op sh ℝ)) :
    ∃ P : VField sh ℝ, (∀ c x, curlForward (S.dxes.map (·.1)) P c x = 0) ∧
      (∀ G : VField sh ℝ, (∀ c x, curlForward (S.dxes.map (·.1)) G c x = 0) → pairE S G P = workE S G (totalJ ops)) ∧
      (∃ C : ℝ, ∀ N : ℕ, 0 < N → ∀ c x,
        |(∑ n ∈ Finset.range N, (run S (run S ⟨fun _ _ => 0, fun _ _ => 0⟩ ops) (leapfrog n)).e c x) / N - P c x| ≤ C / N) ∧
      ((∀ c x, P c x = 0) ↔ ∀ G : VField sh ℝ, (∀ c x, curlForward (S.dxes.map (·.1)) G c x = 0) → workE S G (totalJ ops) = 0) := by
  obtain ⟨hg, hm, -, -, -⟩ := ok hC
  obtain ⟨P, Q, C, hP, -, uE, -, hav⟩ := C148_residual S m εm μm hC hdt (run S ⟨fun _ _ => 0, fun _ _ => 0⟩ ops)
  have h0 : ∀ G : VField sh ℝ, (∀ c x, curlForward (S.dxes.map (·.1)) G c x = 0) →
      pairE S G (run S ⟨fun _ _ => 0, fun _ _ => 0⟩ ops).e = workE S G (totalJ ops) := by
    intro G hG
    rw [C148_conserved_e S hg hm G hG]
    simp [pairE]
  have h1 : ∀ G : VField sh ℝ, (∀ c x, curlForward (S.dxes.map (·.1)) G c x = 0) → pairE S G P = workE S G (totalJ ops) :=
    fun G hG => ((uE P hP).2 rfl G hG).trans (h0 G hG)
  refine ⟨P, hP, h1, ⟨C, fun N hN c x => (hav N hN c x).1⟩, ?_, ?_⟩
  · intro hz G hG
    rw [← h1 G hG, show P = fun _ _ => 0 from funext fun c => funext fun x => hz c x]
    simp [pairE]
  · intro h c x
    have hz : ∀ c x, curlForward (S.dxes.map (·.1)) (fun _ _ => (0 : ℝ)) c x = 0 := by
      intro c x
      have := curlForward_smul (S.dxes.map (·.1)) 0 (fun _ _ => (0 : ℝ)) c x
      simpa using this
    have := (uE (fun _ _ => 0) hz).1 fun G hG => by rw [h0 G hG, h G hG]; simp [pairE]
    rw [← this]

/-- C148: a point source leaves a static field behind unless its samples add up to zero: the uniform field is static. -/
theorem C148_point_source (S : Sys sh ℝ) (m : Fin 3 → ℝ) (εm μm : ℝ) (hC : Courant S m εm μm) (hdt : S.dt ≠ 0) (ops : List (Op sh ℝ)) (c₀ : Fin 3) (x₀ : Idx sh) (A : ℝ)
    (hJ : totalJ ops = fun c x => if c = c₀ ∧ x = x₀ then A else 0) :
    (∀ c x, Filter.Tendsto (fun N : ℕ => (∑ n ∈ Finset.range N, (run S (run S ⟨fun _ _ => 0, fun _ _ => 0⟩ ops) (leapfrog n)).e c x) / N) Filter.atTop (nhds 0)) ↔
      A = 0 := by
  obtain ⟨-, -, vE, -, -⟩ := ok hC
  obtain ⟨P, hP, hG, ⟨C, hav⟩, hz⟩ := C148_after_sources S m εm μm hC hdt ops
  have lim : ∀ c x, Filter.Tendsto (fun N : ℕ => (∑ n ∈ Finset.range N, (run S (run S ⟨fun _ _ => 0, fun _ _ => 0⟩ ops) (leapfrog n)).e c x) / N) Filter.atTop
      (nhds (P c x)) := by
    intro c x
    rw [← tendsto_sub_nhds_zero_iff]
    refine squeeze_zero_norm' (a := fun N : ℕ => C / N) ?_ (tendsto_const_div_atTop_nhds_zero_nat C)
    filter_upwards [Filter.eventually_gt_atTop 0] with N hN
    exact hav N hN c x
  have iff0 : (∀ c x, Filter.Tendsto (fun N : ℕ => (∑ n ∈ Finset.range N, (run S (run S ⟨fun _ _ => 0, fun _ _ => 0⟩ ops) (leapfrog n)).e c x) / N) Filter.atTop
      (nhds 0)) ↔ ∀ c x, P c x = 0 :=
    ⟨fun h c x => tendsto_nhds_unique (lim c x) (h c x), fun h c x => h c x ▸ lim c x⟩
  have work : ∀ G : VField sh ℝ, workE S G (totalJ ops) = volE (dxesOrOnes S.dxes).1 (dxesOrOnes S.dxes).2 c₀ x₀ * (G c₀ x₀ * A) := by
    intro G
    rw [hJ, workE, Finset.sum_eq_single c₀, Finset.sum_eq_single x₀]
    · simp
    · intro x _ hx; simp [hx]
    · intro hx; exact absurd (Finset.mem_univ _) hx
    · intro c _ hc; simp [hc]
    · intro hx; exact absurd (Finset.mem_univ _) hx
  rw [iff0, hz]
  constructor
  · intro h
    have hu : ∀ c x, curlForward (S.dxes.map (·.1)) (fun _ _ => (1 : ℝ)) c x = 0 := by
      intro c x
      rw [curlForward_lc]
      refine Finset.sum_eq_zero fun a _ => Finset.sum_eq_zero fun b _ => ?_
      rw [derivForward_eq, sub_self, zero_div, mul_zero]
    have := h _ hu
    rw [work, one_mul] at this
    exact (mul_eq_zero.1 this).resolve_left (vE _ _).ne'
  · rintro rfl G -
    rw [work]; simp

/-- A pulse of two samples at one cell with one update between them: the sum of its samples decides. -/
example : totalJ [Op.injJ fun c x => if c = 0 ∧ x = 0 then (2 : ℝ) else 0, .stepE, .stepH, .injJ fun c x => if c = 0 ∧ x = 0 then (-2 : ℝ) else 0]
    = fun (c : Fin 3) (x : Idx fun _ => 4) => if c = 0 ∧ x = 0 then (0 : ℝ) else 0 := by
  funext c x
  by_cases h : c = 0 ∧ x = 0 <;> simp [totalJ, h]

/-- The hypotheses are met by vacuum on unit cells with `dt = 1/2`. -/
example : Courant (⟨1 / 2, none, fun _ _ => 1, none⟩ : Sys (fun _ => 4) ℝ) (fun _ => 1) 1 1 where
  m_pos := fun _ => one_pos
  dxE := fun _ _ => le_refl _
  dxH := fun _ _ => le_refl _
  eps_pos := one_pos
  mu_pos := one_pos
  eps := fun _ _ => le_refl _
  mu := fun _ _ => le_refl _
  dt := by norm_num

end Meanas.Props
