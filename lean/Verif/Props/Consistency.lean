/-
C104: the difference operators and the FDTD updates approximate the derivatives and Maxwell's equations to second order.
-/
import Verif.Props.FdtdRun
import Verif.Props.Fdmath
import Verif.Lemmas.Fdtd
import Verif.Spec.Smooth
import Mathlib.Analysis.Calculus.MeanValue
import Mathlib.Analysis.Calculus.Deriv.Shift
import Mathlib.Analysis.Calculus.Deriv.Pow

namespace Meanas.Props

open Functional Spec Fdtd

section oneD
variable {F : Type*} [NormedAddCommGroup F] [NormedSpace ℝ F]

theorem smooth3_chain {M : ℝ} {f : ℝ → F} (hf : Smooth3 M f) : ∃ f2 f3 : ℝ → F,
    (∀ s, HasDerivAt f (deriv f s) s) ∧ (∀ s, HasDerivAt (deriv f) (f2 s) s) ∧ (∀ s, HasDerivAt f2 (f3 s) s) ∧ ∀ s, ‖f3 s‖ ≤ M := by
  obtain ⟨h1, h2⟩ := hf
  have d := fun k (hk : (k : ℕ) < 3) => h1.differentiable_iteratedDeriv (n := 3) k (by exact_mod_cast hk)
  refine ⟨iteratedDeriv 2 f, iteratedDeriv 3 f, fun s => ?_, fun s => ?_, fun s => ?_, h2⟩
  · have := (d 0 (by norm_num)) s
    rw [iteratedDeriv_zero] at this
    exact this.hasDerivAt
  · have := (d 1 (by norm_num)) s
    rw [iteratedDeriv_one] at this
    have h := this.hasDerivAt
    rwa [show deriv (deriv f) s = iteratedDeriv 2 f s by rw [iteratedDeriv_succ, iteratedDeriv_one]] at h
  · have := (d 2 (by norm_num)) s
    have h := this.hasDerivAt
    rwa [show deriv (iteratedDeriv 2 f) s = iteratedDeriv 3 f s by rw [iteratedDeriv_succ (n := 2)]] at h

/-- The central difference over `2 s` differs from `2 s f'` by at most `M s³ / 3`. -/
theorem central_diff {M : ℝ} {f : ℝ → F} (hf : Smooth3 M f) (m s : ℝ) (hs : 0 ≤ s) :
    ‖f (m + s) - f (m - s) - (2 * s) • deriv f m‖ ≤ M * s ^ 3 / 3 := by
  obtain ⟨f2, f3, d1, d2, d3, hb⟩ := smooth3_chain hf
  have comp : ∀ (g g' : ℝ → F), (∀ s, HasDerivAt g (g' s) s) → ∀ u, HasDerivAt (fun s => g (m + s)) (g' (m + u)) u ∧
      HasDerivAt (fun s => g (m - s)) (-g' (m - u)) u := by
    intro g g' hg u
    have a1 := (hg (m + u)).comp_const_add m u
    have a2 := (hg (m - u)).comp_const_sub m u
    exact ⟨a1, a2⟩
  -- second derivative of the remainder
  have k2 : ∀ u, 0 ≤ u → ‖f2 (m + u) - f2 (m - u)‖ ≤ 2 * M * u := by
    intro u hu
    have := image_norm_le_of_norm_deriv_right_le_deriv_boundary (f := fun v => f2 (m + v) - f2 (m - v))
      (f' := fun v => f3 (m + v) + f3 (m - v)) (a := 0) (b := u) (B := fun v => 2 * M * v) (B' := fun _ => 2 * M)
      (fun v _ => (((comp f2 f3 d3 v).1.sub (comp f2 f3 d3 v).2).continuousAt).continuousWithinAt)
      (fun v _ => by
        have := (comp f2 f3 d3 v).1.sub (comp f2 f3 d3 v).2
        rw [sub_neg_eq_add] at this
        exact this.hasDerivWithinAt)
      (by simp) (fun v => by simpa using (hasDerivAt_id v).const_mul (2 * M))
      (fun v _ => by
        calc _ ≤ ‖f3 (m + v)‖ + ‖f3 (m - v)‖ := norm_add_le _ _
          _ ≤ 2 * M := by have := hb (m + v); have := hb (m - v); linarith)
    exact this ⟨hu, le_refl u⟩
  have k1 : ∀ u, 0 ≤ u → ‖deriv f (m + u) + deriv f (m - u) - (2 : ℝ) • deriv f m‖ ≤ M * u ^ 2 := by
    intro u hu
    have hd : ∀ v, HasDerivAt (fun v => deriv f (m + v) + deriv f (m - v) - (2 : ℝ) • deriv f m) (f2 (m + v) - f2 (m - v)) v := fun v => by
      have := ((comp (deriv f) f2 d2 v).1.add (comp (deriv f) f2 d2 v).2).sub_const ((2 : ℝ) • deriv f m)
      rwa [← sub_eq_add_neg] at this
    have := image_norm_le_of_norm_deriv_right_le_deriv_boundary (f := fun v => deriv f (m + v) + deriv f (m - v) - (2 : ℝ) • deriv f m)
      (f' := fun v => f2 (m + v) - f2 (m - v)) (a := 0) (b := u) (B := fun v => M * v ^ 2) (B' := fun v => 2 * M * v)
      (fun v _ => (hd v).continuousAt.continuousWithinAt) (fun v _ => (hd v).hasDerivWithinAt)
      (by simp [two_smul]) (fun v => by
        have := (hasDerivAt_pow 2 v).const_mul M
        simp only [Nat.cast_ofNat, Nat.reduceSub, pow_one] at this
        exact this.congr_deriv (by ring))
      (fun v hv => k2 v hv.1)
    exact this ⟨hu, le_refl u⟩
  have hd : ∀ v, HasDerivAt (fun v => f (m + v) - f (m - v) - (2 * v) • deriv f m) (deriv f (m + v) + deriv f (m - v) - (2 : ℝ) • deriv f m) v := fun v => by
    have h2 : HasDerivAt (fun v : ℝ => (2 * v) • deriv f m) ((2 : ℝ) • deriv f m) v := by
      have := ((hasDerivAt_id v).const_mul 2).smul_const (deriv f m)
      simpa using this
    have := ((comp f (deriv f) d1 v).1.sub (comp f (deriv f) d1 v).2).sub h2
    rwa [sub_neg_eq_add] at this
  have := image_norm_le_of_norm_deriv_right_le_deriv_boundary (f := fun v => f (m + v) - f (m - v) - (2 * v) • deriv f m)
    (f' := fun v => deriv f (m + v) + deriv f (m - v) - (2 : ℝ) • deriv f m) (a := 0) (b := s) (B := fun v => M * v ^ 3 / 3) (B' := fun v => M * v ^ 2)
    (fun v _ => (hd v).continuousAt.continuousWithinAt) (fun v _ => (hd v).hasDerivWithinAt)
    (by simp) (fun v => by
      have := ((hasDerivAt_pow 3 v).const_mul M).div_const 3
      simp only [Nat.cast_ofNat, Nat.reduceSub] at this
      exact this.congr_deriv (by ring))
    (fun v hv => k1 v hv.1)
  exact this ⟨hs, le_refl s⟩

end oneD

section grid
variable {sh : Fin 3 → ℕ} {K : Type*} [RCLike K]

omit [RCLike K] in
theorem latticePt_fwd {L h : Pt} (hL : ∀ a, L a = sh a * h a) (o : Pt) (F : Pt → K) (hF : Periodic L F) (a : Fin 3) (x : Idx sh) :
    F (latticePt h o (shiftIdx a 1 x)) = F (Function.update (latticePt h o x) a (latticePt h o x a + h a)) := by
  have hx := (x a).2
  by_cases hlt : (x a : ℕ) + 1 < sh a
  · congr 1
    funext b
    by_cases hb : b = a
    · subst hb
      have : ((wrap (x b) 1 : Fin (sh b)) : ℕ) = (x b : ℕ) + 1 := by
        simp only [wrap]
        have := Int.emod_eq_of_lt (a := ((x b : ℕ) : ℤ) + 1) (b := (sh b : ℤ)) (by omega) (by omega)
        omega
      simp only [latticePt, shiftIdx, Function.update_self, this]
      push_cast; ring
    · simp only [latticePt, shiftIdx, Function.update_of_ne hb]
  · have he : (x a : ℕ) + 1 = sh a := by omega
    rw [← hF a (latticePt h o (shiftIdx a 1 x))]
    congr 1
    funext b
    by_cases hb : b = a
    · subst hb
      have : ((wrap (x b) 1 : Fin (sh b)) : ℕ) = 0 := by
        simp only [wrap]
        have : ((x b : ℕ) : ℤ) + 1 = (sh b : ℤ) := by omega
        rw [this]; simp
      simp only [latticePt, shiftIdx, Function.update_self, this, hL]
      have : ((sh b : ℕ) : ℝ) = (x b : ℕ) + 1 := by exact_mod_cast he.symm
      rw [this]; push_cast; ring
    · simp only [latticePt, shiftIdx, Function.update_of_ne hb]

omit [RCLike K] in
theorem latticePt_bwd {L h : Pt} (hL : ∀ a, L a = sh a * h a) (o : Pt) (F : Pt → K) (hF : Periodic L F) (a : Fin 3) (x : Idx sh) :
    F (latticePt h o (shiftIdx a (-1) x)) = F (Function.update (latticePt h o x) a (latticePt h o x a - h a)) := by
  have hx := (x a).2
  by_cases hlt : 0 < (x a : ℕ)
  · congr 1
    funext b
    by_cases hb : b = a
    · subst hb
      have : ((wrap (x b) (-1) : Fin (sh b)) : ℕ) + 1 = (x b : ℕ) := by
        simp only [wrap]
        have := Int.emod_eq_of_lt (a := ((x b : ℕ) : ℤ) + -1) (b := (sh b : ℤ)) (by omega) (by omega)
        omega
      have : (((wrap (x b) (-1) : Fin (sh b)) : ℕ) : ℝ) = (x b : ℕ) - 1 := by
        rw [eq_sub_iff_add_eq]; exact_mod_cast this
      simp only [latticePt, shiftIdx, Function.update_self, this]
      ring
    · simp only [latticePt, shiftIdx, Function.update_of_ne hb]
  · have he : (x a : ℕ) = 0 := by omega
    rw [← hF a (Function.update (latticePt h o x) a (latticePt h o x a - h a))]
    congr 1
    funext b
    by_cases hb : b = a
    · subst hb
      have : ((wrap (x b) (-1) : Fin (sh b)) : ℕ) + 1 = sh b := by
        simp only [wrap, he]
        have h1 : (((0 : ℕ) : ℤ) + -1) % (sh b : ℤ) = (sh b : ℤ) - 1 := by
          rw [show (((0 : ℕ) : ℤ) + -1) = ((sh b : ℤ) - 1) + (sh b : ℤ) * (-1) by ring, Int.add_mul_emod_self_left]
          exact Int.emod_eq_of_lt (by omega) (by omega)
        rw [h1]; omega
      have : (((wrap (x b) (-1) : Fin (sh b)) : ℕ) : ℝ) = (sh b : ℕ) - 1 := by
        rw [eq_sub_iff_add_eq]; exact_mod_cast this
      simp only [latticePt, shiftIdx, Function.update_self, this, hL, he]
      push_cast; ring
    · simp only [latticePt, shiftIdx, Function.update_of_ne hb]

/-- C104: on a uniform periodic grid the forward difference of the samples of a smooth periodic function differs from its derivative halfway
to the next sample by at most `M h² / 24`. -/
theorem C104_deriv_forward {L h : Pt} (hL : ∀ a, L a = sh a * h a) (o : Pt) (F : Pt → K) (hF : Periodic L F) (a : Fin 3) (hh : 0 < h a)
    {M : ℝ} (hM : ∀ r, Smooth3 M (line F a r)) (x : Idx sh) :
    ‖derivForward (some fun a _ => (h a : K)) a (fun x => F (latticePt h o x)) x
      - pd F a (latticePt h (Function.update o a (o a + 1 / 2)) x)‖ ≤ M * h a ^ 2 / 24 := by
  have key := central_diff (hM (latticePt h o x)) (latticePt h o x a + h a / 2) (h a / 2) (by positivity)
  have hpt : latticePt h (Function.update o a (o a + 1 / 2)) x = Function.update (latticePt h o x) a (latticePt h o x a + h a / 2) := by
    funext b
    by_cases hb : b = a
    · subst hb; simp only [latticePt, Function.update_self]; ring
    · simp only [latticePt, Function.update_of_ne hb]
  have hpd : pd F a (Function.update (latticePt h o x) a (latticePt h o x a + h a / 2))
      = deriv (line F a (latticePt h o x)) (latticePt h o x a + h a / 2) := by
    have : line F a (Function.update (latticePt h o x) a (latticePt h o x a + h a / 2)) = line F a (latticePt h o x) := by
      funext s; simp only [line, Function.update_idem]
    rw [pd, this, Function.update_self]
  rw [derivForward_eq, wOf_some, latticePt_fwd hL o F hF, hpt, hpd]
  have e1 : line F a (latticePt h o x) (latticePt h o x a + h a / 2 + h a / 2)
      = F (Function.update (latticePt h o x) a (latticePt h o x a + h a)) := by simp only [line]; congr 2; ring
  have e2 : line F a (latticePt h o x) (latticePt h o x a + h a / 2 - h a / 2) = F (latticePt h o x) := by
    simp only [line, add_sub_cancel_right, Function.update_eq_self]
  rw [e1, e2] at key
  set D := deriv (line F a (latticePt h o x)) (latticePt h o x a + h a / 2)
  set y := F (Function.update (latticePt h o x) a (latticePt h o x a + h a)) - F (latticePt h o x)
  have hk : (h a : K) ≠ 0 := by exact_mod_cast hh.ne'
  rw [show y / (h a : K) - D = (y - (2 * (h a / 2)) • D) / (h a : K) by
      rw [RCLike.real_smul_eq_coe_mul, show 2 * (h a / 2) = h a by ring]; field_simp,
    norm_div, RCLike.norm_ofReal, abs_of_pos hh, div_le_iff₀ hh]
  calc _ ≤ _ := key
    _ = _ := by ring

/-- C104: the same for the backward difference, halfway to the previous sample. -/
theorem C104_deriv_back {L h : Pt} (hL : ∀ a, L a = sh a * h a) (o : Pt) (F : Pt → K) (hF : Periodic L F) (a : Fin 3) (hh : 0 < h a)
    {M : ℝ} (hM : ∀ r, Smooth3 M (line F a r)) (x : Idx sh) :
    ‖derivBack (some fun a _ => (h a : K)) a (fun x => F (latticePt h o x)) x
      - pd F a (latticePt h (Function.update o a (o a - 1 / 2)) x)‖ ≤ M * h a ^ 2 / 24 := by
  have key := central_diff (hM (latticePt h o x)) (latticePt h o x a - h a / 2) (h a / 2) (by positivity)
  have hpt : latticePt h (Function.update o a (o a - 1 / 2)) x = Function.update (latticePt h o x) a (latticePt h o x a - h a / 2) := by
    funext b
    by_cases hb : b = a
    · subst hb; simp only [latticePt, Function.update_self]; ring
    · simp only [latticePt, Function.update_of_ne hb]
  have hpd : pd F a (Function.update (latticePt h o x) a (latticePt h o x a - h a / 2))
      = deriv (line F a (latticePt h o x)) (latticePt h o x a - h a / 2) := by
    have : line F a (Function.update (latticePt h o x) a (latticePt h o x a - h a / 2)) = line F a (latticePt h o x) := by
      funext s; simp only [line, Function.update_idem]
    rw [pd, this, Function.update_self]
  rw [derivBack_eq, wOf_some, latticePt_bwd hL o F hF, hpt, hpd]
  have e1 : line F a (latticePt h o x) (latticePt h o x a - h a / 2 - h a / 2)
      = F (Function.update (latticePt h o x) a (latticePt h o x a - h a)) := by simp only [line]; congr 2; ring
  have e2 : line F a (latticePt h o x) (latticePt h o x a - h a / 2 + h a / 2) = F (latticePt h o x) := by
    simp only [line, sub_add_cancel, Function.update_eq_self]
  rw [e1, e2] at key
  set D := deriv (line F a (latticePt h o x)) (latticePt h o x a - h a / 2)
  set y := F (latticePt h o x) - F (Function.update (latticePt h o x) a (latticePt h o x a - h a))
  have hk : (h a : K) ≠ 0 := by exact_mod_cast hh.ne'
  rw [show y / (h a : K) - D = (y - (2 * (h a / 2)) • D) / (h a : K) by
      rw [RCLike.real_smul_eq_coe_mul, show 2 * (h a / 2) = h a by ring]; field_simp,
    norm_div, RCLike.norm_ofReal, abs_of_pos hh, div_le_iff₀ hh]
  calc _ ≤ _ := key
    _ = _ := by ring

theorem offE_shift : ∀ c : Fin 3, Function.update (offE (c + 2)) (c + 1) (offE (c + 2) (c + 1) + 1 / 2) = offH c ∧
    Function.update (offE (c + 1)) (c + 2) (offE (c + 1) (c + 2) + 1 / 2) = offH c := by
  intro c
  constructor <;> funext b <;> fin_cases c <;> fin_cases b <;> simp [Function.update, offE, offH]

theorem offH_shift : ∀ c : Fin 3, Function.update (offH (c + 2)) (c + 1) (offH (c + 2) (c + 1) - 1 / 2) = offE c ∧
    Function.update (offH (c + 1)) (c + 2) (offH (c + 1) (c + 2) - 1 / 2) = offE c := by
  intro c
  constructor <;> funext b <;> fin_cases c <;> fin_cases b <;> simp [Function.update, offE, offH]

/-- C104: the forward curl of the samples of a smooth field at the E positions differs from the samples of its curl at the H positions by at most
`M (h_a² + h_b²) / 24`, `a` and `b` the two other axes. -/
theorem C104_curl_forward {L h : Pt} (hL : ∀ a, L a = sh a * h a) (hh : ∀ a, 0 < h a) (F : Fin 3 → Pt → K) (hF : ∀ c, Periodic L (F c))
    {M : ℝ} (hM : ∀ c a r, Smooth3 M (line (F c) a r)) (c : Fin 3) (x : Idx sh) :
    ‖curlForward (some fun a _ => (h a : K)) (sampleE h F) c x - sampleH h (curl F) c x‖ ≤ M * (h (c + 1) ^ 2 + h (c + 2) ^ 2) / 24 := by
  have a1 := C104_deriv_forward hL (offE (c + 2)) (F (c + 2)) (hF _) (c + 1) (hh _) (hM _ _) x
  have a2 := C104_deriv_forward hL (offE (c + 1)) (F (c + 1)) (hF _) (c + 2) (hh _) (hM _ _) x
  rw [(offE_shift c).1, derivForward_eq] at a1
  rw [(offE_shift c).2, derivForward_eq] at a2
  rw [(C01_curl_values _ _ c x).1]
  simp only [gradForward, sampleE, sampleH, curl]
  rw [sub_sub_sub_comm]
  exact (norm_sub_le _ _).trans (by linarith)

/-- C104: likewise the backward curl, from the H positions to the E positions. -/
theorem C104_curl_back {L h : Pt} (hL : ∀ a, L a = sh a * h a) (hh : ∀ a, 0 < h a) (F : Fin 3 → Pt → K) (hF : ∀ c, Periodic L (F c))
    {M : ℝ} (hM : ∀ c a r, Smooth3 M (line (F c) a r)) (c : Fin 3) (x : Idx sh) :
    ‖curlBack (some fun a _ => (h a : K)) (sampleH h F) c x - sampleE h (curl F) c x‖ ≤ M * (h (c + 1) ^ 2 + h (c + 2) ^ 2) / 24 := by
  have a1 := C104_deriv_back hL (offH (c + 2)) (F (c + 2)) (hF _) (c + 1) (hh _) (hM _ _) x
  have a2 := C104_deriv_back hL (offH (c + 1)) (F (c + 1)) (hF _) (c + 2) (hh _) (hM _ _) x
  rw [(offH_shift c).1, derivBack_eq] at a1
  rw [(offH_shift c).2, derivBack_eq] at a2
  rw [(C01_curl_values _ _ c x).2]
  simp only [gradBack, sampleE, sampleH, curl]
  rw [sub_sub_sub_comm]
  exact (norm_sub_le _ _).trans (by linarith)

/-- The simulation with the media of `ε`, `μ` sampled on the uniform Yee grid. -/
noncomputable def uniformSys (sh : Fin 3 → ℕ) (dt : ℝ) (h : Pt) (ε μ : Fin 3 → Pt → ℝ) : Sys sh ℝ :=
  ⟨dt, some (fun a _ => h a, fun a _ => h a), sampleE h ε, some (sampleH h μ)⟩

/-- The samples of a solution: E at `t`, H half a step later. -/
noncomputable def exactState {sh : Fin 3 → ℕ} (dt : ℝ) (h : Pt) (E H : ℝ → Fin 3 → Pt → ℝ) (t : ℝ) : State sh ℝ :=
  ⟨sampleE h (E t), sampleH h (H (t + dt / 2))⟩

/-- C104: consistency of the two updates with Maxwell's equations. Started from the samples of a smooth solution, the E update with the current
of the middle of the step gives the samples at the next step up to `dt (Mt dt² + Mx (h_a² + h_b²) / ε) / 24`, and the H update from samples at
its times likewise. -/
theorem C104_step {L h : Pt} (hL : ∀ a, L a = sh a * h a) (hh : ∀ a, 0 < h a) {dt : ℝ} (hdt : 0 ≤ dt) {ε μ : Fin 3 → Pt → ℝ}
    (hε : ∀ c r, 0 < ε c r) (hμ : ∀ c r, 0 < μ c r) {J Mc E H : ℝ → Fin 3 → Pt → ℝ} {Mt Mx : ℝ}
    (hsol : MaxwellSolution L ε μ J Mc E H Mt Mx) (t : ℝ) (c : Fin 3) (x : Idx sh) :
    |(run (uniformSys sh dt h ε μ) (exactState dt h E H t) [.stepE, .injJ fun c x => -dt * sampleE h (J (t + dt / 2)) c x]).e c x
        - (exactState dt h E H (t + dt)).e c x|
      ≤ dt * (Mt * dt ^ 2 + Mx * (h (c + 1) ^ 2 + h (c + 2) ^ 2) / sampleE h ε c x) / 24 ∧
    |(run (uniformSys sh dt h ε μ) ⟨(exactState dt h E H (t + dt)).e, (exactState dt h E H t).h⟩
          [.stepH, .injM fun c x => dt * sampleH h (Mc (t + dt)) c x]).h c x
        - (exactState dt h E H (t + dt)).h c x|
      ≤ dt * (Mt * dt ^ 2 + Mx * (h (c + 1) ^ 2 + h (c + 2) ^ 2) / sampleH h μ c x) / 24 := by
  constructor
  · have k1 := C104_curl_back hL hh (H (t + dt / 2)) (hsol.periodicH _) (hsol.spaceH _) c x
    have k2 := central_diff (hsol.timeE c (latticePt h (offE c) x)) (t + dt / 2) (dt / 2) (by linarith)
    simp only [RCLike.ofReal_real_eq_id, id, Real.norm_eq_abs, smul_eq_mul] at k1 k2
    have k3 := hsol.ampere (t + dt / 2) c (latticePt h (offE c) x)
    have pe := hε c (latticePt h (offE c) x)
    rw [show t + dt / 2 + dt / 2 = t + dt by ring, show t + dt / 2 - dt / 2 = t by ring] at k2
    simp only [run, List.foldl, step, maxwellE_eq, uniformSys, exactState, Option.map]
    have hC : ∃ C, C = curlBack (some fun a _ => h a) (sampleH (sh := sh) h (H (t + dt / 2))) c x := ⟨_, rfl⟩
    obtain ⟨C, hC⟩ := hC
    rw [← hC] at k1 ⊢
    simp only [sampleE] at k1 k2 k3 pe ⊢
    set r := latticePt h (offE c) x
    set D := deriv (fun s => E s c r) (t + dt / 2)
    have hcu : curl (H (t + dt / 2)) c r = ε c r * D + J (t + dt / 2) c r := by linarith
    rw [hcu] at k1
    have e : E t c r + dt * C / ε c r + -dt * J (t + dt / 2) c r / ε c r - E (t + dt) c r
        = dt / ε c r * (C - (ε c r * D + J (t + dt / 2) c r)) - (E (t + dt) c r - E t c r - 2 * (dt / 2) * D) := by
      field_simp; ring
    rw [e]
    refine (abs_sub _ _).trans ?_
    rw [abs_mul, abs_of_nonneg (div_nonneg hdt pe.le)]
    have := mul_le_mul_of_nonneg_left k1 (div_nonneg hdt pe.le)
    have e2 : dt / ε c r * (Mx * (h (c + 1) ^ 2 + h (c + 2) ^ 2) / 24) + Mt * (dt / 2) ^ 3 / 3
        = dt * (Mt * dt ^ 2 + Mx * (h (c + 1) ^ 2 + h (c + 2) ^ 2) / ε c r) / 24 := by field_simp; ring
    linarith
  · have k1 := C104_curl_forward hL hh (E (t + dt)) (hsol.periodicE _) (hsol.spaceE _) c x
    have k2 := central_diff (hsol.timeH c (latticePt h (offH c) x)) (t + dt) (dt / 2) (by linarith)
    simp only [RCLike.ofReal_real_eq_id, id, Real.norm_eq_abs, smul_eq_mul] at k1 k2
    have k3 := hsol.faraday (t + dt) c (latticePt h (offH c) x)
    have pe := hμ c (latticePt h (offH c) x)
    rw [show t + dt - dt / 2 = t + dt / 2 by ring] at k2
    simp only [run, List.foldl, step, maxwellH_eq, uniformSys, exactState, Option.map, muOr]
    obtain ⟨C, hC⟩ : ∃ C, C = curlForward (some fun a _ => h a) (sampleE (sh := sh) h (E (t + dt))) c x := ⟨_, rfl⟩
    rw [← hC] at k1 ⊢
    simp only [sampleH] at k1 k2 k3 pe ⊢
    set r := latticePt h (offH c) x
    set D := deriv (fun s => H s c r) (t + dt)
    have hcu : curl (E (t + dt)) c r = -(μ c r * D) - Mc (t + dt) c r := by linarith
    rw [hcu] at k1
    have e : H (t + dt / 2) c r - dt * C / μ c r - dt * Mc (t + dt) c r / μ c r - H (t + dt + dt / 2) c r
        = -(dt / μ c r * (C - (-(μ c r * D) - Mc (t + dt) c r))) - (H (t + dt + dt / 2) c r - H (t + dt / 2) c r - 2 * (dt / 2) * D) := by
      field_simp; ring
    rw [e]
    refine (abs_sub _ _).trans ?_
    rw [abs_neg, abs_mul, abs_of_nonneg (div_nonneg hdt pe.le)]
    have := mul_le_mul_of_nonneg_left k1 (div_nonneg hdt pe.le)
    have e2 : dt / μ c r * (Mx * (h (c + 1) ^ 2 + h (c + 2) ^ 2) / 24) + Mt * (dt / 2) ^ 3 / 3
        = dt * (Mt * dt ^ 2 + Mx * (h (c + 1) ^ 2 + h (c + 2) ^ 2) / μ c r) / 24 := by field_simp; ring
    linarith

end grid

end Meanas.Props
