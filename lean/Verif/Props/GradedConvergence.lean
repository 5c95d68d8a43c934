/-
C133: convergence on non-uniform grids.
-/
import Verif.Props.Consistency
import Verif.Spec.Graded
import Verif.Props.Convergence
import Mathlib.Algebra.BigOperators.Field
import Mathlib.Analysis.Calculus.IteratedDeriv.Lemmas

namespace Meanas.Props

open Functional Spec Fdtd

section oneD
variable {F : Type*} [NormedAddCommGroup F] [NormedSpace ℝ F]

theorem smooth3_chain2 {M : ℝ} {f : ℝ → F} (hf : Smooth3 M f) :
    (∀ s, HasDerivAt f (deriv f s) s) ∧ (∀ s, HasDerivAt (deriv f) (iteratedDeriv 2 f s) s) ∧
      (∀ s, HasDerivAt (iteratedDeriv 2 f) (iteratedDeriv 3 f s) s) ∧ ∀ s, ‖iteratedDeriv 3 f s‖ ≤ M := by
  obtain ⟨h1, h2⟩ := hf
  have d := fun k (hk : (k : ℕ) < 3) => h1.differentiable_iteratedDeriv (n := 3) k (by exact_mod_cast hk)
  refine ⟨fun s => ?_, fun s => ?_, fun s => ?_, h2⟩
  · have := (d 0 (by norm_num)) s
    rw [iteratedDeriv_zero] at this
    exact this.hasDerivAt
  · have := (d 1 (by norm_num)) s
    rw [iteratedDeriv_one] at this
    have h := this.hasDerivAt
    rwa [show deriv (deriv f) s = iteratedDeriv 2 f s by rw [iteratedDeriv_succ, iteratedDeriv_one]] at h
  · have := (d 2 (by norm_num)) s
    have h := this.hasDerivAt
    rwa [show deriv (iteratedDeriv 2 f) s = iteratedDeriv 3 f s by rw [iteratedDeriv_succ (n := 2)]] at h

theorem corrected_pos {M X : ℝ} {f f1 f2 f3 : ℝ → F} (d1 : ∀ s, HasDerivAt f (f1 s) s) (d2 : ∀ s, HasDerivAt f1 (f2 s) s)
    (d3 : ∀ s, HasDerivAt f2 (f3 s) s) (hb : ∀ s, ‖f3 s‖ ≤ M) (s : ℝ) (hs : 0 ≤ s) :
    ‖f (X + s) - (s ^ 2 / 2) • f2 (X + s) - f X - s • f1 X‖ ≤ M * s ^ 3 / 3 := by
  have comp : ∀ (g g' : ℝ → F), (∀ s, HasDerivAt g (g' s) s) → ∀ u, HasDerivAt (fun s => g (X + s)) (g' (X + u)) u :=
    fun g g' hg u => (hg (X + u)).comp_const_add X u
  have hid : ∀ v : ℝ, HasDerivAt (fun v : ℝ => v) 1 v := fun v => hasDerivAt_id v
  have hsq : ∀ v : ℝ, HasDerivAt (fun v : ℝ => v ^ 2 / 2) v v := fun v => by
    have := (hasDerivAt_pow 2 v).div_const 2
    simp only [Nat.cast_ofNat, Nat.reduceSub, pow_one] at this
    exact this.congr_deriv (by ring)
  have k1 : ∀ u, 0 ≤ u → ‖f1 (X + u) - u • f2 (X + u) - f1 X‖ ≤ M * u ^ 2 / 2 := by
    intro u hu
    have hd : ∀ v, HasDerivAt (fun v => f1 (X + v) - v • f2 (X + v) - f1 X) (-(v • f3 (X + v))) v := fun v => by
      have := ((comp f1 f2 d2 v).sub ((hid v).smul (comp f2 f3 d3 v))).sub_const (f1 X)
      exact this.congr_deriv (by simp)
    have := image_norm_le_of_norm_deriv_right_le_deriv_boundary (f := fun v => f1 (X + v) - v • f2 (X + v) - f1 X)
      (f' := fun v => -(v • f3 (X + v))) (a := 0) (b := u) (B := fun v => M * v ^ 2 / 2) (B' := fun v => M * v)
      (fun v _ => (hd v).continuousAt.continuousWithinAt) (fun v _ => (hd v).hasDerivWithinAt)
      (by simp) (fun v => by
        have := (hsq v).const_mul M
        exact (this.congr_of_eventuallyEq (Filter.Eventually.of_forall fun u => by ring)))
      (fun v hv => by
        rw [norm_neg, norm_smul, Real.norm_eq_abs, abs_of_nonneg hv.1, mul_comm]
        exact mul_le_mul_of_nonneg_right (hb _) hv.1)
    exact this ⟨hu, le_refl u⟩
  have hd : ∀ v, HasDerivAt (fun v => f (X + v) - (v ^ 2 / 2) • f2 (X + v) - f X - v • f1 X)
      (f1 (X + v) - v • f2 (X + v) - f1 X - (v ^ 2 / 2) • f3 (X + v)) v := fun v => by
    have := (((comp f f1 d1 v).sub ((hsq v).smul (comp f2 f3 d3 v))).sub_const (f X)).sub ((hid v).smul_const (f1 X))
    exact this.congr_deriv (by rw [one_smul]; abel)
  have := image_norm_le_of_norm_deriv_right_le_deriv_boundary (f := fun v => f (X + v) - (v ^ 2 / 2) • f2 (X + v) - f X - v • f1 X)
    (f' := fun v => f1 (X + v) - v • f2 (X + v) - f1 X - (v ^ 2 / 2) • f3 (X + v)) (a := 0) (b := s) (B := fun v => M * v ^ 3 / 3)
    (B' := fun v => M * v ^ 2)
    (fun v _ => (hd v).continuousAt.continuousWithinAt) (fun v _ => (hd v).hasDerivWithinAt)
    (by simp) (fun v => by
      have := ((hasDerivAt_pow 3 v).const_mul M).div_const 3
      simp only [Nat.cast_ofNat, Nat.reduceSub] at this
      exact this.congr_deriv (by ring))
    (fun v hv => by
      refine (norm_sub_le _ _).trans ?_
      have a1 := k1 v hv.1
      have a2 : ‖(v ^ 2 / 2) • f3 (X + v)‖ ≤ v ^ 2 / 2 * M := by
        rw [norm_smul, Real.norm_eq_abs, abs_of_nonneg (by positivity)]
        exact mul_le_mul_of_nonneg_left (hb _) (by positivity)
      linarith)
  exact this ⟨hs, le_refl s⟩

/-- With the correction `s²/2 f''` the values at `X ± s` determine the slope at `X` to third order. -/
theorem corrected {M : ℝ} {f : ℝ → F} (hf : Smooth3 M f) (X s : ℝ) (hs : 0 ≤ s) :
    ‖f (X + s) - (s ^ 2 / 2) • iteratedDeriv 2 f (X + s) - f X - s • deriv f X‖ ≤ M * s ^ 3 / 3 ∧
    ‖f (X - s) - (s ^ 2 / 2) • iteratedDeriv 2 f (X - s) - f X + s • deriv f X‖ ≤ M * s ^ 3 / 3 := by
  obtain ⟨d1, d2, d3, hb⟩ := smooth3_chain2 hf
  refine ⟨corrected_pos d1 d2 d3 hb s hs, ?_⟩
  have comp : ∀ (g g' : ℝ → F), (∀ s, HasDerivAt g (g' s) s) → ∀ u, HasDerivAt (fun s => g (X - (s - X))) (-g' (X - (u - X))) u := by
    intro g g' hg u
    have : ∀ s, X - (s - X) = 2 * X - s := fun s => by ring
    simp only [this]
    exact (hg (2 * X - u)).comp_const_sub (2 * X) u
  have := corrected_pos (X := X) (comp f _ d1) (fun s => (comp _ _ d2 s).neg) (fun s => ((comp _ _ d3 s).neg).neg) (M := M)
    (fun s => by simpa using hb _) s hs
  simpa using this

/-- The difference of the corrected values against the slope. -/
theorem corrected_diff {M : ℝ} {f : ℝ → F} (hf : Smooth3 M f) (X s t h : ℝ) (hs : 0 ≤ s) (ht : 0 ≤ t) (hsh : s ≤ h / 2) (hth : t ≤ h / 2) :
    ‖f (X + s) - (s ^ 2 / 2) • iteratedDeriv 2 f (X + s) - (f (X - t) - (t ^ 2 / 2) • iteratedDeriv 2 f (X - t)) - (s + t) • deriv f X‖
      ≤ (s + t) * (M * h ^ 2 / 12) := by
  have a1 := (corrected hf X s hs).1
  have a2 := (corrected hf X t ht).2
  have M0 : 0 ≤ M := (norm_nonneg _).trans (hf.2 0)
  have e : f (X + s) - (s ^ 2 / 2) • iteratedDeriv 2 f (X + s) - (f (X - t) - (t ^ 2 / 2) • iteratedDeriv 2 f (X - t)) - (s + t) • deriv f X
      = (f (X + s) - (s ^ 2 / 2) • iteratedDeriv 2 f (X + s) - f X - s • deriv f X)
        - (f (X - t) - (t ^ 2 / 2) • iteratedDeriv 2 f (X - t) - f X + t • deriv f X) := by
    rw [add_smul]; abel
  rw [e]
  refine (norm_sub_le _ _).trans ((add_le_add a1 a2).trans ?_)
  have c : ∀ u : ℝ, 0 ≤ u → u ≤ h / 2 → M * u ^ 3 / 3 ≤ u * (M * h ^ 2 / 12) := by
    intro u hu huh
    have : u ^ 2 ≤ (h / 2) ^ 2 := pow_le_pow_left₀ hu huh 2
    have := mul_le_mul_of_nonneg_left this (mul_nonneg M0 hu)
    nlinarith
  have := c s hs hsh
  have := c t ht hth
  linarith

end oneD

section nodes
variable {d : ℕ} {sh : Fin d → ℕ} (w : DxList sh ℝ) (a : Fin d)

theorem node_zero (i : Fin (sh a)) (hi : (i : ℕ) = 0) : node w a i = 0 := by
  rw [node]; exact Finset.sum_eq_zero fun j _ => if_neg (by omega)

theorem node_add (i : Fin (sh a)) : node w a i + w a i = ∑ j : Fin (sh a), if (j : ℕ) < i + 1 then w a j else 0 := by
  rw [node]
  have : w a i = ∑ j : Fin (sh a), if j = i then w a j else 0 := by simp
  rw [this, ← Finset.sum_add_distrib]
  refine Finset.sum_congr rfl fun j _ => ?_
  by_cases h1 : j = i
  · subst h1; simp
  · have : (j : ℕ) ≠ i := fun h => h1 (Fin.ext h)
    by_cases h2 : (j : ℕ) < i
    · rw [if_pos h2, if_neg h1, if_pos (by omega), add_zero]
    · rw [if_neg h2, if_neg h1, if_neg (by omega), add_zero]

/-- The next node, or the end of the box. -/
theorem node_next (i : Fin (sh a)) : (node w a i + w a i = node w a (wrap i 1)) ∨ (node w a i + w a i = boxLen w a ∧ node w a (wrap i 1) = 0) := by
  have hx := i.2
  by_cases hlt : (i : ℕ) + 1 < sh a
  · left
    have : ((wrap i 1 : Fin (sh a)) : ℕ) = (i : ℕ) + 1 := by
      simp only [wrap]
      have := Int.emod_eq_of_lt (a := ((i : ℕ) : ℤ) + 1) (b := (sh a : ℤ)) (by omega) (by omega)
      omega
    rw [node_add, node, this]
  · right
    have he : (i : ℕ) + 1 = sh a := by omega
    have h0 : ((wrap i 1 : Fin (sh a)) : ℕ) = 0 := by
      simp only [wrap]
      have : ((i : ℕ) : ℤ) + 1 = (sh a : ℤ) := by omega
      rw [this]; simp
    refine ⟨?_, node_zero w a _ h0⟩
    rw [node_add, boxLen]
    exact Finset.sum_congr rfl fun j _ => if_pos (by omega)

theorem wrap_back {n : ℕ} (i : Fin n) : wrap (wrap i (-1)) 1 = i := by
  apply Fin.ext
  have h0 : (0 : ℤ) < (n : ℤ) := by exact_mod_cast i.pos
  simp only [wrap]
  have h1 := Int.emod_nonneg (((i : ℕ) : ℤ) + -1) h0.ne'
  rw [Int.toNat_of_nonneg h1, Int.emod_add_emod]
  have := Int.emod_eq_of_lt (a := ((i : ℕ) : ℤ)) (b := (n : ℤ)) (by omega) (by have := i.2; omega)
  rw [show ((i : ℕ) : ℤ) + -1 + 1 = ((i : ℕ) : ℤ) by ring, this]; simp

/-- The previous node. -/
theorem node_prev (i : Fin (sh a)) : (node w a (wrap i (-1)) + w a (wrap i (-1)) = node w a i)
    ∨ (node w a (wrap i (-1)) + w a (wrap i (-1)) = boxLen w a ∧ node w a i = 0) := by
  have := node_next w a (wrap i (-1))
  rwa [wrap_back] at this

end nodes

section grid
variable {sh : Fin 3 → ℕ} {K : Type*} [RCLike K] (w : DxList sh ℝ)

omit [RCLike K] in
theorem gradedPt_fwd (o : Fin 3 → Bool) (F : Pt → K) (hF : Periodic (boxLen w) F) (a : Fin 3) (ho : o a = false) (x : Idx sh) :
    F (gradedPt w o (shiftIdx a 1 x)) = F (Function.update (gradedPt w o x) a (gradedPt w o x a + w a (x a))) := by
  have hp : gradedPt w o x a = node w a (x a) := by simp [gradedPt, ho]
  have hq : gradedPt w o (shiftIdx a 1 x) = Function.update (gradedPt w o x) a (node w a (wrap (x a) 1)) := by
    funext b
    by_cases hb : b = a
    · subst hb; simp [gradedPt, shiftIdx, ho]
    · simp only [gradedPt, shiftIdx, Function.update_of_ne hb]
  rw [hq, hp]
  rcases node_next w a (x a) with h | ⟨h1, h2⟩
  · rw [h]
  · rw [h1, h2, ← hF a (Function.update (gradedPt w o x) a 0)]
    simp

omit [RCLike K] in
theorem gradedPt_bwd (o : Fin 3 → Bool) (F : Pt → K) (hF : Periodic (boxLen w) F) (a : Fin 3) (ho : o a = true) (x : Idx sh) :
    F (gradedPt w o (shiftIdx a (-1) x)) = F (Function.update (gradedPt w o x) a (node w a (x a) - w a (wrap (x a) (-1)) / 2)) := by
  have hq : gradedPt w o (shiftIdx a (-1) x)
      = Function.update (gradedPt w o x) a (node w a (wrap (x a) (-1)) + w a (wrap (x a) (-1)) / 2) := by
    funext b
    by_cases hb : b = a
    · subst hb; simp [gradedPt, shiftIdx, ho]
    · simp only [gradedPt, shiftIdx, Function.update_of_ne hb]
  rw [hq]
  rcases node_prev w a (x a) with h | ⟨h1, h2⟩
  · rw [← h]; congr 2; ring
  · rw [← hF a (Function.update (gradedPt w o x) a (node w a (x a) - w a (wrap (x a) (-1)) / 2)), h2, ← h1]
    simp only [Function.update_self, Function.update_idem]
    congr 2; ring

theorem pd_update (F : Pt → K) (a : Fin 3) (r : Pt) (s : ℝ) : pd F a (Function.update r a s) = deriv (line F a r) s := by
  have : line F a (Function.update r a s) = line F a r := by funext t; simp only [line, Function.update_idem]
  rw [pd, this, Function.update_self]

theorem pd2_update (F : Pt → K) (a : Fin 3) (r : Pt) (s : ℝ) : pd2 F a (Function.update r a s) = iteratedDeriv 2 (line F a r) s := by
  have : line F a (Function.update r a s) = line F a r := by funext t; simp only [line, Function.update_idem]
  rw [pd2, this, Function.update_self]

theorem pd2_periodic {L : Pt} (F : Pt → K) (hF : Periodic L F) (a : Fin 3) : Periodic L (pd2 F a) := by
  intro b r
  by_cases hb : b = a
  · subst hb
    rw [pd2_update, pd2]
    have : (fun s => line F b r (s + L b)) = line F b r := by
      funext s
      have := hF b (Function.update r b s)
      simpa [line] using this
    have h := congrFun (iteratedDeriv_comp_add_const 2 (line F b r) (L b)) (r b)
    rw [this] at h
    exact h.symm
  · have : line F a (Function.update r b (r b + L b)) = line F a r := by
      funext s
      have := hF b (Function.update r a s)
      simp only [line, Function.update_of_ne hb] at this ⊢
      rw [Function.update_comm hb]; exact this
    rw [pd2, this, Function.update_of_ne (Ne.symm hb), pd2]

/-- C133: the forward difference on a non-uniform grid, between samples at the left ends of the cells, is the derivative in the middle up to `M w² / 24`. -/
theorem C133_deriv_forward (hw : ∀ a i, 0 < w a i) (o : Fin 3 → Bool) (F : Pt → K) (hF : Periodic (boxLen w) F) (a : Fin 3) (ho : o a = false)
    {M : ℝ} (hM : ∀ r, Smooth3 M (line F a r)) (x : Idx sh) :
    ‖derivForward (some fun a i => (w a i : K)) a (fun x => F (gradedPt w o x)) x
      - pd F a (gradedPt w (Function.update o a true) x)‖ ≤ M * w a (x a) ^ 2 / 24 := by
  obtain ⟨p, hp⟩ : ∃ p, p = gradedPt w o x := ⟨_, rfl⟩
  have hwp := hw a (x a)
  have key := central_diff (hM p) (p a + w a (x a) / 2) (w a (x a) / 2) (by positivity)
  have hpt : gradedPt w (Function.update o a true) x = Function.update p a (p a + w a (x a) / 2) := by
    funext b
    by_cases hb : b = a
    · subst hb; simp [gradedPt, hp, ho]
    · simp only [gradedPt, hp, Function.update_of_ne hb]
  rw [derivForward_eq, wOf_some, gradedPt_fwd w o F hF a ho, hpt, pd_update, ← hp]
  have e1 : line F a p (p a + w a (x a) / 2 + w a (x a) / 2) = F (Function.update p a (p a + w a (x a))) := by simp only [line]; congr 2; ring
  have e2 : line F a p (p a + w a (x a) / 2 - w a (x a) / 2) = F p := by
    simp only [line, add_sub_cancel_right, Function.update_eq_self]
  rw [e1, e2] at key
  generalize w a (x a) = t at *
  set D := deriv (line F a p) (p a + t / 2)
  set y := F (Function.update p a (p a + t)) - F p
  have hk : (t : K) ≠ 0 := by exact_mod_cast hwp.ne'
  rw [show y / (t : K) - D = (y - (2 * (t / 2)) • D) / (t : K) by
      rw [RCLike.real_smul_eq_coe_mul, show 2 * (t / 2) = t by ring]; field_simp,
    norm_div, RCLike.norm_ofReal, abs_of_pos hwp, div_le_iff₀ hwp]
  calc _ ≤ _ := key
    _ = _ := by ring

/-- Samples of an H component with the correction `w²/8 ∂²` for each of the two axes along which it lies in the middle of the cell. -/
noncomputable def corrH (f : Fin 3 → Pt → K) : Fin 3 → Idx sh → K := fun c x =>
  let p := gradedPt w (fun a => decide (a ≠ c)) x
  f c p - (w (c + 1) (x (c + 1)) ^ 2 / 8) • pd2 (f c) (c + 1) p - (w (c + 2) (x (c + 2)) ^ 2 / 8) • pd2 (f c) (c + 2) p

/-- The backward difference of corrected samples is the derivative at the left end of the cell to second order. -/
theorem back_corrected (hw : ∀ a i, 0 < w a i) {h : Pt} (hh : ∀ a i, w a i ≤ h a) (o : Fin 3 → Bool) (F : Pt → K) (hF : Periodic (boxLen w) F)
    (a b : Fin 3) (hab : b ≠ a) (ho : o a = true) {M : ℝ} (hM : ∀ r, Smooth3 M (line F a r)) (h2 : Second M F) (x : Idx sh) :
    ‖derivBack (some fun a i => ((midWidth w a i : ℝ) : K)) a
        (fun x => F (gradedPt w o x) - (w a (x a) ^ 2 / 8) • pd2 F a (gradedPt w o x) - (w b (x b) ^ 2 / 8) • pd2 F b (gradedPt w o x)) x
      - pd F a (gradedPt w (Function.update o a false) x)‖ ≤ M * h a ^ 2 / 12 + M * h b ^ 2 / 8 := by
  obtain ⟨p, hp⟩ : ∃ p, p = gradedPt w o x := ⟨_, rfl⟩
  obtain ⟨X, hX⟩ : ∃ X, X = node w a (x a) := ⟨_, rfl⟩
  have hpa : p a = X + w a (x a) / 2 := by rw [hp, hX]; simp [gradedPt, ho]
  have hpt : gradedPt w (Function.update o a false) x = Function.update p a X := by
    funext c
    by_cases hc : c = a
    · subst hc; simp [gradedPt, hX]
    · simp only [gradedPt, hp, Function.update_of_ne hc]
  have hs0 := hw a (x a)
  have ht0 := hw a (wrap (x a) (-1))
  have hsh := hh a (x a)
  have hth := hh a (wrap (x a) (-1))
  have hvb := hh b (x b)
  have hvb0 := hw b (x b)
  rw [derivBack_eq, wOf_some, hpt, pd_update]
  rw [gradedPt_bwd w o F hF a ho, gradedPt_bwd w o _ (pd2_periodic F hF a) a ho, gradedPt_bwd w o _ (pd2_periodic F hF b) a ho, ← hX, ← hp,
    show (shiftIdx a (-1) x) b = x b by simp [shiftIdx, Function.update_of_ne hab], show (shiftIdx a (-1) x) a = wrap (x a) (-1) by simp [shiftIdx],
    midWidth]
  have l2 := h2.lip b a p (X - w a (wrap (x a) (-1)) / 2)
  generalize w a (x a) = s at *
  generalize w a (wrap (x a) (-1)) = t at *
  generalize w b (x b) = v at *
  have key := corrected_diff (hM p) X (s / 2) (t / 2) (h a) (by positivity) (by positivity) (by linarith) (by linarith)
  have p1 : F p = line F a p (X + s / 2) := by rw [← hpa]; simp [line]
  have p2 : pd2 F a p = iteratedDeriv 2 (line F a p) (X + s / 2) := by rw [← hpa]; rfl
  rw [pd2_update, p1, p2]
  rw [show F (Function.update p a (X - t / 2)) = line F a p (X - t / 2) from rfl]
  set f := line F a p
  set q := pd2 F b p
  set q' := pd2 F b (Function.update p a (X - t / 2))
  have hst : 0 < (t + s) / 2 := by positivity
  have hk : (((t + s) / 2 : ℝ) : K) ≠ 0 := by exact_mod_cast hst.ne'
  have e : (f (X + s / 2) - (s ^ 2 / 8) • iteratedDeriv 2 f (X + s / 2) - (v ^ 2 / 8) • q
        - (f (X - t / 2) - (t ^ 2 / 8) • iteratedDeriv 2 f (X - t / 2) - (v ^ 2 / 8) • q')) / (((t + s) / 2 : ℝ) : K) - deriv f X
      = ((f (X + s / 2) - ((s / 2) ^ 2 / 2) • iteratedDeriv 2 f (X + s / 2) - (f (X - t / 2) - ((t / 2) ^ 2 / 2) • iteratedDeriv 2 f (X - t / 2))
          - (s / 2 + t / 2) • deriv f X) + (v ^ 2 / 8) • (q' - q)) / (((t + s) / 2 : ℝ) : K) := by
    rw [eq_div_iff hk, sub_mul, div_mul_cancel₀ _ hk, show (s / 2) ^ 2 / 2 = s ^ 2 / 8 by ring, show (t / 2) ^ 2 / 2 = t ^ 2 / 8 by ring,
      show s / 2 + t / 2 = (t + s) / 2 by ring]
    simp only [RCLike.real_smul_eq_coe_mul]
    ring
  rw [e, norm_div, RCLike.norm_ofReal, abs_of_pos hst, div_le_iff₀ hst]
  refine (norm_add_le _ _).trans ?_
  have l3 : ‖(v ^ 2 / 8) • (q' - q)‖ ≤ v ^ 2 / 8 * (M * ((t + s) / 2)) := by
    rw [norm_smul, Real.norm_eq_abs, abs_of_nonneg (by positivity)]
    refine mul_le_mul_of_nonneg_left (l2.trans (le_of_eq ?_)) (by positivity)
    rw [hpa, show X - t / 2 - (X + s / 2) = -((t + s) / 2) by ring, abs_neg, abs_of_pos hst]
  have M0 : 0 ≤ M := (norm_nonneg _).trans (h2.bound a p)
  have hv2 : v ^ 2 ≤ h b ^ 2 := pow_le_pow_left₀ hvb0.le hvb 2
  have l4 := mul_le_mul_of_nonneg_right hv2 (mul_nonneg M0 hst.le)
  have e5 : (s / 2 + t / 2) * (M * h a ^ 2 / 12) = M * h a ^ 2 / 12 * ((t + s) / 2) := by ring
  rw [e5] at key
  nlinarith


/-- C133: the forward curl of samples at the E positions. -/
theorem C133_curl_forward (hw : ∀ a i, 0 < w a i) {h : Pt} (hh : ∀ a i, w a i ≤ h a) (F : Fin 3 → Pt → K) (hF : ∀ c, Periodic (boxLen w) (F c))
    {M : ℝ} (hM : ∀ c a r, Smooth3 M (line (F c) a r)) (c : Fin 3) (x : Idx sh) :
    ‖curlForward (some fun a i => (w a i : K)) (gradedE w F) c x - gradedH w (curl F) c x‖ ≤ M * (∑ a, h a ^ 2) / 24 := by
  have a1 := C133_deriv_forward w hw (fun a => decide (a = c + 2)) (F (c + 2)) (hF _) (c + 1) ((by decide : ∀ c : Fin 3, decide (c + 1 = c + 2) = false) c) (hM _ _) x
  have a2 := C133_deriv_forward w hw (fun a => decide (a = c + 1)) (F (c + 1)) (hF _) (c + 2) ((by decide : ∀ c : Fin 3, decide (c + 2 = c + 1) = false) c) (hM _ _) x
  rw [show Function.update (fun a => decide (a = c + 2)) (c + 1) true = fun a => decide (a ≠ c) from
    funext ((by decide : ∀ c a : Fin 3, Function.update (fun a => decide (a = c + 2)) (c + 1) true a = decide (a ≠ c)) c), derivForward_eq] at a1
  rw [show Function.update (fun a => decide (a = c + 1)) (c + 2) true = fun a => decide (a ≠ c) from
    funext ((by decide : ∀ c a : Fin 3, Function.update (fun a => decide (a = c + 1)) (c + 2) true a = decide (a ≠ c)) c), derivForward_eq] at a2
  rw [(C01_curl_values _ _ c x).1]
  simp only [gradForward, gradedE, gradedH, curl]
  rw [sub_sub_sub_comm]
  have M0 : 0 ≤ M := (norm_nonneg _).trans ((hM c c 0).2 0)
  have sq : ∀ a, M * w a (x a) ^ 2 ≤ M * h a ^ 2 := fun a => mul_le_mul_of_nonneg_left (pow_le_pow_left₀ (hw a _).le (hh a _) 2) M0
  have s1 := sq (c + 1)
  have s2 := sq (c + 2)
  have s3 : M * h (c + 1) ^ 2 + M * h (c + 2) ^ 2 ≤ M * ∑ a, h a ^ 2 := by
    rw [← mul_add]
    refine mul_le_mul_of_nonneg_left ?_ M0
    rw [Fin.sum_univ_three]
    fin_cases c <;> simp <;> nlinarith [sq_nonneg (h 0), sq_nonneg (h 1), sq_nonneg (h 2)]
  exact (norm_sub_le _ _).trans (by linarith)

/-- C133: the backward curl of the corrected samples at the H positions. -/
theorem C133_curl_back (hw : ∀ a i, 0 < w a i) {h : Pt} (hh : ∀ a i, w a i ≤ h a) (F : Fin 3 → Pt → K) (hF : ∀ c, Periodic (boxLen w) (F c))
    {M : ℝ} (hM : ∀ c a r, Smooth3 M (line (F c) a r)) (h2 : ∀ c, Second M (F c)) (c : Fin 3) (x : Idx sh) :
    ‖curlBack (some fun a i => ((midWidth w a i : ℝ) : K)) (corrH w F) c x - gradedE w (curl F) c x‖ ≤ M * (∑ a, h a ^ 2) / 4 := by
  have a1 := back_corrected w hw hh (fun a => decide (a ≠ c + 2)) (F (c + 2)) (hF _) (c + 1) c
    ((by decide : ∀ c : Fin 3, c ≠ c + 1) c) ((by decide : ∀ c : Fin 3, decide (c + 1 ≠ c + 2) = true) c) (hM _ _) (h2 _) x
  have a2 := back_corrected w hw hh (fun a => decide (a ≠ c + 1)) (F (c + 1)) (hF _) (c + 2) c
    ((by decide : ∀ c : Fin 3, c ≠ c + 2) c) ((by decide : ∀ c : Fin 3, decide (c + 2 ≠ c + 1) = true) c) (hM _ _) (h2 _) x
  rw [show Function.update (fun a => decide (a ≠ c + 2)) (c + 1) false = fun a => decide (a = c) from
    funext ((by decide : ∀ c a : Fin 3, Function.update (fun a => decide (a ≠ c + 2)) (c + 1) false a = decide (a = c)) c), derivBack_eq] at a1
  rw [show Function.update (fun a => decide (a ≠ c + 1)) (c + 2) false = fun a => decide (a = c) from
    funext ((by decide : ∀ c a : Fin 3, Function.update (fun a => decide (a ≠ c + 1)) (c + 2) false a = decide (a = c)) c), derivBack_eq] at a2
  have e1 : ∀ x, corrH w F (c + 2) x = F (c + 2) (gradedPt w (fun a => decide (a ≠ c + 2)) x)
      - (w (c + 1) (x (c + 1)) ^ 2 / 8) • pd2 (F (c + 2)) (c + 1) (gradedPt w (fun a => decide (a ≠ c + 2)) x)
      - (w c (x c) ^ 2 / 8) • pd2 (F (c + 2)) c (gradedPt w (fun a => decide (a ≠ c + 2)) x) := by
    intro x
    simp only [corrH, add_assoc]
    rw [sub_right_comm]
    fin_cases c <;> rfl
  have e2 : ∀ x, corrH w F (c + 1) x = F (c + 1) (gradedPt w (fun a => decide (a ≠ c + 1)) x)
      - (w (c + 2) (x (c + 2)) ^ 2 / 8) • pd2 (F (c + 1)) (c + 2) (gradedPt w (fun a => decide (a ≠ c + 1)) x)
      - (w c (x c) ^ 2 / 8) • pd2 (F (c + 1)) c (gradedPt w (fun a => decide (a ≠ c + 1)) x) := by
    intro x
    simp only [corrH, add_assoc]
    fin_cases c <;> rfl
  rw [(C01_curl_values _ _ c x).2]
  simp only [gradBack, e1, e2, gradedE, curl]
  rw [sub_sub_sub_comm]
  have M0 : 0 ≤ M := (norm_nonneg _).trans ((hM c c 0).2 0)
  refine (norm_sub_le _ _).trans ((add_le_add a1 a2).trans ?_)
  have s3 : M * h (c + 1) ^ 2 / 12 + M * h c ^ 2 / 8 + (M * h (c + 2) ^ 2 / 12 + M * h c ^ 2 / 8)
      ≤ M * ((∑ a, h a ^ 2) / 4) := by
    rw [show M * h (c + 1) ^ 2 / 12 + M * h c ^ 2 / 8 + (M * h (c + 2) ^ 2 / 12 + M * h c ^ 2 / 8)
      = M * (h (c + 1) ^ 2 / 12 + h c ^ 2 / 8 + (h (c + 2) ^ 2 / 12 + h c ^ 2 / 8)) by ring]
    refine mul_le_mul_of_nonneg_left ?_ M0
    rw [Fin.sum_univ_three]
    fin_cases c <;> simp <;> nlinarith [sq_nonneg (h 0), sq_nonneg (h 1), sq_nonneg (h 2)]
  linarith

/-- The correction is of second order. -/
theorem corrH_small (hw : ∀ a i, 0 < w a i) {h : Pt} (hh : ∀ a i, w a i ≤ h a) (F : Fin 3 → Pt → K) {M : ℝ} (h2 : ∀ c, Second M (F c))
    (c : Fin 3) (x : Idx sh) : ‖corrH w F c x - gradedH w F c x‖ ≤ M * (∑ a, h a ^ 2) / 8 := by
  obtain ⟨p, hp⟩ : ∃ p, p = gradedPt w (fun a => decide (a ≠ c)) x := ⟨_, rfl⟩
  have M0 : 0 ≤ M := (norm_nonneg _).trans ((h2 c).bound c p)
  simp only [corrH, gradedH, ← hp]
  rw [sub_sub (F c p), sub_sub_cancel_left, norm_neg]
  have b : ∀ a, ‖(w a (x a) ^ 2 / 8) • pd2 (F c) a p‖ ≤ M * h a ^ 2 / 8 := by
    intro a
    rw [norm_smul, Real.norm_eq_abs, abs_of_nonneg (by positivity)]
    have := mul_le_mul (pow_le_pow_left₀ (hw a (x a)).le (hh a (x a)) 2) ((h2 c).bound a p) (norm_nonneg _) (sq_nonneg _)
    linarith
  refine (norm_add_le _ _).trans ((add_le_add (b _) (b _)).trans ?_)
  have s3 : M * h (c + 1) ^ 2 + M * h (c + 2) ^ 2 ≤ M * ∑ a, h a ^ 2 := by
    rw [← mul_add]
    refine mul_le_mul_of_nonneg_left ?_ M0
    rw [Fin.sum_univ_three]
    fin_cases c <;> simp <;> nlinarith [sq_nonneg (h 0), sq_nonneg (h 1), sq_nonneg (h 2)]
  linarith

omit [RCLike K] in
/-- The cells of each component fill the box. -/
theorem sum_mid (a : Fin 3) : ∑ i, midWidth w a i = boxLen w a := by
  have : ∑ i, w a (wrap i (-1)) = ∑ i, w a i := by
    have hb : Function.Bijective (fun i : Fin (sh a) => wrap i (-1)) := Finite.injective_iff_bijective.1 (wrap_injective (-1))
    exact Function.Bijective.sum_comp hb (fun i => w a i)
  simp only [midWidth, boxLen]
  rw [← Finset.sum_div, Finset.sum_add_distrib, this]; ring

omit [RCLike K] in
theorem sum_vol (c : Fin 3) : ∑ x, volE w (midWidth w) c x = ∏ a, boxLen w a ∧ ∑ x, volH w (midWidth w) c x = ∏ a, boxLen w a := by
  constructor
  · rw [show ∏ a, boxLen w a = ∏ a, ∑ i, (if a = c then w a i else midWidth w a i) from Finset.prod_congr rfl fun a _ => by
      by_cases h : a = c
      · simp [h, boxLen]
      · simp [h, sum_mid], Finset.prod_univ_sum, Fintype.piFinset_univ]
    rfl
  · rw [show ∏ a, boxLen w a = ∏ a, ∑ i, (if a = c then midWidth w a i else w a i) from Finset.prod_congr rfl fun a _ => by
      by_cases h : a = c
      · simp [h, sum_mid]
      · simp [h, boxLen], Finset.prod_univ_sum, Fintype.piFinset_univ]
    rfl

end grid

section run
variable {sh : Fin 3 → ℕ}

/-- The simulation with the media of `ε`, `μ` sampled on a non-uniform grid: E widths `w`, H widths the distances between the middles of the cells. -/
noncomputable def gradedSys (dt : ℝ) (w : DxList sh ℝ) (ε μ : Fin 3 → Pt → ℝ) : Sys sh ℝ :=
  ⟨dt, some (w, midWidth w), gradedE w ε, some (gradedH w μ)⟩

/-- The samples of a solution: E at `t`, H half a step later. -/
noncomputable def gradedState (dt : ℝ) (w : DxList sh ℝ) (E H : ℝ → Fin 3 → Pt → ℝ) (t : ℝ) : State sh ℝ :=
  ⟨gradedE w (E t), gradedH w (H (t + dt / 2))⟩

/-- The simulation of a driven solution: E update, electric current of the middle of the step, H update, magnetic current. -/
noncomputable def gradedRun (dt : ℝ) (w : DxList sh ℝ) (ε μ : Fin 3 → Pt → ℝ) (J Mc : ℝ → Fin 3 → Pt → ℝ) (s : State sh ℝ) : ℕ → State sh ℝ
  | 0 => s
  | n + 1 => run (gradedSys dt w ε μ) (gradedRun dt w ε μ J Mc s n)
      [.stepE, .injJ (fun c x => -dt * gradedE w (J (n * dt + dt / 2)) c x), .stepH, .injM (fun c x => dt * gradedH w (Mc (n * dt + dt)) c x)]

/-- The samples with corrected H. -/
noncomputable def corrState (dt : ℝ) (w : DxList sh ℝ) (E H : ℝ → Fin 3 → Pt → ℝ) (t : ℝ) : State sh ℝ :=
  ⟨gradedE w (E t), corrH w (H (t + dt / 2))⟩

/-- The second derivatives of H along the axes are bounded by `M` and change at most by `M` per length and per time. -/
structure SecondH (M : ℝ) (H : ℝ → Fin 3 → Pt → ℝ) : Prop where
  space : ∀ t c, Second M (H t c)
  time : ∀ s t c a r, |pd2 (H s c) a r - pd2 (H t c) a r| ≤ M * |s - t|

/-- Defects of the updates started from the corrected samples. -/
theorem graded_step {w : DxList sh ℝ} (hw : ∀ a i, 0 < w a i) {h : Pt} (hh : ∀ a i, w a i ≤ h a) {dt : ℝ} (hdt : 0 ≤ dt) {ε μ : Fin 3 → Pt → ℝ}
    {κ : ℝ} (hκ : 0 < κ) (hε : ∀ c r, κ ≤ ε c r) (hμ : ∀ c r, κ ≤ μ c r) {J Mc E H : ℝ → Fin 3 → Pt → ℝ} {Mt Mx : ℝ}
    (hsol : MaxwellSolution (boxLen w) ε μ J Mc E H Mt Mx) (hsec : SecondH Mx H) (t : ℝ) (c : Fin 3) (x : Idx sh) :
    |(run (gradedSys dt w ε μ) (corrState dt w E H t) [.stepE, .injJ fun c x => -dt * gradedE w (J (t + dt / 2)) c x]).e c x
        - (corrState dt w E H (t + dt)).e c x|
      ≤ dt * (Mt * dt ^ 2 / 24 + Mx * (∑ a, h a ^ 2) * (1 / (4 * κ) + 1 / 8)) ∧
    |(run (gradedSys dt w ε μ) ⟨(corrState dt w E H (t + dt)).e, (corrState dt w E H t).h⟩
          [.stepH, .injM fun c x => dt * gradedH w (Mc (t + dt)) c x]).h c x
        - (corrState dt w E H (t + dt)).h c x|
      ≤ dt * (Mt * dt ^ 2 / 24 + Mx * (∑ a, h a ^ 2) * (1 / (4 * κ) + 1 / 8)) := by
  have Mx0 : 0 ≤ Mx := (norm_nonneg _).trans ((hsol.spaceE 0 0 0 0).2 0)
  have S0 : 0 ≤ ∑ a, h a ^ 2 := Finset.sum_nonneg fun a _ => sq_nonneg _
  obtain ⟨S, hS⟩ : ∃ S, S = ∑ a, h a ^ 2 := ⟨_, rfl⟩
  have MS : 0 ≤ Mx * S := by rw [hS]; exact mul_nonneg Mx0 S0
  constructor
  · have k1 := C133_curl_back w hw hh (H (t + dt / 2)) (hsol.periodicH _) (hsol.spaceH _) (hsec.space _) c x
    have k2 := central_diff (hsol.timeE c (gradedPt w (fun a => decide (a = c)) x)) (t + dt / 2) (dt / 2) (by linarith)
    simp only [RCLike.ofReal_real_eq_id, id, Real.norm_eq_abs, smul_eq_mul] at k1 k2
    have k3 := hsol.ampere (t + dt / 2) c (gradedPt w (fun a => decide (a = c)) x)
    have pe := hε c (gradedPt w (fun a => decide (a = c)) x)
    rw [show t + dt / 2 + dt / 2 = t + dt by ring, show t + dt / 2 - dt / 2 = t by ring] at k2
    simp only [run, List.foldl, step, maxwellE_eq, gradedSys, corrState, Option.map]
    obtain ⟨C, hC⟩ : ∃ C, C = curlBack (some fun a i => midWidth w a i) (corrH w (H (t + dt / 2))) c x := ⟨_, rfl⟩
    rw [show (midWidth w : DxList sh ℝ) = fun a i => midWidth w a i from rfl, ← hC]
    rw [← hC] at k1
    simp only [gradedE] at k1 k2 k3 pe ⊢
    set r := gradedPt w (fun a => decide (a = c)) x
    set D := deriv (fun s => E s c r) (t + dt / 2)
    have pe0 : 0 < ε c r := lt_of_lt_of_le hκ pe
    have hcu : curl (H (t + dt / 2)) c r = ε c r * D + J (t + dt / 2) c r := by linarith
    rw [hcu] at k1
    have e : E t c r + dt * C / ε c r + -dt * J (t + dt / 2) c r / ε c r - E (t + dt) c r
        = dt / ε c r * (C - (ε c r * D + J (t + dt / 2) c r)) - (E (t + dt) c r - E t c r - 2 * (dt / 2) * D) := by
      field_simp; ring
    rw [e]
    refine (abs_sub _ _).trans ?_
    rw [abs_mul, abs_of_nonneg (div_nonneg hdt pe0.le)]
    have q1 : dt / ε c r ≤ dt / κ := div_le_div_of_nonneg_left hdt hκ pe
    rw [← hS] at k1 ⊢
    have := mul_le_mul q1 k1 (abs_nonneg _) (div_nonneg hdt hκ.le)
    have e2 : dt * (Mt * dt ^ 2 / 24 + Mx * S * (1 / (4 * κ) + 1 / 8)) = dt / κ * (Mx * S / 4) + Mt * (dt / 2) ^ 3 / 3 + dt * (Mx * S) / 8 := by
      field_simp; ring
    have := mul_nonneg hdt MS
    linarith
  · have k1 := C133_curl_forward w hw hh (E (t + dt)) (hsol.periodicE _) (hsol.spaceE _) c x
    have k2 := central_diff (hsol.timeH c (gradedPt w (fun a => decide (a ≠ c)) x)) (t + dt) (dt / 2) (by linarith)
    simp only [RCLike.ofReal_real_eq_id, id, Real.norm_eq_abs, smul_eq_mul] at k1 k2
    have k3 := hsol.faraday (t + dt) c (gradedPt w (fun a => decide (a ≠ c)) x)
    have pe := hμ c (gradedPt w (fun a => decide (a ≠ c)) x)
    rw [show t + dt - dt / 2 = t + dt / 2 by ring] at k2
    simp only [run, List.foldl, step, maxwellH_eq, gradedSys, corrState, Option.map, muOr]
    obtain ⟨C, hC⟩ : ∃ C, C = curlForward (some fun a i => w a i) (gradedE w (E (t + dt))) c x := ⟨_, rfl⟩
    rw [show (w : DxList sh ℝ) = fun a i => w a i from rfl, ← hC]
    rw [← hC] at k1
    have b : ∀ a (r : Pt), |(w a (x a) ^ 2 / 8) * (pd2 (H (t + dt + dt / 2) c) a r - pd2 (H (t + dt / 2) c) a r)| ≤ dt * (Mx * h a ^ 2 / 8) := by
      intro a r
      rw [abs_mul, abs_of_nonneg (by positivity)]
      have l := hsec.time (t + dt + dt / 2) (t + dt / 2) c a r
      rw [show t + dt + dt / 2 - (t + dt / 2) = dt by ring, abs_of_nonneg hdt] at l
      have := mul_le_mul (pow_le_pow_left₀ (hw a (x a)).le (hh a (x a)) 2) l (abs_nonneg _) (sq_nonneg _)
      linarith
    simp only [gradedH, corrH, smul_eq_mul] at k1 k2 k3 pe ⊢
    set r := gradedPt w (fun a => decide (a ≠ c)) x
    set D := deriv (fun s => H s c r) (t + dt)
    have pe0 : 0 < μ c r := lt_of_lt_of_le hκ pe
    have hcu : curl (E (t + dt)) c r = -(μ c r * D) - Mc (t + dt) c r := by linarith
    rw [hcu] at k1
    have b1 := b (c + 1) r
    have b2 := b (c + 2) r
    generalize w (c + 1) (x (c + 1)) ^ 2 / 8 = u1 at *
    generalize w (c + 2) (x (c + 2)) ^ 2 / 8 = u2 at *
    have e : H (t + dt / 2) c r - u1 * pd2 (H (t + dt / 2) c) (c + 1) r - u2 * pd2 (H (t + dt / 2) c) (c + 2) r
          - dt * C / μ c r - dt * Mc (t + dt) c r / μ c r
          - (H (t + dt + dt / 2) c r - u1 * pd2 (H (t + dt + dt / 2) c) (c + 1) r - u2 * pd2 (H (t + dt + dt / 2) c) (c + 2) r)
        = -(dt / μ c r * (C - (-(μ c r * D) - Mc (t + dt) c r))) - (H (t + dt + dt / 2) c r - H (t + dt / 2) c r - 2 * (dt / 2) * D)
          + (u1 * (pd2 (H (t + dt + dt / 2) c) (c + 1) r - pd2 (H (t + dt / 2) c) (c + 1) r)
            + u2 * (pd2 (H (t + dt + dt / 2) c) (c + 2) r - pd2 (H (t + dt / 2) c) (c + 2) r)) := by
      field_simp; ring
    rw [e]
    refine (abs_add_le _ _).trans ((add_le_add (abs_sub _ _) (abs_add_le _ _)).trans ?_)
    rw [abs_neg, abs_mul, abs_of_nonneg (div_nonneg hdt pe0.le)]
    have q1 : dt / μ c r ≤ dt / κ := div_le_div_of_nonneg_left hdt hκ pe
    have s3 : Mx * h (c + 1) ^ 2 + Mx * h (c + 2) ^ 2 ≤ Mx * ∑ a, h a ^ 2 := by
      rw [← mul_add]
      refine mul_le_mul_of_nonneg_left ?_ Mx0
      rw [Fin.sum_univ_three]
      fin_cases c <;> simp <;> nlinarith [sq_nonneg (h 0), sq_nonneg (h 1), sq_nonneg (h 2)]
    have s4 := mul_le_mul_of_nonneg_left s3 hdt
    rw [← hS] at k1 s4 ⊢
    have k4 : |C - (-(μ c r * D) - Mc (t + dt) c r)| ≤ Mx * S / 4 := k1.trans (by linarith)
    have := mul_le_mul q1 k4 (abs_nonneg _) (div_nonneg hdt hκ.le)
    have e2 : dt * (Mt * dt ^ 2 / 24 + Mx * S * (1 / (4 * κ) + 1 / 8)) = dt / κ * (Mx * S / 4) + Mt * (dt / 2) ^ 3 / 3 + dt * (Mx * S) / 8 := by
      field_simp; ring
    linarith

/-- Difference of two states. -/
def subState (s r : State sh ℝ) : State sh ℝ := ⟨s.e - r.e, s.h - r.h⟩

/-- Fields that are small everywhere have a small norm. -/
theorem norm_small {w : DxList sh ℝ} (hw : ∀ a i, 0 < w a i) {dt : ℝ} {ε μ : Fin 3 → Pt → ℝ} {κ' : ℝ} (hκ' : 0 ≤ κ')
    (hε : ∀ c r, 0 ≤ ε c r ∧ ε c r ≤ κ') (hμ : ∀ c r, 0 ≤ μ c r ∧ μ c r ≤ κ') (s : State sh ℝ) {δ : ℝ} (hδ : 0 ≤ δ)
    (he : ∀ c x, |s.e c x| ≤ δ) (hh : ∀ c x, |s.h c x| ≤ δ) :
    √(wNormSq (gradedSys dt w ε μ) s) ≤ √(6 * κ' * ∏ a, boxLen w a) * δ := by
  have hm : ∀ a i, 0 < midWidth w a i := fun a i => by
    have := hw a i; have := hw a (wrap i (-1)); rw [midWidth]; linarith
  have vE : ∀ c x, 0 ≤ volE w (midWidth w) c x := fun c x => Finset.prod_nonneg fun a _ => by split_ifs; exacts [(hw _ _).le, (hm _ _).le]
  have vH : ∀ c x, 0 ≤ volH w (midWidth w) c x := fun c x => Finset.prod_nonneg fun a _ => by split_ifs; exacts [(hm _ _).le, (hw _ _).le]
  have P0 : 0 ≤ ∏ a, boxLen w a := Finset.prod_nonneg fun a _ => Finset.sum_nonneg fun i _ => (hw a i).le
  rw [Real.sqrt_le_iff]
  refine ⟨by positivity, ?_⟩
  rw [mul_pow, Real.sq_sqrt (by positivity)]
  have h6 : 6 * κ' * (∏ a, boxLen w a) * δ ^ 2 = ∑ x : Idx sh, ∑ c : Fin 3, (volE w (midWidth w) c x + volH w (midWidth w) c x) * (κ' * δ ^ 2) := by
    rw [Finset.sum_comm]
    simp only [← Finset.sum_mul, Finset.sum_add_distrib, (sum_vol w _).1, (sum_vol w _).2, Finset.sum_const, Finset.card_univ, Fintype.card_fin, nsmul_eq_mul]
    push_cast; ring
  rw [h6, wNormSq]
  refine Finset.sum_le_sum fun x _ => Finset.sum_le_sum fun c _ => ?_
  have s1 : s.e c x ^ 2 ≤ δ ^ 2 := by rw [← sq_abs]; exact pow_le_pow_left₀ (abs_nonneg _) (he c x) 2
  have s2 : s.h c x ^ 2 ≤ δ ^ 2 := by rw [← sq_abs]; exact pow_le_pow_left₀ (abs_nonneg _) (hh c x) 2
  have t1 : (gradedSys dt w ε μ).eps c x * s.e c x ^ 2 ≤ κ' * δ ^ 2 := mul_le_mul (hε c _).2 s1 (sq_nonneg _) hκ'
  have t2 : ((gradedSys dt w ε μ).mu.getD fun _ _ => 1) c x * s.h c x ^ 2 ≤ κ' * δ ^ 2 := mul_le_mul (hμ c _).2 s2 (sq_nonneg _) hκ'
  have := mul_le_mul_of_nonneg_left t1 (vE c x)
  have := mul_le_mul_of_nonneg_left t2 (vH c x)
  rw [add_mul]
  exact add_le_add ‹_› ‹_›

/-- The energy norm of a sum, with a factor. -/
theorem norm_sub_state {S : Sys sh ℝ} {m : Fin 3 → ℝ} {εm μm : ℝ} (hC : Courant S m εm μm) (s r u : State sh ℝ) :
    √(wNormSq S (subState s u)) ≤ √2 * (√(wNormSq S (subState s r)) + √(wNormSq S (subState r u))) := by
  obtain ⟨vE, vH, -⟩ := hC.facts
  have n0 : ∀ q, 0 ≤ wNormSq S q := fun q => Finset.sum_nonneg fun x _ => Finset.sum_nonneg fun c _ => by
    rw [← mul_assoc, ← mul_assoc]
    exact add_nonneg (mul_nonneg (vE c x) (sq_nonneg _)) (mul_nonneg (vH c x) (sq_nonneg _))
  have h1 : wNormSq S (subState s u) ≤ 2 * (wNormSq S (subState s r) + wNormSq S (subState r u)) := by
    simp only [wNormSq, Finset.mul_sum, ← Finset.sum_add_distrib]
    refine Finset.sum_le_sum fun x _ => Finset.sum_le_sum fun c _ => ?_
    simp only [subState, Pi.sub_apply]
    have sq : ∀ a b d : ℝ, (a - d) ^ 2 ≤ 2 * (a - b) ^ 2 + 2 * (b - d) ^ 2 := fun a b d => by nlinarith [sq_nonneg (a - b - (b - d))]
    have := mul_le_mul_of_nonneg_left (sq (s.e c x) (r.e c x) (u.e c x)) (vE c x)
    have := mul_le_mul_of_nonneg_left (sq (s.h c x) (r.h c x) (u.h c x)) (vH c x)
    nlinarith
  refine (Real.sqrt_le_sqrt h1).trans ?_
  rw [Real.sqrt_mul (by norm_num)]
  refine mul_le_mul_of_nonneg_left ?_ (Real.sqrt_nonneg _)
  rw [Real.sqrt_le_iff]
  refine ⟨by positivity, ?_⟩
  rw [add_sq, Real.sq_sqrt (n0 _), Real.sq_sqrt (n0 _)]
  nlinarith [Real.sqrt_nonneg (wNormSq S (subState s r)), Real.sqrt_nonneg (wNormSq S (subState r u)),
    mul_nonneg (Real.sqrt_nonneg (wNormSq S (subState s r))) (Real.sqrt_nonneg (wNormSq S (subState r u)))]

/-- The simulation on a non-uniform grid is stable under a Courant bound for its smallest cells. -/
theorem graded_courant {w : DxList sh ℝ} {m : Pt} (hm : ∀ a, 0 < m a) (hmw : ∀ a i, m a ≤ w a i) {dt : ℝ} {ε μ : Fin 3 → Pt → ℝ} {κ : ℝ} (hκ : 0 < κ)
    (hε : ∀ c r, κ ≤ ε c r) (hμ : ∀ c r, κ ≤ μ c r) (hcfl : dt ^ 2 * (∑ a, 1 / m a ^ 2) < κ * κ) : Courant (gradedSys dt w ε μ) m κ κ :=
  ⟨hm, hmw, fun a i => by
    show m a ≤ midWidth w a i
    have := hmw a i; have := hmw a (wrap i (-1)); rw [midWidth]; linarith, hκ, hκ, fun c x => hε c _, fun c x => hμ c _, hcfl⟩

/-- Error of the run, with explicit constants. -/
theorem C133_fdtd_error {w : DxList sh ℝ} {m h : Pt} (hm : ∀ a, 0 < m a) (hmw : ∀ a i, m a ≤ w a i) (hh : ∀ a i, w a i ≤ h a) {dt : ℝ} (hdt : 0 ≤ dt)
    {ε μ : Fin 3 → Pt → ℝ} {κ κ' : ℝ} (hκ : 0 < κ) (hε : ∀ c r, κ ≤ ε c r ∧ ε c r ≤ κ') (hμ : ∀ c r, κ ≤ μ c r ∧ μ c r ≤ κ')
    {J Mc E H : ℝ → Fin 3 → Pt → ℝ} {Mt Mx : ℝ} (hsol : MaxwellSolution (boxLen w) ε μ J Mc E H Mt Mx) (hsec : SecondH Mx H)
    (hcfl : dt ^ 2 * (∑ a, 1 / m a ^ 2) < κ * κ) (s : State sh ℝ) (n : ℕ) :
    √(wNormSq (gradedSys dt w ε μ) (subState (gradedRun dt w ε μ J Mc s n) (corrState dt w E H (n * dt))))
      ≤ √(6 / (1 - dt ^ 2 * (∑ a, 1 / m a ^ 2) / (κ * κ))) * (√(wNormSq (gradedSys dt w ε μ) (subState s (corrState dt w E H 0)))
        + n * (√(6 * κ' * ∏ a, boxLen w a) * (dt * (Mt * dt ^ 2 / 24 + Mx * (∑ a, h a ^ 2) * (1 / (4 * κ) + 1 / 8))))) := by
  have hw : ∀ a i, 0 < w a i := fun a i => lt_of_lt_of_le (hm a) (hmw a i)
  have hC := graded_courant hm hmw hκ (fun c r => (hε c r).1) (fun c r => (hμ c r).1) hcfl
  have Mx0 : 0 ≤ Mx := (norm_nonneg _).trans ((hsol.spaceE 0 0 0 0).2 0)
  have Mt0 : 0 ≤ Mt := (norm_nonneg _).trans ((hsol.timeE 0 0).2 0)
  have κ'0 : 0 ≤ κ' := hκ.le.trans ((hε 0 0).1.trans (hε 0 0).2)
  set δ := Mt * dt ^ 2 / 24 + Mx * (∑ a, h a ^ 2) * (1 / (4 * κ) + 1 / 8) with hδ
  have δ0 : 0 ≤ δ := by
    have : 0 ≤ ∑ a, h a ^ 2 := Finset.sum_nonneg fun a _ => sq_nonneg _
    positivity
  set S := gradedSys dt w ε μ with hS
  set ρ : ℕ → State sh ℝ := fun n => ⟨fun c x =>
    (run S (corrState dt w E H (n * dt)) [.stepE, .injJ fun c x => -dt * gradedE w (J (n * dt + dt / 2)) c x]).e c x
      - (corrState dt w E H (n * dt + dt)).e c x, fun c x =>
    (run S ⟨(corrState dt w E H (n * dt + dt)).e, (corrState dt w E H (n * dt)).h⟩
          [.stepH, .injM fun c x => dt * gradedH w (Mc (n * dt + dt)) c x]).h c x
        - (corrState dt w E H (n * dt + dt)).h c x⟩ with hρ
  have nρ : ∀ n, √(wNormSq S (ρ n)) ≤ √(6 * κ' * ∏ a, boxLen w a) * (dt * δ) := fun n =>
    norm_small hw κ'0 (fun c r => ⟨hκ.le.trans (hε c r).1, (hε c r).2⟩) (fun c r => ⟨hκ.le.trans (hμ c r).1, (hμ c r).2⟩) _ (mul_nonneg hdt δ0)
      (fun c x => (graded_step hw hh hdt hκ (fun c r => (hε c r).1) (fun c r => (hμ c r).1) hsol hsec (n * dt) c x).1)
      (fun c x => (graded_step hw hh hdt hκ (fun c r => (hε c r).1) (fun c r => (hμ c r).1) hsol hsec (n * dt) c x).2)
  have key := C105_perturbed_run hC (fun n => subState (gradedRun dt w ε μ J Mc s n) (corrState dt w E H (n * dt))) ρ (fun n c x => ?_) (fun n c x => ?_) n
  · have : ∑ k ∈ Finset.range n, √(wNormSq S (ρ k)) ≤ ∑ _k ∈ Finset.range n, √(6 * κ' * ∏ a, boxLen w a) * (dt * δ) :=
      Finset.sum_le_sum fun k _ => nρ k
    rw [Finset.sum_const, Finset.card_range, nsmul_eq_mul] at this
    have z : subState (gradedRun dt w ε μ J Mc s 0) (corrState dt w E H ((0 : ℕ) * dt)) = subState s (corrState dt w E H 0) := by
      simp [gradedRun]
    beta_reduce at key
    rw [z] at key
    refine key.trans (mul_le_mul_of_nonneg_left ?_ (Real.sqrt_nonneg _))
    linarith
  · have hn : ((n + 1 : ℕ) : ℝ) * dt = n * dt + dt := by push_cast; ring
    simp only [subState, hρ, gradedRun, hn, run, List.foldl, step, maxwellE_eq, Pi.sub_apply, S, gradedSys]
    rw [show ((gradedRun dt w ε μ J Mc s n).h - (corrState dt w E H (↑n * dt)).h)
      = fun c x => (gradedRun dt w ε μ J Mc s n).h c x + (-1) * (corrState dt w E H (↑n * dt)).h c x by funext c x; simp [sub_eq_add_neg],
      curlBack_add _ (gradedRun dt w ε μ J Mc s n).h (fun c x => (-1) * (corrState dt w E H (↑n * dt)).h c x), curlBack_smul]
    ring
  · have hn : ((n + 1 : ℕ) : ℝ) * dt = n * dt + dt := by push_cast; ring
    have hdr : (gradedRun dt w ε μ J Mc s (n + 1)).h c x = (gradedRun dt w ε μ J Mc s n).h c x
        - dt * curlForward (some w) (gradedRun dt w ε μ J Mc s (n + 1)).e c x / gradedH w μ c x
        - dt * gradedH w (Mc (n * dt + dt)) c x / gradedH w μ c x := by
      simp only [gradedRun, run, List.foldl, step, maxwellH_eq, gradedSys, Option.map, muOr]
    simp only [subState, hρ, hn, run, List.foldl, step, maxwellH_eq, Pi.sub_apply, S, gradedSys, hdr, Option.map, muOr]
    rw [show ((gradedRun dt w ε μ J Mc s (n + 1)).e - (corrState dt w E H (↑n * dt + dt)).e)
      = fun c x => (gradedRun dt w ε μ J Mc s (n + 1)).e c x + (-1) * (corrState dt w E H (↑n * dt + dt)).e c x by funext c x; simp [sub_eq_add_neg],
      curlForward_add _ (gradedRun dt w ε μ J Mc s (n + 1)).e (fun c x => (-1) * (corrState dt w E H (↑n * dt + dt)).e c x), curlForward_smul]
    ring

/-- C133: FDTD on every non-uniform grid. For a smooth solution there is one constant for all grids of the box, however their cells vary: with H widths
that are the distances between cell middles, a run under a Courant bound for the smallest cells stays within `C (dt² + Σ h²)` of the solution, `h` the
largest cells. -/
theorem C133_fdtd_second_order {L : Pt} {ε μ : Fin 3 → Pt → ℝ} {κ κ' : ℝ} (hκ : 0 < κ) (hε : ∀ c r, κ ≤ ε c r ∧ ε c r ≤ κ')
    (hμ : ∀ c r, κ ≤ μ c r ∧ μ c r ≤ κ') {J Mc E H : ℝ → Fin 3 → Pt → ℝ} {Mt Mx : ℝ} (hsol : MaxwellSolution L ε μ J Mc E H Mt Mx)
    (hsec : SecondH Mx H) (T q : ℝ) (hq : q < 1) :
    ∃ C : ℝ, ∀ (sh : Fin 3 → ℕ) (w : DxList sh ℝ) (m h : Pt) (dt : ℝ) (n : ℕ), boxLen w = L → (∀ a, 0 < m a) → (∀ a i, m a ≤ w a i ∧ w a i ≤ h a) →
      0 ≤ dt → dt ^ 2 * (∑ a, 1 / m a ^ 2) ≤ q * (κ * κ) → n * dt ≤ T →
      √(wNormSq (gradedSys dt w ε μ) (subState (gradedRun dt w ε μ J Mc (gradedState dt w E H 0) n) (gradedState dt w E H (n * dt))))
        ≤ C * (dt ^ 2 + ∑ a, h a ^ 2) := by
  have Mx0 : 0 ≤ Mx := (norm_nonneg _).trans ((hsol.spaceE 0 0 0 0).2 0)
  have Mt0 : 0 ≤ Mt := (norm_nonneg _).trans ((hsol.timeE 0 0).2 0)
  have κ'0 : 0 ≤ κ' := hκ.le.trans ((hε 0 0).1.trans (hε 0 0).2)
  set V := √(6 * κ' * ∏ a, L a) with hV
  refine ⟨√2 * (√(6 / (1 - q)) * (V * (Mx / 8) + T * V * (Mt / 24 + Mx * (1 / (4 * κ) + 1 / 8))) + V * (Mx / 8)),
    fun sh w m h dt n hL hm hmw hdt hcfl hT => ?_⟩
  subst hL
  have hw : ∀ a i, 0 < w a i := fun a i => lt_of_lt_of_le (hm a) (hmw a i).1
  have hκ2 : 0 < κ * κ := mul_pos hκ hκ
  have hcfl' : dt ^ 2 * (∑ a, 1 / m a ^ 2) < κ * κ := by nlinarith
  have hC := graded_courant hm (fun a i => (hmw a i).1) hκ (fun c r => (hε c r).1) (fun c r => (hμ c r).1) hcfl'
  obtain ⟨S2, hS2⟩ : ∃ S2, S2 = ∑ a, h a ^ 2 := ⟨_, rfl⟩
  have S0 : 0 ≤ S2 := by rw [hS2]; exact Finset.sum_nonneg fun a _ => sq_nonneg _
  have V0 : 0 ≤ V := Real.sqrt_nonneg _
  -- the correction
  have corr : ∀ t, √(wNormSq (gradedSys dt w ε μ) (subState (gradedState dt w E H t) (corrState dt w E H t))) ≤ V * (Mx * S2 / 8) ∧
      √(wNormSq (gradedSys dt w ε μ) (subState (corrState dt w E H t) (gradedState dt w E H t))) ≤ V * (Mx * S2 / 8) := by
    intro t
    have b : ∀ c x, |corrH w (H (t + dt / 2)) c x - gradedH w (H (t + dt / 2)) c x| ≤ Mx * S2 / 8 := fun c x => by
      rw [hS2]; exact corrH_small w hw (fun a i => (hmw a i).2) (H (t + dt / 2)) (hsec.space _) c x
    have p : 0 ≤ Mx * S2 / 8 := by positivity
    constructor
    · refine norm_small hw κ'0 (fun c r => ⟨hκ.le.trans (hε c r).1, (hε c r).2⟩) (fun c r => ⟨hκ.le.trans (hμ c r).1, (hμ c r).2⟩) _ p (fun c x => ?_) fun c x => ?_
      · simp [subState, gradedState, corrState, p]
      · simp only [subState, gradedState, corrState, Pi.sub_apply]; rw [abs_sub_comm]; exact b c x
    · refine norm_small hw κ'0 (fun c r => ⟨hκ.le.trans (hε c r).1, (hε c r).2⟩) (fun c r => ⟨hκ.le.trans (hμ c r).1, (hμ c r).2⟩) _ p (fun c x => ?_) fun c x => ?_
      · simp [subState, gradedState, corrState, p]
      · exact b c x
  have key := C133_fdtd_error hm (fun a i => (hmw a i).1) (fun a i => (hmw a i).2) hdt hκ hε hμ hsol hsec hcfl' (gradedState dt w E H 0) n
  rw [← hS2] at key ⊢
  rw [← hV] at key
  have tri := norm_sub_state hC (gradedRun dt w ε μ J Mc (gradedState dt w E H 0) n) (corrState dt w E H (n * dt)) (gradedState dt w E H (n * dt))
  refine tri.trans ?_
  rw [mul_assoc]
  refine mul_le_mul_of_nonneg_left ?_ (Real.sqrt_nonneg _)
  have d0 : 0 ≤ dt ^ 2 := sq_nonneg _
  have hqq : dt ^ 2 * (∑ a, 1 / m a ^ 2) / (κ * κ) ≤ q := by rw [div_le_iff₀ hκ2]; exact hcfl
  have r1 : √(6 / (1 - dt ^ 2 * (∑ a, 1 / m a ^ 2) / (κ * κ))) ≤ √(6 / (1 - q)) :=
    Real.sqrt_le_sqrt (div_le_div_of_nonneg_left (by norm_num) (by linarith) (by linarith))
  have hn : 0 ≤ (n : ℝ) * dt := mul_nonneg (Nat.cast_nonneg _) hdt
  have A0 : 0 ≤ 1 / (4 * κ) + 1 / 8 := by positivity
  have c0 : V * (Mx * S2 / 8) ≤ V * (Mx / 8) * (dt ^ 2 + S2) := by
    have : 0 ≤ V * (Mx / 8) * dt ^ 2 := by positivity
    linarith
  have c1 : n * (V * (dt * (Mt * dt ^ 2 / 24 + Mx * S2 * (1 / (4 * κ) + 1 / 8)))) ≤ T * V * (Mt / 24 + Mx * (1 / (4 * κ) + 1 / 8)) * (dt ^ 2 + S2) := by
    generalize 1 / (4 * κ) + 1 / 8 = A at *
    have e1 : n * (V * (dt * (Mt * dt ^ 2 / 24 + Mx * S2 * A))) = (n * dt) * (V * (Mt * dt ^ 2 / 24 + Mx * S2 * A)) := by ring
    have e2 : T * V * (Mt / 24 + Mx * A) * (dt ^ 2 + S2) = T * (V * ((Mt / 24 + Mx * A) * (dt ^ 2 + S2))) := by ring
    rw [e1, e2]
    refine mul_le_mul hT (mul_le_mul_of_nonneg_left ?_ V0) (by positivity) (hn.trans hT)
    have : 0 ≤ Mt / 24 * S2 + Mx * A * dt ^ 2 := by positivity
    linarith
  have c2 := (corr 0).1
  have c3 := (corr (n * dt)).2
  have c4 : √(wNormSq (gradedSys dt w ε μ) (subState (gradedState dt w E H 0) (corrState dt w E H 0)))
      + n * (V * (dt * (Mt * dt ^ 2 / 24 + Mx * S2 * (1 / (4 * κ) + 1 / 8))))
      ≤ (V * (Mx / 8) + T * V * (Mt / 24 + Mx * (1 / (4 * κ) + 1 / 8))) * (dt ^ 2 + S2) := by linarith
  have c5 := key.trans (mul_le_mul r1 c4 (by positivity) (Real.sqrt_nonneg _))
  linarith

end run
end Meanas.Props
