/-
C138: rounding errors of FDTD runs in floating-point arithmetic.
-/
import Verif.Model.FdtdFloat
import Verif.Props.Convergence
import Mathlib.Analysis.InnerProductSpace.PiL2
import Mathlib.Data.Int.Log
import Mathlib.Tactic.Linarith

set_option linter.unusedSectionVars false

namespace Meanas.Props

open Functional Spec Fdtd

namespace Rounding

open FdtdFloat (Fl)

/-! ### Accumulated relative errors -/

theorem Fl.abs_le {u x y : ℝ} (h : Fl u x y) : |y| ≤ (1 + u) * |x| := by
  have h1 : |y - x| ≤ u * |x| := h
  have := abs_sub_abs_le_abs_sub y x
  linarith

theorem fl_self {u : ℝ} (hu : 0 ≤ u) (x : ℝ) : Fl u x x := by
  unfold Fl; rw [sub_self, abs_zero]; positivity

theorem fl_zero {x y : ℝ} : Fl 0 x y ↔ y = x := by
  unfold Fl; rw [zero_mul, abs_nonpos_iff, sub_eq_zero]

/-- `y` approximates `x` with an error of at most `g` times the size `w ≥ |x|`. -/
def Near (g w x y : ℝ) : Prop := |x| ≤ w ∧ |y - x| ≤ g * w

/-- One more rounding. -/
theorem Near.fl {u g w x y z : ℝ} (hu : 0 ≤ u) (hg : 0 ≤ g) (h : Near g w x y) (hz : Fl u y z) : Near ((1 + u) * (1 + g) - 1) w x z := by
  obtain ⟨h1, h2⟩ := h
  have h3 : |z - y| ≤ u * |y| := hz
  have h4 : |y| ≤ (1 + g) * w := by
    have := abs_sub_abs_le_abs_sub y x; linarith
  refine ⟨h1, ?_⟩
  have h5 : |z - x| ≤ |z - y| + |y - x| := by
    rw [show z - x = (z - y) + (y - x) by ring]; exact abs_add_le _ _
  have := mul_le_mul_of_nonneg_left h4 hu
  nlinarith

theorem Near.add {g w x y w' x' y' : ℝ} (h : Near g w x y) (h' : Near g w' x' y') : Near g (w + w') (x + x') (y + y') := by
  refine ⟨(abs_add_le _ _).trans (add_le_add h.1 h'.1), ?_⟩
  rw [show y + y' - (x + x') = (y - x) + (y' - x') by ring]
  have := abs_add_le (y - x) (y' - x')
  have := h.2; have := h'.2
  linarith

theorem Near.neg {g w x y : ℝ} (h : Near g w x y) : Near g w (-x) (-y) := by
  refine ⟨by rw [abs_neg]; exact h.1, ?_⟩
  rw [show -y - -x = -(y - x) by ring, abs_neg]; exact h.2

theorem Near.sub {g w x y w' x' y' : ℝ} (h : Near g w x y) (h' : Near g w' x' y') : Near g (w + w') (x - x') (y - y') := by
  rw [sub_eq_add_neg, sub_eq_add_neg]; exact h.add h'.neg

theorem Near.mul {g w x y : ℝ} (h : Near g w x y) (k : ℝ) : Near g (|k| * w) (k * x) (k * y) := by
  refine ⟨by rw [abs_mul]; exact mul_le_mul_of_nonneg_left h.1 (abs_nonneg k), ?_⟩
  rw [← mul_sub, abs_mul]
  have := mul_le_mul_of_nonneg_left h.2 (abs_nonneg k)
  linarith

theorem Near.div {g w x y : ℝ} (h : Near g w x y) (k : ℝ) : Near g (w / |k|) (x / k) (y / k) := by
  have := h.mul k⁻¹
  rw [abs_inv] at this
  simpa only [div_eq_inv_mul] using this

theorem Near.mono {g g' w x y : ℝ} (hg : g ≤ g') (h : Near g w x y) : Near g' w x y := by
  have hw : 0 ≤ w := (abs_nonneg x).trans h.1
  exact ⟨h.1, h.2.trans (mul_le_mul_of_nonneg_right hg hw)⟩

theorem near_self (x : ℝ) : Near 0 |x| x x := ⟨le_refl _, by rw [sub_self, abs_zero, zero_mul]⟩

/-- Growth after `k` roundings. -/
noncomputable def gam (u : ℝ) (k : ℕ) : ℝ := (1 + u) ^ k - 1

theorem gam_zero (u : ℝ) : gam u 0 = 0 := by simp [gam]

theorem gam_succ (u : ℝ) (k : ℕ) : (1 + u) * (1 + gam u k) - 1 = gam u (k + 1) := by
  simp only [gam, pow_succ]; ring

theorem gam_nonneg {u : ℝ} (hu : 0 ≤ u) (k : ℕ) : 0 ≤ gam u k := by
  have : 1 ≤ (1 + u) ^ k := one_le_pow₀ (by linarith)
  simp only [gam]; linarith

theorem gam_le {u : ℝ} (hu : 0 ≤ u) {j k : ℕ} (h : j ≤ k) : gam u j ≤ gam u k := by
  have := pow_le_pow_right₀ (by linarith : 1 ≤ 1 + u) h
  simp only [gam]; linarith

theorem Near.fl' {u w x y z : ℝ} {k : ℕ} (hu : 0 ≤ u) (h : Near (gam u k) w x y) (hz : Fl u y z) : Near (gam u (k + 1)) w x z := by
  have := h.fl hu (gam_nonneg hu k) hz
  rwa [gam_succ] at this

theorem near_exact (u x : ℝ) : Near (gam u 0) |x| x x := by rw [gam_zero]; exact near_self x

/-- Seven roundings cost at most `8 u`. -/
theorem gam_seven {u : ℝ} (hu : 0 ≤ u) (h : u ≤ 1 / 100) : gam u 7 ≤ 8 * u := by
  simp only [gam]
  have h2 : u ^ 2 ≤ u / 100 := by nlinarith
  have h3 : u ^ 3 ≤ u / 10000 := by nlinarith [sq_nonneg u]
  have h4 : u ^ 4 ≤ u / 1000000 := by nlinarith [sq_nonneg u, pow_nonneg hu 3]
  have h5 : u ^ 5 ≤ u / 1000000 := by nlinarith [pow_nonneg hu 4]
  have h6 : u ^ 6 ≤ u / 1000000 := by nlinarith [pow_nonneg hu 5]
  have h7 : u ^ 7 ≤ u / 1000000 := by nlinarith [pow_nonneg hu 6]
  have e : (1 + u) ^ 7 - 1 = 7 * u + 21 * u ^ 2 + 35 * u ^ 3 + 35 * u ^ 4 + 21 * u ^ 5 + 7 * u ^ 6 + u ^ 7 := by ring
  rw [e]
  linarith

variable {sh : Fin 3 → ℕ}

/-! ### Differences and curls -/

theorem near_derivForward {d : ℕ} {sh : Fin d → ℕ} {u : ℝ} (hu : 0 ≤ u) (dx : Option (DxList sh ℝ)) (a : Fin d) {f out : Arr sh ℝ}
    (h : FdtdFloat.DerivForward u dx a f out) (x : Idx sh) : Near (gam u 2) |derivForward dx a f x| (derivForward dx a f x) (out x) := by
  cases dx with
  | none =>
    exact ((near_exact u _).fl' hu (h x)).mono (gam_le hu (by norm_num))
  | some dx =>
    obtain ⟨t, ht, ho⟩ := h
    have := (((near_exact u _).fl' hu (ht x)).div (dx a (x a))).fl' hu (ho x)
    rw [← abs_div] at this
    exact this

theorem near_derivBack {d : ℕ} {sh : Fin d → ℕ} {u : ℝ} (hu : 0 ≤ u) (dx : Option (DxList sh ℝ)) (a : Fin d) {f out : Arr sh ℝ}
    (h : FdtdFloat.DerivBack u dx a f out) (x : Idx sh) : Near (gam u 2) |derivBack dx a f x| (derivBack dx a f x) (out x) := by
  cases dx with
  | none =>
    exact ((near_exact u _).fl' hu (h x)).mono (gam_le hu (by norm_num))
  | some dx =>
    obtain ⟨t, ht, ho⟩ := h
    have := (((near_exact u _).fl' hu (ht x)).div (dx a (x a))).fl' hu (ho x)
    rw [← abs_div] at this
    exact this

/-- The two differences of a component of the curl, without cancellation. -/
noncomputable def absForward (dx : Option (DxList sh ℝ)) (e : VField sh ℝ) : VField sh ℝ :=
  ![fun x => |derivForward dx 1 (e 2) x| + |derivForward dx 2 (e 1) x|,
    fun x => |derivForward dx 2 (e 0) x| + |derivForward dx 0 (e 2) x|,
    fun x => |derivForward dx 0 (e 1) x| + |derivForward dx 1 (e 0) x|]

noncomputable def absBack (dx : Option (DxList sh ℝ)) (e : VField sh ℝ) : VField sh ℝ :=
  ![fun x => |derivBack dx 1 (e 2) x| + |derivBack dx 2 (e 1) x|,
    fun x => |derivBack dx 2 (e 0) x| + |derivBack dx 0 (e 2) x|,
    fun x => |derivBack dx 0 (e 1) x| + |derivBack dx 1 (e 0) x|]

theorem near_curlForward {u : ℝ} (hu : 0 ≤ u) (dx : Option (DxList sh ℝ)) {e out : VField sh ℝ} (h : FdtdFloat.CurlForward u dx e out) (c : Fin 3)
    (x : Idx sh) : Near (gam u 3) (absForward dx e c x) (curlForward dx e c x) (out c x) := by
  obtain ⟨p, m, p0, p1, p2, m0, m1, m2, ho⟩ := h
  revert c
  refine forall_fin3 ?_ ?_ ?_
  · exact ((near_derivForward hu dx _ p0 x).sub (near_derivForward hu dx _ m0 x)).fl' hu (ho 0 x)
  · exact ((near_derivForward hu dx _ p1 x).sub (near_derivForward hu dx _ m1 x)).fl' hu (ho 1 x)
  · exact ((near_derivForward hu dx _ p2 x).sub (near_derivForward hu dx _ m2 x)).fl' hu (ho 2 x)

theorem near_curlBack {u : ℝ} (hu : 0 ≤ u) (dx : Option (DxList sh ℝ)) {e out : VField sh ℝ} (h : FdtdFloat.CurlBack u dx e out) (c : Fin 3)
    (x : Idx sh) : Near (gam u 3) (absBack dx e c x) (curlBack dx e c x) (out c x) := by
  obtain ⟨p, m, p0, p1, p2, m0, m1, m2, ho⟩ := h
  revert c
  refine forall_fin3 ?_ ?_ ?_
  · exact ((near_derivBack hu dx _ p0 x).sub (near_derivBack hu dx _ m0 x)).fl' hu (ho 0 x)
  · exact ((near_derivBack hu dx _ p1 x).sub (near_derivBack hu dx _ m1 x)).fl' hu (ho 1 x)
  · exact ((near_derivBack hu dx _ p2 x).sub (near_derivBack hu dx _ m2 x)).fl' hu (ho 2 x)

/-- The size of the terms in the E update. -/
noncomputable def sizeE (S : Sys sh ℝ) (h : VField sh ℝ) : VField sh ℝ := fun c x => |S.dt| * absBack (S.dxes.map (·.2)) h c x / |S.eps c x|
/-- The size of the terms in the H update. -/
noncomputable def sizeH (S : Sys sh ℝ) (e : VField sh ℝ) : VField sh ℝ :=
  fun c x => |S.dt| * absForward (S.dxes.map (·.1)) e c x / |(S.mu.getD fun _ _ => 1) c x|

/-- One E half step with a source, rounded. -/
theorem near_E {u : ℝ} (hu : 0 ≤ u) (S : Sys sh ℝ) {s s1 s2 : State sh ℝ} {j : VField sh ℝ} (h1 : FdtdFloat.Step u S s .stepE s1)
    (h2 : FdtdFloat.Step u S s1 (.injJ j) s2) (c : Fin 3) (x : Idx sh) :
    |s2.e c x - (run S s [.stepE, .injJ j]).e c x| ≤ gam u 7 * (|s.e c x| + sizeE S s.h c x + |j c x / S.eps c x|) := by
  obtain ⟨⟨k, t, v, hk, ht, hv, he⟩, -⟩ := h1
  obtain ⟨⟨w, hw, he2⟩, -⟩ := h2
  have n1 := ((((near_curlBack hu _ hk c x).mul S.dt).fl' hu (ht c x)).div (S.eps c x)).fl' hu (hv c x)
  have n2 := (((near_exact u (s.e c x)).mono (gam_le hu (by norm_num : 0 ≤ 5))).add n1).fl' hu (he c x)
  have n3 := ((near_exact u (j c x / S.eps c x)).fl' hu (hw c x)).mono (gam_le hu (by norm_num : 1 ≤ 6))
  have n4 := ((n2.add n3).fl' hu (he2 c x)).2
  have e1 : (run S s [.stepE, .injJ j]).e c x = s.e c x + S.dt * curlBack (S.dxes.map (·.2)) s.h c x / S.eps c x + j c x / S.eps c x := by
    simp only [run, List.foldl, step]
    rw [maxwellE_eq]
  rw [e1]
  exact n4

/-- One H half step with a source, rounded. -/
theorem near_H {u : ℝ} (hu : 0 ≤ u) (S : Sys sh ℝ) {s s1 s2 : State sh ℝ} {m : VField sh ℝ} (h1 : FdtdFloat.Step u S s .stepH s1)
    (h2 : FdtdFloat.Step u S s1 (.injM m) s2) (c : Fin 3) (x : Idx sh) :
    |s2.h c x - (run S s [.stepH, .injM m]).h c x| ≤ gam u 7 * (|s.h c x| + sizeH S s.e c x + |m c x / (S.mu.getD fun _ _ => 1) c x|) := by
  obtain ⟨⟨k, t, hk, ht, hm⟩, -⟩ := h1
  obtain ⟨h2, -⟩ := h2
  have n1 := ((near_curlForward hu _ hk c x).mul S.dt).fl' hu (ht c x)
  have n0 := (near_exact u (s.h c x)).mono (gam_le hu (by norm_num : 0 ≤ 5))
  have e1 : (run S s [.stepH, .injM m]).h c x = s.h c x - S.dt * curlForward (S.dxes.map (·.1)) s.e c x / (S.mu.getD fun _ _ => 1) c x
      - m c x / (S.mu.getD fun _ _ => 1) c x := by
    simp only [run, List.foldl, step_injM_h]
    simp only [step]
    rw [maxwellH_eq]
    cases S.mu <;> rfl
  rw [e1, sizeH]
  cases hS : S.mu with
  | some mu =>
    rw [hS] at hm h2
    obtain ⟨v, hv, hh⟩ := hm
    obtain ⟨w, hw, hh2⟩ := h2
    simp only [Option.getD_some]
    have n2 := (n0.sub ((n1.div (mu c x)).fl' hu (hv c x))).fl' hu (hh c x)
    have n3 := ((near_exact u (m c x / mu c x)).fl' hu (hw c x)).mono (gam_le hu (by norm_num : 1 ≤ 6))
    exact ((n2.sub n3).fl' hu (hh2 c x)).2
  | none =>
    rw [hS] at hm h2
    simp only [Option.getD_none, div_one, abs_one]
    have n2 := (n0.sub (n1.mono (gam_le hu (by norm_num : 4 ≤ 5)))).fl' hu (hm c x)
    have n3 := (near_exact u (m c x)).mono (gam_le hu (by norm_num : 0 ≤ 6))
    exact ((n2.sub n3).fl' hu (h2 c x)).2

/-! ### Norms -/

/-- Weighted norm of a field. -/
noncomputable def wn (w f : VField sh ℝ) : ℝ := √(∑ x, ∑ c, w c x * f c x ^ 2)

theorem wn_nonneg (w f : VField sh ℝ) : 0 ≤ wn w f := Real.sqrt_nonneg _

theorem wn_mono {w f g : VField sh ℝ} (hw : ∀ c x, 0 ≤ w c x) (h : ∀ c x, |f c x| ≤ g c x) : wn w f ≤ wn w g := by
  refine Real.sqrt_le_sqrt (Finset.sum_le_sum fun x _ => Finset.sum_le_sum fun c _ => mul_le_mul_of_nonneg_left ?_ (hw c x))
  rw [← sq_abs (f c x)]
  exact pow_le_pow_left₀ (abs_nonneg _) (h c x) 2

theorem wn_smul (w f : VField sh ℝ) {k : ℝ} (hk : 0 ≤ k) : wn w (fun c x => k * f c x) = k * wn w f := by
  have : ∑ x, ∑ c, w c x * (k * f c x) ^ 2 = k ^ 2 * ∑ x, ∑ c, w c x * f c x ^ 2 := by
    rw [Finset.mul_sum]
    refine Finset.sum_congr rfl fun x _ => ?_
    rw [Finset.mul_sum]
    exact Finset.sum_congr rfl fun c _ => by ring
  rw [wn, this, Real.sqrt_mul (sq_nonneg k), Real.sqrt_sq hk, wn]

theorem wn_abs (w f : VField sh ℝ) : wn w (fun c x => |f c x|) = wn w f := by
  simp only [wn, sq_abs]

theorem wn_add {w : VField sh ℝ} (hw : ∀ c x, 0 ≤ w c x) (f g : VField sh ℝ) : wn w (fun c x => f c x + g c x) ≤ wn w f + wn w g := by
  have key : ∀ k : VField sh ℝ, wn w k = ‖(WithLp.toLp 2 fun p : Idx sh × Fin 3 => √(w p.2 p.1) * k p.2 p.1 : EuclideanSpace ℝ (Idx sh × Fin 3))‖ := by
    intro k
    rw [EuclideanSpace.norm_eq, wn, Fintype.sum_prod_type]
    congr 1
    refine Finset.sum_congr rfl fun x _ => Finset.sum_congr rfl fun c _ => ?_
    show w c x * k c x ^ 2 = ‖√(w c x) * k c x‖ ^ 2
    rw [Real.norm_eq_abs, sq_abs, mul_pow, Real.sq_sqrt (hw c x)]
  rw [key, key, key]
  refine le_trans (le_of_eq ?_) (norm_add_le _ _)
  congr 1
  ext p
  show √(w p.2 p.1) * (f p.2 p.1 + g p.2 p.1) = √(w p.2 p.1) * f p.2 p.1 + √(w p.2 p.1) * g p.2 p.1
  ring

/-- Weights of the E and H parts of the energy norm. -/
noncomputable def wE (S : Sys sh ℝ) : VField sh ℝ := fun c x => volE (dxesOrOnes S.dxes).1 (dxesOrOnes S.dxes).2 c x * S.eps c x
noncomputable def wH (S : Sys sh ℝ) : VField sh ℝ := fun c x => volH (dxesOrOnes S.dxes).1 (dxesOrOnes S.dxes).2 c x * (S.mu.getD fun _ _ => 1) c x

theorem wNormSq_eq (S : Sys sh ℝ) (s : State sh ℝ) :
    wNormSq S s = ∑ x, ∑ c, wE S c x * s.e c x ^ 2 + ∑ x, ∑ c, wH S c x * s.h c x ^ 2 := by
  rw [wNormSq, ← Finset.sum_add_distrib]
  refine Finset.sum_congr rfl fun x _ => ?_
  rw [← Finset.sum_add_distrib]
  exact Finset.sum_congr rfl fun c _ => by simp only [wE, wH]; ring

theorem norm_parts {S : Sys sh ℝ} (hE : ∀ c x, 0 ≤ wE S c x) (hH : ∀ c x, 0 ≤ wH S c x) (s : State sh ℝ) :
    √(wNormSq S s) ≤ wn (wE S) s.e + wn (wH S) s.h ∧ wn (wE S) s.e ≤ √(wNormSq S s) ∧ wn (wH S) s.h ≤ √(wNormSq S s) := by
  have a : 0 ≤ ∑ x, ∑ c, wE S c x * s.e c x ^ 2 := Finset.sum_nonneg fun x _ => Finset.sum_nonneg fun c _ => mul_nonneg (hE c x) (sq_nonneg _)
  have b : 0 ≤ ∑ x, ∑ c, wH S c x * s.h c x ^ 2 := Finset.sum_nonneg fun x _ => Finset.sum_nonneg fun c _ => mul_nonneg (hH c x) (sq_nonneg _)
  rw [wNormSq_eq]
  exact ⟨Real.sqrt_le_iff.mpr ⟨add_nonneg (wn_nonneg _ _) (wn_nonneg _ _), by
    have h1 := Real.sq_sqrt a
    have h2 := Real.sq_sqrt b
    have h3 := mul_nonneg (wn_nonneg (wE S) s.e) (wn_nonneg (wH S) s.h)
    rw [add_sq]
    simp only [wn] at h3 ⊢
    rw [h1, h2]
    linarith⟩, Real.sqrt_le_sqrt (by linarith), Real.sqrt_le_sqrt (by linarith)⟩

theorem abs_sum_sq (p q : ℝ) : (|p| + |q|) ^ 2 ≤ 2 * (p ^ 2 + q ^ 2) := by
  have := sq_nonneg (|p| - |q|)
  rw [← sq_abs p, ← sq_abs q]; nlinarith

theorem norm_absForward (dE dH : DxList sh ℝ) (m : Fin 3 → ℝ) (hm : ∀ a, 0 < m a) (hE : ∀ a i, m a ≤ dE a i)
    (hH : ∀ a i, m a ≤ dH a i) (e : VField sh ℝ) :
    ∑ x, ∑ c, volH dE dH c x * absForward (some dE) e c x ^ 2
      ≤ 8 * (∑ a, 1 / m a ^ 2) * ∑ x, ∑ c, volE dE dH c x * e c x ^ 2 := by
  have n01 : (0 : Fin 3) ≠ 1 := by decide
  have n02 : (0 : Fin 3) ≠ 2 := by decide
  have n12 : (1 : Fin 3) ≠ 2 := by decide
  have pE : ∀ a i, 0 < dE a i := fun a i => lt_of_lt_of_le (hm a) (hE a i)
  have pH : ∀ a i, 0 < dH a i := fun a i => lt_of_lt_of_le (hm a) (hH a i)
  have f10 := norm_derivForward 1 dE dH (m 1) (hm 1) (hE 1) (hH 1) (fun x => dE 0 (x 0) * dH 2 (x 2)) (e 0)
    (fun x => (mul_pos (pE _ _) (pH _ _)).le) (fun x => by simp only [shiftIdx_of_ne n01, shiftIdx_of_ne n12.symm])
  have f20 := norm_derivForward 2 dE dH (m 2) (hm 2) (hE 2) (hH 2) (fun x => dE 0 (x 0) * dH 1 (x 1)) (e 0)
    (fun x => (mul_pos (pE _ _) (pH _ _)).le) (fun x => by simp only [shiftIdx_of_ne n02, shiftIdx_of_ne n12])
  have f01 := norm_derivForward 0 dE dH (m 0) (hm 0) (hE 0) (hH 0) (fun x => dE 1 (x 1) * dH 2 (x 2)) (e 1)
    (fun x => (mul_pos (pE _ _) (pH _ _)).le) (fun x => by simp only [shiftIdx_of_ne n01.symm, shiftIdx_of_ne n02.symm])
  have f21 := norm_derivForward 2 dE dH (m 2) (hm 2) (hE 2) (hH 2) (fun x => dE 1 (x 1) * dH 0 (x 0)) (e 1)
    (fun x => (mul_pos (pE _ _) (pH _ _)).le) (fun x => by simp only [shiftIdx_of_ne n02, shiftIdx_of_ne n12])
  have f02 := norm_derivForward 0 dE dH (m 0) (hm 0) (hE 0) (hH 0) (fun x => dE 2 (x 2) * dH 1 (x 1)) (e 2)
    (fun x => (mul_pos (pE _ _) (pH _ _)).le) (fun x => by simp only [shiftIdx_of_ne n01.symm, shiftIdx_of_ne n02.symm])
  have f12 := norm_derivForward 1 dE dH (m 1) (hm 1) (hE 1) (hH 1) (fun x => dE 2 (x 2) * dH 0 (x 0)) (e 2)
    (fun x => (mul_pos (pE _ _) (pH _ _)).le) (fun x => by simp only [shiftIdx_of_ne n01, shiftIdx_of_ne n12.symm])
  set F := fun (a c : Fin 3) (x : Idx sh) => derivForward (some dE) a (e c) x with hF
  have lhs : ∑ x, ∑ c, volH dE dH c x * absForward (some dE) e c x ^ 2
      ≤ 2 * (∑ x, dE 1 (x 1) * (dE 2 (x 2) * dH 0 (x 0)) * F 1 2 x ^ 2
        + ∑ x, dE 2 (x 2) * (dE 1 (x 1) * dH 0 (x 0)) * F 2 1 x ^ 2
        + ∑ x, dE 2 (x 2) * (dE 0 (x 0) * dH 1 (x 1)) * F 2 0 x ^ 2
        + ∑ x, dE 0 (x 0) * (dE 2 (x 2) * dH 1 (x 1)) * F 0 2 x ^ 2
        + ∑ x, dE 0 (x 0) * (dE 1 (x 1) * dH 2 (x 2)) * F 0 1 x ^ 2
        + ∑ x, dE 1 (x 1) * (dE 0 (x 0) * dH 2 (x 2)) * F 1 0 x ^ 2) := by
    simp only [← Finset.sum_add_distrib, Finset.mul_sum]
    refine Finset.sum_le_sum fun x _ => ?_
    simp only [Fin.sum_univ_three, volH_0, volH_1, volH_2, hF]
    have s0 := mul_le_mul_of_nonneg_left (abs_sum_sq (F 1 2 x) (F 2 1 x)) (mul_pos (mul_pos (pH 0 (x 0)) (pE 1 (x 1))) (pE 2 (x 2))).le
    have s1 := mul_le_mul_of_nonneg_left (abs_sum_sq (F 2 0 x) (F 0 2 x)) (mul_pos (mul_pos (pE 0 (x 0)) (pH 1 (x 1))) (pE 2 (x 2))).le
    have s2 := mul_le_mul_of_nonneg_left (abs_sum_sq (F 0 1 x) (F 1 0 x)) (mul_pos (mul_pos (pE 0 (x 0)) (pE 1 (x 1))) (pH 2 (x 2))).le
    simp only [hF] at s0 s1 s2
    show _ * (|derivForward (some dE) 1 (e 2) x| + |derivForward (some dE) 2 (e 1) x|) ^ 2
      + _ * (|derivForward (some dE) 2 (e 0) x| + |derivForward (some dE) 0 (e 2) x|) ^ 2
      + _ * (|derivForward (some dE) 0 (e 1) x| + |derivForward (some dE) 1 (e 0) x|) ^ 2 ≤ _
    linarith
  have rhs : ∑ x, ∑ c, volE dE dH c x * e c x ^ 2
      = ∑ x, dE 0 (x 0) * (dH 1 (x 1) * dH 2 (x 2)) * e 0 x ^ 2
        + ∑ x, dE 1 (x 1) * (dH 0 (x 0) * dH 2 (x 2)) * e 1 x ^ 2
        + ∑ x, dE 2 (x 2) * (dH 0 (x 0) * dH 1 (x 1)) * e 2 x ^ 2 := by
    simp only [← Finset.sum_add_distrib]
    refine Finset.sum_congr rfl fun x _ => ?_
    simp only [Fin.sum_univ_three, volE_0, volE_1, volE_2]
    ring
  have r10 : ∑ x, dH 1 (x 1) * (dE 0 (x 0) * dH 2 (x 2)) * e 0 x ^ 2
      = ∑ x, dE 0 (x 0) * (dH 1 (x 1) * dH 2 (x 2)) * e 0 x ^ 2 := Finset.sum_congr rfl fun x _ => by ring
  have r20 : ∑ x, dH 2 (x 2) * (dE 0 (x 0) * dH 1 (x 1)) * e 0 x ^ 2
      = ∑ x, dE 0 (x 0) * (dH 1 (x 1) * dH 2 (x 2)) * e 0 x ^ 2 := Finset.sum_congr rfl fun x _ => by ring
  have r01 : ∑ x, dH 0 (x 0) * (dE 1 (x 1) * dH 2 (x 2)) * e 1 x ^ 2
      = ∑ x, dE 1 (x 1) * (dH 0 (x 0) * dH 2 (x 2)) * e 1 x ^ 2 := Finset.sum_congr rfl fun x _ => by ring
  have r21 : ∑ x, dH 2 (x 2) * (dE 1 (x 1) * dH 0 (x 0)) * e 1 x ^ 2
      = ∑ x, dE 1 (x 1) * (dH 0 (x 0) * dH 2 (x 2)) * e 1 x ^ 2 := Finset.sum_congr rfl fun x _ => by ring
  have r02 : ∑ x, dH 0 (x 0) * (dE 2 (x 2) * dH 1 (x 1)) * e 2 x ^ 2
      = ∑ x, dE 2 (x 2) * (dH 0 (x 0) * dH 1 (x 1)) * e 2 x ^ 2 := Finset.sum_congr rfl fun x _ => by ring
  have r12 : ∑ x, dH 1 (x 1) * (dE 2 (x 2) * dH 0 (x 0)) * e 2 x ^ 2
      = ∑ x, dE 2 (x 2) * (dH 0 (x 0) * dH 1 (x 1)) * e 2 x ^ 2 := Finset.sum_congr rfl fun x _ => by ring
  rw [r10] at f10; rw [r20] at f20; rw [r01] at f01; rw [r21] at f21; rw [r02] at f02; rw [r12] at f12
  refine lhs.trans ?_
  rw [rhs, Fin.sum_univ_three]
  simp only [hF] at *
  set N0 := ∑ x, dE 0 (x 0) * (dH 1 (x 1) * dH 2 (x 2)) * e 0 x ^ 2
  set N1 := ∑ x, dE 1 (x 1) * (dH 0 (x 0) * dH 2 (x 2)) * e 1 x ^ 2
  set N2 := ∑ x, dE 2 (x 2) * (dH 0 (x 0) * dH 1 (x 1)) * e 2 x ^ 2
  have z0 : 0 ≤ N0 := Finset.sum_nonneg fun x _ => mul_nonneg (mul_pos (pE _ _) (mul_pos (pH _ _) (pH _ _))).le (sq_nonneg _)
  have z1 : 0 ≤ N1 := Finset.sum_nonneg fun x _ => mul_nonneg (mul_pos (pE _ _) (mul_pos (pH _ _) (pH _ _))).le (sq_nonneg _)
  have z2 : 0 ≤ N2 := Finset.sum_nonneg fun x _ => mul_nonneg (mul_pos (pE _ _) (mul_pos (pH _ _) (pH _ _))).le (sq_nonneg _)
  have q0 : 0 ≤ 4 / m 0 ^ 2 * N0 := mul_nonneg (by have := hm 0; positivity) z0
  have q1 : 0 ≤ 4 / m 1 ^ 2 * N1 := mul_nonneg (by have := hm 1; positivity) z1
  have q2 : 0 ≤ 4 / m 2 ^ 2 * N2 := mul_nonneg (by have := hm 2; positivity) z2
  have e1 : 8 * (1 / m 0 ^ 2 + 1 / m 1 ^ 2 + 1 / m 2 ^ 2) * (N0 + N1 + N2)
      = 2 * ((4 / m 0 ^ 2 * N0 + 4 / m 0 ^ 2 * N1 + 4 / m 0 ^ 2 * N2) + (4 / m 1 ^ 2 * N0 + 4 / m 1 ^ 2 * N1 + 4 / m 1 ^ 2 * N2)
        + (4 / m 2 ^ 2 * N0 + 4 / m 2 ^ 2 * N1 + 4 / m 2 ^ 2 * N2)) := by ring
  rw [e1]
  linarith

theorem norm_absBack (dE dH : DxList sh ℝ) (m : Fin 3 → ℝ) (hm : ∀ a, 0 < m a) (hE : ∀ a i, m a ≤ dE a i)
    (hH : ∀ a i, m a ≤ dH a i) (e : VField sh ℝ) :
    ∑ x, ∑ c, volE dE dH c x * absBack (some dH) e c x ^ 2
      ≤ 8 * (∑ a, 1 / m a ^ 2) * ∑ x, ∑ c, volH dE dH c x * e c x ^ 2 := by
  have n01 : (0 : Fin 3) ≠ 1 := by decide
  have n02 : (0 : Fin 3) ≠ 2 := by decide
  have n12 : (1 : Fin 3) ≠ 2 := by decide
  have pE : ∀ a i, 0 < dE a i := fun a i => lt_of_lt_of_le (hm a) (hE a i)
  have pH : ∀ a i, 0 < dH a i := fun a i => lt_of_lt_of_le (hm a) (hH a i)
  have f10 := norm_derivBack 1 dE dH (m 1) (hm 1) (hE 1) (hH 1) (fun x => dH 0 (x 0) * dE 2 (x 2)) (e 0)
    (fun x => (mul_pos (pH _ _) (pE _ _)).le) (fun x => by simp only [shiftIdx_of_ne n01, shiftIdx_of_ne n12.symm])
  have f20 := norm_derivBack 2 dE dH (m 2) (hm 2) (hE 2) (hH 2) (fun x => dH 0 (x 0) * dE 1 (x 1)) (e 0)
    (fun x => (mul_pos (pH _ _) (pE _ _)).le) (fun x => by simp only [shiftIdx_of_ne n02, shiftIdx_of_ne n12])
  have f01 := norm_derivBack 0 dE dH (m 0) (hm 0) (hE 0) (hH 0) (fun x => dH 1 (x 1) * dE 2 (x 2)) (e 1)
    (fun x => (mul_pos (pH _ _) (pE _ _)).le) (fun x => by simp only [shiftIdx_of_ne n01.symm, shiftIdx_of_ne n02.symm])
  have f21 := norm_derivBack 2 dE dH (m 2) (hm 2) (hE 2) (hH 2) (fun x => dH 1 (x 1) * dE 0 (x 0)) (e 1)
    (fun x => (mul_pos (pH _ _) (pE _ _)).le) (fun x => by simp only [shiftIdx_of_ne n02, shiftIdx_of_ne n12])
  have f02 := norm_derivBack 0 dE dH (m 0) (hm 0) (hE 0) (hH 0) (fun x => dH 2 (x 2) * dE 1 (x 1)) (e 2)
    (fun x => (mul_pos (pH _ _) (pE _ _)).le) (fun x => by simp only [shiftIdx_of_ne n01.symm, shiftIdx_of_ne n02.symm])
  have f12 := norm_derivBack 1 dE dH (m 1) (hm 1) (hE 1) (hH 1) (fun x => dH 2 (x 2) * dE 0 (x 0)) (e 2)
    (fun x => (mul_pos (pH _ _) (pE _ _)).le) (fun x => by simp only [shiftIdx_of_ne n01, shiftIdx_of_ne n12.symm])
  set F := fun (a c : Fin 3) (x : Idx sh) => derivBack (some dH) a (e c) x with hF
  have lhs : ∑ x, ∑ c, volE dE dH c x * absBack (some dH) e c x ^ 2
      ≤ 2 * (∑ x, dH 1 (x 1) * (dH 2 (x 2) * dE 0 (x 0)) * F 1 2 x ^ 2
        + ∑ x, dH 2 (x 2) * (dH 1 (x 1) * dE 0 (x 0)) * F 2 1 x ^ 2
        + ∑ x, dH 2 (x 2) * (dH 0 (x 0) * dE 1 (x 1)) * F 2 0 x ^ 2
        + ∑ x, dH 0 (x 0) * (dH 2 (x 2) * dE 1 (x 1)) * F 0 2 x ^ 2
        + ∑ x, dH 0 (x 0) * (dH 1 (x 1) * dE 2 (x 2)) * F 0 1 x ^ 2
        + ∑ x, dH 1 (x 1) * (dH 0 (x 0) * dE 2 (x 2)) * F 1 0 x ^ 2) := by
    simp only [← Finset.sum_add_distrib, Finset.mul_sum]
    refine Finset.sum_le_sum fun x _ => ?_
    simp only [Fin.sum_univ_three, volE_0, volE_1, volE_2, hF]
    have s0 := mul_le_mul_of_nonneg_left (abs_sum_sq (F 1 2 x) (F 2 1 x)) (mul_pos (mul_pos (pE 0 (x 0)) (pH 1 (x 1))) (pH 2 (x 2))).le
    have s1 := mul_le_mul_of_nonneg_left (abs_sum_sq (F 2 0 x) (F 0 2 x)) (mul_pos (mul_pos (pH 0 (x 0)) (pE 1 (x 1))) (pH 2 (x 2))).le
    have s2 := mul_le_mul_of_nonneg_left (abs_sum_sq (F 0 1 x) (F 1 0 x)) (mul_pos (mul_pos (pH 0 (x 0)) (pH 1 (x 1))) (pE 2 (x 2))).le
    simp only [hF] at s0 s1 s2
    show _ * (|derivBack (some dH) 1 (e 2) x| + |derivBack (some dH) 2 (e 1) x|) ^ 2
      + _ * (|derivBack (some dH) 2 (e 0) x| + |derivBack (some dH) 0 (e 2) x|) ^ 2
      + _ * (|derivBack (some dH) 0 (e 1) x| + |derivBack (some dH) 1 (e 0) x|) ^ 2 ≤ _
    linarith
  have rhs : ∑ x, ∑ c, volH dE dH c x * e c x ^ 2
      = ∑ x, dH 0 (x 0) * (dE 1 (x 1) * dE 2 (x 2)) * e 0 x ^ 2
        + ∑ x, dH 1 (x 1) * (dE 0 (x 0) * dE 2 (x 2)) * e 1 x ^ 2
        + ∑ x, dH 2 (x 2) * (dE 0 (x 0) * dE 1 (x 1)) * e 2 x ^ 2 := by
    simp only [← Finset.sum_add_distrib]
    refine Finset.sum_congr rfl fun x _ => ?_
    simp only [Fin.sum_univ_three, volH_0, volH_1, volH_2]
    ring
  have r10 : ∑ x, dE 1 (x 1) * (dH 0 (x 0) * dE 2 (x 2)) * e 0 x ^ 2
      = ∑ x, dH 0 (x 0) * (dE 1 (x 1) * dE 2 (x 2)) * e 0 x ^ 2 := Finset.sum_congr rfl fun x _ => by ring
  have r20 : ∑ x, dE 2 (x 2) * (dH 0 (x 0) * dE 1 (x 1)) * e 0 x ^ 2
      = ∑ x, dH 0 (x 0) * (dE 1 (x 1) * dE 2 (x 2)) * e 0 x ^ 2 := Finset.sum_congr rfl fun x _ => by ring
  have r01 : ∑ x, dE 0 (x 0) * (dH 1 (x 1) * dE 2 (x 2)) * e 1 x ^ 2
      = ∑ x, dH 1 (x 1) * (dE 0 (x 0) * dE 2 (x 2)) * e 1 x ^ 2 := Finset.sum_congr rfl fun x _ => by ring
  have r21 : ∑ x, dE 2 (x 2) * (dH 1 (x 1) * dE 0 (x 0)) * e 1 x ^ 2
      = ∑ x, dH 1 (x 1) * (dE 0 (x 0) * dE 2 (x 2)) * e 1 x ^ 2 := Finset.sum_congr rfl fun x _ => by ring
  have r02 : ∑ x, dE 0 (x 0) * (dH 2 (x 2) * dE 1 (x 1)) * e 2 x ^ 2
      = ∑ x, dH 2 (x 2) * (dE 0 (x 0) * dE 1 (x 1)) * e 2 x ^ 2 := Finset.sum_congr rfl fun x _ => by ring
  have r12 : ∑ x, dE 1 (x 1) * (dH 2 (x 2) * dE 0 (x 0)) * e 2 x ^ 2
      = ∑ x, dH 2 (x 2) * (dE 0 (x 0) * dE 1 (x 1)) * e 2 x ^ 2 := Finset.sum_congr rfl fun x _ => by ring
  rw [r10] at f10; rw [r20] at f20; rw [r01] at f01; rw [r21] at f21; rw [r02] at f02; rw [r12] at f12
  refine lhs.trans ?_
  rw [rhs, Fin.sum_univ_three]
  simp only [hF] at *
  set N0 := ∑ x, dH 0 (x 0) * (dE 1 (x 1) * dE 2 (x 2)) * e 0 x ^ 2
  set N1 := ∑ x, dH 1 (x 1) * (dE 0 (x 0) * dE 2 (x 2)) * e 1 x ^ 2
  set N2 := ∑ x, dH 2 (x 2) * (dE 0 (x 0) * dE 1 (x 1)) * e 2 x ^ 2
  have z0 : 0 ≤ N0 := Finset.sum_nonneg fun x _ => mul_nonneg (mul_pos (pH _ _) (mul_pos (pE _ _) (pE _ _))).le (sq_nonneg _)
  have z1 : 0 ≤ N1 := Finset.sum_nonneg fun x _ => mul_nonneg (mul_pos (pH _ _) (mul_pos (pE _ _) (pE _ _))).le (sq_nonneg _)
  have z2 : 0 ≤ N2 := Finset.sum_nonneg fun x _ => mul_nonneg (mul_pos (pH _ _) (mul_pos (pE _ _) (pE _ _))).le (sq_nonneg _)
  have q0 : 0 ≤ 4 / m 0 ^ 2 * N0 := mul_nonneg (by have := hm 0; positivity) z0
  have q1 : 0 ≤ 4 / m 1 ^ 2 * N1 := mul_nonneg (by have := hm 1; positivity) z1
  have q2 : 0 ≤ 4 / m 2 ^ 2 * N2 := mul_nonneg (by have := hm 2; positivity) z2
  have e1 : 8 * (1 / m 0 ^ 2 + 1 / m 1 ^ 2 + 1 / m 2 ^ 2) * (N0 + N1 + N2)
      = 2 * ((4 / m 0 ^ 2 * N0 + 4 / m 0 ^ 2 * N1 + 4 / m 0 ^ 2 * N2) + (4 / m 1 ^ 2 * N0 + 4 / m 1 ^ 2 * N1 + 4 / m 1 ^ 2 * N2)
        + (4 / m 2 ^ 2 * N0 + 4 / m 2 ^ 2 * N1 + 4 / m 2 ^ 2 * N2)) := by ring
  rw [e1]
  linarith

theorem absForward_ones (dxes : Option (Dxes sh ℝ)) (e : VField sh ℝ) : absForward (dxes.map (·.1)) e = absForward (some (dxesOrOnes dxes).1) e := by
  funext c x
  revert c
  refine forall_fin3 ?_ ?_ ?_ <;> simp [absForward, derivForward_eq, wOf_some, (wOf_dxesOrOnes dxes _ _).1]

theorem absBack_ones (dxes : Option (Dxes sh ℝ)) (e : VField sh ℝ) : absBack (dxes.map (·.2)) e = absBack (some (dxesOrOnes dxes).2) e := by
  funext c x
  revert c
  refine forall_fin3 ?_ ?_ ?_ <;> simp [absBack, derivBack_eq, wOf_some, (wOf_dxesOrOnes dxes _ _).2]

/-- Below the time-step bound the terms of an update are at most three times as large as the field they are computed from. -/
theorem size_le {S : Sys sh ℝ} {m : Fin 3 → ℝ} {εm μm : ℝ} (hC : Courant S m εm μm) (f : VField sh ℝ) :
    wn (wE S) (sizeE S f) ≤ 3 * wn (wH S) f ∧ wn (wH S) (sizeH S f) ≤ 3 * wn (wE S) f := by
  obtain ⟨-, -, -, -, q0, q1⟩ := hC.facts
  have hdE : ∀ a i, m a ≤ (dxesOrOnes S.dxes).1 a i := fun a i => by rw [(wOf_dxesOrOnes S.dxes a i).1]; exact hC.dxE a i
  have hdH : ∀ a i, m a ≤ (dxesOrOnes S.dxes).2 a i := fun a i => by rw [(wOf_dxesOrOnes S.dxes a i).2]; exact hC.dxH a i
  have pE : ∀ a i, 0 < (dxesOrOnes S.dxes).1 a i := fun a i => lt_of_lt_of_le (hC.m_pos a) (hdE a i)
  have pH : ∀ a i, 0 < (dxesOrOnes S.dxes).2 a i := fun a i => lt_of_lt_of_le (hC.m_pos a) (hdH a i)
  have vE : ∀ c x, 0 < volE (dxesOrOnes S.dxes).1 (dxesOrOnes S.dxes).2 c x := fun c x => Finset.prod_pos fun a _ => by split_ifs; exacts [pE _ _, pH _ _]
  have vH : ∀ c x, 0 < volH (dxesOrOnes S.dxes).1 (dxesOrOnes S.dxes).2 c x := fun c x => Finset.prod_pos fun a _ => by split_ifs; exacts [pH _ _, pE _ _]
  have hε := hC.eps_pos
  have hμ := hC.mu_pos
  have peps : ∀ c x, 0 < S.eps c x := fun c x => lt_of_lt_of_le hε (hC.eps c x)
  have pmu : ∀ c x, 0 < (S.mu.getD fun _ _ => 1) c x := fun c x => lt_of_lt_of_le hμ (hC.mu c x)
  have hκ : 0 ≤ ∑ a, 1 / m a ^ 2 := Finset.sum_nonneg fun a _ => by have := hC.m_pos a; positivity
  have hq : 8 * courantRatio S m εm μm ≤ 3 ^ 2 := by linarith
  have fin : ∀ X Y : ℝ, X ≤ 8 * courantRatio S m εm μm * Y → 0 ≤ Y → √X ≤ 3 * √Y := by
    intro X Y h hY
    have : X ≤ 3 ^ 2 * Y := h.trans (mul_le_mul_of_nonneg_right hq hY)
    calc √X ≤ √(3 ^ 2 * Y) := Real.sqrt_le_sqrt this
      _ = 3 * √Y := by rw [Real.sqrt_mul (by norm_num), Real.sqrt_sq (by norm_num)]
  have bound : ∀ (k w : VField sh ℝ) (v vol : VField sh ℝ) (lo : ℝ), 0 < lo → (∀ c x, lo ≤ w c x) → (∀ c x, 0 < v c x) → (∀ c x, vol c x = v c x * w c x) →
      ∑ x, ∑ c, vol c x * (|S.dt| * k c x / |w c x|) ^ 2 ≤ S.dt ^ 2 / lo * ∑ x, ∑ c, v c x * k c x ^ 2 := by
    intro k w v vol lo hlo hw hv hvol
    simp only [Finset.mul_sum]
    refine Finset.sum_le_sum fun x _ => Finset.sum_le_sum fun c _ => ?_
    have hp : 0 < w c x := lt_of_lt_of_le hlo (hw c x)
    have e1 : vol c x * (|S.dt| * k c x / |w c x|) ^ 2 = S.dt ^ 2 * (v c x * k c x ^ 2) / w c x := by
      rw [hvol, div_pow, mul_pow, sq_abs, sq_abs]; field_simp
    rw [e1, div_mul_eq_mul_div]
    exact div_le_div_of_nonneg_left (mul_nonneg (sq_nonneg _) (mul_nonneg (hv c x).le (sq_nonneg _))) hlo (hw c x)
  have low : ∀ (w v vol : VField sh ℝ) (lo : ℝ), 0 < lo → (∀ c x, lo ≤ w c x) → (∀ c x, 0 < v c x) → (∀ c x, vol c x = v c x * w c x) →
      ∑ x, ∑ c, v c x * f c x ^ 2 ≤ (∑ x, ∑ c, vol c x * f c x ^ 2) / lo := by
    intro w v vol lo hlo hw hv hvol
    rw [le_div_iff₀ hlo, Finset.sum_mul]
    refine Finset.sum_le_sum fun x _ => ?_
    rw [Finset.sum_mul]
    refine Finset.sum_le_sum fun c _ => ?_
    rw [hvol]
    have := mul_le_mul_of_nonneg_left (hw c x) (mul_nonneg (hv c x).le (sq_nonneg (f c x)))
    calc _ ≤ v c x * f c x ^ 2 * w c x := this
      _ = _ := by ring
  constructor
  · refine fin _ _ ?_ (Finset.sum_nonneg fun x _ => Finset.sum_nonneg fun c _ => mul_nonneg (mul_pos (vH c x) (pmu c x)).le (sq_nonneg _))
    have b1 := bound (absBack (S.dxes.map (·.2)) f) S.eps _ (wE S) εm hε hC.eps vE fun c x => rfl
    have b2 := norm_absBack _ _ m hC.m_pos hdE hdH f
    have b3 := low (S.mu.getD fun _ _ => 1) _ (wH S) μm hμ hC.mu vH fun c x => rfl
    rw [absBack_ones] at b1
    refine (le_of_eq (by simp only [sizeE, absBack_ones])).trans (b1.trans ?_)
    calc _ ≤ S.dt ^ 2 / εm * (8 * (∑ a, 1 / m a ^ 2) * ((∑ x, ∑ c, wH S c x * f c x ^ 2) / μm)) :=
          mul_le_mul_of_nonneg_left (b2.trans (mul_le_mul_of_nonneg_left b3 (by positivity))) (by positivity)
      _ = _ := by rw [courantRatio]; field_simp
  · refine fin _ _ ?_ (Finset.sum_nonneg fun x _ => Finset.sum_nonneg fun c _ => mul_nonneg (mul_pos (vE c x) (peps c x)).le (sq_nonneg _))
    have b1 := bound (absForward (S.dxes.map (·.1)) f) (S.mu.getD fun _ _ => 1) _ (wH S) μm hμ hC.mu vH fun c x => rfl
    have b2 := norm_absForward _ _ m hC.m_pos hdE hdH f
    have b3 := low S.eps _ (wE S) εm hε hC.eps vE fun c x => rfl
    rw [absForward_ones] at b1
    refine (le_of_eq (by simp only [sizeH, absForward_ones])).trans (b1.trans ?_)
    calc _ ≤ S.dt ^ 2 / μm * (8 * (∑ a, 1 / m a ^ 2) * ((∑ x, ∑ c, wE S c x * f c x ^ 2) / εm)) :=
          mul_le_mul_of_nonneg_left (b2.trans (mul_le_mul_of_nonneg_left b3 (by positivity))) (by positivity)
      _ = _ := by rw [courantRatio]; field_simp

theorem exactE_le (S : Sys sh ℝ) (s : State sh ℝ) (j : VField sh ℝ) (c : Fin 3) (x : Idx sh) :
    |(run S s [.stepE, .injJ j]).e c x| ≤ |s.e c x| + sizeE S s.h c x + |j c x / S.eps c x| := by
  have e1 : (run S s [.stepE, .injJ j]).e c x = s.e c x + S.dt * curlBack (S.dxes.map (·.2)) s.h c x / S.eps c x + j c x / S.eps c x := by
    simp only [run, List.foldl, step, maxwellE_eq]
  have b : |curlBack (S.dxes.map (·.2)) s.h c x| ≤ absBack (S.dxes.map (·.2)) s.h c x := by
    revert c
    refine forall_fin3 ?_ ?_ ?_ <;> intros <;> simp only [curlBack_0, curlBack_1, curlBack_2, absBack] <;> exact abs_sub _ _
  rw [e1]
  refine (abs_add_le _ _).trans (add_le_add_left ((abs_add_le _ _).trans (add_le_add_right ?_ _)) _)
  rw [abs_div, abs_mul]
  exact div_le_div_of_nonneg_right (mul_le_mul_of_nonneg_left b (abs_nonneg _)) (abs_nonneg _)

/-- The calls of one time step: `update_E`, `e += j / epsilon`, `update_H`, `h -= k / mu`. -/
def block (j k : VField sh ℝ) : List (Op sh ℝ) := [.stepE, .injJ j, .stepH, .injM k]

/-- What the sources of a time step add to the fields. -/
noncomputable def kick (S : Sys sh ℝ) (j k : VField sh ℝ) : State sh ℝ := ⟨fun c x => j c x / S.eps c x, fun c x => k c x / (S.mu.getD fun _ _ => 1) c x⟩

theorem block_e (S : Sys sh ℝ) (s : State sh ℝ) (j k : VField sh ℝ) : (run S s (block j k)).e = (run S s [.stepE, .injJ j]).e := by
  rcases S with ⟨dt, dxes, eps, _ | mu⟩ <;> rfl

theorem block_h (S : Sys sh ℝ) (s : State sh ℝ) (j k : VField sh ℝ) :
    (run S s (block j k)).h = (run S ⟨(run S s (block j k)).e, s.h⟩ [.stepH, .injM k]).h := by
  rcases S with ⟨dt, dxes, eps, _ | mu⟩ <;> rfl

theorem injM_h (S : Sys sh ℝ) (s : State sh ℝ) (k : VField sh ℝ) (c : Fin 3) (x : Idx sh) :
    (run S s [.stepH, .injM k]).h c x = (run S s [.stepH]).h c x - k c x / (S.mu.getD fun _ _ => 1) c x := by
  rcases S with ⟨dt, dxes, eps, _ | mu⟩ <;> simp [run, step_injM_h, muOr]

/-- The rounding error of one time step, in the energy norm. -/
theorem block_error {u : ℝ} (hu : 0 ≤ u) (hu1 : u ≤ 1 / 100) {S : Sys sh ℝ} {m : Fin 3 → ℝ} {εm μm : ℝ} (hC : Courant S m εm μm) {s s' : State sh ℝ}
    {j k : VField sh ℝ} (h : FdtdFloat.Run u S s (block j k) s') {N : ℝ} (hNE : wn (wE S) s.e ≤ N) (hNH : wn (wH S) s.h ≤ N) :
    √(wNormSq S ⟨fun c x => s'.e c x - (run S s [.stepE, .injJ j]).e c x, fun c x => s'.h c x - (run S ⟨s'.e, s.h⟩ [.stepH, .injM k]).h c x⟩)
      ≤ 144 * u * (N + √(wNormSq S (kick S j k))) := by
  obtain ⟨gE, gH, -⟩ := hC.facts
  replace gE : ∀ c x, 0 ≤ wE S c x := gE
  replace gH : ∀ c x, 0 ≤ wH S c x := gH
  obtain ⟨s1, h1, s2, h2, s3, h3, t4, h4, h5⟩ := h
  obtain rfl : s' = t4 := h5
  have e3 : s3.e = s2.e := h3.2
  have e4 : s'.e = s3.e := h4.2
  have k1 : s1.h = s.h := h1.2
  have k2 : s2.h = s1.h := h2.2
  have hs2 : s2 = ⟨s'.e, s.h⟩ := by rw [e4, e3, ← k1, ← k2]
  have nE := near_E hu S h1 h2
  have nH := near_H hu S h3 h4
  rw [hs2] at nH
  rw [← e3, ← e4] at nE
  have g7 := gam_seven hu hu1
  have g0 : 0 ≤ gam u 7 := gam_nonneg hu 7
  have triE : ∀ a b c' : VField sh ℝ, wn (wE S) (fun c x => |a c x| + b c x + |c' c x|) ≤ wn (wE S) a + wn (wE S) b + wn (wE S) c' := by
    intro a b c'
    refine (wn_add gE (fun c x => |a c x| + b c x) fun c x => |c' c x|).trans ?_
    rw [wn_abs]
    have := wn_add gE (fun c x => |a c x|) b
    rw [wn_abs] at this
    linarith
  have triH : ∀ a b c' : VField sh ℝ, wn (wH S) (fun c x => |a c x| + b c x + |c' c x|) ≤ wn (wH S) a + wn (wH S) b + wn (wH S) c' := by
    intro a b c'
    refine (wn_add gH (fun c x => |a c x| + b c x) fun c x => |c' c x|).trans ?_
    rw [wn_abs]
    have := wn_add gH (fun c x => |a c x|) b
    rw [wn_abs] at this
    linarith
  obtain ⟨-, pE, pH⟩ := norm_parts (S := S) gE gH (kick S j k)
  obtain ⟨tot, -, -⟩ := norm_parts (S := S) gE gH ⟨fun c x => s'.e c x - (run S s [.stepE, .injJ j]).e c x, fun c x => s'.h c x - (run S ⟨s'.e, s.h⟩ [.stepH, .injM k]).h c x⟩
  set P := √(wNormSq S (kick S j k))
  have P0 : 0 ≤ P := Real.sqrt_nonneg _
  have N0 : 0 ≤ N := (wn_nonneg _ _).trans hNE
  -- the E half step
  set T : VField sh ℝ := fun c x => |s.e c x| + sizeE S s.h c x + |(kick S j k).e c x| with hT
  have T1 : wn (wE S) T ≤ 4 * N + P := by
    have := triE s.e (sizeE S s.h) (kick S j k).e
    have := (size_le hC s.h).1
    linarith
  have r1 : wn (wE S) (fun c x => s'.e c x - (run S s [.stepE, .injJ j]).e c x) ≤ 8 * u * (4 * N + P) := by
    refine (wn_mono gE nE).trans ?_
    rw [wn_smul _ _ g0]
    exact mul_le_mul g7 T1 (wn_nonneg _ _) (by positivity)
  have T2 : wn (wE S) s'.e ≤ 108 / 100 * (4 * N + P) := by
    have hx : wn (wE S) (run S s [.stepE, .injJ j]).e ≤ wn (wE S) T := by
      refine wn_mono gE fun c x => ?_
      exact exactE_le S s j c x
    have := wn_add gE (fun c x => s'.e c x - (run S s [.stepE, .injJ j]).e c x) (run S s [.stepE, .injJ j]).e
    simp only [sub_add_cancel] at this
    have : 8 * u * (4 * N + P) ≤ 8 / 100 * (4 * N + P) := mul_le_mul_of_nonneg_right (by linarith) (by linarith)
    change wn (wE S) s'.e ≤ _ at *
    linarith
  have r2 : wn (wH S) (fun c x => s'.h c x - (run S ⟨s'.e, s.h⟩ [.stepH, .injM k]).h c x) ≤ 8 * u * (N + 3 * (108 / 100 * (4 * N + P)) + P) := by
    refine (wn_mono gH nH).trans ?_
    rw [wn_smul _ _ g0]
    refine mul_le_mul g7 ?_ (wn_nonneg _ _) (by positivity)
    have t1 := triH s.h (sizeH S s'.e) (kick S j k).h
    have := (size_le hC s'.e).2
    exact t1.trans (by linarith)
  refine tot.trans ((add_le_add r1 r2).trans ?_)
  have a1 : 0 ≤ u * N := mul_nonneg hu N0
  have a2 : 0 ≤ u * P := mul_nonneg hu P0
  nlinarith

/-- The difference of two states. -/
def diff (s t : State sh ℝ) : State sh ℝ := ⟨fun c x => s.e c x - t.e c x, fun c x => s.h c x - t.h c x⟩

end Rounding

open Rounding

variable {sh : Fin 3 → ℕ}

/-- C138: an FDTD run with sources in floating-point arithmetic of unit roundoff `u` stays within `B ((1 + 144 A u)^n - 1)` of the exact run in the energy
norm, `A = √(6 / (1 - q))`, as long as the exact fields and the kicks of the sources are at most `B`. -/
theorem C138_rounded_run {u : ℝ} (hu : 0 ≤ u) (hu1 : u ≤ 1 / 100) {S : Sys sh ℝ} {m : Fin 3 → ℝ} {εm μm : ℝ} (hC : Courant S m εm μm)
    (J K : ℕ → VField sh ℝ) (f x : ℕ → State sh ℝ) (h0 : f 0 = x 0)
    (hf : ∀ n, FdtdFloat.Run u S (f n) (block (J n) (K n)) (f (n + 1))) (hx : ∀ n, x (n + 1) = run S (x n) (block (J n) (K n)))
    (n : ℕ) (B : ℝ) (hB : ∀ k < n, √(wNormSq S (x k)) + √(wNormSq S (kick S (J k) (K k))) ≤ B) :
    √(wNormSq S (diff (f n) (x n))) ≤ B * ((1 + 144 * √(6 / (1 - courantRatio S m εm μm)) * u) ^ n - 1) := by
  obtain ⟨gE, gH, -⟩ := hC.facts
  replace gE : ∀ c x, 0 ≤ wE S c x := gE
  replace gH : ∀ c x, 0 ≤ wH S c x := gH
  set A := √(6 / (1 - courantRatio S m εm μm)) with hA
  have A0 : 0 ≤ A := Real.sqrt_nonneg _
  set ρ : ℕ → State sh ℝ := fun n => ⟨fun c p => (f (n + 1)).e c p - (run S (f n) [.stepE, .injJ (J n)]).e c p,
    fun c p => (f (n + 1)).h c p - (run S ⟨(f (n + 1)).e, (f n).h⟩ [.stepH, .injM (K n)]).h c p⟩ with hρ
  have key : ∀ n, √(wNormSq S (diff (f n) (x n))) ≤ A * (√(wNormSq S (diff (f 0) (x 0))) + ∑ k ∈ Finset.range n, √(wNormSq S (ρ k))) := by
    refine C105_perturbed_run hC (fun n => diff (f n) (x n)) ρ (fun n c p => ?_) (fun n c p => ?_)
    · simp only [diff, hρ]
      rw [hx n, block_e]
      simp only [run, List.foldl, step, maxwellE_eq]
      rw [show (fun c p => (f n).h c p - (x n).h c p) = fun c p => (f n).h c p + (-1) * (x n).h c p by funext c p; ring,
        curlBack_add _ (f n).h (fun c p => (-1) * (x n).h c p), curlBack_smul]
      ring
    · have hx' : (x (n + 1)).h c p = (run S ⟨(x (n + 1)).e, (x n).h⟩ [.stepH, .injM (K n)]).h c p := by rw [hx n, ← block_h]
      simp only [diff, hρ]
      rw [hx', injM_h, injM_h]
      simp only [run, List.foldl, step, maxwellH_eq]
      rw [show (fun c p => (f (n + 1)).e c p - (x (n + 1)).e c p) = fun c p => (f (n + 1)).e c p + (-1) * (x (n + 1)).e c p by funext c p; ring,
        curlForward_add _ (f (n + 1)).e (fun c p => (-1) * (x (n + 1)).e c p), curlForward_smul]
      ring
  have z0 : √(wNormSq S (diff (f 0) (x 0))) = 0 := by
    rw [h0]
    simp [wNormSq, diff]
  simp only [z0, zero_add] at key
  set c := 144 * A * u with hc
  have c0 : 0 ≤ c := by positivity
  have ind : ∀ k ≤ n, √(wNormSq S (diff (f k) (x k))) ≤ B * ((1 + c) ^ k - 1) := by
    intro k
    induction k using Nat.strong_induction_on with
    | _ k ih =>
      intro hk
      refine (key k).trans ?_
      have b : ∀ i ∈ Finset.range k, √(wNormSq S (ρ i)) ≤ 144 * u * (B * (1 + c) ^ i) := by
        intro i hi
        have hik := Finset.mem_range.mp hi
        have hi' := ih i hik (by omega)
        have hBi := hB i (by omega)
        obtain ⟨-, d1, d2⟩ := norm_parts (S := S) gE gH (diff (f i) (x i))
        obtain ⟨-, x1, x2⟩ := norm_parts (S := S) gE gH (x i)
        have f1 := wn_add gE (diff (f i) (x i)).e (x i).e
        have f2 := wn_add gH (diff (f i) (x i)).h (x i).h
        simp only [diff, sub_add_cancel] at f1 f2 d1 d2
        change wn (wE S) (f i).e ≤ _ at f1
        change wn (wH S) (f i).h ≤ _ at f2
        have := block_error hu hu1 hC (hf i) (N := √(wNormSq S (diff (f i) (x i))) + √(wNormSq S (x i))) (by simp only [diff]; linarith) (by simp only [diff]; linarith)
        refine this.trans (mul_le_mul_of_nonneg_left ?_ (by positivity))
        linarith
      have := mul_le_mul_of_nonneg_left (Finset.sum_le_sum b) A0
      refine this.trans (le_of_eq ?_)
      rw [← Finset.mul_sum, ← Finset.mul_sum]
      have gs : c * ∑ i ∈ Finset.range k, (1 + c) ^ i = (1 + c) ^ k - 1 := by
        have := mul_geom_sum (1 + c) k
        rwa [add_sub_cancel_left] at this
      rw [← gs, hc]
      ring
  exact ind n le_rfl

/-- C138: in terms of the starting fields and the sources alone, while `144 A n u ≤ 1`: the rounding error grows at most in proportion to the number of
steps. -/
theorem C138_linear_growth {u : ℝ} (hu : 0 ≤ u) (hu1 : u ≤ 1 / 100) {S : Sys sh ℝ} {m : Fin 3 → ℝ} {εm μm : ℝ} (hC : Courant S m εm μm)
    (J K : ℕ → VField sh ℝ) (f x : ℕ → State sh ℝ) (h0 : f 0 = x 0)
    (hf : ∀ n, FdtdFloat.Run u S (f n) (block (J n) (K n)) (f (n + 1))) (hx : ∀ n, x (n + 1) = run S (x n) (block (J n) (K n)))
    (n : ℕ) (hn : 144 * √(6 / (1 - courantRatio S m εm μm)) * u * n ≤ 1) :
    √(wNormSq S (diff (f n) (x n))) ≤ 3456 / (1 - courantRatio S m εm μm) * (n * u)
      * (√(wNormSq S (x 0)) + ∑ k ∈ Finset.range n, √(wNormSq S (kick S (J k) (K k)))) := by
  obtain ⟨-, -, -, -, q0, q1⟩ := hC.facts
  have q2 : 0 < 1 - courantRatio S m εm μm := by linarith
  set A := √(6 / (1 - courantRatio S m εm μm)) with hA
  have A2 : A * A = 6 / (1 - courantRatio S m εm μm) := Real.mul_self_sqrt (by positivity)
  have A1 : 1 ≤ A := by
    rw [hA, Real.one_le_sqrt, le_div_iff₀ q2]; linarith
  have stab : ∀ k, √(wNormSq S (x k)) ≤ A * (√(wNormSq S (x 0)) + ∑ i ∈ Finset.range k, √(wNormSq S (kick S (J i) (K i)))) := by
    intro k
    have := C105_perturbed_run hC x (fun n => ⟨(kick S (J n) (K n)).e, fun c p => -(kick S (J n) (K n)).h c p⟩) (fun n c p => ?_) (fun n c p => ?_) k
    · refine this.trans (le_of_eq ?_)
      simp only [wNormSq, neg_sq, hA]
    · rw [hx n, block_e]; rfl
    · have hx' : (x (n + 1)).h c p = (run S ⟨(x (n + 1)).e, (x n).h⟩ [.stepH, .injM (K n)]).h c p := by rw [hx n, ← block_h]
      rw [hx', injM_h]
      simp only [kick]
      ring
  set T' := √(wNormSq S (x 0)) + ∑ k ∈ Finset.range n, √(wNormSq S (kick S (J k) (K k))) with hS
  have S0 : 0 ≤ T' := add_nonneg (Real.sqrt_nonneg _) (Finset.sum_nonneg fun _ _ => Real.sqrt_nonneg _)
  have hB : ∀ k < n, √(wNormSq S (x k)) + √(wNormSq S (kick S (J k) (K k))) ≤ A * T' + A * T' := by
    intro k hk
    have m1 : √(wNormSq S (x 0)) + ∑ i ∈ Finset.range k, √(wNormSq S (kick S (J i) (K i))) ≤ T' :=
      add_le_add_right (Finset.sum_le_sum_of_subset_of_nonneg (Finset.range_mono hk.le) fun _ _ _ => Real.sqrt_nonneg _) _
    have m2 : √(wNormSq S (kick S (J k) (K k))) ≤ T' :=
      (Finset.single_le_sum (f := fun i => √(wNormSq S (kick S (J i) (K i)))) (fun _ _ => Real.sqrt_nonneg _) (Finset.mem_range.mpr hk)).trans
        (le_add_of_nonneg_left (Real.sqrt_nonneg _))
    exact add_le_add ((stab k).trans (mul_le_mul_of_nonneg_left m1 (by linarith))) (m2.trans (le_mul_of_one_le_left S0 A1))
  have main := C138_rounded_run hu hu1 hC J K f x h0 hf hx n _ hB
  rw [← hA] at main
  refine main.trans ?_
  set c := 144 * A * u with hc
  have c0 : 0 ≤ c := by positivity
  have y0 : 0 ≤ c * n := by positivity
  have p1 : (1 + c) ^ n ≤ Real.exp (c * n) := by
    calc (1 + c) ^ n ≤ Real.exp c ^ n := pow_le_pow_left₀ (by linarith) (by linarith [Real.add_one_le_exp c]) n
      _ = Real.exp (c * n) := by rw [← Real.exp_nat_mul, mul_comm]
  have p2 : Real.exp (c * n) - 1 ≤ 2 * (c * n) := by
    have := (abs_le.mp (Real.abs_exp_sub_one_sub_id_le (by rw [abs_of_nonneg y0]; exact hn : |c * n| ≤ 1))).2
    nlinarith
  have : (A * T' + A * T') * ((1 + c) ^ n - 1) ≤ (A * T' + A * T') * (2 * (c * n)) :=
    mul_le_mul_of_nonneg_left (by linarith) (by positivity)
  refine this.trans (le_of_eq ?_)
  rw [hc, show (A * T' + A * T') * (2 * (144 * A * u * n)) = 576 * (A * A) * (n * u) * T' by ring, A2]
  ring

/-! ### Arithmetic that meets the hypotheses -/

/-- C138: without rounding, the model of floating-point runs is the exact model. -/
theorem C138_exact (S : Sys sh ℝ) (s s' : State sh ℝ) (ops : List (Op sh ℝ)) : FdtdFloat.Run 0 S s ops s' ↔ s' = run S s ops := by
  have dF : ∀ (dx : Option (DxList sh ℝ)) (a : Fin 3) (f out : Arr sh ℝ), FdtdFloat.DerivForward 0 dx a f out ↔ out = derivForward dx a f := by
    intro dx a f out
    rcases dx with _ | dx
    · simp only [FdtdFloat.DerivForward, fl_zero, derivForward, funext_iff]
    · simp only [FdtdFloat.DerivForward, fl_zero, derivForward]
      constructor
      · rintro ⟨t, ht, ho⟩; funext x; rw [ho, ht]
      · rintro rfl; exact ⟨_, fun x => rfl, fun x => rfl⟩
  have dB : ∀ (dx : Option (DxList sh ℝ)) (a : Fin 3) (f out : Arr sh ℝ), FdtdFloat.DerivBack 0 dx a f out ↔ out = derivBack dx a f := by
    intro dx a f out
    rcases dx with _ | dx
    · simp only [FdtdFloat.DerivBack, fl_zero, derivBack, funext_iff]
    · simp only [FdtdFloat.DerivBack, fl_zero, derivBack]
      constructor
      · rintro ⟨t, ht, ho⟩; funext x; rw [ho, ht]
      · rintro rfl; exact ⟨_, fun x => rfl, fun x => rfl⟩
  have cF : ∀ (dx : Option (DxList sh ℝ)) (e out : VField sh ℝ), FdtdFloat.CurlForward 0 dx e out ↔ out = curlForward dx e := by
    intro dx e out
    simp only [FdtdFloat.CurlForward, dF, fl_zero]
    constructor
    · rintro ⟨p, m, p0, p1, p2, m0, m1, m2, ho⟩
      funext c x
      rw [ho c x]
      revert c
      refine forall_fin3 ?_ ?_ ?_
      · rw [p0, m0]; rfl
      · rw [p1, m1]; rfl
      · rw [p2, m2]; rfl
    · rintro rfl
      refine ⟨![derivForward dx 1 (e 2), derivForward dx 2 (e 0), derivForward dx 0 (e 1)],
        ![derivForward dx 2 (e 1), derivForward dx 0 (e 2), derivForward dx 1 (e 0)], rfl, rfl, rfl, rfl, rfl, rfl, ?_⟩
      exact forall_fin3 (fun x => rfl) (fun x => rfl) fun x => rfl
  have cB : ∀ (dx : Option (DxList sh ℝ)) (e out : VField sh ℝ), FdtdFloat.CurlBack 0 dx e out ↔ out = curlBack dx e := by
    intro dx e out
    simp only [FdtdFloat.CurlBack, dB, fl_zero]
    constructor
    · rintro ⟨p, m, p0, p1, p2, m0, m1, m2, ho⟩
      funext c x
      rw [ho c x]
      revert c
      refine forall_fin3 ?_ ?_ ?_
      · rw [p0, m0]; rfl
      · rw [p1, m1]; rfl
      · rw [p2, m2]; rfl
    · rintro rfl
      refine ⟨![derivBack dx 1 (e 2), derivBack dx 2 (e 0), derivBack dx 0 (e 1)],
        ![derivBack dx 2 (e 1), derivBack dx 0 (e 2), derivBack dx 1 (e 0)], rfl, rfl, rfl, rfl, rfl, rfl, ?_⟩
      exact forall_fin3 (fun x => rfl) (fun x => rfl) fun x => rfl
  have st : ∀ (s : State sh ℝ) (op : Op sh ℝ) (s' : State sh ℝ), FdtdFloat.Step 0 S s op s' ↔ s' = step S s op := by
    intro s op s'
    rcases S with ⟨dt, dxes, eps, mu⟩
    rcases s' with ⟨e', h'⟩
    rcases op with _ | _ | j | k
    · simp only [FdtdFloat.Step, FdtdFloat.MaxwellE, cB, fl_zero, step, State.mk.injEq]
      refine and_congr_left fun _ => ?_
      constructor
      · rintro ⟨k, t, v, rfl, ht, hv, he⟩
        funext c x
        rw [he, hv, ht, maxwellE_eq]
      · rintro rfl
        exact ⟨_, _, _, rfl, fun c x => rfl, fun c x => rfl, fun c x => maxwellE_eq _ _ _ _ _ _ _⟩
    · simp only [FdtdFloat.Step, FdtdFloat.MaxwellH, cF, fl_zero, step, State.mk.injEq]
      rw [and_comm]
      refine and_congr_right fun _ => ?_
      rcases mu with _ | mu
      · constructor
        · rintro ⟨k, t, rfl, ht, hh⟩
          funext c x
          rw [hh, ht, maxwellH_eq]; simp [muOr]
        · rintro rfl
          exact ⟨_, _, rfl, fun c x => rfl, fun c x => by rw [maxwellH_eq]; simp [muOr]⟩
      · constructor
        · rintro ⟨k, t, rfl, ht, v, hv, hh⟩
          funext c x
          rw [hh, hv, ht, maxwellH_eq]; rfl
        · rintro rfl
          exact ⟨_, _, rfl, fun c x => rfl, _, fun c x => rfl, fun c x => by rw [maxwellH_eq]; rfl⟩
    · simp only [FdtdFloat.Step, fl_zero, step, State.mk.injEq]
      refine and_congr_left fun _ => ?_
      constructor
      · rintro ⟨v, hv, he⟩; funext c x; rw [he, hv]
      · rintro rfl; exact ⟨_, fun c x => rfl, fun c x => rfl⟩
    · rcases mu with _ | mu
      · simp only [FdtdFloat.Step, fl_zero, step, State.mk.injEq]
        rw [and_comm]
        refine and_congr_right fun _ => ?_
        simp only [funext_iff]
      · simp only [FdtdFloat.Step, fl_zero, step, State.mk.injEq]
        rw [and_comm]
        refine and_congr_right fun _ => ?_
        constructor
        · rintro ⟨v, hv, he⟩; funext c x; rw [he, hv]
        · rintro rfl; exact ⟨_, fun c x => rfl, fun c x => rfl⟩
  induction ops generalizing s with
  | nil => exact Iff.rfl
  | cons op ops ih =>
    simp only [FdtdFloat.Run, st, exists_eq_left, ih]
    rfl

namespace Rounding

/-- The calls with every operation followed by the rounding function `rd`. -/
noncomputable def rdDerivForward (rd : ℝ → ℝ) (dx : Option (DxList sh ℝ)) (a : Fin 3) (f : Arr sh ℝ) : Arr sh ℝ :=
  match dx with
  | some dx => fun x => rd (rd (roll f (-1) a x - f x) / dx a (x a))
  | none => fun x => rd (roll f (-1) a x - f x)

noncomputable def rdDerivBack (rd : ℝ → ℝ) (dx : Option (DxList sh ℝ)) (a : Fin 3) (f : Arr sh ℝ) : Arr sh ℝ :=
  match dx with
  | some dx => fun x => rd (rd (f x - roll f 1 a x) / dx a (x a))
  | none => fun x => rd (f x - roll f 1 a x)

noncomputable def rdCurl (rd : ℝ → ℝ) (D : Fin 3 → Arr sh ℝ → Arr sh ℝ) (e : VField sh ℝ) : VField sh ℝ :=
  ![fun x => rd (D 1 (e 2) x - D 2 (e 1) x), fun x => rd (D 2 (e 0) x - D 0 (e 2) x), fun x => rd (D 0 (e 1) x - D 1 (e 0) x)]

noncomputable def rdStep (rd : ℝ → ℝ) (S : Sys sh ℝ) (s : State sh ℝ) : Op sh ℝ → State sh ℝ
  | .stepE => ⟨fun c x => rd (s.e c x + rd (rd (S.dt * rdCurl rd (rdDerivBack rd (S.dxes.map (·.2))) s.h c x) / S.eps c x)), s.h⟩
  | .stepH => ⟨s.e, match S.mu with
      | some mu => fun c x => rd (s.h c x - rd (rd (S.dt * rdCurl rd (rdDerivForward rd (S.dxes.map (·.1))) s.e c x) / mu c x))
      | none => fun c x => rd (s.h c x - rd (S.dt * rdCurl rd (rdDerivForward rd (S.dxes.map (·.1))) s.e c x))⟩
  | .injJ j => ⟨fun c x => rd (s.e c x + rd (j c x / S.eps c x)), s.h⟩
  | .injM k => ⟨s.e, match S.mu with
      | some mu => fun c x => rd (s.h c x - rd (k c x / mu c x))
      | none => fun c x => rd (s.h c x - k c x)⟩

noncomputable def rdRun (rd : ℝ → ℝ) (S : Sys sh ℝ) (s : State sh ℝ) (ops : List (Op sh ℝ)) : State sh ℝ := ops.foldl (rdStep rd S) s

end Rounding

/-- C138: what a machine computes that rounds every result to one with relative error at most `u` is a run of the model. -/
theorem C138_rounding_function {u : ℝ} {rd : ℝ → ℝ} (hrd : ∀ x, |rd x - x| ≤ u * |x|) (S : Sys sh ℝ) (s : State sh ℝ) (ops : List (Op sh ℝ)) :
    FdtdFloat.Run u S s ops (rdRun rd S s ops) := by
  have dF : ∀ (dx : Option (DxList sh ℝ)) (a : Fin 3) (f : Arr sh ℝ), FdtdFloat.DerivForward u dx a f (rdDerivForward rd dx a f) := by
    intro dx a f
    rcases dx with _ | dx
    · exact fun x => hrd _
    · exact ⟨fun x => rd (roll f (-1) a x - f x), fun x => hrd _, fun x => hrd _⟩
  have dB : ∀ (dx : Option (DxList sh ℝ)) (a : Fin 3) (f : Arr sh ℝ), FdtdFloat.DerivBack u dx a f (rdDerivBack rd dx a f) := by
    intro dx a f
    rcases dx with _ | dx
    · exact fun x => hrd _
    · exact ⟨fun x => rd (f x - roll f 1 a x), fun x => hrd _, fun x => hrd _⟩
  have cF : ∀ (dx : Option (DxList sh ℝ)) (e : VField sh ℝ), FdtdFloat.CurlForward u dx e (rdCurl rd (rdDerivForward rd dx) e) := fun dx e =>
    ⟨![rdDerivForward rd dx 1 (e 2), rdDerivForward rd dx 2 (e 0), rdDerivForward rd dx 0 (e 1)],
      ![rdDerivForward rd dx 2 (e 1), rdDerivForward rd dx 0 (e 2), rdDerivForward rd dx 1 (e 0)], dF _ _ _, dF _ _ _, dF _ _ _, dF _ _ _, dF _ _ _,
      dF _ _ _, forall_fin3 (fun x => hrd _) (fun x => hrd _) fun x => hrd _⟩
  have cB : ∀ (dx : Option (DxList sh ℝ)) (e : VField sh ℝ), FdtdFloat.CurlBack u dx e (rdCurl rd (rdDerivBack rd dx) e) := fun dx e =>
    ⟨![rdDerivBack rd dx 1 (e 2), rdDerivBack rd dx 2 (e 0), rdDerivBack rd dx 0 (e 1)],
      ![rdDerivBack rd dx 2 (e 1), rdDerivBack rd dx 0 (e 2), rdDerivBack rd dx 1 (e 0)], dB _ _ _, dB _ _ _, dB _ _ _, dB _ _ _, dB _ _ _,
      dB _ _ _, forall_fin3 (fun x => hrd _) (fun x => hrd _) fun x => hrd _⟩
  have st : ∀ (s : State sh ℝ) (op : Op sh ℝ), FdtdFloat.Step u S s op (rdStep rd S s op) := by
    intro s op
    rcases S with ⟨dt, dxes, eps, mu⟩
    rcases op with _ | _ | j | k
    · exact ⟨⟨_, fun c x => rd (dt * rdCurl rd (rdDerivBack rd (dxes.map (·.2))) s.h c x),
        fun c x => rd (rd (dt * rdCurl rd (rdDerivBack rd (dxes.map (·.2))) s.h c x) / eps c x), cB _ _, fun c x => hrd _, fun c x => hrd _, fun c x => hrd _⟩, rfl⟩
    · rcases mu with _ | mu
      · exact ⟨⟨_, fun c x => rd (dt * rdCurl rd (rdDerivForward rd (dxes.map (·.1))) s.e c x), cF _ _, fun c x => hrd _, fun c x => hrd _⟩, rfl⟩
      · exact ⟨⟨_, fun c x => rd (dt * rdCurl rd (rdDerivForward rd (dxes.map (·.1))) s.e c x), cF _ _, fun c x => hrd _,
          fun c x => rd (rd (dt * rdCurl rd (rdDerivForward rd (dxes.map (·.1))) s.e c x) / mu c x), fun c x => hrd _, fun c x => hrd _⟩, rfl⟩
    · exact ⟨⟨fun c x => rd (j c x / eps c x), fun c x => hrd _, fun c x => hrd _⟩, rfl⟩
    · rcases mu with _ | mu
      · exact ⟨fun c x => hrd _, rfl⟩
      · exact ⟨⟨fun c x => rd (k c x / mu c x), fun c x => hrd _, fun c x => hrd _⟩, rfl⟩
  induction ops generalizing s with
  | nil => rfl
  | cons op ops ih => exact ⟨_, st s op, ih _⟩

namespace Rounding

/-- Round to the nearest number with a significand of `p + 1` binary digits (`p = 52` for numpy's float64, `p = 23` for float32; no limit on the
exponent). -/
noncomputable def nearest (p : ℕ) (x : ℝ) : ℝ :=
  round (x / (2 : ℝ) ^ (Int.log 2 |x| - p)) * (2 : ℝ) ^ (Int.log 2 |x| - p)

theorem nearest_error (p : ℕ) (x : ℝ) : |nearest p x - x| ≤ (1 / 2) ^ (p + 1) * |x| := by
  by_cases hx : x = 0
  · simp [nearest, hx]
  · have h0 : 0 < |x| := abs_pos.mpr hx
    set w : ℝ := (2 : ℝ) ^ (Int.log 2 |x| - p) with hw
    have w0 : 0 < w := by positivity
    have h1 : (2 : ℝ) ^ Int.log 2 |x| ≤ |x| := by
      have := Int.zpow_log_le_self (b := 2) (by norm_num) h0
      exact_mod_cast this
    have hw' : w = (2 : ℝ) ^ Int.log 2 |x| * (1 / 2) ^ p := by
      rw [hw, zpow_sub₀ (by norm_num), zpow_natCast, one_div, inv_pow, div_eq_mul_inv]
    have e1 : nearest p x - x = -((x / w - round (x / w)) * w) := by
      rw [nearest, ← hw]; field_simp; ring
    rw [e1, abs_neg, abs_mul, abs_of_pos w0]
    calc |x / w - round (x / w)| * w ≤ 1 / 2 * w := mul_le_mul_of_nonneg_right (abs_sub_round _) w0.le
      _ ≤ 1 / 2 * (|x| * (1 / 2) ^ p) := by rw [hw']; gcongr
      _ = _ := by ring

end Rounding

/-- C138 for runs that round every operation to the nearest number with `p + 1` binary digits, `p ≥ 6`. -/
theorem C138_nearest {p : ℕ} (hp : 6 ≤ p) {S : Sys sh ℝ} {m : Fin 3 → ℝ} {εm μm : ℝ} (hC : Courant S m εm μm)
    (J K : ℕ → VField sh ℝ) (f x : ℕ → State sh ℝ) (h0 : f 0 = x 0)
    (hf : ∀ n, f (n + 1) = rdRun (nearest p) S (f n) (block (J n) (K n))) (hx : ∀ n, x (n + 1) = run S (x n) (block (J n) (K n)))
    (n : ℕ) (hn : 144 * √(6 / (1 - courantRatio S m εm μm)) * (1 / 2) ^ (p + 1) * n ≤ 1) :
    √(wNormSq S (diff (f n) (x n))) ≤ 3456 / (1 - courantRatio S m εm μm) * (n * (1 / 2) ^ (p + 1))
      * (√(wNormSq S (x 0)) + ∑ k ∈ Finset.range n, √(wNormSq S (kick S (J k) (K k)))) := by
  refine C138_linear_growth (by positivity) ?_ hC J K f x h0 (fun n => ?_) hx n hn
  · calc ((1 / 2 : ℝ)) ^ (p + 1) ≤ (1 / 2) ^ 7 := pow_le_pow_of_le_one (by norm_num) (by norm_num) (by omega)
      _ ≤ 1 / 100 := by norm_num
  · rw [hf n]
    exact C138_rounding_function (nearest_error p) S (f n) _

/-- The hypotheses are met: a run in float64 on a nonuniform grid with nonuniform materials, sources in every step, up to 10¹⁰ steps. -/
example (J K : ℕ → VField ![3, 2, 2] ℝ) (s : State ![3, 2, 2] ℝ) (n : ℕ) (hn : n ≤ 10 ^ 10) :
    let S : Sys ![3, 2, 2] ℝ := ⟨1/8, some (fun _ i => (i : ℝ) + 1, fun _ i => (i : ℝ) + 1/2), fun _ x => 1 + (x 0 : ℕ), some fun _ x => 1 + (x 1 : ℕ)⟩
    let f : ℕ → State ![3, 2, 2] ℝ := fun n => n.rec s fun k t => rdRun (nearest 52) S t (block (J k) (K k))
    let x : ℕ → State ![3, 2, 2] ℝ := fun n => n.rec s fun k t => run S t (block (J k) (K k))
    √(wNormSq S (diff (f n) (x n))) ≤ 3456 / (1 - 3 / 16) * (n * (1 / 2) ^ 53)
      * (√(wNormSq S s) + ∑ k ∈ Finset.range n, √(wNormSq S (kick S (J k) (K k)))) := by
  intro S f x
  have hC : Courant S (fun _ => 1/2) 1 1 := by
    constructor
    · intro a; norm_num
    · intro a i; simp only [S, Option.map, wOf_some]; have : (0:ℝ) ≤ (i : ℕ) := Nat.cast_nonneg _; linarith
    · intro a i; simp only [S, Option.map, wOf_some]; have : (0:ℝ) ≤ (i : ℕ) := Nat.cast_nonneg _; linarith
    · norm_num
    · norm_num
    · intro c x; simp [S]
    · intro c x; simp [S]
    · simp [S]; norm_num
  have hq : courantRatio S (fun _ => 1/2) 1 1 = 3 / 16 := by simp [courantRatio, S]; norm_num
  have := C138_nearest (p := 52) (by norm_num) hC J K f x rfl (fun _ => rfl) (fun _ => rfl) n (by
    rw [hq]
    have h1 : √(6 / (1 - 3 / 16) : ℝ) ≤ 3 := Real.sqrt_le_iff.mpr ⟨by norm_num, by norm_num⟩
    have h2 : (n : ℝ) ≤ 10 ^ 10 := by exact_mod_cast hn
    calc 144 * √(6 / (1 - 3 / 16) : ℝ) * (1 / 2) ^ (52 + 1) * (n : ℝ) ≤ 144 * 3 * (1 / 2) ^ (52 + 1) * 10 ^ 10 := by gcongr
      _ ≤ 1 := by norm_num)
  rw [hq] at this
  exact this

end Meanas.Props
