/-
C144 (in one dimension FDFD between SCPML layers has exactly one solution at every frequency).
-/
import Verif.Props.FdfdScpml
import Verif.Props.FdfdSystem
import Mathlib.Tactic.NormNum.DivMod

namespace Meanas.Props

open Matrix Complex Fdfd Spec Solvers Scpml

variable {sh : Fin 3 → ℕ}

namespace ScpmlLossy

/-- Widths along one axis that only absorb (`e^{+iωt}`: imaginary parts `≤ 0`), and do so for both lists in at least one cell. -/
structure Absorbing {n : ℕ} (wH wE : Fin n → ℂ) : Prop where
  reH : ∀ i, 0 < (wH i).re
  reE : ∀ i, 0 < (wE i).re
  imH : ∀ i, (wH i).im ≤ 0
  imE : ∀ i, (wE i).im ≤ 0
  some_cell : ∃ i, (wH i).im < 0 ∧ (wE i).im < 0

/-- Passive media: no gain; positive real parts, except that the permittivity may be any nonzero passive number (a metal) in cells whose width is real. -/
structure Passive (wE : Idx sh → ℂ) (eps : Vec sh) (mu : Option (Vec sh)) : Prop where
  eps_ne : ∀ p, eps p ≠ 0
  eps_im : ∀ p, (eps p).im ≤ 0
  eps_re : ∀ p, (wE p.2).im ≠ 0 → 0 < (eps p).re
  mu_re : ∀ m, mu = some m → ∀ p, 0 < (m p).re
  mu_im : ∀ m, mu = some m → ∀ p, (m p).im ≤ 0

/-- The transverse component that is not `c`. -/
def oth (a c : Fin 3) : Fin 3 := if c = a + 1 then a + 2 else a + 1

/-- Sign of component `c` in the curl of a field that varies along `a`. -/
def sg (a c : Fin 3) : ℂ := if c = a + 1 then -1 else 1

theorem shift1 {b : Fin 3} (h : sh b = 1) (s : ℤ) (x : Idx sh) : shiftIdx b s x = x := by
  funext c
  by_cases hc : c = b
  · subst hc
    apply Fin.ext
    have h1 := (shiftIdx c s x c).isLt
    have h2 := (x c).isLt
    omega
  · rw [shiftIdx_of_ne hc]

theorem dF_thin {b : Fin 3} (h : sh b = 1) (dx : Option (DxList sh ℂ)) (f : Arr sh ℂ) (x : Idx sh) : Functional.derivForward dx b f x = 0 := by
  rw [derivForward_eq, shift1 h, sub_self, zero_div]

theorem dB_thin {b : Fin 3} (h : sh b = 1) (dx : Option (DxList sh ℂ)) (f : Arr sh ℂ) (x : Idx sh) : Functional.derivBack dx b f x = 0 := by
  rw [derivBack_eq, shift1 h, sub_self, zero_div]

/-- The curl on a grid one cell wide across `a`. -/
theorem curlF_1d (a c : Fin 3) (hth : ∀ b, b ≠ a → sh b = 1) (dx : Option (DxList sh ℂ)) (E : VField sh ℂ) (x : Idx sh) :
    Functional.curlForward dx E c x = if c = a then 0 else sg a c * Functional.derivForward dx a (E (oth a c)) x := by
  revert a c
  refine forall_fin3 (forall_fin3 ?_ ?_ ?_) (forall_fin3 ?_ ?_ ?_) (forall_fin3 ?_ ?_ ?_) <;> intro hth
  · simp [dF_thin (hth 1 (by decide)), dF_thin (hth 2 (by decide))]
  · simp [dF_thin (hth 2 (by decide)), sg, oth]
  · simp [dF_thin (hth 1 (by decide)), sg, oth]
  · simp [dF_thin (hth 2 (by decide)), sg, oth]
  · simp [dF_thin (hth 0 (by decide)), dF_thin (hth 2 (by decide))]
  · simp [dF_thin (hth 0 (by decide)), sg, oth]
  · simp [dF_thin (hth 1 (by decide)), sg, oth]
  · simp [dF_thin (hth 0 (by decide)), sg, oth]
  · simp [dF_thin (hth 0 (by decide)), dF_thin (hth 1 (by decide))]

theorem curlB_1d (a c : Fin 3) (hth : ∀ b, b ≠ a → sh b = 1) (dx : Option (DxList sh ℂ)) (E : VField sh ℂ) (x : Idx sh) :
    Functional.curlBack dx E c x = if c = a then 0 else sg a c * Functional.derivBack dx a (E (oth a c)) x := by
  revert a c
  refine forall_fin3 (forall_fin3 ?_ ?_ ?_) (forall_fin3 ?_ ?_ ?_) (forall_fin3 ?_ ?_ ?_) <;> intro hth
  · simp [dB_thin (hth 1 (by decide)), dB_thin (hth 2 (by decide))]
  · simp [dB_thin (hth 2 (by decide)), sg, oth]
  · simp [dB_thin (hth 1 (by decide)), sg, oth]
  · simp [dB_thin (hth 2 (by decide)), sg, oth]
  · simp [dB_thin (hth 0 (by decide)), dB_thin (hth 2 (by decide))]
  · simp [dB_thin (hth 0 (by decide)), sg, oth]
  · simp [dB_thin (hth 1 (by decide)), sg, oth]
  · simp [dB_thin (hth 0 (by decide)), sg, oth]
  · simp [dB_thin (hth 0 (by decide)), dB_thin (hth 1 (by decide))]

theorem oth_ne (a c : Fin 3) : oth a c ≠ a := by revert a c; decide
theorem oth_oth {a c : Fin 3} : c ≠ a → oth a (oth a c) = c := by revert a c; decide
theorem sg_sq (a c : Fin 3) : sg a c * sg a c = 1 := by unfold sg; split_ifs <;> norm_num
theorem sg_oth {a c : Fin 3} (hc : c ≠ a) : sg a (oth a c) = -sg a c := by
  have h : oth a c = a + 1 ↔ ¬ c = a + 1 := by revert a c; decide
  unfold sg
  by_cases h1 : c = a + 1
  · rw [if_pos h1, if_neg (mt h.1 (not_not.2 h1)), neg_neg]
  · rw [if_neg h1, if_pos (h.2 h1)]

/-- What `curl E / mu` is, up to sign, for the component `c` of E. -/
noncomputable def flux1 (a c : Fin 3) (dx : Dx sh) (mu : Option (Vec sh)) (E : Vec sh) (x : Idx sh) : ℂ :=
  (E (c, shiftIdx a 1 x) - E (c, x)) / dx.1 a (x a) / muV mu (oth a c, x)

/-- `e_full` on a grid one cell wide across `a`: a scalar equation for each transverse component, and an algebraic one for the component along `a`. -/
theorem eFull_1d (a : Fin 3) (hth : ∀ b, b ≠ a → sh b = 1) (ω : ℂ) (dx : Dx sh) (eps : Vec sh) (mu : Option (Vec sh)) (E : Vec sh) (c : Fin 3) (x : Idx sh) :
    (eFull ω dx eps mu none none *ᵥ E) (c, x) =
      (if c = a then 0 else -((flux1 a c dx mu E x - flux1 a c dx mu E (shiftIdx a (-1) x)) / dx.2 a (x a))) - ω ^ 2 * (eps (c, x) * E (c, x)) := by
  rw [eFull_mulVec]
  congr 1
  show Functional.curlBack (some dx.2) (unS fun q => cE dx E q / muV mu q) c x = _
  rw [curlB_1d a c hth]
  by_cases hc : c = a
  · rw [if_pos hc, if_pos hc]
  · rw [if_neg hc, if_neg hc, derivBack_eq]
    have hf : ∀ y, (unS fun q => cE dx E q / muV mu q) (oth a c) y = -sg a c * flux1 a c dx mu E y := by
      intro y
      show Functional.curlForward (some dx.1) (unS E) (oth a c) y / muV mu (oth a c, y) = _
      rw [curlF_1d a _ hth, if_neg (oth_ne a c), derivForward_eq, oth_oth hc, sg_oth hc]
      show -sg a c * ((E (c, shiftIdx a 1 y) - E (c, y)) / dx.1 a (y a)) / _ = _
      rw [flux1]; ring
    rw [hf, hf]
    show sg a c * ((-sg a c * _ - -sg a c * _) / dx.2 a (x a)) = _
    have := sg_sq a c
    linear_combination (-((flux1 a c dx mu E x - flux1 a c dx mu E (shiftIdx a (-1) x)) / dx.2 a (x a))) * this

theorem e2h_1d (a : Fin 3) (hth : ∀ b, b ≠ a → sh b = 1) (ω : ℂ) (dx : Dx sh) (mu : Option (Vec sh)) (E : Vec sh) (c : Fin 3) (hc : c ≠ a) (x : Idx sh) :
    (e2h ω dx mu none *ᵥ E) (oth a c, x) = -sg a c * flux1 a c dx mu E x / (-I * ω) := by
  rw [e2h_mulVec]
  show Functional.curlForward (some dx.1) (unS E) (oth a c) x / (-I * ω) / _ = _
  rw [curlF_1d a _ hth, if_neg (oth_ne a c), derivForward_eq, oth_oth hc, sg_oth hc]
  show -sg a c * ((E (c, shiftIdx a 1 x) - E (c, x)) / dx.1 a (x a)) / _ / _ = _
  rw [flux1]; ring

/-- Summation by parts: the quadratic form of the scalar operator. -/
theorem form_1d (a c : Fin 3) (hc : c ≠ a) (hth : ∀ b, b ≠ a → sh b = 1) (ω : ℂ) (dx : Dx sh) (h2 : ∀ i, dx.2 a i ≠ 0) (h1 : ∀ i, dx.1 a i ≠ 0) (eps : Vec sh)
    (mu : Option (Vec sh)) (hmu : ∀ p, muV mu p ≠ 0) (E : Vec sh) :
    ∑ x : Idx sh, dx.2 a (x a) * ((starRingEnd ℂ) (E (c, x)) * (eFull ω dx eps mu none none *ᵥ E) (c, x))
      = ∑ x : Idx sh, ((starRingEnd ℂ) (dx.1 a (x a) * muV mu (oth a c, x)) * (normSq (flux1 a c dx mu E x) : ℝ))
        - ω ^ 2 * ∑ x : Idx sh, dx.2 a (x a) * eps (c, x) * (normSq (E (c, x)) : ℝ) := by
  have e1 : ∀ x : Idx sh, dx.2 a (x a) * ((starRingEnd ℂ) (E (c, x)) * (eFull ω dx eps mu none none *ᵥ E) (c, x))
      = (starRingEnd ℂ) (E (c, x)) * flux1 a c dx mu E (shiftIdx a (-1) x) - (starRingEnd ℂ) (E (c, x)) * flux1 a c dx mu E x
        - ω ^ 2 * (dx.2 a (x a) * eps (c, x) * (normSq (E (c, x)) : ℝ)) := by
    intro x
    rw [eFull_1d a hth, if_neg hc, normSq_eq_conj_mul_self]
    have := h2 (x a)
    field_simp
    ring
  rw [Finset.sum_congr rfl fun x _ => e1 x, Finset.sum_sub_distrib, Finset.sum_sub_distrib, ← Finset.mul_sum]
  congr 1
  rw [← (shiftEquiv a 1).sum_comp (fun x : Idx sh => (starRingEnd ℂ) (E (c, x)) * flux1 a c dx mu E (shiftIdx a (-1) x)), ← Finset.sum_sub_distrib]
  refine Finset.sum_congr rfl fun x _ => ?_
  show (starRingEnd ℂ) (E (c, shiftIdx a 1 x)) * flux1 a c dx mu E (shiftIdx a (-1) (shiftIdx a 1 x)) - _ = _
  rw [shiftIdx_shiftIdx, show (1 : ℤ) + -1 = 0 by norm_num]
  rw [shiftIdx_zero, ← sub_mul, ← map_sub]
  have e2 : E (c, shiftIdx a 1 x) - E (c, x) = dx.1 a (x a) * muV mu (oth a c, x) * flux1 a c dx mu E x := by
    have := h1 (x a); have := hmu (oth a c, x)
    rw [flux1]; field_simp
  rw [e2, map_mul, mul_assoc, normSq_eq_conj_mul_self]

theorem muV_passive {wE : Idx sh → ℂ} {eps : Vec sh} {mu : Option (Vec sh)} (hp : Passive wE eps mu) (p : Pos sh) : 0 < (muV mu p).re ∧ (muV mu p).im ≤ 0 := by
  cases mu with
  | none => simp
  | some m => exact ⟨hp.mu_re m rfl p, hp.mu_im m rfl p⟩

theorem ne_of_re {z : ℂ} (h : 0 < z.re) : z ≠ 0 := by rintro rfl; simp at h

/-- Electric and magnetic losses of a cell are not negative, and positive where a width is complex. -/
theorem loss_E {a : Fin 3} {dx : Dx sh} (hA : Absorbing (dx.1 a) (dx.2 a)) {eps : Vec sh} {mu : Option (Vec sh)} (hp : Passive (fun x => dx.2 a (x a)) eps mu) (c : Fin 3) (x : Idx sh) :
    (dx.2 a (x a) * eps (c, x)).im ≤ 0 ∧ ((dx.2 a (x a)).im < 0 → (dx.2 a (x a) * eps (c, x)).im < 0) := by
  have h1 := hA.reE (x a); have h2 := hA.imE (x a); have h3 := hp.eps_im (c, x)
  rw [mul_im]
  have h4 : (dx.2 a (x a)).re * (eps (c, x)).im ≤ 0 := mul_nonpos_of_nonneg_of_nonpos h1.le h3
  by_cases h0 : (dx.2 a (x a)).im = 0
  · rw [h0]; constructor
    · linarith
    · intro h; exact absurd h (lt_irrefl _)
  · have h5 := hp.eps_re (c, x) h0
    have h6 : (dx.2 a (x a)).im * (eps (c, x)).re < 0 := mul_neg_of_neg_of_pos (lt_of_le_of_ne h2 h0) h5
    exact ⟨by linarith, fun _ => by linarith⟩

theorem loss_H {a : Fin 3} {dx : Dx sh} (hA : Absorbing (dx.1 a) (dx.2 a)) {eps : Vec sh} {mu : Option (Vec sh)} (hp : Passive (fun x => dx.2 a (x a)) eps mu) (c : Fin 3) (x : Idx sh) :
    (dx.1 a (x a) * muV mu (c, x)).im ≤ 0 ∧ ((dx.1 a (x a)).im < 0 → (dx.1 a (x a) * muV mu (c, x)).im < 0) := by
  have h1 := hA.reH (x a); have h2 := hA.imH (x a); obtain ⟨h3, h4⟩ := muV_passive hp (c, x)
  rw [mul_im]
  have h5 : (dx.1 a (x a)).re * (muV mu (c, x)).im ≤ 0 := mul_nonpos_of_nonneg_of_nonpos h1.le h4
  refine ⟨?_, fun h => ?_⟩
  · have := mul_nonpos_of_nonpos_of_nonneg h2 h3.le; linarith
  · have := mul_neg_of_neg_of_pos h h3; linarith

end ScpmlLossy

open ScpmlLossy

/-- C144: power. In one dimension (a grid one cell wide across `a`) the power that the current delivers through a transverse component is what the
layers and the media absorb: the imaginary parts of `width * epsilon` and `width * mu` act as an electric and a magnetic conductivity. -/
theorem C144_power (a c : Fin 3) (hc : c ≠ a) (hth : ∀ b, b ≠ a → sh b = 1) (ω : ℝ) (hω : ω ≠ 0) (dx : Dx sh) (h1 : ∀ i, dx.1 a i ≠ 0) (h2 : ∀ i, dx.2 a i ≠ 0)
    (eps : Vec sh) (mu : Option (Vec sh)) (hmu : ∀ m, mu = some m → ∀ p, m p ≠ 0) (E J : Vec sh) (h : eFull ω dx eps mu none none *ᵥ E = (-I * ω) • J) :
    -(∑ x : Idx sh, dx.2 a (x a) * ((starRingEnd ℂ) (E (c, x)) * J (c, x))).re
      = ω * ∑ x : Idx sh, -(dx.2 a (x a) * eps (c, x)).im * ‖E (c, x)‖ ^ 2
        + ω * ∑ x : Idx sh, -(dx.1 a (x a) * (mu.getD 1) (oth a c, x)).im * ‖(e2h ω dx mu none *ᵥ E) (oth a c, x)‖ ^ 2 := by
  have hmuV : muV mu = mu.getD 1 := by cases mu <;> rfl
  have hmu' : ∀ p, muV mu p ≠ 0 := by
    intro p
    cases mu with
    | none => exact one_ne_zero
    | some m => exact hmu m rfl p
  have hf := form_1d a c hc hth ω dx h2 h1 eps mu hmu' E
  rw [h] at hf
  have hL : ∑ x : Idx sh, dx.2 a (x a) * ((starRingEnd ℂ) (E (c, x)) * ((-I * (ω : ℂ)) • J) (c, x))
      = -(ω : ℂ) * (I * ∑ x : Idx sh, dx.2 a (x a) * ((starRingEnd ℂ) (E (c, x)) * J (c, x))) := by
    rw [Finset.mul_sum, Finset.mul_sum]
    refine Finset.sum_congr rfl fun x _ => ?_
    simp only [Pi.smul_apply, smul_eq_mul]; ring
  rw [hL] at hf
  have him := congrArg Complex.im hf
  rw [sub_im, im_sum, show -(ω : ℂ) = ((-ω : ℝ) : ℂ) by push_cast; ring, im_ofReal_mul, I_mul_im, show ((ω : ℂ) ^ 2) = ((ω ^ 2 : ℝ) : ℂ) by push_cast; ring,
    im_ofReal_mul, im_sum] at him
  simp only [im_mul_ofReal, conj_im] at him
  have hH : ∀ x : Idx sh, normSq (flux1 a c dx mu E x) = ω ^ 2 * ‖(e2h ω dx mu none *ᵥ E) (oth a c, x)‖ ^ 2 := by
    intro x
    rw [e2h_1d a hth _ _ _ _ c hc, normSq_eq_norm_sq, norm_div, norm_mul, norm_mul, norm_neg, norm_neg, norm_I, one_mul, norm_real]
    have : ‖sg a c‖ = 1 := by unfold sg; split_ifs <;> simp
    rw [this, one_mul, div_pow, Real.norm_eq_abs, sq_abs]
    field_simp
  simp only [hH, normSq_eq_norm_sq, hmuV] at him
  have e1 : ∑ x : Idx sh, -(dx.1 a (x a) * (mu.getD 1) (oth a c, x)).im * (ω ^ 2 * ‖(e2h ω dx mu none *ᵥ E) (oth a c, x)‖ ^ 2)
      = ω ^ 2 * ∑ x : Idx sh, -(dx.1 a (x a) * (mu.getD 1) (oth a c, x)).im * ‖(e2h ω dx mu none *ᵥ E) (oth a c, x)‖ ^ 2 := by
    rw [Finset.mul_sum]; exact Finset.sum_congr rfl fun x _ => by ring
  rw [e1] at him
  simp only [neg_mul, Finset.sum_neg_distrib] at him ⊢
  apply mul_left_cancel₀ hω
  linear_combination him

/-- C144: uniqueness. In one dimension, between layers that absorb, with passive media, no current means no field, at every positive frequency. -/
theorem C144_unique (a : Fin 3) (hth : ∀ b, b ≠ a → sh b = 1) (ω : ℝ) (hω : 0 < ω) (dx : Dx sh) (hA : Absorbing (dx.1 a) (dx.2 a)) (eps : Vec sh)
    (mu : Option (Vec sh)) (hp : Passive (fun x => dx.2 a (x a)) eps mu) (E : Vec sh) (h : eFull ω dx eps mu none none *ᵥ E = 0) : E = 0 := by
  have hω' : (ω : ℂ) ≠ 0 := by exact_mod_cast hω.ne'
  funext p
  obtain ⟨c, y⟩ := p
  by_cases hc : c = a
  · have := congrFun h (c, y)
    rw [eFull_1d a hth, if_pos hc, zero_sub, Pi.zero_apply, neg_eq_zero] at this
    exact (mul_eq_zero.1 ((mul_eq_zero.1 this).resolve_left (pow_ne_zero 2 hω'))).resolve_left (hp.eps_ne _)
  have h1 : ∀ i, dx.1 a i ≠ 0 := fun i => ne_of_re (hA.reH i)
  have h2 : ∀ i, dx.2 a i ≠ 0 := fun i => ne_of_re (hA.reE i)
  have hmu : ∀ p, muV mu p ≠ 0 := fun p => ne_of_re (muV_passive hp p).1
  have hf := form_1d a c hc hth ω dx h2 h1 eps mu hmu E
  rw [h] at hf
  have him := congrArg Complex.im hf
  simp only [Pi.zero_apply, mul_zero, Finset.sum_const_zero, zero_im] at him
  rw [sub_im, im_sum, show ((ω : ℂ) ^ 2) = ((ω ^ 2 : ℝ) : ℂ) by push_cast; ring, im_ofReal_mul, im_sum] at him
  simp only [im_mul_ofReal, conj_im] at him
  have nF : ∀ x : Idx sh, 0 ≤ -(dx.1 a (x a) * muV mu (oth a c, x)).im * normSq (flux1 a c dx mu E x) := fun x =>
    mul_nonneg (by linarith [(loss_H hA hp (oth a c) x).1]) (normSq_nonneg _)
  have nE : ∀ x : Idx sh, (dx.2 a (x a) * eps (c, x)).im * normSq (E (c, x)) ≤ 0 := fun x =>
    mul_nonpos_of_nonpos_of_nonneg (loss_E hA hp c x).1 (normSq_nonneg _)
  have sF := Finset.sum_nonneg fun x (_ : x ∈ Finset.univ) => nF x
  have sE := Finset.sum_nonpos fun x (_ : x ∈ Finset.univ) => nE x
  have w2 : 0 < ω ^ 2 := by positivity
  have zF : ∑ x : Idx sh, -(dx.1 a (x a) * muV mu (oth a c, x)).im * normSq (flux1 a c dx mu E x) = 0 := by nlinarith
  have zE : ∑ x : Idx sh, (dx.2 a (x a) * eps (c, x)).im * normSq (E (c, x)) = 0 := by nlinarith
  rw [Finset.sum_eq_zero_iff_of_nonneg fun x _ => nF x] at zF
  rw [Finset.sum_eq_zero_iff_of_nonpos fun x _ => nE x] at zE
  obtain ⟨i, hi1, hi2⟩ := hA.some_cell
  let x₀ : Idx sh := Function.update y a i
  have hx₀ : x₀ a = i := Function.update_self ..
  have E0 : E (c, x₀) = 0 := by
    have := zE x₀ (Finset.mem_univ _)
    exact normSq_eq_zero.1 ((mul_eq_zero.1 this).resolve_left ((loss_E hA hp c x₀).2 (by rw [hx₀]; exact hi2)).ne)
  have F0 : flux1 a c dx mu E x₀ = 0 := by
    have := zF x₀ (Finset.mem_univ _)
    exact normSq_eq_zero.1 ((mul_eq_zero.1 this).resolve_left (neg_ne_zero.2 ((loss_H hA hp (oth a c) x₀).2 (by rw [hx₀]; exact hi1)).ne))
  have key : ∀ n : ℕ, E (c, shiftIdx a n x₀) = 0 ∧ flux1 a c dx mu E (shiftIdx a n x₀) = 0 := by
    intro n
    induction n with
    | zero => simpa using ⟨E0, F0⟩
    | succ n ih =>
      obtain ⟨i1, i2⟩ := ih
      have hs : shiftIdx a ((n + 1 : ℕ) : ℤ) x₀ = shiftIdx a 1 (shiftIdx a n x₀) := by rw [shiftIdx_shiftIdx]; push_cast; rfl
      have e1 : E (c, shiftIdx a 1 (shiftIdx a n x₀)) = 0 := by
        rw [flux1, i1, sub_zero] at i2
        exact (div_eq_zero_iff.1 ((div_eq_zero_iff.1 i2).resolve_right (hmu _))).resolve_right (h1 _)
      refine ⟨by rw [hs]; exact e1, ?_⟩
      have := congrFun h (c, shiftIdx a 1 (shiftIdx a n x₀))
      rw [eFull_1d a hth, if_neg hc, e1, mul_zero, mul_zero, sub_zero, Pi.zero_apply, neg_eq_zero, div_eq_zero_iff] at this
      have := this.resolve_right (h2 _)
      rw [shiftIdx_shiftIdx a 1 (-1), show (1 : ℤ) + -1 = 0 by norm_num, shiftIdx_zero, i2, sub_zero] at this
      rw [hs]; exact this
  have hy : shiftIdx a (((y a : ℕ) + (sh a - i) : ℕ) : ℤ) x₀ = y := by
    funext b
    by_cases hb : b = a
    · subst hb
      apply Fin.ext
      have b1 := (y b).isLt; have b2 := i.isLt
      rw [shiftIdx_same, hx₀]
      zify
      rw [wrap_val, show ((i : ℕ) : ℤ) + ((y b : ℕ) + ((sh b - i : ℕ) : ℤ)) = (y b : ℕ) + (sh b : ℤ) by omega, Int.add_emod_right, Int.emod_eq_of_lt (by omega) (by omega)]
    · rw [shiftIdx_of_ne hb]; exact Function.update_of_ne hb ..
  rw [← hy]; exact (key _).1

/-- C144: every current has exactly one field. -/
theorem C144_exists_unique (a : Fin 3) (hth : ∀ b, b ≠ a → sh b = 1) (ω : ℝ) (hω : 0 < ω) (dx : Dx sh) (hA : Absorbing (dx.1 a) (dx.2 a)) (eps : Vec sh)
    (mu : Option (Vec sh)) (hp : Passive (fun x => dx.2 a (x a)) eps mu) (J : Vec sh) : ∃! E, eFull ω dx eps mu none none *ᵥ E = (-I * ω) • J := by
  have hinj : Function.Injective (eFull ω dx eps mu none none).mulVec := fun E E' h =>
    sub_eq_zero.1 (C144_unique a hth ω hω dx hA eps mu hp (E - E') (by rw [mulVec_sub]; exact sub_eq_zero.2 h))
  have hu := Matrix.mulVec_injective_iff_isUnit.1 hinj
  obtain ⟨E, hE⟩ := Matrix.mulVec_surjective_iff_isUnit.2 hu ((-I * (ω : ℂ)) • J)
  exact ⟨E, hE, fun E' hE' => hinj (hE'.trans hE.symm)⟩

/-- C144: `generic` with an exact matrix solver returns that field. -/
theorem C144_solver {R : Type} (hasH : Bool) (solve : Mat sh → Vec sh → Opts sh R → Vec sh) (hs : Exact solve) (opts : Opts sh R) (P : Problem sh) (a : Fin 3)
    (hth : ∀ b, b ≠ a → sh b = 1) (ω : ℝ) (hω : 0 < ω) (hPω : P.ω = ω) (hg : GridNz P.dxes) (hA : Absorbing (P.dxes.1 a) (P.dxes.2 a))
    (hp : Passive (fun x => P.dxes.2 a (x a)) P.eps P.mu) (hpec : P.pec = none) (hpmc : P.pmc = none) (hadj : P.adjoint = false) :
    ∃ E, (generic hasH solve opts P).1 = .ok E ∧ eFull P.ω P.dxes P.eps P.mu none none *ᵥ E = (-I * P.ω) • P.J ∧
      ∀ E', eFull P.ω P.dxes P.eps P.mu none none *ᵥ E' = (-I * P.ω) • P.J → E' = E := by
  obtain ⟨E, hE, hu⟩ := C144_exists_unique a hth ω hω P.dxes hA P.eps P.mu hp P.J
  obtain ⟨E₁, r₁, e₁⟩ := C32_solves_partial hasH solve hs opts P hg hadj ⟨E, by rw [hpec, hpmc, hPω]; exact hE⟩
  rw [hpec, hpmc] at e₁
  refine ⟨E₁, r₁, e₁, fun E' hE' => ?_⟩
  rw [hPω] at e₁ hE'
  exact (hu E' hE').trans (hu E₁ e₁).symm

/-! ### The layers of `scpml.py` absorb -/

namespace ScpmlLossy

/-- The profiles of `prepare_s_function`: the default, or any with `ln_R < 0` and `m > 0`. -/
def Prepared (s : Option (ℝ → ℝ)) : Prop := s = none ∨ ∃ lnR m : ℝ, lnR < 0 ∧ 0 < m ∧ s = some (sFactor lnR m)

/-- The same on complex arrays. -/
def PreparedC (s : Option (ℂ → ℂ)) : Prop := s = none ∨ ∃ lnR m : ℝ, lnR < 0 ∧ 0 < m ∧ s = some (sFactorC lnR m)

theorem sFactor_neg {lnR m x : ℝ} (hR : lnR < 0) (hm : 0 < m) : (0 ≤ x → sFactor lnR m x ≤ 0) ∧ (0 < x → sFactor lnR m x < 0) := by
  have h : (m + 1) * lnR / 2 < 0 := by nlinarith
  exact ⟨fun hx => mul_nonpos_of_nonpos_of_nonneg h.le (Real.rpow_nonneg hx m), fun hx => mul_neg_of_neg_of_pos h (Real.rpow_pos_of_pos hx m)⟩

theorem sFactorC_real {lnR m x : ℝ} (hx : 0 ≤ x) : sFactorC lnR m x = (sFactor lnR m x : ℝ) := by
  simp only [sFactorC, sFactor]
  push_cast
  rw [ofReal_cpow hx]

theorem Prepared.neg {s : Option (ℝ → ℝ)} (hs : Prepared s) (x : ℝ) :
    (0 ≤ x → s.getD (sFactor (-16) 4) x ≤ 0) ∧ (0 < x → s.getD (sFactor (-16) 4) x < 0) := by
  rcases hs with rfl | ⟨lnR, m, h1, h2, rfl⟩
  · exact sFactor_neg (by norm_num) (by norm_num)
  · exact sFactor_neg h1 h2

theorem PreparedC.neg {s : Option (ℂ → ℂ)} (hs : PreparedC s) (x : ℝ) (hx : 0 ≤ x) :
    ∃ v : ℝ, s.getD (sFactorC (-16) 4) x = v ∧ v ≤ 0 ∧ (0 < x → v < 0) := by
  rcases hs with rfl | ⟨lnR, m, h1, h2, rfl⟩
  · exact ⟨_, sFactorC_real hx, (sFactor_neg (by norm_num) (by norm_num)).1 hx, (sFactor_neg (by norm_num) (by norm_num)).2⟩
  · exact ⟨_, sFactorC_real hx, (sFactor_neg h1 h2).1 hx, (sFactor_neg h1 h2).2⟩

theorem im_factor (v c : ℝ) : (1 + I * (v : ℂ) / (c : ℂ)).re = 1 ∧ (1 + I * (v : ℂ) / (c : ℂ)).im = v / c := by
  rw [mul_div_assoc, ← ofReal_div, mul_comm, add_im, add_re, im_ofReal_mul, re_ofReal_mul]; simp

end ScpmlLossy

/-- C144: `uniform_grid_scpml` with at least one cell of layer makes an absorbing axis. -/
theorem C144_uniform (th : Fin 3 → ℤ) (omega : ℂ) (ho : 0 < omega.re) (epsEff : ℝ) (he : 0 < epsEff) (s : Option (ℝ → ℝ)) (hs : Prepared s) (a : Fin 3)
    (hn : 0 < sh a) (ht : 0 < th a) : Absorbing (uniformGridScpml sh th omega epsEff s a).1 (uniformGridScpml sh th omega epsEff s a).2 := by
  have hc : 0 < sCorrection epsEff omega := mul_pos (Real.sqrt_pos.2 he) ho
  have htr : (1 : ℝ) ≤ (th a : ℝ) := by exact_mod_cast ht
  have hll : ∀ u n : ℝ, 0 ≤ ll u n (th a) := fun u n => div_nonneg (add_nonneg (le_max_right _ _) (le_max_right _ _)) (by linarith)
  have hll' : ∀ u n : ℝ, u < th a → 0 < ll u n (th a) := fun u n h =>
    div_pos (add_pos_of_pos_of_nonneg (lt_max_of_lt_left (by linarith)) (le_max_right _ _)) (by linarith)
  simp only [uniformGridScpml, uniformAxis, gt_iff_lt, if_pos ht]
  refine ⟨fun i => ?_, fun i => ?_, fun i => ?_, fun i => ?_, ⟨⟨0, hn⟩, ?_, ?_⟩⟩
  · rw [(im_factor _ _).1]; exact one_pos
  · rw [(im_factor _ _).1]; exact one_pos
  · rw [(im_factor _ _).2]; exact div_nonpos_of_nonpos_of_nonneg ((hs.neg _).1 (hll _ _)) hc.le
  · rw [(im_factor _ _).2]; exact div_nonpos_of_nonpos_of_nonneg ((hs.neg _).1 (hll _ _)) hc.le
  · dsimp only; rw [(im_factor _ _).2]; exact div_neg_of_neg_of_pos ((hs.neg _).2 (hll' _ _ (by push_cast; linarith))) hc
  · dsimp only; rw [(im_factor _ _).2]; exact div_neg_of_neg_of_pos ((hs.neg _).2 (hll' _ _ (by push_cast; linarith))) hc

namespace ScpmlLossy

/-- The coordinate of a cell boundary. -/
noncomputable def coord {n : ℕ} (w : Fin n → ℝ) (i : ℕ) : ℝ := ∑ j : Fin n, if (j : ℕ) < i then w j else 0

theorem pos_coord {n : ℕ} (w : Fin n → ℝ) (i : ℕ) : Scpml.pos (fun j => (w j : ℂ)) i = coord w i := by
  simp only [Scpml.pos, coord, ofReal_sum]
  exact Finset.sum_congr rfl fun j _ => by split_ifs <;> simp

theorem coord_lt {n : ℕ} {w : Fin n → ℝ} (hw : ∀ i, 0 < w i) {i j : ℕ} (hij : i < j) (hj : j ≤ n) : coord w i < coord w j := by
  refine Finset.sum_lt_sum (fun k _ => ?_) ⟨⟨i, by omega⟩, Finset.mem_univ _, ?_⟩
  · by_cases h : (k : ℕ) < i
    · rw [if_pos h, if_pos (by omega)]
    · rw [if_neg h]; split_ifs
      · exact (hw k).le
      · exact le_refl _
  · simp [hij, hw]

theorem coord_le {n : ℕ} {w : Fin n → ℝ} (hw : ∀ i, 0 < w i) {i j : ℕ} (hij : i ≤ j) (hj : j ≤ n) : coord w i ≤ coord w j := by
  rcases hij.lt_or_eq with h | rfl
  · exact (coord_lt hw h hj).le
  · exact le_refl _

/-- One stretched width. -/
theorem stretched {s : Option (ℂ → ℂ)} (hs : PreparedC s) {num d corr w : ℝ} (hnum : 0 ≤ num) (hd : 0 < d) (hc : 0 < corr) (hw : 0 < w) :
    ∃ v : ℂ, (factor (s.getD (sFactorC (-16) 4)) num d corr).map ((w : ℂ) * ·) = some v ∧ v.re = w ∧ v.im ≤ 0 ∧ (0 < num → v.im < 0) := by
  obtain ⟨v, h1, h2, h3⟩ := hs.neg (num / d) (div_nonneg hnum hd.le)
  refine ⟨w * (1 + I * (v : ℂ) / ((d * corr : ℝ) : ℂ)), ?_, ?_, ?_, ?_⟩
  · rw [factor_some (by exact_mod_cast hd.ne') hc.ne', Option.map_some, ← ofReal_div, h1]
    push_cast; rw [div_div]
  · rw [re_ofReal_mul, (im_factor _ _).1, mul_one]
  · rw [im_ofReal_mul, (im_factor _ _).2]
    exact mul_nonpos_of_nonneg_of_nonpos hw.le (div_nonpos_of_nonpos_of_nonneg h2 (mul_pos hd hc).le)
  · intro hn
    rw [im_ofReal_mul, (im_factor _ _).2]
    exact mul_neg_of_pos_of_neg hw (div_neg_of_neg_of_pos (h3 (div_pos hn hd)) (mul_pos hd hc))

/-- What one call does to the widths along its axis. -/
structure Layered {n : ℕ} (wA wB : Fin n → ℝ) (layer : ℕ → Prop) (r : (Fin n → ℂ) × (Fin n → ℂ)) : Prop where
  re : ∀ i, (r.1 i).re = wA i ∧ (r.2 i).re = wB i
  im : ∀ i, (r.1 i).im ≤ 0 ∧ (r.2 i).im ≤ 0
  off : ∀ i : Fin n, ¬ layer i → r.1 i = wA i ∧ r.2 i = wB i

theorem front {n : ℕ} {wA wB : Fin n → ℝ} (hA : ∀ i, 0 < wA i) (hB : ∀ i, 0 < wB i) {p : ℤ} (hp : 0 < p) {corr : ℝ} (hc : 0 < corr) {t : ℕ} (h0 : 0 < t) (ht : t ≤ n)
    {s : Option (ℂ → ℂ)} (hs : PreparedC s) :
    ∃ r : (Fin n → ℂ) × (Fin n → ℂ), stretchAxis (fun i => (wA i : ℂ)) (fun i => (wB i : ℂ)) p corr t (s.getD (sFactorC (-16) 4)) = .ok (fun i => some (r.1 i), fun i => some (r.2 i)) ∧
      Layered wA wB (fun i => i < t) r ∧ (r.1 ⟨0, by omega⟩).im < 0 ∧ (r.2 ⟨0, by omega⟩).im < 0 := by
  have hd : 0 < coord wA t - coord wA 0 := sub_pos.2 (coord_lt hA h0 ht)
  have eA : ∀ i : Fin n, (i : ℕ) < t → ∃ v : ℂ, (frontA (s.getD (sFactorC (-16) 4)) corr t (fun i => (wA i : ℂ)) i).map ((wA i : ℂ) * ·) = some v ∧ v.re = wA i ∧ v.im < 0 := by
    intro i hi
    have l1 := coord_lt hA hi ht
    have l2 := coord_le hA (i := i + 1) hi ht
    have hn : 0 < coord wA t - (coord wA i + coord wA (i + 1)) / 2 := by linarith
    obtain ⟨v, v1, v2, -, v3⟩ := stretched hs hn.le hd hc (hA i)
    refine ⟨v, ?_, v2, v3 hn⟩
    rw [← v1, frontA]; simp only [pos_coord]; push_cast; rfl
  have eB : ∀ i : Fin n, (i : ℕ) < t → ∃ v : ℂ, (frontB (s.getD (sFactorC (-16) 4)) corr t (fun i => (wA i : ℂ)) i).map ((wB i : ℂ) * ·) = some v ∧ v.re = wB i ∧ v.im < 0 := by
    intro i hi
    have hn : 0 < coord wA t - coord wA i := sub_pos.2 (coord_lt hA hi ht)
    obtain ⟨v, v1, v2, -, v3⟩ := stretched hs hn.le hd hc (hB i)
    refine ⟨v, ?_, v2, v3 hn⟩
    rw [← v1, frontB]; simp only [pos_coord]; push_cast; rfl
  choose vA hvA using eA
  choose vB hvB using eB
  refine ⟨(fun i => if h : (i : ℕ) < t then vA i h else wA i, fun i => if h : (i : ℕ) < t then vB i h else wB i), ?_, ⟨fun i => ?_, fun i => ?_, fun i hi => ?_⟩, ?_, ?_⟩
  · rw [stretch_front _ _ hp _ ht]
    refine congrArg Except.ok (Prod.ext (funext fun i => ?_) (funext fun i => ?_))
    · by_cases h : (i : ℕ) < t
      · simp only [if_pos h, dif_pos h]; exact (hvA i h).1
      · simp only [if_neg h, dif_neg h]
    · by_cases h : (i : ℕ) < t
      · simp only [if_pos h, dif_pos h]; exact (hvB i h).1
      · simp only [if_neg h, dif_neg h]
  · by_cases h : (i : ℕ) < t
    · simp only [dif_pos h]; exact ⟨(hvA i h).2.1, (hvB i h).2.1⟩
    · simp only [dif_neg h, ofReal_re, and_self]
  · by_cases h : (i : ℕ) < t
    · simp only [dif_pos h]; exact ⟨(hvA i h).2.2.le, (hvB i h).2.2.le⟩
    · simp only [dif_neg h, ofReal_im, le_refl, and_self]
  · simp only [dif_neg hi, and_self]
  · simp only [dif_pos h0]; exact (hvA ⟨0, by omega⟩ h0).2.2
  · simp only [dif_pos h0]; exact (hvB ⟨0, by omega⟩ h0).2.2

theorem back {n : ℕ} {wA wB : Fin n → ℝ} (hA : ∀ i, 0 < wA i) (hB : ∀ i, 0 < wB i) {p : ℤ} (hp : ¬ 0 < p) {corr : ℝ} (hc : 0 < corr) {t : ℕ} (h0 : 0 < t) (ht : t ≤ n)
    {s : Option (ℂ → ℂ)} (hs : PreparedC s) :
    ∃ r : (Fin n → ℂ) × (Fin n → ℂ), stretchAxis (fun i => (wA i : ℂ)) (fun i => (wB i : ℂ)) p corr t (s.getD (sFactorC (-16) 4)) = .ok (fun i => some (r.1 i), fun i => some (r.2 i)) ∧
      Layered wA wB (fun i => n - t ≤ i) r ∧ (2 ≤ t → (r.1 ⟨n - 1, by omega⟩).im < 0 ∧ (r.2 ⟨n - 1, by omega⟩).im < 0) := by
  have hd : 0 < coord wA n - coord wA (n - t) := sub_pos.2 (coord_lt hA (by omega) le_rfl)
  have eA : ∀ i : Fin n, n - t ≤ (i : ℕ) → ∃ v : ℂ, (backA (s.getD (sFactorC (-16) 4)) corr t (fun i => (wA i : ℂ)) i).map ((wA i : ℂ) * ·) = some v ∧ v.re = wA i ∧ v.im < 0 := by
    intro i hi
    have l1 := coord_le hA hi i.isLt.le
    have l2 := coord_lt hA (show (i : ℕ) < i + 1 by omega) i.isLt
    have hn : 0 < (coord wA i + coord wA (i + 1)) / 2 - coord wA (n - t) := by linarith
    obtain ⟨v, v1, v2, -, v3⟩ := stretched hs hn.le hd hc (hA i)
    refine ⟨v, ?_, v2, v3 hn⟩
    rw [← v1, backA]; simp only [pos_coord]; push_cast; rfl
  have eB : ∀ i : Fin n, n - t ≤ (i : ℕ) → ∃ v : ℂ, (backB (s.getD (sFactorC (-16) 4)) corr t (fun i => (wA i : ℂ)) i).map ((wB i : ℂ) * ·) = some v ∧ v.re = wB i ∧ v.im ≤ 0 ∧
      (n - t < (i : ℕ) → v.im < 0) := by
    intro i hi
    have hn : 0 ≤ coord wA i - coord wA (n - t) := sub_nonneg.2 (coord_le hA hi i.isLt.le)
    obtain ⟨v, v1, v2, v3, v4⟩ := stretched hs hn hd hc (hB i)
    refine ⟨v, ?_, v2, v3, fun h => v4 (sub_pos.2 (coord_lt hA h i.isLt.le))⟩
    rw [← v1, backB]; simp only [pos_coord]; push_cast; rfl
  choose vA hvA using eA
  choose vB hvB using eB
  refine ⟨(fun i => if h : n - t ≤ (i : ℕ) then vA i h else wA i, fun i => if h : n - t ≤ (i : ℕ) then vB i h else wB i), ?_, ⟨fun i => ?_, fun i => ?_, fun i hi => ?_⟩, fun h2 => ⟨?_, ?_⟩⟩
  · rw [stretch_back _ _ hp _ h0.ne' ht]
    refine congrArg Except.ok (Prod.ext (funext fun i => ?_) (funext fun i => ?_))
    · by_cases h : n - t ≤ (i : ℕ)
      · simp only [if_pos h, dif_pos h]; exact (hvA i h).1
      · simp only [if_neg h, dif_neg h]
    · by_cases h : n - t ≤ (i : ℕ)
      · simp only [if_pos h, dif_pos h]; exact (hvB i h).1
      · simp only [if_neg h, dif_neg h]
  · by_cases h : n - t ≤ (i : ℕ)
    · simp only [dif_pos h]; exact ⟨(hvA i h).2.1, (hvB i h).2.1⟩
    · simp only [dif_neg h, ofReal_re, and_self]
  · by_cases h : n - t ≤ (i : ℕ)
    · simp only [dif_pos h]; exact ⟨(hvA i h).2.2.le, (hvB i h).2.2.1⟩
    · simp only [dif_neg h, ofReal_im, le_refl, and_self]
  · simp only [dif_neg hi, and_self]
  · have h : n - t ≤ n - 1 := by omega
    simp only [dif_pos h]; exact (hvA ⟨n - 1, by omega⟩ h).2.2
  · have h : n - t ≤ n - 1 := by omega
    simp only [dif_pos h]; exact (hvB ⟨n - 1, by omega⟩ h).2.2.2 (by show n - t < n - 1; omega)

end ScpmlLossy

/-- C144: a call of `stretch_with_scpml` on a real grid, at the front, or at the back with at least two cells, makes an absorbing axis; the other axes stay. -/
theorem C144_stretch (wA wB : (b : Fin 3) → Fin (sh b) → ℝ) (hA : ∀ b i, 0 < wA b i) (hB : ∀ b i, 0 < wB b i) (a : Fin 3) (p : ℤ) (omega : ℂ) (ho : 0 < omega.re)
    (epsEff : ℝ) (he : 0 < epsEff) (t : ℕ) (ht : t ≤ sh a) (h0 : if 0 < p then 0 < t else 2 ≤ t) (s : Option (ℂ → ℂ)) (hs : PreparedC s) :
    ∃ g : Dx sh, stretchWithScpml (fun b i => (wA b i : ℂ), fun b i => (wB b i : ℂ)) a p omega epsEff t s = okGrid g ∧ Absorbing (g.1 a) (g.2 a) ∧
      ∀ b, b ≠ a → ∀ i, g.1 b i = wA b i ∧ g.2 b i = wB b i := by
  have hc : 0 < sCorrection epsEff omega := mul_pos (Real.sqrt_pos.2 he) ho
  obtain ⟨r, r1, r2, r3⟩ : ∃ r : (Fin (sh a) → ℂ) × (Fin (sh a) → ℂ), stretchAxis (fun i => (wA a i : ℂ)) (fun i => (wB a i : ℂ)) p (sCorrection epsEff omega) t
        (s.getD (sFactorC (-16) 4)) = .ok (fun i => some (r.1 i), fun i => some (r.2 i)) ∧ (∃ L, Layered (wA a) (wB a) L r) ∧ ∃ i, (r.1 i).im < 0 ∧ (r.2 i).im < 0 := by
    by_cases hp : 0 < p
    · rw [if_pos hp] at h0
      obtain ⟨r, r1, r2, r3, r4⟩ := front (hA a) (hB a) hp hc h0 ht hs
      exact ⟨r, r1, ⟨_, r2⟩, _, r3, r4⟩
    · rw [if_neg hp] at h0
      obtain ⟨r, r1, r2, r3⟩ := back (hA a) (hB a) hp hc (by omega) ht hs
      exact ⟨r, r1, ⟨_, r2⟩, _, (r3 h0).1, (r3 h0).2⟩
  obtain ⟨L, r2⟩ := r2
  refine ⟨(Function.update (fun b i => (wA b i : ℂ)) a r.1, Function.update (fun b i => (wB b i : ℂ)) a r.2), ?_, ?_, ?_⟩
  · simp only [stretchWithScpml, r1, okGrid]
    refine congrArg Except.ok (Prod.ext (funext fun b => ?_) (funext fun b => ?_)) <;> (by_cases hb : b = a)
    · subst hb; simp
    · simp [Function.update_of_ne hb]
    · subst hb; simp
    · simp [Function.update_of_ne hb]
  · simp only [Function.update_self]
    exact ⟨fun i => by rw [(r2.re i).1]; exact hA a i, fun i => by rw [(r2.re i).2]; exact hB a i, fun i => (r2.im i).1, fun i => (r2.im i).2, r3⟩
  · intro b hb i
    simp [Function.update_of_ne hb]

/-- C144: so does the pair of calls that every script makes, front and back, whatever the thicknesses, if the layers do not overlap. -/
theorem C144_stretch_both (wA wB : (b : Fin 3) → Fin (sh b) → ℝ) (hA : ∀ b i, 0 < wA b i) (hB : ∀ b i, 0 < wB b i) (a : Fin 3) (p q : ℤ) (hp : 0 < p) (hq : q < 0)
    (omega : ℂ) (ho : 0 < omega.re) (epsEff : ℝ) (he : 0 < epsEff) (tf tb : ℕ) (hf : 0 < tf) (hb : 0 < tb) (ht : tf + tb ≤ sh a) (s s' : Option (ℂ → ℂ)) (hs : PreparedC s)
    (hs' : PreparedC s') :
    ∃ g₁ g : Dx sh, stretchWithScpml (fun b i => (wA b i : ℂ), fun b i => (wB b i : ℂ)) a p omega epsEff tf s = okGrid g₁ ∧
      stretchWithScpml g₁ a q omega epsEff tb s' = okGrid g ∧ Absorbing (g.1 a) (g.2 a) ∧ ∀ b, b ≠ a → ∀ i, g.1 b i = wA b i ∧ g.2 b i = wB b i := by
  have hc : 0 < sCorrection epsEff omega := mul_pos (Real.sqrt_pos.2 he) ho
  obtain ⟨r, r1, r2, r3, r4⟩ := front (hA a) (hB a) hp hc hf (by omega) hs
  obtain ⟨u, u1, u2, -⟩ := back (hA a) (hB a) (p := q) (by omega) hc hb (by omega) hs'
  let g1 : Dx sh := (Function.update (fun b i => (wA b i : ℂ)) a r.1, Function.update (fun b i => (wB b i : ℂ)) a r.2)
  let g2 : Dx sh := (Function.update (fun b i => (wA b i : ℂ)) a u.1, Function.update (fun b i => (wB b i : ℂ)) a u.2)
  let v : (Fin (sh a) → ℂ) × (Fin (sh a) → ℂ) := (fun i => if sh a - tb ≤ (i : ℕ) then u.1 i else r.1 i, fun i => if sh a - tb ≤ (i : ℕ) then u.2 i else r.2 i)
  let g : Dx sh := (Function.update (fun b i => (wA b i : ℂ)) a v.1, Function.update (fun b i => (wB b i : ℂ)) a v.2)
  have hg1 : stretchWithScpml (fun b i => (wA b i : ℂ), fun b i => (wB b i : ℂ)) a p omega epsEff tf s = okGrid g1 := by
    simp only [stretchWithScpml, r1, okGrid, g1]
    refine congrArg Except.ok (Prod.ext (funext fun b => ?_) (funext fun b => ?_)) <;> (by_cases hb : b = a)
    · subst hb; simp
    · simp [Function.update_of_ne hb]
    · subst hb; simp
    · simp [Function.update_of_ne hb]
  have hg2 : stretchWithScpml (fun b i => (wA b i : ℂ), fun b i => (wB b i : ℂ)) a q omega epsEff tb s' = okGrid g2 := by
    simp only [stretchWithScpml, u1, okGrid, g2]
    refine congrArg Except.ok (Prod.ext (funext fun b => ?_) (funext fun b => ?_)) <;> (by_cases hb : b = a)
    · subst hb; simp
    · simp [Function.update_of_ne hb]
    · subst hb; simp
    · simp [Function.update_of_ne hb]
  have hcom := C38_commute _ g1 g2 a omega epsEff p q hp hq tf tb ht hb s s' hg1 hg2
  have e1 : ∀ b, b ≠ a → (g1.1 b = (fun i => (wA b i : ℂ)) ∧ g1.2 b = (fun i => (wB b i : ℂ))) := fun b hb => by
    constructor <;> simp [g1, Function.update_of_ne hb]
  have e2 : g1.1 a = r.1 ∧ g1.2 a = r.2 := by constructor <;> simp [g1]
  have e3 : g2.1 a = u.1 ∧ g2.2 a = u.2 := by constructor <;> simp [g2]
  have hg : stretchWithScpml g1 a q omega epsEff tb s' = okGrid g := by
    have hcom' := hcom
    simp only [stretchWithScpml] at hcom' ⊢
    rw [stretch_front _ _ hp _ (by omega), stretch_back _ _ (show ¬ 0 < q by omega) _ hb.ne' (by omega)] at hcom'
    rw [stretch_back _ _ (show ¬ 0 < q by omega) _ hb.ne' (by omega)]
    simp only [Except.ok.injEq, Prod.mk.injEq] at hcom'
    have c1 := congrFun hcom'.1 a
    have c2 := congrFun hcom'.2 a
    simp only [Function.update_self] at c1 c2
    have hgv : g.1 a = v.1 ∧ g.2 a = v.2 := by constructor <;> simp [g]
    simp only [okGrid]
    refine congrArg Except.ok (Prod.ext (funext fun b => ?_) (funext fun b => ?_)) <;> (by_cases hb : b = a)
    · subst hb
      simp only [Function.update_self]
      funext i
      rw [hgv.1]
      by_cases hi : sh b - tb ≤ (i : ℕ)
      · refine (congrFun c1 i).trans ?_
        rw [if_neg (by omega), e3.1]; simp only [v, if_pos hi]
      · rw [if_neg hi, e2.1]; simp only [v, if_neg hi]
    · dsimp only
      rw [Function.update_of_ne hb]; simp [e1 b hb, g, Function.update_of_ne hb]
    · subst hb
      simp only [Function.update_self]
      funext i
      rw [hgv.2]
      by_cases hi : sh b - tb ≤ (i : ℕ)
      · refine (congrFun c2 i).trans ?_
        rw [if_neg (by omega), e3.2]; simp only [v, if_pos hi]
      · rw [if_neg hi, e2.2]; simp only [v, if_neg hi]
    · dsimp only
      rw [Function.update_of_ne hb]; simp [e1 b hb, g, Function.update_of_ne hb]
  refine ⟨g1, g, hg1, hg, ?_, fun b hb i => by simp [g, Function.update_of_ne hb]⟩
  have f1 : g.1 a = v.1 := by simp [g]
  have f2 : g.2 a = v.2 := by simp [g]
  rw [f1, f2]
  refine ⟨fun i => ?_, fun i => ?_, fun i => ?_, fun i => ?_, ⟨⟨0, by omega⟩, ?_, ?_⟩⟩
  · simp only [v]; split_ifs
    · rw [(u2.re i).1]; exact hA a i
    · rw [(r2.re i).1]; exact hA a i
  · simp only [v]; split_ifs
    · rw [(u2.re i).2]; exact hB a i
    · rw [(r2.re i).2]; exact hB a i
  · simp only [v]; split_ifs
    · exact (u2.im i).1
    · exact (r2.im i).1
  · simp only [v]; split_ifs
    · exact (u2.im i).2
    · exact (r2.im i).2
  · simp only [v, if_neg (show ¬ sh a - tb ≤ 0 by omega)]; exact r3
  · simp only [v, if_neg (show ¬ sh a - tb ≤ 0 by omega)]; exact r4

/-- The hypotheses are met: 40 cells along `y` with default layers of 10 cells on both ends, a dielectric slab with a metal film behind it. -/
example (J : Vec (![1, 40, 1] : Fin 3 → ℕ)) :
    let u := uniformGridScpml (![1, 40, 1] : Fin 3 → ℕ) ![0, 10, 0] 2 1 none
    let eps : Vec (![1, 40, 1] : Fin 3 → ℕ) := fun p => if (p.2 1 : ℕ) < 20 then 1 else if (p.2 1 : ℕ) < 25 then 4 else if (p.2 1 : ℕ) < 26 then -10 - I else 1
    ∃! E, eFull (2 : ℝ) (fun b => (u b).1, fun b => (u b).2) eps none none none *ᵥ E = (-I * (2 : ℝ)) • J := by
  intro u eps
  refine C144_exists_unique 1 ?_ 2 (by norm_num) _ (C144_uniform _ _ (by norm_num) _ one_pos _ (Or.inl rfl) 1 (by simp) (by simp)) eps none ⟨?_, ?_, ?_, by simp, by simp⟩ J
  · refine forall_fin3 (fun _ => rfl) (fun h => absurd rfl h) (fun _ => rfl)
  · intro p h
    have := congrArg Complex.re h
    simp only [eps] at this
    split_ifs at this <;> norm_num at this
  · intro p
    simp only [eps]
    split_ifs <;> norm_num
  · intro p h
    have hp : ¬ (10 ≤ (p.2 1 : ℕ) ∧ (p.2 1 : ℕ) + 1 ≤ 30) := by
      rintro ⟨h1, h2⟩
      refine h ?_
      have := (C37_default_outside (![1, 40, 1] : Fin 3 → ℕ) ![0, 10, 0] 2 1 1 (p.2 1) (by simpa using h1) (by simpa using (by omega : (p.2 1 : ℤ) + 1 ≤ 40 - 10))).2
      show ((u 1).2 (p.2 1)).im = 0
      rw [show (u 1).2 (p.2 1) = 1 from this, one_im]
    simp only [eps]
    split_ifs <;> first | omega | norm_num

end Meanas.Props
