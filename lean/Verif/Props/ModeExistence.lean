/-
C121: a variational principle for waveguide modes: existence of a guided mode, and adding dielectric raises the largest effective index.
-/
import Verif.Props.Waveguide2dPower
import Verif.Props.WgModes
import Mathlib.Topology.Algebra.Order.LiminfLimsup
import Mathlib.Analysis.Complex.Basic

namespace Meanas.Props

open Matrix Complex Wg2 Spec

variable {sh : Fin 2 → ℕ}

/-! ### The curl equations in units of the wavelength along the guide (`s = 1/β`) -/

/-- `s` times the curl of `H exp(-i z / s)`, taken with backward differences. -/
noncomputable def scurlB (dH : DxList sh ℝ) (s : ℝ) (H : Fin 3 → Arr sh ℂ) (c : Fin 3) (x : Idx sh) : ℂ :=
  ![s * gradBack (some (cw dH)) (H 2) 1 x + I * H 1 x, -I * H 0 x - s * gradBack (some (cw dH)) (H 2) 0 x,
    s * (gradBack (some (cw dH)) (H 1) 0 x - gradBack (some (cw dH)) (H 0) 1 x)] c

/-- The same with forward differences. -/
noncomputable def scurlF (dE : DxList sh ℝ) (s : ℝ) (E : Fin 3 → Arr sh ℂ) (c : Fin 3) (x : Idx sh) : ℂ :=
  ![s * gradForward (some (cw dE)) (E 2) 1 x + I * E 1 x, -I * E 0 x - s * gradForward (some (cw dE)) (E 2) 0 x,
    s * (gradForward (some (cw dE)) (E 1) 0 x - gradForward (some (cw dE)) (E 0) 1 x)] c

/-- `s` times the divergence of `B exp(-i z / s)`. -/
noncomputable def sdiv (dE : DxList sh ℝ) (s : ℝ) (B : Fin 3 → Arr sh ℂ) (x : Idx sh) : ℂ :=
  s * (gradForward (some (cw dE)) (B 0) 0 x + gradForward (some (cw dE)) (B 1) 1 x) - I * B 2 x

/-- `s²` times the excess of curl energy over magnetic energy. -/
noncomputable def excess (dE dH : DxList sh ℝ) (eps mu : Fin 3 → Arr sh ℝ) (ω s : ℝ) (H : Fin 3 → Arr sh ℂ) : ℝ :=
  ∑ c, ∑ x, (areaE dE dH c x * (normSq (scurlB dH s H c x) / eps c x) - s ^ 2 * ω ^ 2 * (areaH dE dH c x * (mu c x * normSq (H c x))))

/-- What is missing from `H` being a mode. -/
noncomputable def rest (dE dH : DxList sh ℝ) (eps mu : Fin 3 → Arr sh ℝ) (ω s : ℝ) (H : Fin 3 → Arr sh ℂ) (c : Fin 3) (x : Idx sh) : ℂ :=
  scurlF dE s (fun c x => scurlB dH s H c x / eps c x) c x - s ^ 2 * ω ^ 2 * (mu c x * H c x)

theorem scurl_adjoint {dE dH : DxList sh ℝ} (hE : ∀ a i, 0 < dE a i) (hH : ∀ a i, 0 < dH a i) (s : ℝ) (g u : Fin 3 → Arr sh ℂ) :
    ∑ c, ∑ x, (areaE dE dH c x : ℂ) * ((starRingEnd ℂ) (scurlB dH s g c x) * u c x) = ∑ c, ∑ x, (areaH dE dH c x : ℂ) * ((starRingEnd ℂ) (g c x) * scurlF dE s u c x) := by
  have nE : Nonzero (cw dE) := fun a i => ofReal_ne_zero.2 (hE a i).ne'
  have nH : Nonzero (cw dH) := fun a i => ofReal_ne_zero.2 (hH a i).ne'
  have p1 := parts2 1 0 (by decide) (cw dE) (cw dH) nE nH (cw dE) (fun x => (starRingEnd ℂ) (g 2 x)) (u 0)
  have p2 := parts2 0 1 (by decide) (cw dE) (cw dH) nE nH (cw dE) (fun x => (starRingEnd ℂ) (g 2 x)) (u 1)
  have p3 := parts2 0 1 (by decide) (cw dE) (cw dH) nE nH (cw dH) (fun x => (starRingEnd ℂ) (g 1 x)) (u 2)
  have p4 := parts2 1 0 (by decide) (cw dE) (cw dH) nE nH (cw dH) (fun x => (starRingEnd ℂ) (g 0 x)) (u 2)
  have l : ∑ c, ∑ x, (areaE dE dH c x : ℂ) * ((starRingEnd ℂ) (scurlB dH s g c x) * u c x)
      = s * (∑ x, cw dH 1 (x 1) * cw dE 0 (x 0) * (u 0 x * gradBack (some (cw dH)) (fun x => (starRingEnd ℂ) (g 2 x)) 1 x))
        - s * (∑ x, cw dH 0 (x 0) * cw dE 1 (x 1) * (u 1 x * gradBack (some (cw dH)) (fun x => (starRingEnd ℂ) (g 2 x)) 0 x))
        + s * (∑ x, cw dH 0 (x 0) * cw dH 1 (x 1) * (u 2 x * gradBack (some (cw dH)) (fun x => (starRingEnd ℂ) (g 1 x)) 0 x))
        - s * (∑ x, cw dH 1 (x 1) * cw dH 0 (x 0) * (u 2 x * gradBack (some (cw dH)) (fun x => (starRingEnd ℂ) (g 0 x)) 1 x))
        + ∑ x, (I * (cw dH 0 (x 0) * cw dE 1 (x 1) * ((starRingEnd ℂ) (g 0 x) * u 1 x)) - I * (cw dE 0 (x 0) * cw dH 1 (x 1) * ((starRingEnd ℂ) (g 1 x) * u 0 x))) := by
    rw [Fin.sum_univ_three]
    simp only [Finset.mul_sum, ← Finset.sum_add_distrib, ← Finset.sum_sub_distrib]
    refine Finset.sum_congr rfl fun x _ => ?_
    rw [areaE_0, areaE_1, areaE_2]
    simp only [scurlB, Matrix.cons_val_zero, Matrix.cons_val_one, Matrix.cons_val, map_add, map_sub, map_mul, conj_I, conj_ofReal, map_neg, conj_gradBack, cw, ofReal_mul]
    ring
  have r : ∑ c, ∑ x, (areaH dE dH c x : ℂ) * ((starRingEnd ℂ) (g c x) * scurlF dE s u c x)
      = s * (-∑ x, cw dE 1 (x 1) * cw dE 0 (x 0) * ((starRingEnd ℂ) (g 2 x) * gradForward (some (cw dE)) (u 0) 1 x))
        - s * (-∑ x, cw dE 0 (x 0) * cw dE 1 (x 1) * ((starRingEnd ℂ) (g 2 x) * gradForward (some (cw dE)) (u 1) 0 x))
        + s * (-∑ x, cw dE 0 (x 0) * cw dH 1 (x 1) * ((starRingEnd ℂ) (g 1 x) * gradForward (some (cw dE)) (u 2) 0 x))
        - s * (-∑ x, cw dE 1 (x 1) * cw dH 0 (x 0) * ((starRingEnd ℂ) (g 0 x) * gradForward (some (cw dE)) (u 2) 1 x))
        + ∑ x, (I * (cw dH 0 (x 0) * cw dE 1 (x 1) * ((starRingEnd ℂ) (g 0 x) * u 1 x)) - I * (cw dE 0 (x 0) * cw dH 1 (x 1) * ((starRingEnd ℂ) (g 1 x) * u 0 x))) := by
    rw [Fin.sum_univ_three]
    simp only [← Finset.sum_neg_distrib, Finset.mul_sum, ← Finset.sum_add_distrib, ← Finset.sum_sub_distrib]
    refine Finset.sum_congr rfl fun x _ => ?_
    rw [areaH_0, areaH_1, areaH_2]
    simp only [scurlF, Matrix.cons_val_zero, Matrix.cons_val_one, Matrix.cons_val, cw, ofReal_mul]
    ring
  rw [l, r, p1, p2, p3, p4]

theorem scurlB_add (dH : DxList sh ℝ) (s : ℝ) (H g : Fin 3 → Arr sh ℂ) (t : ℝ) (c : Fin 3) (x : Idx sh) :
    scurlB dH s (fun c x => H c x + t * g c x) c x = scurlB dH s H c x + t * scurlB dH s g c x := by
  fin_cases c <;> simp [scurlB, gradBack] <;> ring

theorem normSq_add_real (a b : ℂ) (t : ℝ) : normSq (a + t * b) = normSq a + 2 * t * ((starRingEnd ℂ) b * a).re + t ^ 2 * normSq b := by
  simp only [normSq_apply, add_re, add_im, mul_re, mul_im, ofReal_re, ofReal_im, conj_re, conj_im]; ring

theorem excess_add {dE dH : DxList sh ℝ} (hE : ∀ a i, 0 < dE a i) (hH : ∀ a i, 0 < dH a i) (eps mu : Fin 3 → Arr sh ℝ) (ω s : ℝ) (H g : Fin 3 → Arr sh ℂ) (t : ℝ) :
    excess dE dH eps mu ω s (fun c x => H c x + t * g c x) = excess dE dH eps mu ω s H
      + 2 * t * (∑ c, ∑ x, (areaH dE dH c x : ℂ) * ((starRingEnd ℂ) (g c x) * rest dE dH eps mu ω s H c x)).re + t ^ 2 * excess dE dH eps mu ω s g := by
  have adj := scurl_adjoint hE hH s g (fun c x => scurlB dH s H c x / eps c x)
  have e1 : ∑ c, ∑ x, (areaH dE dH c x : ℂ) * ((starRingEnd ℂ) (g c x) * rest dE dH eps mu ω s H c x)
      = ∑ c, ∑ x, ((areaE dE dH c x : ℂ) * ((starRingEnd ℂ) (scurlB dH s g c x) * (scurlB dH s H c x / eps c x))
        - s ^ 2 * ω ^ 2 * (areaH dE dH c x * (mu c x * ((starRingEnd ℂ) (g c x) * H c x)))) := by
    simp only [Finset.sum_sub_distrib]
    rw [adj]
    simp only [← Finset.sum_sub_distrib]
    refine Finset.sum_congr rfl fun c _ => Finset.sum_congr rfl fun x _ => ?_
    rw [rest]; ring
  rw [e1]
  simp only [excess, re_sum, Finset.mul_sum, ← Finset.sum_add_distrib]
  refine Finset.sum_congr rfl fun c _ => Finset.sum_congr rfl fun x _ => ?_
  rw [scurlB_add, normSq_add_real, normSq_add_real]
  have r1 : ((areaE dE dH c x : ℂ) * ((starRingEnd ℂ) (scurlB dH s g c x) * (scurlB dH s H c x / eps c x))
        - s ^ 2 * ω ^ 2 * (areaH dE dH c x * (mu c x * ((starRingEnd ℂ) (g c x) * H c x)))).re
      = areaE dE dH c x * (((starRingEnd ℂ) (scurlB dH s g c x) * scurlB dH s H c x).re / eps c x)
        - s ^ 2 * ω ^ 2 * (areaH dE dH c x * (mu c x * ((starRingEnd ℂ) (g c x) * H c x).re)) := by
    rw [← mul_div_assoc, ← ofReal_pow, ← ofReal_pow, ← ofReal_mul, sub_re, re_ofReal_mul, re_ofReal_mul, re_ofReal_mul, re_ofReal_mul, div_ofReal_re]
  rw [r1]
  ring

theorem sdiv_rest {dE dH : DxList sh ℝ} (eps mu : Fin 3 → Arr sh ℝ) (ω s : ℝ) (H : Fin 3 → Arr sh ℂ) (hd : ∀ x, sdiv dE s (fun c x => mu c x * H c x) x = 0) (x : Idx sh) :
    sdiv dE s (rest dE dH eps mu ω s H) x = 0 := by
  have h := hd x
  set u : Fin 3 → Arr sh ℂ := fun c x => scurlB dH s H c x / eps c x with hu
  have e : ∀ c, rest dE dH eps mu ω s H c = fun y => 1 * scurlF dE s u c y + (-(s ^ 2 * ω ^ 2 : ℂ)) * (mu c y * H c y) := fun c => funext fun y => by
    rw [rest]; ring
  have f0 : scurlF dE s u 0 = fun y => (s : ℂ) * gradForward (some (cw dE)) (u 2) 1 y + I * u 1 y := rfl
  have f1 : scurlF dE s u 1 = fun y => -I * u 0 y + (-s : ℂ) * gradForward (some (cw dE)) (u 2) 0 y := funext fun y => by
    show -I * u 0 y - s * gradForward (some (cw dE)) (u 2) 0 y = _; ring
  have f2 : scurlF dE s u 2 x = s * (gradForward (some (cw dE)) (u 1) 0 x - gradForward (some (cw dE)) (u 0) 1 x) := rfl
  have cm := gradForward_comm (cw dE) (u 2) x
  simp only [sdiv] at h ⊢
  simp only [e, gradForward_lin, f0, f1]
  rw [f2, cm]
  linear_combination (-(s ^ 2 * ω ^ 2 : ℂ)) * h

/-! ### The largest wavenumber -/

theorem continuous_scurlB (dH : DxList sh ℝ) (c : Fin 3) (x : Idx sh) : Continuous fun p : ℝ × (Fin 3 → Arr sh ℂ) => scurlB dH p.1 p.2 c x := by
  fin_cases c <;> simp only [scurlB, gradBack, Fin.zero_eta, Fin.mk_one, Fin.reduceFinMk, Matrix.cons_val_zero, Matrix.cons_val_one, Matrix.cons_val] <;> fun_prop

theorem continuous_excess (dE dH : DxList sh ℝ) (eps mu : Fin 3 → Arr sh ℝ) (ω : ℝ) :
    Continuous fun p : ℝ × (Fin 3 → Arr sh ℂ) => excess dE dH eps mu ω p.1 p.2 := by
  simp only [excess]
  refine continuous_finsetSum _ fun c _ => continuous_finsetSum _ fun x _ => ?_
  have h1 := continuous_normSq.comp (continuous_scurlB dH c x)
  have h2 : Continuous fun p : ℝ × (Fin 3 → Arr sh ℂ) => normSq (p.2 c x) := continuous_normSq.comp (by fun_prop)
  simp only [Function.comp_def] at h1
  fun_prop

theorem continuous_sdiv (dE : DxList sh ℝ) (mu : Fin 3 → Arr sh ℝ) (x : Idx sh) :
    Continuous fun p : ℝ × (Fin 3 → Arr sh ℂ) => sdiv dE p.1 (fun c x => mu c x * p.2 c x) x := by
  simp only [sdiv, gradForward]; fun_prop

theorem sdiv_smul (dE : DxList sh ℝ) (mu : Fin 3 → Arr sh ℝ) (s : ℝ) (H : Fin 3 → Arr sh ℂ) (r : ℂ) (x : Idx sh) :
    sdiv dE s (fun c x => mu c x * (r * H c x)) x = r * sdiv dE s (fun c x => mu c x * H c x) x := by
  simp only [sdiv, gradForward]; ring

theorem excess_smul (dE dH : DxList sh ℝ) (eps mu : Fin 3 → Arr sh ℝ) (ω s r : ℝ) (H : Fin 3 → Arr sh ℂ) :
    excess dE dH eps mu ω s (fun c x => (r : ℂ) * H c x) = r ^ 2 * excess dE dH eps mu ω s H := by
  simp only [excess, Finset.mul_sum]
  refine Finset.sum_congr rfl fun c _ => Finset.sum_congr rfl fun x _ => ?_
  have h : scurlB dH s (fun c x => (r : ℂ) * H c x) c x = r * scurlB dH s H c x := by
    fin_cases c <;> simp [scurlB, gradBack] <;> ring
  rw [h, normSq_mul, normSq_mul, normSq_ofReal]; ring

/-- Trial fields at `s` are limits of trial fields at smaller `t`. -/
theorem excess_limit {dE dH : DxList sh ℝ} {eps mu : Fin 3 → Arr sh ℝ} {ω s : ℝ} (hspos : 0 < s)
    (hpos : ∀ t, 0 ≤ t → t < s → ∀ G : Fin 3 → Arr sh ℂ, (∀ x, sdiv dE t (fun c x => mu c x * G c x) x = 0) → 0 ≤ excess dE dH eps mu ω t G)
    (G : Fin 3 → Arr sh ℂ) (hG : ∀ x, sdiv dE s (fun c x => mu c x * G c x) x = 0) : 0 ≤ excess dE dH eps mu ω s G := by
  let F : ℝ → Fin 3 → Arr sh ℂ := fun t c x => if c = 2 then ((t / s : ℝ) : ℂ) * G c x else G c x
  have hF : Continuous F := by
    refine continuous_pi fun c => continuous_pi fun x => ?_
    by_cases hc : c = 2
    · simp only [F, hc, if_true]; fun_prop
    · simp only [F, hc, if_false]; fun_prop
  have hFs : F s = G := by
    funext c x; simp only [F]; split_ifs with hc
    · rw [div_self hspos.ne', ofReal_one, one_mul]
    · rfl
  have hcont : Continuous fun t => excess dE dH eps mu ω t (F t) := (continuous_excess dE dH eps mu ω).comp (g := fun p : ℝ × (Fin 3 → Arr sh ℂ) => excess dE dH eps mu ω p.1 p.2) (f := fun t => (t, F t)) (continuous_id.prodMk hF)
  have lim : Filter.Tendsto (fun t => excess dE dH eps mu ω t (F t)) (nhdsWithin s (Set.Iio s)) (nhds (excess dE dH eps mu ω s G)) := by
    have := hcont.tendsto s
    simp only [hFs] at this
    exact this.mono_left nhdsWithin_le_nhds
  refine ge_of_tendsto lim ?_
  filter_upwards [Ioo_mem_nhdsLT hspos] with t ht
  refine hpos t ht.1.le ht.2 _ fun x => ?_
  have := hG x
  simp only [sdiv, gradForward, F] at this ⊢
  simp only [if_true, show ¬ ((0 : Fin 3) = 2) by decide, show ¬ ((1 : Fin 3) = 2) by decide, if_false, ofReal_div]
  have hsc : (s : ℂ) ≠ 0 := ofReal_ne_zero.2 hspos.ne'
  rw [show I * ((mu 2 x : ℂ) * ((t : ℂ) / s * G 2 x)) = (t : ℂ) / s * (I * (mu 2 x * G 2 x)) by ring, ← sub_eq_zero.1 this]
  field_simp
  ring

/-- A field of zero excess, if no trial field has negative excess, is a mode. -/
theorem excess_stationary {dE dH : DxList sh ℝ} (hE : ∀ a i, 0 < dE a i) (hH : ∀ a i, 0 < dH a i) {eps mu : Fin 3 → Arr sh ℝ} (hmu : ∀ c x, 0 < mu c x) {ω s : ℝ}
    (hnn : ∀ G : Fin 3 → Arr sh ℂ, (∀ x, sdiv dE s (fun c x => mu c x * G c x) x = 0) → 0 ≤ excess dE dH eps mu ω s G) {H : Fin 3 → Arr sh ℂ}
    (hdiv : ∀ x, sdiv dE s (fun c x => mu c x * H c x) x = 0) (hq' : excess dE dH eps mu ω s H = 0) : ∀ c x, rest dE dH eps mu ω s H c x = 0 := by
  have aH : ∀ c x, 0 < areaH dE dH c x := fun c x => Finset.prod_pos fun a _ => by split <;> simp [hE, hH]
  -- the remainder, divided by μ, is a trial field
  let g : Fin 3 → Arr sh ℂ := fun c x => rest dE dH eps mu ω s H c x / mu c x
  have hmg : (fun c x => (mu c x : ℂ) * g c x) = rest dE dH eps mu ω s H := by
    funext c x; exact mul_div_cancel₀ _ (ofReal_ne_zero.2 (hmu c x).ne')
  have hlin : ∀ t : ℝ, ∀ x, sdiv dE s (fun c x => mu c x * (H c x + t * g c x)) x = 0 := by
    intro t x
    have e1 := hdiv x
    have e2 := sdiv_rest eps mu ω s H hdiv x (dH := dH)
    rw [← hmg] at e2
    simp only [sdiv, gradForward] at e1 e2 ⊢
    linear_combination e1 + t * e2
  have hS : (∑ c, ∑ x, (areaH dE dH c x : ℂ) * ((starRingEnd ℂ) (g c x) * rest dE dH eps mu ω s H c x)).re
      = ∑ c, ∑ x, areaH dE dH c x * (normSq (rest dE dH eps mu ω s H c x) / mu c x) := by
    simp only [re_sum]
    refine Finset.sum_congr rfl fun c _ => Finset.sum_congr rfl fun x _ => ?_
    rw [re_ofReal_mul]
    simp only [g, map_div₀, conj_ofReal]
    rw [div_mul_eq_mul_div, div_ofReal_re, ← normSq_eq_conj_mul_self, ofReal_re]
  set S := ∑ c, ∑ x, areaH dE dH c x * (normSq (rest dE dH eps mu ω s H c x) / mu c x) with hSd
  have hterm : ∀ c x, 0 ≤ areaH dE dH c x * (normSq (rest dE dH eps mu ω s H c x) / mu c x) := fun c x =>
    mul_nonneg (aH c x).le (div_nonneg (normSq_nonneg _) (hmu c x).le)
  have hS0 : S = 0 := by
    refine le_antisymm ?_ (Finset.sum_nonneg fun c _ => Finset.sum_nonneg fun x _ => hterm c x)
    by_contra hcon
    rw [not_le] at hcon
    have key : ∀ t : ℝ, 0 ≤ 2 * t * S + t ^ 2 * excess dE dH eps mu ω s g := fun t => by
      have := hnn _ (hlin t)
      rw [excess_add hE hH, hq', hS] at this
      linarith
    set q := excess dE dH eps mu ω s g
    have := key (-S / (|q| + 1))
    have hq1 : 0 < |q| + 1 := by positivity
    have hle : q ≤ |q| + 1 := by linarith [le_abs_self q]
    have e : 2 * (-S / (|q| + 1)) * S + (-S / (|q| + 1)) ^ 2 * q = S ^ 2 / (|q| + 1) * (q / (|q| + 1) - 2) := by field_simp; ring
    rw [e] at this
    have h1 : q / (|q| + 1) ≤ 1 := (div_le_one hq1).2 hle
    have h2 : 0 < S ^ 2 / (|q| + 1) := by positivity
    nlinarith
  intro c x
  have e1 := (Finset.sum_eq_zero_iff_of_nonneg fun c _ => Finset.sum_nonneg fun x _ => hterm c x).1 hS0 c (Finset.mem_univ _)
  have e2 := (Finset.sum_eq_zero_iff_of_nonneg fun x _ => hterm c x).1 e1 x (Finset.mem_univ _)
  have e3 := (mul_eq_zero.1 e2).resolve_left (aH c x).ne'
  exact normSq_eq_zero.1 ((div_eq_zero_iff.1 e3).resolve_right (hmu c x).ne')

/-- A trial field with no more curl energy than magnetic energy at `1/s₀` guarantees a mode at `1/s` for some `0 < s ≤ s₀`. -/
theorem exists_null {dE dH : DxList sh ℝ} (hE : ∀ a i, 0 < dE a i) (hH : ∀ a i, 0 < dH a i) {eps mu : Fin 3 → Arr sh ℝ} (heps : ∀ c x, 0 < eps c x)
    (hmu : ∀ c x, 0 < mu c x) (ω : ℝ) {s₀ : ℝ} (hs₀ : 0 < s₀) {H₀ : Fin 3 → Arr sh ℂ} (h0 : H₀ ≠ 0) (hd0 : ∀ x, sdiv dE s₀ (fun c x => mu c x * H₀ c x) x = 0)
    (hq0 : excess dE dH eps mu ω s₀ H₀ ≤ 0) :
    ∃ s H, 0 < s ∧ s ≤ s₀ ∧ H ≠ 0 ∧ (∀ x, sdiv dE s (fun c x => mu c x * H c x) x = 0) ∧ ∀ c x, rest dE dH eps mu ω s H c x = 0 := by
  have aE : ∀ c x, 0 < areaE dE dH c x := fun c x => Finset.prod_pos fun a _ => by split <;> simp [hE, hH]
  let Z : Set (ℝ × (Fin 3 → Arr sh ℂ)) := (Set.Icc 0 s₀ ×ˢ Metric.sphere 0 1) ∩
    ({p | ∀ x, sdiv dE p.1 (fun c x => mu c x * p.2 c x) x = 0} ∩ {p | excess dE dH eps mu ω p.1 p.2 ≤ 0})
  have hZ : IsCompact Z := by
    refine (isCompact_Icc.prod (isCompact_sphere _ _)).inter_right (IsClosed.inter ?_ ?_)
    · rw [Set.ofPred_forall]
      exact isClosed_iInter fun x => isClosed_eq (continuous_sdiv dE mu x) continuous_const
    · exact isClosed_le (continuous_excess dE dH eps mu ω) continuous_const
  have unit : ∀ (s : ℝ) (H : Fin 3 → Arr sh ℂ), 0 ≤ s → s ≤ s₀ → H ≠ 0 → (∀ x, sdiv dE s (fun c x => mu c x * H c x) x = 0) → excess dE dH eps mu ω s H ≤ 0 →
      ∃ G, (s, G) ∈ Z := by
    intro s H h1 h2 h3 h4 h5
    have hn : ‖H‖ ≠ 0 := norm_ne_zero_iff.2 h3
    refine ⟨fun c x => ((‖H‖⁻¹ : ℝ) : ℂ) * H c x, ⟨⟨h1, h2⟩, ?_⟩, fun x => ?_, ?_⟩
    · rw [mem_sphere_zero_iff_norm]
      have : (fun c x => ((‖H‖⁻¹ : ℝ) : ℂ) * H c x) = ‖H‖⁻¹ • H := by
        funext c x; simp [Complex.real_smul]
      rw [this, norm_smul, norm_inv, norm_norm, inv_mul_cancel₀ hn]
    · show sdiv dE s (fun c x => mu c x * (((‖H‖⁻¹ : ℝ) : ℂ) * H c x)) x = 0
      rw [sdiv_smul, h4, mul_zero]
    · show excess dE dH eps mu ω s (fun c x => ((‖H‖⁻¹ : ℝ) : ℂ) * H c x) ≤ 0
      rw [excess_smul]
      exact mul_nonpos_of_nonneg_of_nonpos (sq_nonneg _) h5
  have hne : Z.Nonempty := by
    obtain ⟨G, hG⟩ := unit s₀ H₀ hs₀.le le_rfl h0 hd0 hq0
    exact ⟨_, hG⟩
  obtain ⟨⟨s, H⟩, hm, hmin⟩ := hZ.exists_isMinOn hne continuous_fst.continuousOn
  obtain ⟨⟨⟨hs0, hs1⟩, hsp⟩, hdiv, hq⟩ := hm
  simp only [Set.mem_ofPred_eq] at hdiv hq hs0 hs1
  have hHne : H ≠ 0 := by
    intro h; rw [mem_sphere_zero_iff_norm] at hsp; simp [h] at hsp
  -- at `s = 0` the excess is positive
  have hspos : 0 < s := by
    refine lt_of_le_of_ne hs0 fun hs => hHne ?_
    rw [← hs] at hdiv hq
    have z2 : ∀ x, H 2 x = 0 := fun x => by
      have := hdiv x
      simp only [sdiv, ofReal_zero, zero_mul, zero_sub, neg_eq_zero, mul_eq_zero, I_ne_zero, false_or, ofReal_eq_zero] at this
      exact this.resolve_left (hmu 2 x).ne'
    have hterm : ∀ c x, 0 ≤ areaE dE dH c x * (normSq (scurlB dH 0 H c x) / eps c x) := fun c x =>
      mul_nonneg (aE c x).le (div_nonneg (normSq_nonneg _) (heps c x).le)
    have hz : ∀ c x, areaE dE dH c x * (normSq (scurlB dH 0 H c x) / eps c x) = 0 := by
      have hq' : ∑ c, ∑ x, areaE dE dH c x * (normSq (scurlB dH 0 H c x) / eps c x) ≤ 0 := by
        simpa [excess] using hq
      have e := le_antisymm hq' (Finset.sum_nonneg fun c _ => Finset.sum_nonneg fun x _ => hterm c x)
      intro c x
      have e1 := (Finset.sum_eq_zero_iff_of_nonneg fun c _ => Finset.sum_nonneg fun x _ => hterm c x).1 e c (Finset.mem_univ _)
      exact (Finset.sum_eq_zero_iff_of_nonneg fun x _ => hterm c x).1 e1 x (Finset.mem_univ _)
    have hc : ∀ c x, scurlB dH 0 H c x = 0 := fun c x => by
      have := (mul_eq_zero.1 (hz c x)).resolve_left (aE c x).ne'
      exact normSq_eq_zero.1 ((div_eq_zero_iff.1 this).resolve_right (heps c x).ne')
    funext c x
    revert c
    refine Fin.forall_fin_succ.2 ⟨?_, Fin.forall_fin_succ.2 ⟨?_, Fin.forall_fin_succ.2 ⟨z2 x, fun i => i.elim0⟩⟩⟩
    · have := hc 1 x; simpa [scurlB] using this
    · have := hc 0 x; simpa [scurlB] using this
  -- below `s` the excess is positive
  have hpos : ∀ t, 0 ≤ t → t < s → ∀ G : Fin 3 → Arr sh ℂ, (∀ x, sdiv dE t (fun c x => mu c x * G c x) x = 0) → 0 ≤ excess dE dH eps mu ω t G := by
    intro t ht0 hts G hG
    by_contra hcon
    by_cases hG0 : G = 0
    · apply hcon
      rw [hG0]
      have := excess_smul dE dH eps mu ω t 0 0
      simp only [ofReal_zero, zero_mul] at this
      have e : excess dE dH eps mu ω t 0 = 0 := by
        rw [show (0 : Fin 3 → Arr sh ℂ) = fun c x => 0 from rfl, this]; ring
      rw [e]
    · obtain ⟨G', hG'⟩ := unit t G ht0 (hts.le.trans hs1) hG0 hG (not_le.1 hcon).le
      exact absurd (hmin hG') (not_le.2 hts)
  have hnn : ∀ G : Fin 3 → Arr sh ℂ, (∀ x, sdiv dE s (fun c x => mu c x * G c x) x = 0) → 0 ≤ excess dE dH eps mu ω s G := by
    intro G hG
    exact excess_limit hspos hpos G hG
  have hq' : excess dE dH eps mu ω s H = 0 := le_antisymm hq (hnn H hdiv)
  refine ⟨s, H, hspos, hs1, hHne, hdiv, ?_⟩
  exact excess_stationary hE hH hmu hnn hdiv hq'

/-! ### Modes of the library -/

/-- Lossless medium without gain or loss and with positive constants. -/
def Lossless (eps : V 3 sh) : Prop := ∀ p, (eps p).im = 0 ∧ 0 < (eps p).re

/-- Electric energy of a field in a cross-section (times 2): `∫ ε |E|² dA`. -/
noncomputable def elecEnergy (dE dH : DxList sh ℝ) (eps e : V 3 sh) : ℝ := ∑ c, ∑ x, areaE dE dH c x * ((eps (c, x)).re * normSq (e (c, x)))
/-- Magnetic energy of a field in a cross-section (times 2): `∫ μ |H|² dA`. -/
noncomputable def magEnergy (dE dH : DxList sh ℝ) (mu h : V 3 sh) : ℝ := ∑ c, ∑ x, areaH dE dH c x * ((mu (c, x)).re * normSq (h (c, x)))

theorem Lossless.eq {eps : V 3 sh} (h : Lossless eps) (p) : (((eps p).re : ℝ) : ℂ) = eps p := Complex.ext (by simp) (by simp [(h p).1])
theorem Lossless.ne {eps : V 3 sh} (h : Lossless eps) (p) : eps p ≠ 0 := by rw [← h.eq p]; exact ofReal_ne_zero.2 (h p).2.ne'

theorem curlH_scurl {β : ℝ} (hβ : β ≠ 0) (dE dH : DxList sh ℝ) (h : V 3 sh) (c : Fin 3) (x : Idx sh) :
    (curlH β (cw dE, cw dH) *ᵥ h) (c, x) = β * scurlB dH β⁻¹ (fld h) c x := by
  have hb : (β : ℂ) ≠ 0 := ofReal_ne_zero.2 hβ
  revert c
  refine Fin.forall_fin_succ.2 ⟨?_, Fin.forall_fin_succ.2 ⟨?_, Fin.forall_fin_succ.2 ⟨?_, fun i => i.elim0⟩⟩⟩
  · rw [curlH_0, ← gradBack_bw]
    simp only [scurlB, Matrix.cons_val_zero, ofReal_inv, fld]
    show gradBack (some (cw dH)) (fld h 2) 1 x - _ = _
    field_simp; ring
  · show (curlH β (cw dE, cw dH) *ᵥ h) (1, x) = β * scurlB dH β⁻¹ (fld h) 1 x
    rw [curlH_1, ← gradBack_bw]
    simp only [scurlB, Matrix.cons_val_one, ofReal_inv, fld, Matrix.cons_val]
    show _ - gradBack (some (cw dH)) (fld h 2) 0 x = _
    field_simp
  · show (curlH β (cw dE, cw dH) *ᵥ h) (2, x) = β * scurlB dH β⁻¹ (fld h) 2 x
    rw [curlH_2, ← gradBack_bw, ← gradBack_bw]
    simp only [scurlB, ofReal_inv, fld, Matrix.cons_val]
    show gradBack (some (cw dH)) (fld h 1) 0 x - gradBack (some (cw dH)) (fld h 0) 1 x = _
    field_simp

/-- The excess of the rescaled problem is the difference of the energies of the fields that `h2e` makes. -/
theorem excess_energy {β ω : ℝ} (hβ : β ≠ 0) (hω : ω ≠ 0) (dE dH : DxList sh ℝ) {eps mu : V 3 sh} (heps : Lossless eps) (h : V 3 sh) :
    excess dE dH (fun c x => (eps (c, x)).re) (fun c x => (mu (c, x)).re) ω β⁻¹ (fld h)
      = (β⁻¹) ^ 2 * ω ^ 2 * (elecEnergy dE dH eps (h2e β ω (cw dE, cw dH) eps *ᵥ h) - magEnergy dE dH mu h) := by
  simp only [excess, elecEnergy, magEnergy, ← Finset.sum_sub_distrib, Finset.mul_sum]
  refine Finset.sum_congr rfl fun c _ => Finset.sum_congr rfl fun x _ => ?_
  have hp := (heps (c, x)).2
  rw [h2e_mulVec, curlH_scurl hβ, ← heps.eq (c, x)]
  simp only [normSq_div, normSq_mul, normSq_I, normSq_ofReal, ofReal_re, fld]
  field_simp

theorem sdiv_hxy2h {β : ℝ} (hβ : β ≠ 0) (dE dH : DxList sh ℝ) {mu : Option (V 3 sh)} (hmu : Lossless (mu.getD 1)) (v : V 2 sh) (x : Idx sh) :
    sdiv dE β⁻¹ (fun c x => (((mu.getD 1 (c, x)).re : ℝ) : ℂ) * fld (hxy2h β (cw dE, cw dH) mu *ᵥ v) c x) x = 0 := by
  have hb : (β : ℂ) ≠ 0 := ofReal_ne_zero.2 hβ
  have h2 := hxy2h_2 (β : ℂ) (cw dE, cw dH) mu v x
  have hm := hmu.ne (2, x)
  simp only [sdiv, hmu.eq, fld, hxy2h_0, hxy2h_1]
  rw [h2, ← gradForward_fw, ← gradForward_fw, ofReal_inv]
  have hI := I_ne_zero
  field_simp
  ring

theorem isMode_of_rest {s ω : ℝ} (hs : s ≠ 0) (hω : ω ≠ 0) (dE dH : DxList sh ℝ) {eps mu : V 3 sh} (heps : Lossless eps) (hmu : Lossless mu) (H : Fin 3 → Arr sh ℂ)
    (h : ∀ c x, rest dE dH (fun c x => (eps (c, x)).re) (fun c x => (mu (c, x)).re) ω s H c x = 0) :
    IsMode ((s⁻¹ : ℝ) : ℂ) ω (cw dE) (cw dH) (fld eps) (fld mu) (fun c x => scurlB dH s H c x / (s * (I * ω * eps (c, x)))) H := by
  have hsc : (s : ℂ) ≠ 0 := ofReal_ne_zero.2 hs
  have hwc : (ω : ℂ) ≠ 0 := ofReal_ne_zero.2 hω
  have hI := I_ne_zero
  set u : Fin 3 → Arr sh ℂ := fun c x => scurlB dH s H c x / (((eps (c, x)).re : ℝ) : ℂ) with hu
  have hE : (fun c x => scurlB dH s H c x / (s * (I * ω * eps (c, x)))) = fun c x => (1 / (s * (I * ω))) * u c x := by
    funext c x
    have := heps.ne (c, x)
    simp only [hu, heps.eq]; field_simp
  have hg : ∀ c a x, gradForward (some (cw dE)) (fun y => (1 / (s * (I * ω))) * u c y) a x = (1 / (s * (I * ω))) * gradForward (some (cw dE)) (u c) a x := fun c a x => by
    simp only [gradForward]; ring
  have k : ∀ c x, scurlF dE s u c x = s ^ 2 * ω ^ 2 * (mu (c, x) * H c x) := fun c x => by
    have := sub_eq_zero.1 (h c x)
    rw [hmu.eq] at this
    exact this
  have amp : ∀ c x, I * ω * fld eps c x * ((1 / (s * (I * ω))) * u c x) = scurlB dH s H c x / s := fun c x => by
    have := heps.ne (c, x)
    simp only [hu, heps.eq, fld]; field_simp
  rw [hE]
  refine ⟨fun x => ?_, fun x => ?_, fun x => ?_, fun x => ?_, fun x => ?_, fun x => ?_⟩
  · have := k 0 x
    simp only [scurlF, Matrix.cons_val_zero] at this
    rw [hg, ofReal_inv]
    simp only [fld]
    field_simp
    linear_combination this + (s ^ 2 * ω ^ 2 * (mu (0, x) * H 0 x) : ℂ) * I_sq
  · have := k 1 x
    simp only [scurlF, Matrix.cons_val_one, Matrix.cons_val] at this
    rw [hg, ofReal_inv]
    simp only [fld]
    field_simp
    linear_combination this + (s ^ 2 * ω ^ 2 * (mu (1, x) * H 1 x) : ℂ) * I_sq
  · have := k 2 x
    simp only [scurlF, Matrix.cons_val] at this
    rw [hg, hg]
    simp only [fld]
    field_simp
    refine mul_left_cancel₀ hsc ?_
    linear_combination this + (s ^ 2 * ω ^ 2 * (mu (2, x) * H 2 x) : ℂ) * I_sq
  · rw [amp, ofReal_inv]
    simp only [scurlB, Matrix.cons_val_zero]
    field_simp; ring
  · rw [amp, ofReal_inv]
    simp only [scurlB, Matrix.cons_val_one, Matrix.cons_val]
    field_simp
  · rw [amp]
    simp only [scurlB, Matrix.cons_val]
    field_simp

theorem eigenvalues_of_mode {β ω : ℝ} (hβ : β ≠ 0) (hω : ω ≠ 0) (dE dH : DxList sh ℝ) (eps : V 3 sh) (mu : Option (V 3 sh)) (heps : ∀ p, eps p ≠ 0)
    (hmu : ∀ p, mu.getD 1 p ≠ 0) {E H : Fin 3 → Arr sh ℂ} (hH : H ≠ 0) (m : IsMode β ω (cw dE) (cw dH) (fld eps) (fld (mu.getD 1)) E H) :
    IsEigenvalue (operatorE ω (cw dE, cw dH) eps mu) ((β : ℂ) ^ 2) ∧ IsEigenvalue (operatorH ω (cw dE, cw dH) eps mu) ((β : ℂ) ^ 2) := by
  have hb : (β : ℂ) ≠ 0 := ofReal_ne_zero.2 hβ
  have hw : (ω : ℂ) ≠ 0 := ofReal_ne_zero.2 hω
  have hh : (fun p : Fin 3 × Idx sh => H p.1 p.2) ≠ 0 := fun h0 => hH (funext fun c => funext fun x => congrFun h0 (c, x))
  obtain ⟨-, h2, -, -, h5, -⟩ := C41_mode_gives_eigenvectors (β : ℂ) ω hb hw (cw dE, cw dH) eps mu heps hmu (fun p => E p.1 p.2) (fun p => H p.1 p.2) m
  have e : IsEigenvalue (operatorH ω (cw dE, cw dH) eps mu) ((β : ℂ) ^ 2) := by
    refine ⟨_, fun h0 => hh ?_, h2⟩
    rw [← h5, h0, mulVec_zero]
  exact ⟨(C41_same_spectrum (β : ℂ) ω hb hw (cw dE, cw dH) eps mu heps hmu).2 e, e⟩

/-- **C121.** A variational principle for the largest wavenumber: complete any transverse magnetic trial field with `hxy2h` and `hxy2e` at some `β₀ > 0`. If
the electric energy of these fields does not exceed their magnetic energy, the waveguide has a guided mode with a wavenumber of at least `β₀`. -/
theorem C121_trial {β₀ ω : ℝ} (hβ₀ : 0 < β₀) (hω : ω ≠ 0) {dE dH : DxList sh ℝ} (hE : ∀ a i, 0 < dE a i) (hH : ∀ a i, 0 < dH a i) (eps : V 3 sh)
    (mu : Option (V 3 sh)) (heps : Lossless eps) (hmu : Lossless (mu.getD 1)) (v : V 2 sh) (hv : v ≠ 0)
    (hen : elecEnergy dE dH eps (hxy2e β₀ ω (cw dE, cw dH) eps mu *ᵥ v) ≤ magEnergy dE dH (mu.getD 1) (hxy2h β₀ (cw dE, cw dH) mu *ᵥ v)) :
    ∃ β : ℝ, β₀ ≤ β ∧ IsEigenvalue (operatorE ω (cw dE, cw dH) eps mu) ((β : ℂ) ^ 2) ∧ IsEigenvalue (operatorH ω (cw dE, cw dH) eps mu) ((β : ℂ) ^ 2) := by
  set h := hxy2h (β₀ : ℂ) (cw dE, cw dH) mu *ᵥ v with hh
  have h0 : fld h ≠ 0 := fun h0 => hv (by
    funext p
    obtain ⟨c, x⟩ := p
    revert c
    refine Fin.forall_fin_two.2 ⟨?_, ?_⟩
    · rw [← hxy2h_0 (β₀ : ℂ) (cw dE, cw dH) mu v x]; exact congrFun (congrFun h0 0) x
    · rw [← hxy2h_1 (β₀ : ℂ) (cw dE, cw dH) mu v x]; exact congrFun (congrFun h0 1) x)
  have hq : excess dE dH (fun c x => (eps (c, x)).re) (fun c x => (mu.getD 1 (c, x)).re) ω β₀⁻¹ (fld h) ≤ 0 := by
    rw [excess_energy hβ₀.ne' hω dE dH heps]
    rw [hxy2e, ← mulVec_mulVec] at hen
    exact mul_nonpos_of_nonneg_of_nonpos (by positivity) (by linarith)
  obtain ⟨s, H, hs, hs1, hne, -, hr⟩ := exists_null hE hH (fun c x => (heps (c, x)).2) (fun c x => (hmu (c, x)).2) ω (inv_pos.2 hβ₀) h0
    (sdiv_hxy2h hβ₀.ne' dE dH hmu v) hq
  refine ⟨s⁻¹, ?_, eigenvalues_of_mode (inv_ne_zero hs.ne') hω dE dH eps mu heps.ne hmu.ne hne (isMode_of_rest hs.ne' hω dE dH heps hmu H hr)⟩
  rw [le_inv_comm₀ hβ₀ hs]; exact hs1

/-- **C121.** Adding dielectric (raising `ε` in any cells, for any components) never lowers the largest wavenumber: for every guided mode of the
old waveguide the new one has a guided mode with the same or a larger wavenumber. -/
theorem C121_monotone {β₀ ω : ℝ} (hβ₀ : 0 < β₀) (hω : ω ≠ 0) {dE dH : DxList sh ℝ} (hE : ∀ a i, 0 < dE a i) (hH : ∀ a i, 0 < dH a i) (eps eps' : V 3 sh)
    (mu : Option (V 3 sh)) (heps : Lossless eps) (heps' : Lossless eps') (hle : ∀ p, (eps p).re ≤ (eps' p).re) (hmu : Lossless (mu.getD 1))
    (h : IsEigenvalue (operatorE ω (cw dE, cw dH) eps mu) ((β₀ : ℂ) ^ 2)) :
    ∃ β : ℝ, β₀ ≤ β ∧ IsEigenvalue (operatorE ω (cw dE, cw dH) eps' mu) ((β : ℂ) ^ 2) ∧ IsEigenvalue (operatorH ω (cw dE, cw dH) eps' mu) ((β : ℂ) ^ 2) := by
  have hb : (β₀ : ℂ) ≠ 0 := ofReal_ne_zero.2 hβ₀.ne'
  have hw : (ω : ℂ) ≠ 0 := ofReal_ne_zero.2 hω
  obtain ⟨v, hv, he⟩ := (C41_same_spectrum (β₀ : ℂ) ω hb hw (cw dE, cw dH) eps mu heps.ne hmu.ne).1 h
  refine C121_trial hβ₀ hω hE hH eps' mu heps' hmu v hv ?_
  have m := C40_is_mode (β₀ : ℂ) ω hb hw (cw dE, cw dH) eps mu heps.ne hmu.ne v he
  have eq := C96_equipartition hω (fun a i => (hE a i).ne') (fun a i => (hH a i).ne') m (ofReal_im _)
  have aE : ∀ c x, 0 < areaE dE dH c x := fun c x => Finset.prod_pos fun a _ => by split <;> simp [hE, hH]
  have e1 : elecEnergy dE dH eps (hxy2e β₀ ω (cw dE, cw dH) eps mu *ᵥ v) = magEnergy dE dH (mu.getD 1) (hxy2h β₀ (cw dE, cw dH) mu *ᵥ v) := by
    simp only [elecEnergy, magEnergy]
    simp only [fld] at eq
    refine Eq.trans ?_ (eq.trans ?_)
    · exact Finset.sum_congr rfl fun c _ => Finset.sum_congr rfl fun x _ => by ring
    · exact Finset.sum_congr rfl fun c _ => Finset.sum_congr rfl fun x _ => by ring
  rw [← e1]
  refine Finset.sum_le_sum fun c _ => Finset.sum_le_sum fun x _ => mul_le_mul_of_nonneg_left ?_ (aE c x).le
  rw [hxy2e, hxy2e, ← mulVec_mulVec, ← mulVec_mulVec, h2e_mulVec, h2e_mulVec, ← heps.eq (c, x), ← heps'.eq (c, x)]
  simp only [normSq_div, normSq_mul, normSq_I, normSq_ofReal, ofReal_re]
  have p1 := (heps (c, x)).2
  have p2 := (heps' (c, x)).2
  have l := hle (c, x)
  have hN := normSq_nonneg ((curlH (β₀ : ℂ) (cw dE, cw dH) *ᵥ hxy2h β₀ (cw dE, cw dH) mu *ᵥ v) (c, x))
  generalize normSq ((curlH (β₀ : ℂ) (cw dE, cw dH) *ᵥ hxy2h β₀ (cw dE, cw dH) mu *ᵥ v) (c, x)) = N at hN ⊢
  generalize (eps (c, x)).re = a at p1 l ⊢
  generalize (eps' (c, x)).re = b at p2 l ⊢
  have e1 : ∀ a : ℝ, 0 < a → a * (N / (1 * (ω * ω) * (a * a))) = N / (ω * ω) * a⁻¹ := fun a ha => by field_simp
  rw [e1 a p1, e1 b p2]
  exact mul_le_mul_of_nonneg_left (inv_anti₀ p1 l) (div_nonneg hN (mul_self_nonneg _))

/-- Uniform transverse trial field along `a`. -/
def uniformField (a : Fin 2) : V 2 sh := fun p => if p.1 = a then 1 else 0

theorem uniform_energy {β ω : ℝ} (hω : ω ≠ 0) (dE dH : DxList sh ℝ) (eps : V 3 sh) (heps : Lossless eps) (a : Fin 2) :
    elecEnergy dE dH eps (hxy2e β ω (cw dE, cw dH) eps none *ᵥ uniformField a) = β ^ 2 / ω ^ 2 * ∑ x, areaE dE dH (a + 1 : Fin 2).castSucc x / (eps ((a + 1 : Fin 2).castSucc, x)).re ∧
    magEnergy dE dH (Option.getD none 1) (hxy2h β (cw dE, cw dH) none *ᵥ uniformField a) = ∑ x, areaE dE dH (a + 1 : Fin 2).castSucc x := by
  have z2 : ∀ x, (hxy2h (β : ℂ) (cw dE, cw dH) none *ᵥ uniformField a) (2, x) = 0 := fun x => by
    rw [hxy2h_2, ← gradForward_fw, ← gradForward_fw]
    fin_cases a <;> simp [gradForward, uniformField]
  have hc : ∀ c x, normSq ((curlH (β : ℂ) (cw dE, cw dH) *ᵥ hxy2h β (cw dE, cw dH) none *ᵥ uniformField a) (c, x)) = if c = (a + 1 : Fin 2).castSucc then β ^ 2 else 0 := by
    intro c x
    revert c
    refine Fin.forall_fin_succ.2 ⟨?_, Fin.forall_fin_succ.2 ⟨?_, Fin.forall_fin_succ.2 ⟨?_, fun i => i.elim0⟩⟩⟩
    · rw [curlH_0, ← gradBack_bw, hxy2h_1]
      simp only [gradBack, part, z2]
      fin_cases a <;> simp [uniformField, normSq_mul, pow_two]
    · show normSq ((curlH (β : ℂ) (cw dE, cw dH) *ᵥ _) (1, x)) = _
      rw [curlH_1, ← gradBack_bw, hxy2h_0]
      simp only [gradBack, part, z2]
      fin_cases a <;> simp [uniformField, normSq_mul, pow_two]
    · show normSq ((curlH (β : ℂ) (cw dE, cw dH) *ᵥ _) (2, x)) = _
      rw [curlH_2, ← gradBack_bw, ← gradBack_bw]
      simp only [gradBack, part, hxy2h_0, hxy2h_1]
      fin_cases a <;> simp [uniformField]
  constructor
  · rw [hxy2e, ← mulVec_mulVec]
    simp only [elecEnergy, h2e_mulVec, normSq_div, hc]
    rw [Finset.sum_eq_single (a + 1 : Fin 2).castSucc (fun c _ hne => by simp [hne]) (by simp), Finset.mul_sum]
    refine Finset.sum_congr rfl fun x _ => ?_
    have hp := (heps ((a + 1 : Fin 2).castSucc, x)).2
    rw [if_pos rfl, ← heps.eq]
    simp only [normSq_mul, normSq_I, normSq_ofReal, ofReal_re]
    field_simp
  · have hz : ∀ c x, normSq ((hxy2h (β : ℂ) (cw dE, cw dH) none *ᵥ uniformField a) (c, x)) = if c = a.castSucc then 1 else 0 := by
      intro c x
      revert c
      refine Fin.forall_fin_succ.2 ⟨?_, Fin.forall_fin_succ.2 ⟨?_, Fin.forall_fin_succ.2 ⟨?_, fun i => i.elim0⟩⟩⟩
      · rw [hxy2h_0]; fin_cases a <;> simp [uniformField]
      · show normSq ((hxy2h (β : ℂ) (cw dE, cw dH) none *ᵥ uniformField a) (1, x)) = _
        rw [hxy2h_1]; fin_cases a <;> simp [uniformField]
      · show normSq ((hxy2h (β : ℂ) (cw dE, cw dH) none *ᵥ uniformField a) (2, x)) = _
        rw [z2]; fin_cases a <;> simp
    simp only [magEnergy, hz, Option.getD_none, Pi.one_apply, one_re, one_mul]
    rw [Finset.sum_eq_single a.castSucc (fun c _ hne => by simp [hne]) (by simp)]
    refine Finset.sum_congr rfl fun x _ => ?_
    rw [if_pos rfl, mul_one]
    fin_cases a
    · exact (areaH_0 dE dH x).trans (areaE_1 dE dH x).symm
    · exact (areaH_1 dE dH x).trans (areaE_0 dE dH x).symm

theorem le_nthEig {ι : Type} [Fintype ι] [DecidableEq ι] {A : Matrix ι ι ℂ} {lam : ℂ} (h : IsEigenvalue A lam) : lam.re ≤ nthEig A 0 := by
  obtain ⟨v, hv, he⟩ := h
  have hm := eig_mem_roots hv he
  have hm' : lam.re ∈ (A.charpoly.roots.map Complex.re).sort (· ≥ ·) := (Multiset.mem_sort _).2 (Multiset.mem_map_of_mem _ hm)
  have hs : ((A.charpoly.roots.map Complex.re).sort (· ≥ ·)).Pairwise (· ≥ ·) := Multiset.pairwise_sort _ _
  rw [nthEig]
  generalize (A.charpoly.roots.map Complex.re).sort (· ≥ ·) = l at hm' hs
  cases l with
  | nil => simp at hm'
  | cons a l =>
    rw [List.getD_cons_zero]
    rcases List.mem_cons.1 hm' with rfl | h
    · exact le_rfl
    · exact (List.pairwise_cons.1 hs).1 _ h

/-- **C121.** Every lossless non-magnetic cross-section guides a mode, whose squared effective index is at least the harmonic mean (over the area) of `ε` in either
transverse direction. -/
theorem C121_harmonic_mean (hsh : ∀ a, 0 < sh a) {ω : ℝ} (hω : ω ≠ 0) {dE dH : DxList sh ℝ} (hE : ∀ a i, 0 < dE a i) (hH : ∀ a i, 0 < dH a i) (eps : V 3 sh)
    (heps : Lossless eps) (c : Fin 2) :
    ∃ β : ℝ, 0 < β ∧ ω ^ 2 * ∑ x, areaE dE dH c.castSucc x ≤ β ^ 2 * ∑ x, areaE dE dH c.castSucc x / (eps (c.castSucc, x)).re ∧
      IsEigenvalue (operatorE ω (cw dE, cw dH) eps none) ((β : ℂ) ^ 2) ∧ IsEigenvalue (operatorH ω (cw dE, cw dH) eps none) ((β : ℂ) ^ 2) := by
  have aE : ∀ c x, 0 < areaE dE dH c x := fun c x => Finset.prod_pos fun a _ => by split <;> simp [hE, hH]
  let x₀ : Idx sh := fun a => ⟨0, hsh a⟩
  have hne : (Finset.univ : Finset (Idx sh)).Nonempty := ⟨x₀, Finset.mem_univ _⟩
  set A := ∑ x, areaE dE dH c.castSucc x with hA
  set R := ∑ x, areaE dE dH c.castSucc x / (eps (c.castSucc, x)).re with hR
  have hA0 : 0 < A := Finset.sum_pos (fun x _ => aE _ x) hne
  have hR0 : 0 < R := Finset.sum_pos (fun x _ => div_pos (aE _ x) (heps _).2) hne
  have hw2 : 0 < ω ^ 2 := by positivity
  set β₀ := √(ω ^ 2 * A / R) with hb
  have hb0 : 0 < β₀ := Real.sqrt_pos.2 (by positivity)
  have hb2 : β₀ ^ 2 = ω ^ 2 * A / R := Real.sq_sqrt (by positivity)
  have hc : (c + 1 + 1 : Fin 2) = c := by fin_cases c <;> rfl
  obtain ⟨e1, e2⟩ := uniform_energy (β := β₀) hω dE dH eps heps (c + 1)
  rw [hc] at e1 e2
  have hmu : Lossless (sh := sh) (Option.getD none 1) := fun p => by simp
  obtain ⟨β, h1, h2⟩ := C121_trial hb0 hω hE hH eps none heps hmu (uniformField (c + 1)) (fun h0 => by
    have := congrFun h0 (c + 1, x₀)
    simp [uniformField] at this) (by
    rw [e1, e2, hb2, ← hA, ← hR]
    exact le_of_eq (by field_simp))
  refine ⟨β, hb0.trans_le h1, ?_, h2⟩
  have h3 : β₀ ^ 2 ≤ β ^ 2 := pow_le_pow_left₀ hb0.le h1 2
  rw [hb2, div_le_iff₀ hR0] at h3
  exact h3

/-- **C121.** The first mode (largest eigenvalue, `mode_number=0`) of every lossless non-magnetic cross-section is a propagating one, and some mode has an effective index between the lowest and the highest index of the materials. -/
theorem C121_fundamental (hsh : ∀ a, 0 < sh a) {ω : ℝ} (hω : ω ≠ 0) {dE dH : DxList sh ℝ} (hE : ∀ a i, 0 < dE a i) (hH : ∀ a i, 0 < dH a i) (eps : V 3 sh)
    {emin emax : ℝ} (hmin : 0 < emin) (heps : ∀ p, (eps p).im = 0 ∧ emin ≤ (eps p).re ∧ (eps p).re ≤ emax) :
    ω ^ 2 * emin ≤ nthEig (operatorE ω (cw dE, cw dH) eps none) 0 ∧
    ∃ β : ℝ, 0 < β ∧ ω ^ 2 * emin ≤ β ^ 2 ∧ β ^ 2 ≤ ω ^ 2 * emax ∧ IsEigenvalue (operatorE ω (cw dE, cw dH) eps none) ((β : ℂ) ^ 2) := by
  have hL : Lossless eps := fun p => ⟨(heps p).1, hmin.trans_le (heps p).2.1⟩
  have aE : ∀ c x, 0 < areaE dE dH c x := fun c x => Finset.prod_pos fun a _ => by split <;> simp [hE, hH]
  obtain ⟨β, hb, h1, h2, -⟩ := C121_harmonic_mean hsh hω hE hH eps hL 0
  have hlow : ω ^ 2 * emin ≤ β ^ 2 := by
    set A := ∑ x, areaE dE dH (0 : Fin 2).castSucc x with hA
    have hA0 : 0 < A := Finset.sum_pos (fun x _ => aE _ x) ⟨fun a => ⟨0, hsh a⟩, Finset.mem_univ _⟩
    have hR : ∑ x, areaE dE dH (0 : Fin 2).castSucc x / (eps ((0 : Fin 2).castSucc, x)).re ≤ A / emin := by
      rw [hA, Finset.sum_div]
      exact Finset.sum_le_sum fun x _ => div_le_div_of_nonneg_left (aE _ x).le hmin (heps _).2.1
    have h3 := h1.trans (mul_le_mul_of_nonneg_left hR (sq_nonneg β))
    rw [mul_div_assoc', le_div_iff₀ hmin] at h3
    refine le_of_mul_le_mul_right ?_ hA0
    linarith
  refine ⟨hlow.trans ?_, β, hb, hlow, ?_, h2⟩
  · have := le_nthEig h2
    rwa [← ofReal_pow, ofReal_re] at this
  · obtain ⟨v, hv, he⟩ := h2
    have := C98_index_bound hb.ne' hω hE hH eps none (m₀ := 1) (emax := emax) one_pos (fun p => by simp) (fun p => ⟨(heps p).1, hmin.trans_le (heps p).2.1, (heps p).2.2⟩) v hv he
    simpa using this

/-- The hypotheses are met by a strip of `ε = 12` in `ε = 2` on a non-uniform grid: the fundamental mode has an index between `√2` and `√12`. -/
example : ∃ β : ℝ, 0 < β ∧ 2 ≤ β ^ 2 ∧ β ^ 2 ≤ 12 ∧
    IsEigenvalue (operatorE (sh := fun _ => 2) ((1 : ℝ) : ℂ) (cw exE, cw exH) (fun p => if p.2 0 = 0 then 12 else 2) none) ((β : ℂ) ^ 2) := by
  have h := (C121_fundamental (sh := fun _ => 2) (fun _ => by norm_num) (ω := 1) one_ne_zero exE_pos exH_pos (fun p => if p.2 0 = 0 then 12 else 2) (emin := 2) (emax := 12)
    (by norm_num) (fun p => by split_ifs <;> norm_num)).2
  simpa using h

end Meanas.Props
