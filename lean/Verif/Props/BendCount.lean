/-
C140: every lossless bend guides at least two modes.
-/
import Verif.Props.BendMedium
import Verif.Props.ModeCount
import Verif.Props.WaveguideCylModes

namespace Meanas.Props

open Matrix Complex Wg2 Spec CountAux

variable {sh : Fin 2 → ℕ}

namespace BendAux

/-- Trial fields of a bend: `H_y` the same everywhere and `H_r` falling with the radius. -/
noncomputable def bendLin (dE : DxList sh ℝ) (r : ℝ) : (Fin 2 → ℂ) →ₗ[ℂ] V 2 sh where
  toFun t p := if p.1 = 0 then t 0 / (radA dE r (p.2 0) / r : ℝ) else t 1
  map_add' t u := by funext p; simp only [Pi.add_apply]; split_ifs <;> ring
  map_smul' c t := by funext p; simp only [Pi.smul_apply, smul_eq_mul, RingHom.id_apply]; split_ifs <;> ring

theorem bend_excess {dE dH : DxList sh ℝ} (hE : ∀ a i, 0 < dE a i) {r : ℝ} (hr : 0 < r) (eps mu : Fin 3 → Arr sh ℝ)
    (m0 : ∀ x, mu 0 x = radA dE r (x 0) / r) (m1 : ∀ x, mu 1 x = radB dE dH r (x 0) / r) (ω s : ℝ) (t : Fin 2 → ℂ) :
    excess dE dH eps mu ω s (liftH dE mu s (bendLin dE r t))
      = normSq (t 1) * ∑ x, areaE dE dH 0 x * (1 / eps 0 x - s ^ 2 * ω ^ 2 * (radB dE dH r (x 0) / r))
        + normSq (t 0) * ∑ x, areaE dE dH 1 x * (1 / ((radA dE r (x 0) / r) ^ 2 * eps 1 x) - s ^ 2 * ω ^ 2 / (radA dE r (x 0) / r)) := by
  have pa : ∀ i, radA dE r i / r ≠ 0 := fun i => (div_pos (radA_pos hE hr i) hr).ne'
  have l0 : ∀ x, liftH dE mu s (bendLin (sh := sh) dE r t) 0 x = t 0 / (radA dE r (x 0) / r : ℝ) := fun x => rfl
  have l1 : ∀ x, liftH dE mu s (bendLin (sh := sh) dE r t) 1 x = t 1 := fun x => rfl
  have l2 : ∀ x, liftH dE mu s (bendLin (sh := sh) dE r t) 2 x = 0 := fun x => by
    have b0 : ∀ y : Idx sh, bendLin dE r t (0, y) = t 0 / (radA dE r (y 0) / r : ℝ) := fun y => rfl
    have b1 : ∀ y : Idx sh, bendLin dE r t (1, y) = t 1 := fun y => rfl
    have q : ∀ y : Idx sh, ((radA dE r (y 0) / r : ℝ) : ℂ) * (t 0 / (radA dE r (y 0) / r : ℝ)) = t 0 := fun y =>
      mul_div_cancel₀ _ (ofReal_ne_zero.2 (pa _))
    have h : liftH dE mu s (bendLin (sh := sh) dE r t) 2 x = s * (gradForward (some (cw dE)) (fun y => (mu 0 y : ℂ) * bendLin dE r t (0, y)) 0 x
      + gradForward (some (cw dE)) (fun y => (mu 1 y : ℂ) * bendLin dE r t (1, y)) 1 x) / (I * mu 2 x) := rfl
    rw [h]
    simp only [b0, b1, m0, m1, q, gradForward, shiftIdx_of_ne (show (0 : Fin 2) ≠ 1 by decide), sub_self, zero_div, add_zero, mul_zero]
  have c0 : ∀ x, scurlB dH s (liftH dE mu s (bendLin (sh := sh) dE r t)) 0 x = I * t 1 := fun x => by
    simp [scurlB, gradBack, l1, l2]
  have c1 : ∀ x, scurlB dH s (liftH dE mu s (bendLin (sh := sh) dE r t)) 1 x = -I * (t 0 / (radA dE r (x 0) / r : ℝ)) := fun x => by
    simp [scurlB, gradBack, l0, l2]
  have c2 : ∀ x, scurlB dH s (liftH dE mu s (bendLin (sh := sh) dE r t)) 2 x = 0 := fun x => by
    have h : scurlB dH s (liftH dE mu s (bendLin (sh := sh) dE r t)) 2 x = s * (gradBack (some (cw dH)) (liftH dE mu s (bendLin dE r t) 1) 0 x
      - gradBack (some (cw dH)) (liftH dE mu s (bendLin dE r t) 0) 1 x) := rfl
    rw [h]
    simp only [gradBack, l0, l1, shiftIdx_of_ne (show (0 : Fin 2) ≠ 1 by decide), sub_self, zero_div, mul_zero]
  rw [excess, Fin.sum_univ_three]
  simp only [l0, l1, l2, c0, c1, c2, normSq_mul, normSq_div, normSq_I, normSq_neg, normSq_zero, normSq_ofReal, mul_zero, zero_div, sub_zero, Finset.sum_const_zero,
    add_zero, one_mul, m0, m1]
  have a0 : ∀ x, areaH dE dH 0 x = areaE dE dH 1 x := fun x => (areaH_0 dE dH x).trans (areaE_1 dE dH x).symm
  have a1 : ∀ x, areaH dE dH 1 x = areaE dE dH 0 x := fun x => (areaH_1 dE dH x).trans (areaE_0 dE dH x).symm
  simp only [a0, a1, Finset.mul_sum, mul_sub, ← Finset.sum_add_distrib]
  refine Finset.sum_congr rfl fun x _ => ?_
  have := pa (x 0)
  generalize radA dE r (x 0) / r = q at *
  generalize radB dE dH r (x 0) / r = q'
  field_simp
  ring

end BendAux

open BendAux

/-- **C140.** A lossless bend guides at least two modes: with `ε ≥ emin` and all radii at least `ρ`, the modes with numbers 0 and 1 of `cylindrical_operator` both have
squared angular wavenumbers of at least `ω² emin ρ²`. -/
theorem C140_second (hsh : ∀ a, 0 < sh a) {ω r : ℝ} (hω : ω ≠ 0) (hr : 0 < r) {dE dH : DxList sh ℝ} (hE : ∀ a i, 0 < dE a i) (hH : ∀ a i, 0 < dH a i) (eps : V 3 sh)
    {emin ρ : ℝ} (hmin : 0 < emin) (hρ : 0 < ρ) (heps : ∀ p, (eps p).im = 0 ∧ emin ≤ (eps p).re) (hρa : ∀ i, ρ ≤ radA dE r i) (hρb : ∀ i, ρ ≤ radB dE dH r i)
    (m : ℕ) (hm : m < 2) : ω ^ 2 * emin * ρ ^ 2 ≤ r ^ 2 * nthEig (WgCyl.cylindricalOperator ω (cw dE, cw dH) eps r) m := by
  have aE : ∀ c x, 0 < areaE dE dH c x := fun c x => Finset.prod_pos fun a _ => by split <;> simp [hE, hH]
  have hL : Lossless eps := fun p => ⟨(heps p).1, hmin.trans_le (heps p).2⟩
  let x₀ : Idx sh := fun a => ⟨0, hsh a⟩
  have hne : (Finset.univ : Finset (Idx sh)).Nonempty := ⟨x₀, Finset.mem_univ _⟩
  have hw2 : 0 < ω ^ 2 := by positivity
  have hr2 : 0 < r ^ 2 := by positivity
  rw [cyl_operatorE hE hH hr ω hL.ne]
  set ep := bendEps (cw dE, cw dH) (r : ℂ) eps with hep
  set mu := bendMu (cw dE, cw dH) (r : ℂ) (1 : V 3 sh) with hmu
  have lE : Lossless ep := (bendEps_lossless hE hH hr hL).1
  have lM : Lossless (Option.getD (some mu) 1) := (bendEps_lossless hE hH hr one_lossless).2
  have e0 : ∀ x, (ep (0, x)).re = radB dE dH r (x 0) / r * (eps (0, x)).re := fun x => by rw [hep, bendEps_0, tB_cw, re_ofReal_mul]
  have e1 : ∀ x, (ep (1, x)).re = radA dE r (x 0) / r * (eps (1, x)).re := fun x => by rw [hep, bendEps_1, tA_cw, re_ofReal_mul]
  have m0 : ∀ x, (mu (0, x)).re = radA dE r (x 0) / r := fun x => by rw [hmu, bendMu_0, tA_cw, Pi.one_apply, mul_one, ofReal_re]
  have m1 : ∀ x, (mu (1, x)).re = radB dE dH r (x 0) / r := fun x => by rw [hmu, bendMu_1, tB_cw, Pi.one_apply, mul_one, ofReal_re]
  have hinj : Function.Injective (bendLin (sh := sh) dE r) := fun t u h => by
    have h0 : t 0 / (radA dE r (x₀ 0) / r : ℝ) = u 0 / (radA dE r (x₀ 0) / r : ℝ) := congrFun h (0, x₀)
    have h1 : t 1 = u 1 := congrFun h (1, x₀)
    have hq : ((radA dE r (x₀ 0) / r : ℝ) : ℂ) ≠ 0 := ofReal_ne_zero.2 (div_pos (radA_pos hE hr _) hr).ne'
    exact funext (Fin.forall_fin_two.2 ⟨(div_left_inj' hq).1 h0, h1⟩)
  have hfin : Module.finrank ℂ (LinearMap.range (bendLin (sh := sh) dE r)) = 2 := by
    rw [LinearMap.finrank_range_of_inj hinj]; simp
  -- every smaller positive number is a bound
  suffices key : ∀ q, 0 < q → q < ω ^ 2 * emin * ρ ^ 2 / r ^ 2 → q ≤ nthEig (operatorE ω (cw dE, cw dH) ep (some mu)) m by
    have hK : 0 < ω ^ 2 * emin * ρ ^ 2 / r ^ 2 := by positivity
    have h : ω ^ 2 * emin * ρ ^ 2 / r ^ 2 ≤ nthEig (operatorE ω (cw dE, cw dH) ep (some mu)) m := by
      refine le_of_forall_lt fun q hq => ?_
      obtain ⟨q', h1, h2⟩ := exists_between (max_lt hq hK)
      exact ((le_max_left _ _).trans_lt h1).trans_le (key q' ((le_max_right _ _).trans_lt h1) h2)
    rw [div_le_iff₀ hr2] at h
    linarith
  intro q hq0 hq
  have hb0 : 0 < √q := Real.sqrt_pos.2 hq0
  have hb2 : √q ^ 2 = q := Real.sq_sqrt hq0.le
  have hsq : (√q)⁻¹ ^ 2 = q⁻¹ := by rw [inv_pow, hb2]
  rw [lt_div_iff₀ hr2] at hq
  have bound : ∀ (R e : ℝ), ρ ≤ R → emin ≤ e → 1 / ((R / r) ^ 2 * e) < q⁻¹ * ω ^ 2 := by
    intro R e hR he
    have hR0 : 0 < R := hρ.trans_le hR
    have he0 : 0 < e := hmin.trans_le he
    have h1 : emin * ρ ^ 2 ≤ e * R ^ 2 := mul_le_mul he (pow_le_pow_left₀ hρ.le hR 2) (by positivity) he0.le
    have h2 : q * r ^ 2 < ω ^ 2 * (e * R ^ 2) := by
      have := mul_le_mul_of_nonneg_left h1 hw2.le
      linarith
    rw [div_lt_iff₀ (by positivity)]
    have : q⁻¹ * ω ^ 2 * ((R / r) ^ 2 * e) = ω ^ 2 * (e * R ^ 2) / (q * r ^ 2) := by field_simp
    rw [this, lt_div_iff₀ (by positivity)]
    linarith
  have h := (C170_mode_number hb0 hω hE hH ep (some mu) lE lM (LinearMap.range (bendLin (sh := sh) dE r)) (fun v hv h0 => by
    obtain ⟨t, rfl⟩ := hv
    rw [energy_lt_iff hb0 hω dE dH lE lM, Option.getD_some, bend_excess hE hr _ _ m0 m1, hsq]
    have ht : t 0 ≠ 0 ∨ t 1 ≠ 0 := by
      by_contra hcon
      push Not at hcon
      exact h0 (by
        have : t = 0 := funext (Fin.forall_fin_two.2 hcon)
        rw [this, map_zero])
    have s0 : ∑ x, areaE dE dH 0 x * (1 / (ep (0, x)).re - q⁻¹ * ω ^ 2 * (radB dE dH r (x 0) / r)) < 0 := by
      refine Finset.sum_neg (fun x _ => mul_neg_of_pos_of_neg (aE _ _) ?_) hne
      have hb := bound _ _ (hρb (x 0)) (heps (0, x)).2
      have hq := div_pos (radB_pos hE hH hr (x 0)) hr
      have he := (hL (0, x)).2
      rw [e0]
      generalize radB dE dH r (x 0) / r = T at *
      have h2 := mul_lt_mul_of_pos_right hb hq
      have h3 : 1 / (T ^ 2 * (eps (0, x)).re) * T = 1 / (T * (eps (0, x)).re) := by field_simp
      rw [h3] at h2
      linarith
    have s1 : ∑ x, areaE dE dH 1 x * (1 / ((radA dE r (x 0) / r) ^ 2 * (ep (1, x)).re) - q⁻¹ * ω ^ 2 / (radA dE r (x 0) / r)) < 0 := by
      refine Finset.sum_neg (fun x _ => mul_neg_of_pos_of_neg (aE _ _) ?_) hne
      have hb := bound _ _ (hρa (x 0)) (heps (1, x)).2
      have hq := div_pos (radA_pos hE hr (x 0)) hr
      have he := (hL (1, x)).2
      rw [e1]
      generalize radA dE r (x 0) / r = T at *
      have h2 := div_lt_div_of_pos_right hb hq
      have h3 : 1 / (T ^ 2 * (eps (1, x)).re) / T = 1 / (T ^ 2 * (T * (eps (1, x)).re)) := by field_simp
      rw [h3] at h2
      linarith
    have n0 := normSq_nonneg (t 0)
    have n1 := normSq_nonneg (t 1)
    rcases ht with h | h
    · exact add_neg_of_nonpos_of_neg (mul_nonpos_of_nonneg_of_nonpos n1 s0.le) (mul_neg_of_pos_of_neg (normSq_pos.2 h) s1)
    · exact add_neg_of_neg_of_nonpos (mul_neg_of_pos_of_neg (normSq_pos.2 h) s0) (mul_nonpos_of_nonneg_of_nonpos n0 s1.le)) m (by rw [hfin]; exact hm)).1
  rw [hb2] at h
  exact h.le

/-- **C140.** So what `waveguide_cyl.solve_modes` returns for the mode numbers 0 and 1 of a lossless bend is always a propagating mode: the angular wavenumber is real and
at least that of a ray with the lowest index at the innermost radius. -/
theorem C140_solver (hsh : ∀ a, 0 < sh a) {ω r : ℝ} (hω : ω ≠ 0) (hr : 0 < r) {dE dH : DxList sh ℝ} (hE : ∀ a i, 0 < dE a i) (hH : ∀ a i, 0 < dH a i) (eps : V 3 sh)
    {emin ρ : ℝ} (hmin : 0 < emin) (hρ : 0 < ρ) (heps : ∀ p, (eps p).im = 0 ∧ emin ≤ (eps p).re) (hρa : ∀ i, ρ ≤ radA dE r i) (hρb : ∀ i, ρ ≤ radB dE dH r i)
    (m : ℕ) (hm : m < 2) (p : V 2 sh × ℂ) (hp : IsRequestedMode (· * (r : ℂ)) (WgCyl.cylindricalOperator ω (cw dE, cw dH) eps r) m p) :
    p.2.im = 0 ∧ 0 < p.2.re ∧ ω ^ 2 * emin * ρ ^ 2 ≤ p.2.re ^ 2 ∧ WgCyl.cylindricalOperator ω (cw dE, cw dH) eps r *ᵥ p.1 = (p.2 / r) ^ 2 • p.1 := by
  have h := C140_second hsh hω hr hE hH eps hmin hρ heps hρa hρb m hm
  have hpos : 0 < nthEig (WgCyl.cylindricalOperator ω (cw dE, cw dH) eps r) m :=
    pos_of_mul_pos_right (lt_of_lt_of_le (by positivity) h) (sq_nonneg r)
  obtain ⟨h1, h2, h3⟩ := C74_propagating_partial _ r hr m p hp hpos
  refine ⟨h3, h2, ?_, h1⟩
  have h0 : p.2 = ((√(nthEig (WgCyl.cylindricalOperator ω (cw dE, cw dH) eps r) m) : ℝ) : ℂ) * (r : ℂ) := by rw [hp.2.2, if_pos hpos]
  rw [h0, ← ofReal_mul, ofReal_re, mul_pow, Real.sq_sqrt hpos.le]
  linarith

/-- A lossless bend four cells wide with a graded core: two modes at least as fast round the bend as the innermost ray. -/
example (m : ℕ) (hm : m < 2) : (2 : ℝ) ^ 2 * 1 * 10 ^ 2 ≤ (10 : ℝ) ^ 2 * nthEig (WgCyl.cylindricalOperator (sh := fun _ => 4) (2 : ℝ) (cw fun _ _ => 1, cw fun _ _ => 1)
    (fun p => 1 + (p.2 0 : ℕ)) (10 : ℝ)) m := by
  have h1 : ∀ (a : Fin 2) (i : Fin 4), (0 : ℝ) < (fun _ _ => 1 : DxList (fun _ => 4) ℝ) a i := fun _ _ => one_pos
  have hs : ∀ i : Fin 4, (0 : ℝ) ≤ ∑ j : Fin 4, if (j : ℕ) ≤ i then (1 : ℝ) else 0 := fun i => Finset.sum_nonneg fun j _ => by split_ifs <;> norm_num
  refine C140_second (sh := fun _ => 4) (fun _ => by norm_num) two_ne_zero (by norm_num) h1 h1 _ one_pos (by norm_num) (fun p => ?_) (fun i => ?_) (fun i => ?_) m hm
  · rw [← ofReal_natCast, ← ofReal_one, ← ofReal_add]
    exact ⟨ofReal_im _, by rw [ofReal_re]; linarith [Nat.cast_nonneg (α := ℝ) (p.2 0 : ℕ)]⟩
  · have e : radA (sh := fun _ => 4) (fun _ _ => 1) 10 i = 10 + ∑ j : Fin 4, if (j : ℕ) ≤ i then (1 : ℝ) else 0 := rfl
    have := hs i
    linarith
  · have e : radB (sh := fun _ => 4) (fun _ _ => 1) (fun _ _ => 1) 10 i = 10 + 1 / 2 + ∑ j : Fin 4, if (j : ℕ) ≤ i then (1 : ℝ) else 0 := rfl
    have := hs i
    linarith

end Meanas.Props
