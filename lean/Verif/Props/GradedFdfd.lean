/-
C133: FDFD on non-uniform grids converges with second order.
-/
import Verif.Props.GradedConvergence
import Verif.Props.FdfdConvergence
import Mathlib.Analysis.SpecialFunctions.Trigonometric.Bounds

namespace Meanas.Props

open Matrix Complex OperatorsS Fdfd Spec Solvers

variable {sh : Fin 3 → ℕ}

/-- The samples of fields on a non-uniform grid as vectors. -/
noncomputable def gvE (w : DxList sh ℝ) (f : Fin 3 → Pt → ℂ) : Vec sh := fun p => gradedE w f p.1 p.2
noncomputable def gvH (w : DxList sh ℝ) (f : Fin 3 → Pt → ℂ) : Vec sh := fun p => gradedH w f p.1 p.2

/-- Sums over the cells of fields that are small everywhere. -/
theorem graded_sum {w : DxList sh ℝ} (hw : ∀ a i, 0 < w a i) (hm : ∀ a i, 0 < midWidth w a i) (f : Pos sh → ℝ) {B : ℝ} (hf : ∀ p, f p ≤ B) :
    ∑ p : Pos sh, volE w (midWidth w) p.1 p.2 * f p ≤ 3 * (∏ a, boxLen w a) * B ∧ ∑ p : Pos sh, Spec.volH w (midWidth w) p.1 p.2 * f p ≤ 3 * (∏ a, boxLen w a) * B := by
  have hpos : PosGrid (w, midWidth w) := ⟨hw, hm⟩
  constructor
  · refine (Finset.sum_le_sum fun p _ => mul_le_mul_of_nonneg_left (hf p) (hpos.vol p.1 p.2).le).trans (le_of_eq ?_)
    rw [← Finset.sum_mul, Fintype.sum_prod_type]
    simp only [(sum_vol w _).1, Finset.sum_const, Finset.card_univ, Fintype.card_fin, nsmul_eq_mul]
    push_cast; ring
  · refine (Finset.sum_le_sum fun p _ => mul_le_mul_of_nonneg_left (hf p) (hpos.volH p.1 p.2).le).trans (le_of_eq ?_)
    rw [← Finset.sum_mul, Fintype.sum_prod_type]
    simp only [(sum_vol w _).2, Finset.sum_const, Finset.card_univ, Fintype.card_fin, nsmul_eq_mul]
    push_cast; ring

/-- C133: explicit error bound for FDFD on a non-uniform grid. -/
theorem C133_fdfd_error {w : DxList sh ℝ} (hw : ∀ a i, 0 < w a i) {h : Pt} (hh : ∀ a i, w a i ≤ h a) {ω : ℝ} (hω : ω ≠ 0) {ε : Fin 3 → Pt → ℂ}
    {μ : Fin 3 → Pt → ℝ} {δ ε' κ κ' : ℝ} (hδ : 0 < δ) (hε' : 0 ≤ ε') (hκ : 0 < κ) (hloss : (∀ c r, (ε c r).im ≤ -δ) ∨ ∀ c r, δ ≤ (ε c r).im)
    (hre : ∀ c r, |(ε c r).re| ≤ ε') (hμ : ∀ c r, κ ≤ μ c r ∧ μ c r ≤ κ') {J E H : Fin 3 → Pt → ℂ} {M : ℝ}
    (hsol : HarmonicSolution (boxLen w) ω ε μ J E H M) (hsec : ∀ c, Second M (H c)) (E₁ : Vec sh)
    (hE₁ : eFull ω (cDx (w, midWidth w)) (gvE w ε) (realMu (some fun p => gradedH w μ p.1 p.2)) none none *ᵥ E₁ = (-I * ω) • gvE w J) :
    let K := 1 / (ω ^ 2 * δ) + 1 + ε' / δ
    let V := ∏ a, boxLen w a
    let S := M * (1 / 4 + |ω| * κ' / 8) * ∑ a, h a ^ 2
    let H₁ := e2h ω (cDx (w, midWidth w)) (realMu (some fun p => gradedH w μ p.1 p.2)) none *ᵥ E₁
    ∑ p : Pos sh, volE w (midWidth w) p.1 p.2 * ‖E₁ p - gvE w E p‖ ^ 2 ≤ K ^ 2 * (3 * V * (ω ^ 2 + 1 / κ) * S ^ 2) ∧
    ∑ p : Pos sh, Spec.volH w (midWidth w) p.1 p.2 * (gradedH w μ p.1 p.2 * ‖H₁ p - gvH w H p‖ ^ 2)
      ≤ 4 / ω ^ 2 * (K ^ 2 * (3 * V * (ω ^ 2 + 1 / κ) * S ^ 2) + 3 * V / κ * S ^ 2) + 6 * V * (κ' * (M * (∑ a, h a ^ 2) / 8) ^ 2) := by
  intro K V S H₁
  obtain ⟨d, hd⟩ : ∃ d : DxList sh ℝ × DxList sh ℝ, d = (w, midWidth w) := ⟨_, rfl⟩
  rw [← hd] at hE₁
  set mu : Pos sh → ℝ := fun p => gradedH w μ p.1 p.2 with hmu
  have hm : ∀ a i, 0 < midWidth w a i := fun a i => by
    have := hw a i; have := hw a (wrap i (-1)); rw [midWidth]; linarith
  have hpos : PosGrid d := by rw [hd]; exact ⟨hw, hm⟩
  have hmup : ∀ p, 0 < mu p := fun p => lt_of_lt_of_le hκ (hμ _ _).1
  have κ'0 : 0 ≤ κ' := hκ.le.trans ((hμ 0 0).1.trans (hμ 0 0).2)
  have M0 : 0 ≤ M := (norm_nonneg _).trans ((hsol.spaceE 0 0 0).2 0)
  have S20 : 0 ≤ ∑ a, h a ^ 2 := Finset.sum_nonneg fun a _ => sq_nonneg _
  have S0 : 0 ≤ S := by positivity
  have P0 : 0 ≤ V := Finset.prod_nonneg fun a _ => Finset.sum_nonneg fun i _ => (hw a i).le
  set gvC : Vec sh := fun p => corrH w H p.1 p.2 with hgvC
  have small : ∀ p, ‖gvC p - gvH w H p‖ ≤ M * (∑ a, h a ^ 2) / 8 := fun p => corrH_small w hw hh H hsec p.1 p.2
  -- residuals
  set r1 : Vec sh := fun p => cE (cDx d) (gvE w E) p + I * ω * (mu p * gvC p) with hr1
  set r2 : Vec sh := fun p => cH (cDx d) gvC p - I * ω * (gvE w ε p * gvE w E p) - gvE w J p with hr2
  have b1 : ∀ p, ‖r1 p‖ ≤ S := by
    rintro ⟨c, x⟩
    have := C133_curl_forward w hw hh E hsol.periodicE hsol.spaceE c x
    have e : gradedH w (curl E) c x = -I * ω * (mu (c, x) * gvH w H (c, x)) := hsol.faraday c _
    rw [e] at this
    have e2 : r1 (c, x) = (Functional.curlForward (some fun a i => ((w a i : ℝ) : ℂ)) (gradedE w E) c x - -I * ω * (mu (c, x) * gvH w H (c, x)))
        + I * ω * (mu (c, x) * (gvC (c, x) - gvH w H (c, x))) := by
      rw [hr1, hd]
      show Functional.curlForward (some fun a i => ((w a i : ℝ) : ℂ)) (gradedE w E) c x + _ = _
      ring
    rw [e2]
    refine (norm_add_le _ _).trans ?_
    rw [norm_mul, norm_mul, norm_I, one_mul, norm_real, norm_mul, norm_real, Real.norm_eq_abs, Real.norm_eq_abs, abs_of_pos (hmup _)]
    have l := mul_le_mul (hμ c (gradedPt w (fun a => decide (a ≠ c)) x)).2 (small (c, x)) (norm_nonneg _) κ'0
    have l2 := mul_le_mul_of_nonneg_left l (abs_nonneg ω)
    have l3 : mu (c, x) = μ c (gradedPt w (fun a => decide (a ≠ c)) x) := rfl
    rw [l3]
    have t0 : 0 ≤ M * ∑ a, h a ^ 2 := mul_nonneg M0 S20
    have e3 : S = M * (∑ a, h a ^ 2) / 4 + |ω| * (κ' * (M * (∑ a, h a ^ 2) / 8)) := by simp only [S]; ring
    rw [e3]
    refine add_le_add (this.trans ?_) l2
    linarith
  have b2 : ∀ p, ‖r2 p‖ ≤ S := by
    rintro ⟨c, x⟩
    have := C133_curl_back w hw hh H hsol.periodicH hsol.spaceH hsec c x
    have e : gradedE w (curl H) c x = I * ω * (gvE w ε (c, x) * gvE w E (c, x)) + gvE w J (c, x) := hsol.ampere c _
    rw [e] at this
    have e2 : r2 (c, x) = Functional.curlBack (some fun a i => ((midWidth w a i : ℝ) : ℂ)) (corrH w H) c x
        - (I * ω * (gvE w ε (c, x) * gvE w E (c, x)) + gvE w J (c, x)) := by
      rw [hr2, hd, ← sub_sub]; rfl
    rw [e2]
    refine this.trans ?_
    have t0 : 0 ≤ M * (|ω| * κ' / 8) * ∑ a, h a ^ 2 := by positivity
    have e3 : S = M * (∑ a, h a ^ 2) / 4 + M * (|ω| * κ' / 8) * ∑ a, h a ^ 2 := by simp only [S]; ring
    rw [e3]; linarith
  set v : Vec sh := fun p => E₁ p - gvE w E p with hv
  have hv' : ∀ p, cE (cDx d) v p = cE (cDx d) E₁ p - cE (cDx d) (gvE w E) p := by
    intro p
    have := cE_add (cDx d) E₁ (fun q => (-1) * gvE w E q) p
    rw [cE_smul] at this
    rw [sub_eq_add_neg, ← neg_one_mul, ← this]
    congr 1; funext q; simp [hv, sub_eq_add_neg]
  have muV' : ∀ q, muV (realMu (some mu)) q = (mu q : ℂ) := fun q => rfl
  have hmu0 : ∀ q, (mu q : ℂ) ≠ 0 := fun q => ofReal_ne_zero.2 (hmup q).ne'
  have hI : I * (ω : ℂ) ≠ 0 := mul_ne_zero I_ne_zero (ofReal_ne_zero.2 hω)
  have eq : eFull ω (cDx d) (gvE w ε) (realMu (some mu)) none none *ᵥ v
      = (-I * ω) • ((fun p => -r2 p) + m2j ω (cDx d) (realMu (some mu)) *ᵥ r1) := by
    funext p
    have h1 := congrFun hE₁ p
    rw [eFull_mulVec] at h1 ⊢
    simp only [muV', Pi.smul_apply, Pi.add_apply, m2j_mulVec, smul_eq_mul] at h1 ⊢
    have s1 : (fun q => cE (cDx d) v q / (mu q : ℂ))
        = fun q => cE (cDx d) E₁ q / (mu q : ℂ) + (-1) * (r1 q / (mu q : ℂ)) + I * ω * gvC q := by
      funext q
      have := hmu0 q
      rw [hv', hr1]; field_simp; ring
    have s2 : cH (cDx d) (fun q => cE (cDx d) v q / (mu q : ℂ)) p = cH (cDx d) (fun q => cE (cDx d) E₁ q / (mu q : ℂ)) p
        - cH (cDx d) (fun q => r1 q / (mu q : ℂ)) p + I * ω * cH (cDx d) (gvC) p := by
      rw [s1, cH_add _ (fun q => cE (cDx d) E₁ q / (mu q : ℂ) + (-1) * (r1 q / (mu q : ℂ))) (fun q => I * ω * gvC q),
        cH_add _ (fun q => cE (cDx d) E₁ q / (mu q : ℂ)) (fun q => (-1) * (r1 q / (mu q : ℂ))), cH_smul, cH_smul]
      ring
    have s3 : cH (cDx d) (gvC) p = r2 p + I * ω * (gvE w ε p * gvE w E p) + gvE w J p := by rw [hr2]; ring
    have s4 : I * ω * (cH (cDx d) (fun q => r1 q / (mu q : ℂ)) p / (I * ω)) = cH (cDx d) (fun q => r1 q / (mu q : ℂ)) p := mul_div_cancel₀ _ hI
    rw [s2, s3]
    have hII : I * ω * (I * ω * (gvE w ε p * gvE w E p)) = -(ω ^ 2 * (gvE w ε p * gvE w E p)) := by
      linear_combination (ω ^ 2 * (gvE w ε p * gvE w E p)) * I_sq
    simp only [hv]
    linear_combination h1 + hII + s4
  have key := C106_bound ω hω d hpos (gvE w ε) mu hmup δ ε' hδ (hloss.imp (fun h p => h _ _) fun h p => h _ _) hε' (fun p => hre _ _) v
    (fun p => -r2 p) r1 eq
  have q2 : sqE d (fun p => -r2 p) ≤ 3 * V * S ^ 2 := by
    rw [sqE, hd]
    exact (graded_sum hw hm _ fun p => by rw [norm_neg]; exact pow_le_pow_left₀ (norm_nonneg _) (b2 p) 2).1
  have q1 : sqH d mu r1 ≤ 3 * V / κ * S ^ 2 := by
    rw [sqH, hd]
    have := (graded_sum hw hm (fun p => 1 / mu p * ‖r1 p‖ ^ 2) (B := 1 / κ * S ^ 2) fun p =>
      mul_le_mul (div_le_div_of_nonneg_left zero_le_one hκ (hμ _ _).1) (pow_le_pow_left₀ (norm_nonneg _) (b1 p) 2) (sq_nonneg _) (by positivity)).2
    refine le_trans (le_of_eq (Finset.sum_congr rfl fun p _ => ?_)) (this.trans (le_of_eq ?_))
    · simp only; ring
    · ring
  have Z0 : 0 ≤ sqH d mu (cE (cDx d) v) := Finset.sum_nonneg fun p _ => mul_nonneg (div_nonneg (hpos.volH _ _).le (hmup p).le) (sq_nonneg _)
  have X0 : 0 ≤ sqE d v := Finset.sum_nonneg fun p _ => mul_nonneg (hpos.vol _ _).le (sq_nonneg _)
  have tot : sqE d v + sqH d mu (cE (cDx d) v) ≤ K ^ 2 * (3 * V * (ω ^ 2 + 1 / κ) * S ^ 2) := by
    refine key.trans (mul_le_mul_of_nonneg_left ?_ (sq_nonneg _))
    have := mul_le_mul_of_nonneg_left q2 (sq_nonneg ω)
    have e : 3 * V * (ω ^ 2 + 1 / κ) * S ^ 2 = ω ^ 2 * (3 * V * S ^ 2) + 3 * V / κ * S ^ 2 := by ring
    rw [e]; linarith
  constructor
  · have : ∑ p : Pos sh, volE w (midWidth w) p.1 p.2 * ‖E₁ p - gvE w E p‖ ^ 2 = sqE d v := by rw [sqE, hd]
    rw [this]; linarith
  · have step : ∀ p : Pos sh, Spec.volH d.1 d.2 p.1 p.2 * (gradedH w μ p.1 p.2 * ‖H₁ p - gvH w H p‖ ^ 2)
        ≤ 4 / ω ^ 2 * (Spec.volH d.1 d.2 p.1 p.2 / mu p * ‖cE (cDx d) v p‖ ^ 2 + Spec.volH d.1 d.2 p.1 p.2 / mu p * ‖r1 p‖ ^ 2)
          + Spec.volH d.1 d.2 p.1 p.2 * (2 * (κ' * (M * (∑ a, h a ^ 2) / 8) ^ 2)) := by
      intro p
      have e1 : H₁ p - gvC p = (cE (cDx d) v p + r1 p) / (-I * ω) / (mu p : ℂ) := by
        have hH : H₁ p = cE (cDx d) E₁ p / (-I * ω) / (mu p : ℂ) := by rw [hd]; exact e2h_mulVec ω (cDx (w, midWidth w)) (realMu (some mu)) E₁ p
        have hm := hmu0 p
        have hI' : -I * (ω : ℂ) ≠ 0 := by rw [neg_mul]; exact neg_ne_zero.2 hI
        rw [hH, hv', hr1, div_div, div_div, sub_eq_iff_eq_add, div_add' _ _ _ (mul_ne_zero hI' hm)]
        congr 1
        ring
      have e2 : ‖H₁ p - gvC p‖ = ‖cE (cDx d) v p + r1 p‖ / |ω| / mu p := by
        rw [e1, norm_div, norm_div, norm_mul, norm_neg, norm_I, one_mul, norm_real, norm_real, Real.norm_eq_abs, Real.norm_eq_abs,
          abs_of_pos (hmup p)]
      have par : ∀ a b : ℂ, ‖a + b‖ ^ 2 ≤ 2 * (‖a‖ ^ 2 + ‖b‖ ^ 2) := fun a b => by
        have := norm_add_le a b
        nlinarith [sq_nonneg (‖a‖ - ‖b‖), norm_nonneg (a + b), norm_nonneg a, norm_nonneg b]
      have e3 := par (cE (cDx d) v p) (r1 p)
      have e4 := par (H₁ p - gvC p) (gvC p - gvH w H p)
      rw [sub_add_sub_cancel] at e4
      have vp := hpos.volH p.1 p.2
      rw [show gradedH w μ p.1 p.2 = mu p from rfl]
      have hm := hmup p
      have hwp : 0 < |ω| := abs_pos.2 hω
      generalize Spec.volH d.1 d.2 p.1 p.2 = vol at *
      have f1 : mu p * ‖H₁ p - gvC p‖ ^ 2 ≤ 2 / ω ^ 2 * (1 / mu p * ‖cE (cDx d) v p‖ ^ 2 + 1 / mu p * ‖r1 p‖ ^ 2) := by
        rw [e2]
        calc mu p * (‖cE (cDx d) v p + r1 p‖ / |ω| / mu p) ^ 2 = 1 / (mu p * ω ^ 2) * ‖cE (cDx d) v p + r1 p‖ ^ 2 := by rw [← sq_abs ω]; field_simp
          _ ≤ 1 / (mu p * ω ^ 2) * (2 * (‖cE (cDx d) v p‖ ^ 2 + ‖r1 p‖ ^ 2)) := mul_le_mul_of_nonneg_left e3 (by positivity)
          _ = _ := by field_simp
      have f2 : mu p * ‖gvC p - gvH w H p‖ ^ 2 ≤ κ' * (M * (∑ a, h a ^ 2) / 8) ^ 2 :=
        mul_le_mul (hμ _ _).2 (pow_le_pow_left₀ (norm_nonneg _) (small p) 2) (sq_nonneg _) κ'0
      have f3 := mul_le_mul_of_nonneg_left e4 hm.le
      have f4 : mu p * ‖H₁ p - gvH w H p‖ ^ 2 ≤ 2 * (2 / ω ^ 2 * (1 / mu p * ‖cE (cDx d) v p‖ ^ 2 + 1 / mu p * ‖r1 p‖ ^ 2))
          + 2 * (κ' * (M * (∑ a, h a ^ 2) / 8) ^ 2) := by linarith
      refine (mul_le_mul_of_nonneg_left f4 vp.le).trans (le_of_eq ?_)
      ring
    rw [hd] at step
    refine (Finset.sum_le_sum fun p _ => step p).trans ?_
    rw [Finset.sum_add_distrib, ← Finset.mul_sum, Finset.sum_add_distrib]
    rw [hd] at tot q1 Z0 X0
    refine add_le_add (mul_le_mul_of_nonneg_left ?_ (by positivity)) ?_
    · refine add_le_add (le_trans ?_ (le_trans (le_add_of_nonneg_left X0) tot)) q1
      rw [sqH]
    · refine (graded_sum hw hm (fun _ => 2 * (κ' * (M * (∑ a, h a ^ 2) / 8) ^ 2)) fun p => le_refl _).2.trans (le_of_eq ?_)
      ring

/-- C133: FDFD on every non-uniform grid. For a smooth periodic time-harmonic solution in a lossy medium there is one constant for all grids of the box,
however their cells vary: with H widths that are the distances between cell middles, `generic` (with a matrix solver that solves) returns an E field
within `C Σ h²` of the solution, and `e2h` gives its H field within `C Σ h²`, `h` the largest cells. -/
theorem C133_fdfd_second_order {L : Pt} {ω : ℝ} (hω : ω ≠ 0) {ε : Fin 3 → Pt → ℂ} {μ : Fin 3 → Pt → ℝ}
    {δ ε' κ κ' : ℝ} (hδ : 0 < δ) (hε' : 0 ≤ ε') (hκ : 0 < κ) (hloss : (∀ c r, (ε c r).im ≤ -δ) ∨ ∀ c r, δ ≤ (ε c r).im) (hre : ∀ c r, |(ε c r).re| ≤ ε')
    (hμ : ∀ c r, κ ≤ μ c r ∧ μ c r ≤ κ') {J E H : Fin 3 → Pt → ℂ} {M : ℝ} (hsol : HarmonicSolution L ω ε μ J E H M) (hsec : ∀ c, Second M (H c)) :
    ∃ C : ℝ, ∀ (sh : Fin 3 → ℕ) (w : DxList sh ℝ) (h : Pt) (R : Type) (hasH : Bool) (solve : Mat sh → Vec sh → Opts sh R → Vec sh) (opts : Opts sh R)
      (guess : Option (Vec sh)), boxLen w = L → (∀ a i, 0 < w a i ∧ w a i ≤ h a) → Exact solve →
      let mu : Option (Vec sh) := some fun p => ((gradedH w μ p.1 p.2 : ℝ) : ℂ)
      let dxes := cDx (w, midWidth w)
      ∃ E₁, (generic hasH solve opts ⟨ω, dxes, gvE w J, gvE w ε, mu, none, none, false, guess⟩).1 = .ok E₁ ∧
        √(∑ p : Pos sh, volE w (midWidth w) p.1 p.2 * ‖E₁ p - gvE w E p‖ ^ 2) ≤ C * ∑ a, h a ^ 2 ∧
        √(∑ p : Pos sh, Spec.volH w (midWidth w) p.1 p.2 * (gradedH w μ p.1 p.2 * ‖(e2h ω dxes mu none *ᵥ E₁) p - gvH w H p‖ ^ 2)) ≤ C * ∑ a, h a ^ 2 := by
  obtain ⟨K, hK⟩ : ∃ K, K = 1 / (ω ^ 2 * δ) + 1 + ε' / δ := ⟨_, rfl⟩
  obtain ⟨B, hB⟩ : ∃ B, B = M * (1 / 4 + |ω| * κ' / 8) := ⟨_, rfl⟩
  have κ'0 : 0 ≤ κ' := hκ.le.trans ((hμ 0 0).1.trans (hμ 0 0).2)
  refine ⟨√(K ^ 2 * (3 * (∏ a, L a) * (ω ^ 2 + 1 / κ) * B ^ 2)
    + (4 / ω ^ 2 * (K ^ 2 * (3 * (∏ a, L a) * (ω ^ 2 + 1 / κ) * B ^ 2) + 3 * (∏ a, L a) / κ * B ^ 2) + 6 * (∏ a, L a) * (κ' * (M / 8) ^ 2))), ?_⟩
  intro sh w h R hasH solve opts guess hL hwh hs mu dxes
  subst hL
  have hω2 : 0 < ω ^ 2 := by positivity
  have hw : ∀ a i, 0 < w a i := fun a i => (hwh a i).1
  have hm : ∀ a i, 0 < midWidth w a i := fun a i => by
    have := hw a i; have := hw a (wrap i (-1)); rw [midWidth]; linarith
  have hpos : PosGrid (w, midWidth w) := ⟨hw, hm⟩
  obtain ⟨E₁, r₁, e₁, -⟩ := C83_solver hasH solve hs opts ⟨ω, dxes, gvE w J, gvE w ε, mu, none, none, false, guess⟩ (w, midWidth w) hpos rfl
    (some fun p => gradedH w μ p.1 p.2) (fun m hm p => by
      have := Option.some.inj hm
      rw [← this]; exact (lt_of_lt_of_le hκ (hμ _ _).1).ne') rfl rfl rfl (by
      have cst : ((ω : ℂ) ^ 2) = ((ω ^ 2 : ℝ) : ℂ) := by push_cast; rfl
      refine hloss.imp (fun hl p => ?_) fun hl p => ?_
      · show ((ω : ℂ) ^ 2 * gvE w ε p).im < 0
        rw [cst, im_ofReal_mul]
        have := hl p.1 (gradedPt w (fun a => decide (a = p.1)) p.2)
        exact mul_neg_of_pos_of_neg hω2 (lt_of_le_of_lt this (by linarith))
      · show 0 < ((ω : ℂ) ^ 2 * gvE w ε p).im
        rw [cst, im_ofReal_mul]
        exact mul_pos hω2 (lt_of_lt_of_le hδ (hl p.1 (gradedPt w (fun a => decide (a = p.1)) p.2))))
  obtain ⟨k1, k2⟩ := C133_fdfd_error hw (fun a i => (hwh a i).2) hω hδ hε' hκ hloss hre hμ hsol hsec E₁ e₁
  rw [← hK, ← hB] at k1 k2
  have V0 : 0 ≤ ∏ a, boxLen w a := Finset.prod_nonneg fun a _ => Finset.sum_nonneg fun i _ => (hw a i).le
  have S0 : 0 ≤ ∑ a, h a ^ 2 := Finset.sum_nonneg fun a _ => sq_nonneg _
  have bound : ∀ B A T : ℝ, 0 ≤ A → T ≤ B * (∑ a, h a ^ 2) ^ 2 → B ≤ A → √T ≤ √A * ∑ a, h a ^ 2 := by
    intro B A T hA hT hBA
    rw [Real.sqrt_le_iff]
    refine ⟨mul_nonneg (Real.sqrt_nonneg _) S0, ?_⟩
    rw [mul_pow, Real.sq_sqrt hA]
    exact hT.trans (mul_le_mul_of_nonneg_right hBA (sq_nonneg _))
  generalize ∏ a, boxLen w a = V at *
  generalize ∑ a, h a ^ 2 = S2 at *
  have a1 : 0 ≤ K ^ 2 * (3 * V * (ω ^ 2 + 1 / κ) * B ^ 2) := by positivity
  have a2 : 0 ≤ 4 / ω ^ 2 * (K ^ 2 * (3 * V * (ω ^ 2 + 1 / κ) * B ^ 2) + 3 * V / κ * B ^ 2) + 6 * V * (κ' * (M / 8) ^ 2) := by positivity
  refine ⟨E₁, r₁, bound _ _ _ (add_nonneg a1 a2) (k1.trans (le_of_eq ?_)) (le_add_of_nonneg_right a2),
    bound _ _ _ (add_nonneg a1 a2) (k2.trans (le_of_eq ?_)) (le_add_of_nonneg_left a1)⟩
  · ring
  · ring

/-! ### Cases meeting the hypotheses -/

/-- Second derivatives of a field that depends on z alone. -/
theorem pd2_axis {V : Type*} [NormedAddCommGroup V] [NormedSpace ℝ V] (g : ℝ → V) (c' c a : Fin 3) (r : Pt) :
    pd2 (fun r : Pt => if c = c' then g (r 2) else 0) a r = if c = c' ∧ a = 2 then iteratedDeriv 2 g (r 2) else 0 := by
  have hl : line (fun r : Pt => if c = c' then g (r 2) else 0) a r = if c = c' then if a = 2 then g else fun _ => g (r 2) else fun _ => 0 := by
    funext s
    by_cases hc : c = c'
    · by_cases ha : a = 2
      · subst ha; simp [line, hc]
      · simp [line, hc, ha, Function.update_of_ne (Ne.symm ha)]
    · simp [line, hc]
  have hk : ∀ (k : V) (s : ℝ), iteratedDeriv 2 (fun _ : ℝ => k) s = 0 := fun k s => by
    rw [iteratedDeriv_succ', iteratedDeriv_succ', iteratedDeriv_zero]; simp
  rw [pd2, hl]
  by_cases hc : c = c'
  · by_cases ha : a = 2
    · subst ha; simp [hc]
    · simp [hc, ha, hk]
  · simp [hc, hk]

theorem second_axis {V : Type*} [NormedAddCommGroup V] [NormedSpace ℝ V] {g : ℝ → V} (h1 : ∀ s, ‖iteratedDeriv 2 g s‖ ≤ 1)
    (h2 : ∀ s t, ‖iteratedDeriv 2 g s - iteratedDeriv 2 g t‖ ≤ |s - t|) (c' c : Fin 3) : Second 1 (fun r : Pt => if c = c' then g (r 2) else 0) := by
  constructor
  · intro a r
    rw [pd2_axis]
    split_ifs
    · exact h1 _
    · rw [norm_zero]; exact zero_le_one
  · intro a b r s
    rw [pd2_axis, pd2_axis, one_mul]
    split_ifs with h
    · by_cases hb : b = 2
      · subst hb; rw [Function.update_self]; exact h2 _ _
      · rw [Function.update_of_ne (Ne.symm hb), sub_self, norm_zero]; exact abs_nonneg _
    · rw [sub_self, norm_zero]; exact abs_nonneg _

/-- The plane wave of C105. -/
example : SecondH 1 (fun t c r => if c = 1 then Real.cos (r 2 - t) else 0) := by
  have i2 : ∀ b : ℝ, iteratedDeriv 2 (fun s => Real.cos (s - b)) = fun s => -Real.cos (s - b) := fun b => by
    have d1 : deriv (fun s => Real.cos (s - b)) = fun s => -Real.sin (s - b) := by
      funext s; rw [deriv_comp_sub_const (f := Real.cos)]; simp
    rw [iteratedDeriv_succ', iteratedDeriv_succ', iteratedDeriv_zero, d1]
    funext s; rw [deriv.fun_neg, deriv_comp_sub_const (f := Real.sin)]; simp
  constructor
  · intro t c
    refine second_axis (g := fun s => Real.cos (s - t)) (fun s => ?_) (fun s u => ?_) 1 c
    · rw [i2, norm_neg]; exact Real.abs_cos_le_one _
    · rw [i2, neg_sub_neg, norm_sub_rev]; refine (Real.abs_cos_sub_cos_le _ _).trans (le_of_eq ?_); congr 1; ring
  · intro s t c a r
    simp only [pd2_axis (fun s' => Real.cos (s' - s)) 1 c a r, pd2_axis (fun s' => Real.cos (s' - t)) 1 c a r, i2, one_mul]
    split_ifs
    · rw [neg_sub_neg]; refine (Real.abs_cos_sub_cos_le _ _).trans (le_of_eq ?_); congr 1; ring
    · simp

/-- The standing wave of C106. -/
example (c : Fin 3) : Second 1 (fun r : Pt => if c = 1 then -I * (Real.sin (r 2) : ℂ) else 0) := by
  have i2 : iteratedDeriv 2 (fun s : ℝ => -I * (Real.sin s : ℂ)) = fun s => I * (Real.sin s : ℂ) := by
    have dms : deriv (fun s => -I * (Real.sin s : ℂ)) = fun s => -I * (Real.cos s : ℂ) := by
      funext s; exact ((Real.hasDerivAt_sin s).ofReal_comp.const_mul (-I)).deriv
    have dmc : deriv (fun s => -I * (Real.cos s : ℂ)) = fun s => -I * -(Real.sin s : ℂ) := by
      funext s; simpa using ((Real.hasDerivAt_cos s).ofReal_comp.const_mul (-I)).deriv
    rw [iteratedDeriv_succ', iteratedDeriv_succ', iteratedDeriv_zero, dms, dmc]
    funext s; ring
  refine second_axis (g := fun s : ℝ => -I * (Real.sin s : ℂ)) (fun s => ?_) (fun s u => ?_) 1 c
  · rw [i2, norm_mul, norm_I, one_mul, norm_real]; exact Real.abs_sin_le_one _
  · rw [i2, ← mul_sub, norm_mul, norm_I, one_mul, ← ofReal_sub, norm_real]; exact Real.abs_sin_sub_sin_le _ _

/-- A grid of the box of these waves with cells of widths in the proportion 1 : 2 along every axis. -/
example : ∃ w : DxList (fun _ : Fin 3 => 2) ℝ, boxLen w = (fun _ => 2 * Real.pi) ∧ (∀ a i, 2 * Real.pi / 3 ≤ w a i ∧ w a i ≤ 4 * Real.pi / 3) ∧ w 0 0 ≠ w 0 1 := by
  have hp := Real.pi_pos
  refine ⟨fun a i => if (i : ℕ) = 0 then 2 * Real.pi / 3 else 4 * Real.pi / 3, ?_, ?_, ?_⟩
  · funext a; simp only [boxLen, Fin.sum_univ_two]; norm_num; ring
  · intro a i; dsimp only; split_ifs <;> constructor <;> linarith
  · simp only; norm_num

end Meanas.Props
