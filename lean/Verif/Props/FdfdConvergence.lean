/-
C106: FDFD solutions converge to the time-harmonic solutions of Maxwell's equations (lossy media, periodic uniform grids).
-/
import Verif.Props.FdfdSystem
import Verif.Props.Consistency
import Mathlib.Algebra.BigOperators.Field
import Mathlib.Analysis.SpecialFunctions.Trigonometric.Deriv
import Mathlib.Analysis.Complex.RealDeriv

namespace Meanas.Props

open Matrix Complex OperatorsS Fdfd Spec Solvers

variable {sh : Fin 3 → ℕ}

/-- Squared norms of fields on the two halves of the grid, weighted with the cell volumes (and `1/μ`). -/
noncomputable def sqE (d : DxList sh ℝ × DxList sh ℝ) (v : Vec sh) : ℝ := ∑ p : Pos sh, volE d.1 d.2 p.1 p.2 * ‖v p‖ ^ 2
noncomputable def sqH (d : DxList sh ℝ × DxList sh ℝ) (mu : Pos sh → ℝ) (v : Vec sh) : ℝ :=
  ∑ p : Pos sh, volH d.1 d.2 p.1 p.2 / mu p * ‖v p‖ ^ 2

theorem PosGrid.volH {d : DxList sh ℝ × DxList sh ℝ} (h : PosGrid d) (c : Fin 3) (x : Idx sh) : 0 < Spec.volH d.1 d.2 c x := by
  refine Finset.prod_pos fun a _ => ?_
  split_ifs
  · exact h.2 a _
  · exact h.1 a _

/-- Cauchy-Schwarz for weighted sums. -/
theorem weighted_cs {ι : Type*} [Fintype ι] (w : ι → ℝ) (hw : ∀ i, 0 ≤ w i) (f g : ι → ℂ) :
    ‖∑ i, (w i : ℂ) * ((starRingEnd ℂ) (f i) * g i)‖ ≤ √(∑ i, w i * ‖f i‖ ^ 2) * √(∑ i, w i * ‖g i‖ ^ 2) := by
  have h1 : ‖∑ i, (w i : ℂ) * ((starRingEnd ℂ) (f i) * g i)‖ ≤ ∑ i, (√(w i) * ‖f i‖) * (√(w i) * ‖g i‖) := by
    refine (norm_sum_le _ _).trans (Finset.sum_le_sum fun i _ => ?_)
    rw [norm_mul, norm_mul, RCLike.norm_conj, norm_real, Real.norm_eq_abs, abs_of_nonneg (hw i)]
    refine le_of_eq ?_
    rw [mul_mul_mul_comm, Real.mul_self_sqrt (hw i)]
  refine h1.trans ((Real.sum_mul_le_sqrt_mul_sqrt _ _ _).trans (le_of_eq ?_))
  congr 2 <;> exact Finset.sum_congr rfl fun i _ => by rw [mul_pow, Real.sq_sqrt (hw i)]

/-- The backward curl paired with a field. -/
theorem pair_curl (d : DxList sh ℝ × DxList sh ℝ) (hd : PosGrid d) (mu : Pos sh → ℝ) (v g : Vec sh) :
    ∑ p : Pos sh, ((volE d.1 d.2 p.1 p.2 : ℝ) : ℂ) * ((starRingEnd ℂ) (v p) * cH (cDx d) (fun q => g q / (mu q : ℂ)) p)
      = ∑ p : Pos sh, ((volH d.1 d.2 p.1 p.2 / mu p : ℝ) : ℂ) * ((starRingEnd ℂ) (cE (cDx d) v p) * g p) := by
  have h := C06_curl_adjoint_weighted (cDx d).1 (cDx d).2 hd.nz.1 hd.nz.2 (unS (star v)) (unS fun q => g q / (mu q : ℂ))
  have hc : ∀ p, cE (cDx d) (star v) p = (starRingEnd ℂ) (cE (cDx d) v p) := fun p => conj_curlForward d.1 (unS v) p.1 p.2
  rw [Fintype.sum_prod_type, Fintype.sum_prod_type]
  calc _ = _ := Finset.sum_congr rfl fun c _ => Finset.sum_congr rfl fun x _ => by rw [← volE_cDx]; rfl
    _ = _ := h
    _ = _ := Finset.sum_congr rfl fun c _ => Finset.sum_congr rfl fun x _ => by
      rw [volH_cDx, show Functional.curlForward (some (cDx d).1) (unS (star v)) c x = cE (cDx d) (star v) (c, x) from rfl, hc]
      simp only [unS]; push_cast; ring

/-- C106: stability of FDFD with electric and magnetic currents. On any real grid with a real positive permeability and a permittivity with
`|Im ε| ≥ δ` of one sign, `|Re ε| ≤ ε'`: the field of an electric current `J` and a magnetic current `M` (through `m2j`) and its curl are bounded by the
currents, with a constant that does not depend on the grid. -/
theorem C106_bound (ω : ℝ) (hω : ω ≠ 0) (d : DxList sh ℝ × DxList sh ℝ) (hd : PosGrid d) (eps : Vec sh) (mu : Pos sh → ℝ) (hmu : ∀ p, 0 < mu p)
    (δ ε' : ℝ) (hδ : 0 < δ) (hloss : (∀ p, (eps p).im ≤ -δ) ∨ ∀ p, δ ≤ (eps p).im) (hε' : 0 ≤ ε') (hre : ∀ p, |(eps p).re| ≤ ε') (E J M : Vec sh)
    (h : eFull ω (cDx d) eps (realMu (some mu)) none none *ᵥ E = (-I * ω) • (J + m2j ω (cDx d) (realMu (some mu)) *ᵥ M)) :
    sqE d E + sqH d mu (cE (cDx d) E) ≤ (1 / (ω ^ 2 * δ) + 1 + ε' / δ) ^ 2 * (ω ^ 2 * sqE d J + sqH d mu M) := by
  have hω2 : 0 < ω ^ 2 := by positivity
  have wE : ∀ p : Pos sh, 0 ≤ volE d.1 d.2 p.1 p.2 := fun p => (hd.vol p.1 p.2).le
  have wH : ∀ p : Pos sh, 0 ≤ Spec.volH d.1 d.2 p.1 p.2 / mu p := fun p => div_nonneg (hd.volH p.1 p.2).le (hmu p).le
  have hI : I * (ω : ℂ) ≠ 0 := mul_ne_zero I_ne_zero (ofReal_ne_zero.2 hω)
  have muV' : ∀ q, muV (realMu (some mu)) q = (mu q : ℂ) := fun q => rfl
  -- the equation, paired with the field
  have hp : ∀ p, cH (cDx d) (fun q => cE (cDx d) E q / (mu q : ℂ)) p - ω ^ 2 * (eps p * E p)
      = -I * ω * J p - cH (cDx d) (fun q => M q / (mu q : ℂ)) p := by
    intro p
    have := congrFun h p
    rw [eFull_mulVec] at this
    simp only [muV', Pi.smul_apply, Pi.add_apply, m2j_mulVec, smul_eq_mul] at this
    rw [this, mul_add, neg_mul, neg_mul, neg_mul, mul_div_cancel₀ _ hI, ← sub_eq_add_neg]
  have hQ : ((sqH d mu (cE (cDx d) E) : ℝ) : ℂ) - ω ^ 2 * ∑ p : Pos sh, eps p * ((volE d.1 d.2 p.1 p.2 * ‖E p‖ ^ 2 : ℝ) : ℂ)
      = ∑ p : Pos sh, ((volE d.1 d.2 p.1 p.2 : ℝ) : ℂ) * ((starRingEnd ℂ) (E p) * (-I * ω * J p))
        - ∑ p : Pos sh, ((volH d.1 d.2 p.1 p.2 / mu p : ℝ) : ℂ) * ((starRingEnd ℂ) (cE (cDx d) E p) * M p) := by
    rw [← pair_curl d hd, ← Finset.sum_sub_distrib]
    have e1 : ((sqH d mu (cE (cDx d) E) : ℝ) : ℂ)
        = ∑ p : Pos sh, ((volE d.1 d.2 p.1 p.2 : ℝ) : ℂ) * ((starRingEnd ℂ) (E p) * cH (cDx d) (fun q => cE (cDx d) E q / (mu q : ℂ)) p) := by
      rw [pair_curl d hd, sqH]; push_cast
      refine Finset.sum_congr rfl fun p _ => ?_
      rw [conj_mul']
    rw [e1, Finset.mul_sum, ← Finset.sum_sub_distrib]
    refine Finset.sum_congr rfl fun p _ => ?_
    rw [← mul_sub, ← mul_sub, ← hp p]
    push_cast
    rw [← conj_mul']
    ring
  set X2 := sqE d E with hX2
  set Y2 := sqH d mu (cE (cDx d) E) with hY2
  have X0 : 0 ≤ X2 := Finset.sum_nonneg fun p _ => mul_nonneg (wE p) (sq_nonneg _)
  have Y0 : 0 ≤ Y2 := Finset.sum_nonneg fun p _ => mul_nonneg (wH p) (sq_nonneg _)
  have J0 : 0 ≤ sqE d J := Finset.sum_nonneg fun p _ => mul_nonneg (wE p) (sq_nonneg _)
  have M0 : 0 ≤ sqH d mu M := Finset.sum_nonneg fun p _ => mul_nonneg (wH p) (sq_nonneg _)
  obtain ⟨R, hR⟩ : ∃ R, R = ∑ p : Pos sh, ((volE d.1 d.2 p.1 p.2 : ℝ) : ℂ) * ((starRingEnd ℂ) (E p) * (-I * ω * J p))
        - ∑ p : Pos sh, ((volH d.1 d.2 p.1 p.2 / mu p : ℝ) : ℂ) * ((starRingEnd ℂ) (cE (cDx d) E p) * M p) := ⟨_, rfl⟩
  rw [← hR] at hQ
  have hRn : ‖R‖ ≤ √X2 * (|ω| * √(sqE d J)) + √Y2 * √(sqH d mu M) := by
    rw [hR]
    refine (norm_sub_le _ _).trans (add_le_add ?_ (weighted_cs _ wH _ _))
    refine (weighted_cs _ wE _ _).trans (le_of_eq ?_)
    congr 1
    rw [← Real.sqrt_sq_eq_abs, ← Real.sqrt_mul (sq_nonneg ω), sqE, Finset.mul_sum]
    refine congrArg _ (Finset.sum_congr rfl fun p _ => ?_)
    rw [norm_mul, norm_mul, norm_neg, norm_I, one_mul, norm_real, Real.norm_eq_abs, mul_pow, sq_abs]; ring
  have him := congrArg im hQ
  have hre' := congrArg re hQ
  have cst : ((ω : ℂ) ^ 2) = ((ω ^ 2 : ℝ) : ℂ) := by push_cast; rfl
  rw [cst, sub_im, ofReal_im, im_ofReal_mul, zero_sub, im_sum] at him
  rw [cst, sub_re, ofReal_re, re_ofReal_mul, re_sum] at hre'
  simp only [im_mul_ofReal, re_mul_ofReal] at him hre'
  have k1 : ω ^ 2 * δ * X2 ≤ ‖R‖ := by
    refine le_trans ?_ (abs_im_le_norm R)
    rw [← him, abs_neg, abs_mul, abs_of_pos hω2, mul_assoc]
    refine mul_le_mul_of_nonneg_left ?_ hω2.le
    rw [hX2, sqE, Finset.mul_sum]
    rcases hloss with hl | hl
    · refine le_trans ?_ (neg_le_abs _)
      rw [← Finset.sum_neg_distrib]
      refine Finset.sum_le_sum fun p _ => ?_
      nlinarith [mul_nonneg (wE p) (sq_nonneg ‖E p‖), hl p]
    · refine le_trans ?_ (le_abs_self _)
      refine Finset.sum_le_sum fun p _ => ?_
      nlinarith [mul_nonneg (wE p) (sq_nonneg ‖E p‖), hl p]
  have k2 : Y2 ≤ ‖R‖ + ω ^ 2 * ε' * X2 := by
    have a1 := (le_abs_self _).trans (abs_re_le_norm R)
    rw [← hre'] at a1
    have a2 : ∑ p : Pos sh, (eps p).re * (volE d.1 d.2 p.1 p.2 * ‖E p‖ ^ 2) ≤ ε' * X2 := by
      rw [hX2, sqE, Finset.mul_sum]
      exact Finset.sum_le_sum fun p _ => mul_le_mul_of_nonneg_right ((le_abs_self _).trans (hre p)) (mul_nonneg (wE p) (sq_nonneg _))
    nlinarith [mul_le_mul_of_nonneg_left a2 hω2.le]
  obtain ⟨K, hK⟩ : ∃ K, K = 1 / (ω ^ 2 * δ) + 1 + ε' / δ := ⟨_, rfl⟩
  have K0 : 0 ≤ K := by rw [hK]; positivity
  have hωδ : 0 < ω ^ 2 * δ := mul_pos hω2 hδ
  have c1 : X2 ≤ 1 / (ω ^ 2 * δ) * ‖R‖ := by
    rw [one_div, inv_mul_eq_div, le_div_iff₀ hωδ]; linarith
  have c2 : X2 + Y2 ≤ K * ‖R‖ := by
    have : ω ^ 2 * ε' * X2 ≤ ε' / δ * ‖R‖ := by
      calc ω ^ 2 * ε' * X2 = ε' / δ * (ω ^ 2 * δ * X2) := by field_simp
        _ ≤ _ := mul_le_mul_of_nonneg_left k1 (div_nonneg hε' hδ.le)
    rw [hK]; linarith
  obtain ⟨W, hW⟩ : ∃ W, W = ω ^ 2 * sqE d J + sqH d mu M := ⟨_, rfl⟩
  have W0 : 0 ≤ W := by rw [hW]; positivity
  have c3 : ‖R‖ ^ 2 ≤ (X2 + Y2) * W := by
    refine (pow_le_pow_left₀ (norm_nonneg _) hRn 2).trans ?_
    have s1 := Real.sq_sqrt X0
    have s2 := Real.sq_sqrt Y0
    have s3 : (|ω| * √(sqE d J)) ^ 2 = ω ^ 2 * sqE d J := by rw [mul_pow, sq_abs, Real.sq_sqrt J0]
    have s4 := Real.sq_sqrt M0
    have cs : ∀ a b c e : ℝ, (a * c + b * e) ^ 2 ≤ (a ^ 2 + b ^ 2) * (c ^ 2 + e ^ 2) := fun a b c e => by nlinarith [sq_nonneg (a * e - b * c)]
    have := cs (√X2) (√Y2) (|ω| * √(sqE d J)) (√(sqH d mu M))
    rwa [s1, s2, s3, s4, ← hW] at this
  rw [← hK, ← hW]
  rcases (add_nonneg X0 Y0).eq_or_lt with hz | hz
  · rw [← hz]; positivity
  · have h1 : (X2 + Y2) ^ 2 ≤ K ^ 2 * ((X2 + Y2) * W) := by
      calc (X2 + Y2) ^ 2 ≤ (K * ‖R‖) ^ 2 := pow_le_pow_left₀ hz.le c2 2
        _ = K ^ 2 * ‖R‖ ^ 2 := by ring
        _ ≤ _ := mul_le_mul_of_nonneg_left c3 (sq_nonneg _)
    have h2 : (X2 + Y2) * (X2 + Y2) ≤ (X2 + Y2) * (K ^ 2 * W) := by nlinarith
    exact le_of_mul_le_mul_left h2 hz

/-- The samples of fields on the Yee grid as vectors. -/
noncomputable def vecE (sh : Fin 3 → ℕ) (h : Pt) (f : Fin 3 → Pt → ℂ) : Vec sh := fun p => sampleE h f p.1 p.2
noncomputable def vecH (sh : Fin 3 → ℕ) (h : Pt) (f : Fin 3 → Pt → ℂ) : Vec sh := fun p => sampleH h f p.1 p.2

/-- A uniform grid. -/
def uniformGrid (sh : Fin 3 → ℕ) (h : Pt) : DxList sh ℝ × DxList sh ℝ := (fun a _ => h a, fun a _ => h a)

/-- C106: explicit error bound. If `E₁` solves the FDFD system with the sampled media and current of a smooth periodic time-harmonic solution in a lossy
medium, it and its H field (`e2h`) differ from the samples of the solution by `O(Σ h²)`, with constants that do not depend on the grid. -/
theorem C106_error {L h : Pt} (hL : ∀ a, L a = sh a * h a) (hh : ∀ a, 0 < h a) {ω : ℝ} (hω : ω ≠ 0) {ε : Fin 3 → Pt → ℂ} {μ : Fin 3 → Pt → ℝ}
    {δ ε' κ : ℝ} (hδ : 0 < δ) (hε' : 0 ≤ ε') (hκ : 0 < κ) (hloss : (∀ c r, (ε c r).im ≤ -δ) ∨ ∀ c r, δ ≤ (ε c r).im) (hre : ∀ c r, |(ε c r).re| ≤ ε')
    (hμ : ∀ c r, κ ≤ μ c r) {J E H : Fin 3 → Pt → ℂ} {M : ℝ} (hsol : HarmonicSolution L ω ε μ J E H M) (E₁ : Vec sh)
    (hE₁ : eFull ω (cDx (uniformGrid sh h)) (vecE sh h ε) (realMu (some fun p => sampleH h μ p.1 p.2)) none none *ᵥ E₁ = (-I * ω) • vecE sh h J) :
    let K := 1 / (ω ^ 2 * δ) + 1 + ε' / δ
    let V := ∏ a, L a
    let S := M * (∑ a, h a ^ 2) / 24
    let H₁ := e2h ω (cDx (uniformGrid sh h)) (realMu (some fun p => sampleH h μ p.1 p.2)) none *ᵥ E₁
    ∑ p : Pos sh, (∏ a, h a) * ‖E₁ p - vecE sh h E p‖ ^ 2 ≤ K ^ 2 * (3 * V * (ω ^ 2 + 1 / κ) * S ^ 2) ∧
    ∑ p : Pos sh, (∏ a, h a) * (sampleH h μ p.1 p.2 * ‖H₁ p - vecH sh h H p‖ ^ 2)
      ≤ 2 / ω ^ 2 * (K ^ 2 * (3 * V * (ω ^ 2 + 1 / κ) * S ^ 2) + 3 * V / κ * S ^ 2) := by
  intro K V S H₁
  set d := uniformGrid sh h with hd
  set mu : Pos sh → ℝ := fun p => sampleH h μ p.1 p.2 with hmu
  have hpos : PosGrid d := ⟨fun a _ => hh a, fun a _ => hh a⟩
  have hmup : ∀ p, 0 < mu p := fun p => lt_of_lt_of_le hκ (hμ _ _)
  have M0 : 0 ≤ M := (norm_nonneg _).trans ((hsol.spaceE 0 0 0).2 0)
  have vE : ∀ c x, volE d.1 d.2 c x = ∏ a, h a := fun c x => by simp only [volE, hd, uniformGrid, ite_self]
  have vH : ∀ c x, Spec.volH d.1 d.2 c x = ∏ a, h a := fun c x => by simp only [Spec.volH, hd, uniformGrid, ite_self]
  have hP : 0 < ∏ a, h a := Finset.prod_pos fun a _ => hh a
  have hcs : (fun a _ => ((h a : ℝ) : ℂ) : DxList sh ℂ) = (cDx d).1 := rfl
  -- residuals
  set r1 : Vec sh := fun p => cE (cDx d) (vecE sh h E) p + I * ω * (mu p * vecH sh h H p) with hr1
  set r2 : Vec sh := fun p => cH (cDx d) (vecH sh h H) p - I * ω * (vecE sh h ε p * vecE sh h E p) - vecE sh h J p with hr2
  have pairs : ∀ c : Fin 3, h (c + 1) ^ 2 + h (c + 2) ^ 2 ≤ ∑ a, h a ^ 2 := by
    intro c
    rw [Fin.sum_univ_three]
    fin_cases c <;> simp <;> nlinarith [sq_nonneg (h 0), sq_nonneg (h 1), sq_nonneg (h 2)]
  have b1 : ∀ p, ‖r1 p‖ ≤ S := by
    rintro ⟨c, x⟩
    have := C104_curl_forward (sh := sh) hL hh E hsol.periodicE hsol.spaceE c x
    have e : sampleH h (curl E) c x = -I * ω * (mu (c, x) * vecH sh h H (c, x)) := hsol.faraday c _
    rw [e] at this
    have e2 : r1 (c, x) = Functional.curlForward (some fun a _ => ((h a : ℝ) : ℂ)) (sampleE h E) c x - -I * ω * (mu (c, x) * vecH sh h H (c, x)) := by
      rw [hr1, neg_mul, neg_mul, sub_neg_eq_add]; rfl
    rw [e2]
    refine this.trans ?_
    have := mul_le_mul_of_nonneg_left (pairs c) M0
    simp only [S]; linarith
  have b2 : ∀ p, ‖r2 p‖ ≤ S := by
    rintro ⟨c, x⟩
    have := C104_curl_back (sh := sh) hL hh H hsol.periodicH hsol.spaceH c x
    have e : sampleE h (curl H) c x = I * ω * (vecE sh h ε (c, x) * vecE sh h E (c, x)) + vecE sh h J (c, x) := hsol.ampere c _
    rw [e] at this
    have e2 : r2 (c, x) = Functional.curlBack (some fun a _ => ((h a : ℝ) : ℂ)) (sampleH h H) c x
        - (I * ω * (vecE sh h ε (c, x) * vecE sh h E (c, x)) + vecE sh h J (c, x)) := by
      rw [hr2, ← sub_sub]; rfl
    rw [e2]
    refine this.trans ?_
    have := mul_le_mul_of_nonneg_left (pairs c) M0
    simp only [S]; linarith
  set v : Vec sh := fun p => E₁ p - vecE sh h E p with hv
  have hv' : ∀ p, cE (cDx d) v p = cE (cDx d) E₁ p - cE (cDx d) (vecE sh h E) p := by
    intro p
    have := cE_add (cDx d) E₁ (fun q => (-1) * vecE sh h E q) p
    rw [cE_smul] at this
    rw [sub_eq_add_neg, ← neg_one_mul, ← this]
    congr 1; funext q; simp [hv, sub_eq_add_neg]
  have muV' : ∀ q, muV (realMu (some mu)) q = (mu q : ℂ) := fun q => rfl
  have hmu0 : ∀ q, (mu q : ℂ) ≠ 0 := fun q => ofReal_ne_zero.2 (hmup q).ne'
  have hI : I * (ω : ℂ) ≠ 0 := mul_ne_zero I_ne_zero (ofReal_ne_zero.2 hω)
  have eq : eFull ω (cDx d) (vecE sh h ε) (realMu (some mu)) none none *ᵥ v
      = (-I * ω) • ((fun p => -r2 p) + m2j ω (cDx d) (realMu (some mu)) *ᵥ r1) := by
    funext p
    have h1 := congrFun hE₁ p
    rw [eFull_mulVec] at h1 ⊢
    simp only [muV', Pi.smul_apply, Pi.add_apply, m2j_mulVec, smul_eq_mul] at h1 ⊢
    have s1 : (fun q => cE (cDx d) v q / (mu q : ℂ))
        = fun q => cE (cDx d) E₁ q / (mu q : ℂ) + (-1) * (r1 q / (mu q : ℂ)) + I * ω * vecH sh h H q := by
      funext q
      have := hmu0 q
      rw [hv', hr1]; field_simp; ring
    have s2 : cH (cDx d) (fun q => cE (cDx d) v q / (mu q : ℂ)) p = cH (cDx d) (fun q => cE (cDx d) E₁ q / (mu q : ℂ)) p
        - cH (cDx d) (fun q => r1 q / (mu q : ℂ)) p + I * ω * cH (cDx d) (vecH sh h H) p := by
      rw [s1, cH_add _ (fun q => cE (cDx d) E₁ q / (mu q : ℂ) + (-1) * (r1 q / (mu q : ℂ))) (fun q => I * ω * vecH sh h H q),
        cH_add _ (fun q => cE (cDx d) E₁ q / (mu q : ℂ)) (fun q => (-1) * (r1 q / (mu q : ℂ))), cH_smul, cH_smul]
      ring
    have s3 : cH (cDx d) (vecH sh h H) p = r2 p + I * ω * (vecE sh h ε p * vecE sh h E p) + vecE sh h J p := by rw [hr2]; ring
    have s4 : I * ω * (cH (cDx d) (fun q => r1 q / (mu q : ℂ)) p / (I * ω)) = cH (cDx d) (fun q => r1 q / (mu q : ℂ)) p := mul_div_cancel₀ _ hI
    rw [s2, s3]
    have hII : I * ω * (I * ω * (vecE sh h ε p * vecE sh h E p)) = -(ω ^ 2 * (vecE sh h ε p * vecE sh h E p)) := by
      linear_combination (ω ^ 2 * (vecE sh h ε p * vecE sh h E p)) * I_sq
    simp only [hv]
    linear_combination h1 + hII + s4
  have key := C106_bound ω hω d hpos (vecE sh h ε) mu hmup δ ε' hδ (hloss.imp (fun h p => h _ _) fun h p => h _ _) hε' (fun p => hre _ _) v
    (fun p => -r2 p) r1 eq
  have cells : (∑ _p : Pos sh, ∏ a, h a) = 3 * V := by
    rw [Finset.sum_const, Finset.card_univ, Fintype.card_prod, Fintype.card_fin, Fintype.card_pi, nsmul_eq_mul]
    push_cast
    simp only [Fintype.card_fin, V, hL, Finset.prod_mul_distrib]
    ring
  have q2 : sqE d (fun p => -r2 p) ≤ 3 * V * S ^ 2 := by
    rw [sqE, ← cells, Finset.sum_mul]
    refine Finset.sum_le_sum fun p _ => ?_
    rw [vE, norm_neg]
    exact mul_le_mul_of_nonneg_left (pow_le_pow_left₀ (norm_nonneg _) (b2 p) 2) hP.le
  have q1 : sqH d mu r1 ≤ 3 * V / κ * S ^ 2 := by
    rw [sqH, ← cells, Finset.sum_div, Finset.sum_mul]
    refine Finset.sum_le_sum fun p _ => ?_
    rw [vH]
    exact mul_le_mul (div_le_div_of_nonneg_left hP.le hκ (hμ _ _)) (pow_le_pow_left₀ (norm_nonneg _) (b1 p) 2) (sq_nonneg _) (by positivity)
  have Z0 : 0 ≤ sqH d mu (cE (cDx d) v) := Finset.sum_nonneg fun p _ => by
    rw [vH]; exact mul_nonneg (div_nonneg hP.le (hmup p).le) (sq_nonneg _)
  have X0 : 0 ≤ sqE d v := Finset.sum_nonneg fun p _ => by rw [vE]; exact mul_nonneg hP.le (sq_nonneg _)
  have tot : sqE d v + sqH d mu (cE (cDx d) v) ≤ K ^ 2 * (3 * V * (ω ^ 2 + 1 / κ) * S ^ 2) := by
    refine key.trans (mul_le_mul_of_nonneg_left ?_ (sq_nonneg _))
    have := mul_le_mul_of_nonneg_left q2 (sq_nonneg ω)
    have e : 3 * V * (ω ^ 2 + 1 / κ) * S ^ 2 = ω ^ 2 * (3 * V * S ^ 2) + 3 * V / κ * S ^ 2 := by ring
    rw [e]; linarith
  constructor
  · have : ∑ p : Pos sh, (∏ a, h a) * ‖E₁ p - vecE sh h E p‖ ^ 2 = sqE d v := by
      rw [sqE]; exact Finset.sum_congr rfl fun p _ => by rw [vE]
    rw [this]; linarith
  · have step : ∀ p : Pos sh, (∏ a, h a) * (sampleH h μ p.1 p.2 * ‖H₁ p - vecH sh h H p‖ ^ 2)
        ≤ 2 / ω ^ 2 * (Spec.volH d.1 d.2 p.1 p.2 / mu p * ‖cE (cDx d) v p‖ ^ 2 + Spec.volH d.1 d.2 p.1 p.2 / mu p * ‖r1 p‖ ^ 2) := by
      intro p
      have e1 : H₁ p - vecH sh h H p = (cE (cDx d) v p + r1 p) / (-I * ω) / (mu p : ℂ) := by
        have hH : H₁ p = cE (cDx d) E₁ p / (-I * ω) / (mu p : ℂ) := e2h_mulVec ω (cDx d) (realMu (some mu)) E₁ p
        have hm := hmu0 p
        have hI' : -I * (ω : ℂ) ≠ 0 := by rw [neg_mul]; exact neg_ne_zero.2 hI
        rw [hH, hv', hr1, div_div, div_div, sub_eq_iff_eq_add, div_add' _ _ _ (mul_ne_zero hI' hm)]
        congr 1
        ring
      have e2 : ‖H₁ p - vecH sh h H p‖ = ‖cE (cDx d) v p + r1 p‖ / |ω| / mu p := by
        rw [e1, norm_div, norm_div, norm_mul, norm_neg, norm_I, one_mul, norm_real, norm_real, Real.norm_eq_abs, Real.norm_eq_abs,
          abs_of_pos (hmup p)]
      have e3 : ‖cE (cDx d) v p + r1 p‖ ^ 2 ≤ 2 * (‖cE (cDx d) v p‖ ^ 2 + ‖r1 p‖ ^ 2) := by
        have := norm_add_le (cE (cDx d) v p) (r1 p)
        nlinarith [sq_nonneg (‖cE (cDx d) v p‖ - ‖r1 p‖), norm_nonneg (cE (cDx d) v p + r1 p), norm_nonneg (cE (cDx d) v p), norm_nonneg (r1 p)]
      rw [e2, vH, show sampleH h μ p.1 p.2 = mu p from rfl]
      have hm := hmup p
      have hw : 0 < |ω| := abs_pos.2 hω
      calc (∏ a, h a) * (mu p * (‖cE (cDx d) v p + r1 p‖ / |ω| / mu p) ^ 2)
          = (∏ a, h a) / (mu p * ω ^ 2) * ‖cE (cDx d) v p + r1 p‖ ^ 2 := by rw [← sq_abs ω]; field_simp
        _ ≤ (∏ a, h a) / (mu p * ω ^ 2) * (2 * (‖cE (cDx d) v p‖ ^ 2 + ‖r1 p‖ ^ 2)) := mul_le_mul_of_nonneg_left e3 (by positivity)
        _ = _ := by field_simp
    refine (Finset.sum_le_sum fun p _ => step p).trans ?_
    rw [← Finset.mul_sum, Finset.sum_add_distrib]
    refine mul_le_mul_of_nonneg_left ?_ (by positivity)
    have : ∑ p : Pos sh, Spec.volH d.1 d.2 p.1 p.2 / mu p * ‖cE (cDx d) v p‖ ^ 2 = sqH d mu (cE (cDx d) v) := rfl
    have : ∑ p : Pos sh, Spec.volH d.1 d.2 p.1 p.2 / mu p * ‖r1 p‖ ^ 2 = sqH d mu r1 := rfl
    linarith

/-- C106: one constant for all grids. For a smooth periodic time-harmonic solution in a lossy medium there is a `C` such that on every uniform grid of the
box `generic` (with a matrix solver that solves) returns an E field within `C Σ h²` of the solution, and `e2h` gives its H field within `C Σ h²`. -/
theorem C106_second_order {L : Pt} {ω : ℝ} (hω : ω ≠ 0) {ε : Fin 3 → Pt → ℂ} {μ : Fin 3 → Pt → ℝ}
    {δ ε' κ : ℝ} (hδ : 0 < δ) (hε' : 0 ≤ ε') (hκ : 0 < κ) (hloss : (∀ c r, (ε c r).im ≤ -δ) ∨ ∀ c r, δ ≤ (ε c r).im) (hre : ∀ c r, |(ε c r).re| ≤ ε')
    (hμ : ∀ c r, κ ≤ μ c r) {J E H : Fin 3 → Pt → ℂ} {M : ℝ} (hsol : HarmonicSolution L ω ε μ J E H M) :
    ∃ C : ℝ, ∀ (sh : Fin 3 → ℕ) (h : Pt) (R : Type) (hasH : Bool) (solve : Mat sh → Vec sh → Opts sh R → Vec sh) (opts : Opts sh R) (guess : Option (Vec sh)),
      (∀ a, L a = sh a * h a) → (∀ a, 0 < h a) → Exact solve →
      let mu : Option (Vec sh) := some fun p => ((sampleH h μ p.1 p.2 : ℝ) : ℂ)
      let dxes := cDx (uniformGrid sh h)
      ∃ E₁, (generic hasH solve opts ⟨ω, dxes, vecE sh h J, vecE sh h ε, mu, none, none, false, guess⟩).1 = .ok E₁ ∧
        √(∑ p : Pos sh, (∏ a, h a) * ‖E₁ p - vecE sh h E p‖ ^ 2) ≤ C * ∑ a, h a ^ 2 ∧
        √(∑ p : Pos sh, (∏ a, h a) * (sampleH h μ p.1 p.2 * ‖(e2h ω dxes mu none *ᵥ E₁) p - vecH sh h H p‖ ^ 2)) ≤ C * ∑ a, h a ^ 2 := by
  obtain ⟨K, hK⟩ : ∃ K, K = 1 / (ω ^ 2 * δ) + 1 + ε' / δ := ⟨_, rfl⟩
  refine ⟨√(K ^ 2 * (3 * (∏ a, L a) * (ω ^ 2 + 1 / κ) * (M / 24) ^ 2)
    + 2 / ω ^ 2 * (K ^ 2 * (3 * (∏ a, L a) * (ω ^ 2 + 1 / κ) * (M / 24) ^ 2) + 3 * (∏ a, L a) / κ * (M / 24) ^ 2)), ?_⟩
  intro sh h R hasH solve opts guess hL hh hs mu dxes
  have hω2 : 0 < ω ^ 2 := by positivity
  have hpos : PosGrid (uniformGrid sh h) := ⟨fun a _ => hh a, fun a _ => hh a⟩
  obtain ⟨E₁, r₁, e₁, -⟩ := C83_solver hasH solve hs opts ⟨ω, dxes, vecE sh h J, vecE sh h ε, mu, none, none, false, guess⟩ (uniformGrid sh h) hpos rfl
    (some fun p => sampleH h μ p.1 p.2) (fun m hm p => by
      have := Option.some.inj hm
      rw [← this]; exact (lt_of_lt_of_le hκ (hμ _ _)).ne') rfl rfl rfl (by
      have cst : ((ω : ℂ) ^ 2) = ((ω ^ 2 : ℝ) : ℂ) := by push_cast; rfl
      refine hloss.imp (fun hl p => ?_) fun hl p => ?_
      · show ((ω : ℂ) ^ 2 * vecE sh h ε p).im < 0
        rw [cst, im_ofReal_mul]
        have := hl p.1 (latticePt h (offE p.1) p.2)
        exact mul_neg_of_pos_of_neg hω2 (lt_of_le_of_lt this (by linarith))
      · show 0 < ((ω : ℂ) ^ 2 * vecE sh h ε p).im
        rw [cst, im_ofReal_mul]
        exact mul_pos hω2 (lt_of_lt_of_le hδ (hl p.1 (latticePt h (offE p.1) p.2))))
  obtain ⟨k1, k2⟩ := C106_error hL hh hω hδ hε' hκ hloss hre hμ hsol E₁ e₁
  rw [← hK] at k1 k2
  have V0 : 0 ≤ ∏ a, L a := Finset.prod_nonneg fun a _ => by rw [hL]; exact mul_nonneg (Nat.cast_nonneg _) (hh a).le
  have S0 : 0 ≤ ∑ a, h a ^ 2 := Finset.sum_nonneg fun a _ => sq_nonneg _
  have bound : ∀ B A T : ℝ, 0 ≤ A → T ≤ B * (∑ a, h a ^ 2) ^ 2 → B ≤ A → √T ≤ √A * ∑ a, h a ^ 2 := by
    intro B A T hA hT hBA
    rw [Real.sqrt_le_iff]
    refine ⟨mul_nonneg (Real.sqrt_nonneg _) S0, ?_⟩
    rw [mul_pow, Real.sq_sqrt hA]
    exact hT.trans (mul_le_mul_of_nonneg_right hBA (sq_nonneg _))
  have a1 : 0 ≤ K ^ 2 * (3 * (∏ a, L a) * (ω ^ 2 + 1 / κ) * (M / 24) ^ 2) := by positivity
  have a2 : 0 ≤ 2 / ω ^ 2 * (K ^ 2 * (3 * (∏ a, L a) * (ω ^ 2 + 1 / κ) * (M / 24) ^ 2) + 3 * (∏ a, L a) / κ * (M / 24) ^ 2) := by positivity
  refine ⟨E₁, r₁, bound _ _ _ (add_nonneg a1 a2) (k1.trans (le_of_eq ?_)) (le_add_of_nonneg_right a2),
    bound _ _ _ (add_nonneg a1 a2) (k2.trans (le_of_eq ?_)) (le_add_of_nonneg_left a1)⟩
  · ring
  · ring

-- Non-vacuous: a standing wave driven by a current in a lossy dielectric.
example : HarmonicSolution (fun _ => 2 * Real.pi) 1 (fun _ _ => 2 - I) (fun _ _ => 1)
    (fun c r => if c = 0 then (-1 - I) * (Real.cos (r 2) : ℂ) else 0) (fun c r => if c = 0 then (Real.cos (r 2) : ℂ) else 0)
    (fun c r => if c = 1 then -I * (Real.sin (r 2) : ℂ) else 0) 1 := by
  have dc : deriv (fun s => (Real.cos s : ℂ)) = fun s => -(Real.sin s : ℂ) := by
    funext s; simpa using (Real.hasDerivAt_cos s).ofReal_comp.deriv
  have ds : deriv (fun s => (Real.sin s : ℂ)) = fun s => (Real.cos s : ℂ) := by
    funext s; exact (Real.hasDerivAt_sin s).ofReal_comp.deriv
  have smc : Smooth3 1 (fun s => (Real.cos s : ℂ)) := by
    refine ⟨ofRealCLM.contDiff.comp Real.contDiff_cos, fun s => ?_⟩
    have : iteratedDeriv 3 (fun s => (Real.cos s : ℂ)) = fun s => (Real.sin s : ℂ) := by
      rw [iteratedDeriv_succ', iteratedDeriv_succ', iteratedDeriv_succ', iteratedDeriv_zero, dc]
      have d2 : deriv (fun s => -(Real.sin s : ℂ)) = fun s => -(Real.cos s : ℂ) := by funext s; rw [deriv.fun_neg, ds]
      rw [d2]; funext s; rw [deriv.fun_neg, dc]; simp
    rw [this, norm_real, Real.norm_eq_abs]; exact Real.abs_sin_le_one _
  have dms : deriv (fun s => -I * (Real.sin s : ℂ)) = fun s => -I * (Real.cos s : ℂ) := by
    funext s; exact ((Real.hasDerivAt_sin s).ofReal_comp.const_mul (-I)).deriv
  have dmc : deriv (fun s => -I * (Real.cos s : ℂ)) = fun s => -I * -(Real.sin s : ℂ) := by
    funext s; simpa using ((Real.hasDerivAt_cos s).ofReal_comp.const_mul (-I)).deriv
  have sms : Smooth3 1 (fun s => -I * (Real.sin s : ℂ)) := by
    refine ⟨contDiff_const.mul (ofRealCLM.contDiff.comp Real.contDiff_sin), fun s => ?_⟩
    have : iteratedDeriv 3 (fun s => -I * (Real.sin s : ℂ)) = fun s => I * (Real.cos s : ℂ) := by
      rw [iteratedDeriv_succ', iteratedDeriv_succ', iteratedDeriv_succ', iteratedDeriv_zero, dms, dmc]
      funext s
      have := ((Real.hasDerivAt_sin s).ofReal_comp.const_mul I).deriv
      simpa using this
    rw [this, norm_mul, norm_I, one_mul, norm_real, Real.norm_eq_abs]; exact Real.abs_cos_le_one _
  have const : ∀ k : ℂ, Smooth3 1 (fun _ : ℝ => k) := fun k => by
    refine ⟨contDiff_const, fun s => ?_⟩
    rw [iteratedDeriv_succ', iteratedDeriv_succ', iteratedDeriv_succ', iteratedDeriv_zero]; simp
  have lines : ∀ (g : ℝ → ℂ) (c' c a : Fin 3) (r : Pt), line (fun r : Pt => if c = c' then g (r 2) else 0) a r
      = if c = c' then if a = 2 then g else fun _ => g (r 2) else fun _ => 0 := by
    intro g c' c a r
    funext s
    by_cases hc : c = c'
    · by_cases ha : a = 2
      · subst ha; simp [line, hc]
      · simp [line, hc, ha, Function.update_of_ne (Ne.symm ha)]
    · simp [line, hc]
  have per : ∀ (g : ℝ → ℂ) (c' c : Fin 3), (∀ s, g (s + 2 * Real.pi) = g s) → Periodic (fun _ => 2 * Real.pi) (fun r : Pt => if c = c' then g (r 2) else 0) := by
    intro g c' c hg a r
    by_cases hc : c = c'
    · by_cases ha : a = 2
      · subst ha; simp only [hc, if_true, Function.update_self, hg]
      · simp [Function.update_of_ne (Ne.symm ha)]
    · simp [hc]
  have lE := lines (fun s => (Real.cos s : ℂ)) 0
  have lH := lines (fun s => -I * (Real.sin s : ℂ)) 1
  constructor
  · intro c r
    simp only [curl, pd, lE]
    fin_cases c <;> simp [dc, ← mul_assoc, -ofReal_cos, -ofReal_sin]
  · intro c r
    simp only [curl, pd, lH]
    fin_cases c <;> simp [ds, -ofReal_cos, -ofReal_sin]
    linear_combination (Real.cos (r 2) : ℂ) * I_sq
  · exact fun c => per (fun s => (Real.cos s : ℂ)) 0 c fun s => by rw [Real.cos_add_two_pi]
  · exact fun c => per (fun s => -I * (Real.sin s : ℂ)) 1 c fun s => by rw [Real.sin_add_two_pi]
  · intro c a r; rw [lE]; split_ifs
    exacts [smc, const _, const 0]
  · intro c a r; rw [lH]; split_ifs
    exacts [sms, const _, const 0]

end Meanas.Props
