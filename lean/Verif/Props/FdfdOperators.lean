/-
C24–C29, C34: FDFD operators (meanas/fdfd/operators.py, meanas/fdfd/functional.py).
-/
import Verif.Lemmas.Fdfd
import Verif.Lemmas.Fdtd
import Verif.Props.Fdmath
import Verif.Props.FdtdEnergy
import Mathlib.LinearAlgebra.Matrix.ConjTranspose

namespace Meanas.Props

open Matrix Complex Fdfd Spec

variable {sh : Fin 3 → ℕ}

/-! ### C24: sparse = functional -/

/-- C24 (e_full, no mu). -/
theorem C24_e_full_no_mu_partial (ω : ℂ) (dxes : Dx sh) (eps e : VField sh ℂ) (c : Fin 3) (x : Idx sh) :
    (eFull ω dxes (vecS eps) none none none *ᵥ vecS e) (c, x) = FdfdF.eFull ω dxes eps none e c x := by
  rw [eFull_mulVec]
  simp only [FdfdF.eFull, muV_none, Pi.one_apply, div_one, vecS_apply, mul_assoc]
  rfl

/-- C24 (e_full with mu, what actually agrees): the functional operator multiplies by mu where the sparse one divides, so
it is the sparse operator for `1/mu`. -/
theorem C24_e_full_mu_actual_partial (ω : ℂ) (dxes : Dx sh) (eps mu e : VField sh ℂ) (c : Fin 3) (x : Idx sh) :
    (eFull ω dxes (vecS eps) (some (vecS fun c y => (mu c y)⁻¹)) none none *ᵥ vecS e) (c, x)
      = FdfdF.eFull ω dxes eps (some mu) e c x := by
  rw [eFull_mulVec]
  simp only [FdfdF.eFull, muV_some, vecS_apply, mul_assoc]
  have h : (unS fun q : Pos sh => cE dxes (vecS e) q / vecS (fun c y => (mu c y)⁻¹) q)
      = fun c' y => mu c' y * Functional.curlForward (some dxes.1) e c' y := by
    funext c' y
    show _ / (mu c' y)⁻¹ = mu c' y * _
    rw [div_inv_eq_mul, mul_comm]; rfl
  show Functional.curlBack (some dxes.2) (unS _) c x - _ = _
  rw [h]

/-- A 2×2×2 grid with unit cells. -/
noncomputable def unitDx : Dx (fun _ => 2) := (fun _ _ => 1, fun _ _ => 1)
/-- The field with `x` component 1 in the plane `y = 0`. -/
def stripe : VField (fun _ : Fin 3 => 2) ℂ := fun c x => if c = 0 ∧ (x 1 : ℕ) = 0 then 1 else 0
/-- The first cell. -/
def org : Idx (fun _ : Fin 3 => 2) := fun _ => 0

theorem curlcurl_stripe (k : ℂ) :
    Functional.curlBack (some unitDx.2) (fun c y => k * Functional.curlForward (some unitDx.1) stripe c y) 0 org = 2 * k := by
  have s1 : ((shiftIdx 1 1 org : Idx fun _ : Fin 3 => 2) 1 : ℕ) = 1 := by decide
  have s2 : ((shiftIdx 1 (-1) org : Idx fun _ : Fin 3 => 2) 1 : ℕ) = 1 := by decide
  have s3 : ((shiftIdx 1 1 (shiftIdx 1 (-1) org) : Idx fun _ : Fin 3 => 2) 1 : ℕ) = 0 := by decide
  have s0 : ((org : Idx fun _ : Fin 3 => 2) 1 : ℕ) = 0 := rfl
  have n1 : (1 : Fin 3) ≠ 0 := by decide
  have n2 : (2 : Fin 3) ≠ 0 := by decide
  have t2 : ((shiftIdx 2 1 org : Idx fun _ : Fin 3 => 2) 1 : ℕ) = 0 := by decide
  have t3 : ((shiftIdx 2 (-1) org : Idx fun _ : Fin 3 => 2) 1 : ℕ) = 0 := by decide
  have t4 : ((shiftIdx 2 1 (shiftIdx 2 (-1) org) : Idx fun _ : Fin 3 => 2) 1 : ℕ) = 0 := by decide
  simp only [curlBack_0, derivBack_eq, curlForward_2, curlForward_1, derivForward_eq, stripe, wOf_some, unitDx, s0, s1, s2, s3,
    t2, t3, t4, n1, n2, false_and, if_false, true_and, if_true, one_ne_zero]
  ring

/-- C24 (e_full with mu, disagreement): with `mu = 2` the two versions differ. -/
theorem C24_e_full_mu_wrong_partial :
    ∃ (dxes : Dx fun _ => 2) (eps mu e : VField (fun _ => 2) ℂ) (ω : ℂ), (∀ c x, mu c x ≠ 0) ∧
      ∃ c x, (eFull ω dxes (vecS eps) (some (vecS mu)) none none *ᵥ vecS e) (c, x)
        ≠ FdfdF.eFull ω dxes eps (some mu) e c x := by
  refine ⟨unitDx, fun _ _ => 1, fun _ _ => 2, stripe, 1, fun _ _ => two_ne_zero, 0, org, ?_⟩
  rw [eFull_mulVec]
  have h1 : cH unitDx (fun q => cE unitDx (vecS stripe) q / muV (some (vecS fun _ _ => 2)) q) (0, org) = 2 * (1 / 2) := by
    rw [← curlcurl_stripe (1 / 2)]
    show Functional.curlBack _ _ 0 org = _
    congr 1; funext c y
    show _ / (2 : ℂ) = _
    rw [div_eq_inv_mul, one_div]; rfl
  have h2 := curlcurl_stripe 2
  simp only [FdfdF.eFull]
  rw [h1, h2]
  simp only [vecS_apply]
  intro h
  have : (2 * (1 / 2) : ℂ) = 2 * 2 := by linear_combination h
  norm_num at this

/-- C24 (eh_full, mu given). -/
theorem C24_eh_full_partial (ω : ℂ) (dxes : Dx sh) (eps mu e h : VField sh ℂ) :
    ∃ A, Fdfd.ehFull ω dxes (vecS eps) (some (vecS mu)) none none = .ok A ∧
      ∀ c x, (A *ᵥ Sum.elim (vecS e) (vecS h)) (Sum.inl (c, x)) = (FdfdF.ehFull ω dxes eps (some mu) e h).1 c x ∧
        (A *ᵥ Sum.elim (vecS e) (vecS h)) (Sum.inr (c, x)) = (FdfdF.ehFull ω dxes eps (some mu) e h).2 c x := by
  refine ⟨_, rfl, fun c x => ?_⟩
  rw [fromBlocks_mulVec]
  simp only [Sum.elim_inl, Sum.elim_inr, Sum.elim_comp_inl, Sum.elim_comp_inr, notMask, Matrix.one_mul, Matrix.mul_one, Pi.add_apply,
    neg_mulVec, Pi.neg_apply, smul_mulVec, Pi.smul_apply, mulVec_diagonal, smul_eq_mul, curlBack_mulVec, curlForward_mulVec,
    FdfdF.ehFull, vecS_apply, unS_vecS]
  constructor <;> ring

/-- C24 (eh_full, mu omitted): the sparse version raises although the functional one works. -/
theorem C24_eh_full_no_mu_raises_partial (ω : ℂ) (dxes : Dx sh) (eps : Vec sh) (pec pmc : Option (Pos sh → Bool)) :
    ∃ msg, Fdfd.ehFull ω dxes eps none pec pmc = .error msg := ⟨_, rfl⟩

/-- C24 (e2h): agree for given and for omitted mu. -/
theorem C24_e2h (ω : ℂ) (dxes : Dx sh) (mu : Option (VField sh ℂ)) (e : VField sh ℂ) (c : Fin 3) (x : Idx sh) :
    (Fdfd.e2h ω dxes (mu.map vecS) none *ᵥ vecS e) (c, x) = FdfdF.e2h ω dxes mu e c x := by
  rw [e2h_mulVec]
  cases mu with
  | none => simp [FdfdF.e2h]
  | some m => simp only [FdfdF.e2h, Option.map_some, muV_some, vecS_apply, unS_vecS]; rw [div_div]

/-- C24 (m2j, disagreement in general): the functional version is the *negative* of the sparse one. -/
theorem C24_m2j_sign_partial (ω : ℂ) (dxes : Dx sh) (mu : Option (VField sh ℂ)) (m : VField sh ℂ) (c : Fin 3) (x : Idx sh) :
    FdfdF.m2j ω dxes mu m c x = -(Fdfd.m2j ω dxes (mu.map vecS) *ᵥ vecS m) (c, x) := by
  rw [m2j_mulVec]
  cases mu with
  | none =>
    simp only [FdfdF.m2j, Option.map_none, muV_none, Pi.one_apply, div_one, vecS_apply, neg_mul, div_neg]; rfl
  | some k => simp only [FdfdF.m2j, Option.map_some, muV_some, vecS_apply, neg_mul, div_neg]; rfl

/-- C24 (m2j, disagreement): a source for which the two versions differ. -/
theorem C24_m2j_wrong_partial :
    ∃ (dxes : Dx fun _ => 2) (m : VField (fun _ => 2) ℂ) (ω : ℂ), ω ≠ 0 ∧
      ∃ c x, FdfdF.m2j ω dxes none m c x ≠ (Fdfd.m2j ω dxes none *ᵥ vecS m) (c, x) := by
  refine ⟨unitDx, Functional.curlForward (some unitDx.1) stripe, 1, one_ne_zero, 0, org, ?_⟩
  have h := C24_m2j_sign_partial 1 unitDx none (Functional.curlForward (some unitDx.1) stripe) 0 org
  simp only [Option.map_none] at h
  rw [eq_neg_iff_add_eq_zero] at h
  intro h'
  rw [← h'] at h
  have h2 := curlcurl_stripe 1
  simp only [one_mul, mul_one] at h2
  have h3 : FdfdF.m2j 1 unitDx none (Functional.curlForward (some unitDx.1) stripe) 0 org = 2 / (-I * 1) := by
    simp only [FdfdF.m2j]; rw [h2]
  rw [h3] at h
  have hI : (I : ℂ) ≠ 0 := I_ne_zero
  field_simp at h
  norm_num at h

/-- C24 (e_tfsf_source, no mu). -/
theorem C24_tfsf_no_mu_partial (tf : VField sh ℂ) (ω : ℂ) (dxes : Dx sh) (eps e : VField sh ℂ) (c : Fin 3) (x : Idx sh) :
    (Fdfd.eTfsfSource (vecS tf) ω dxes (vecS eps) none *ᵥ vecS e) (c, x) = FdfdF.eTfsfSource tf ω dxes eps none e c x := by
  have hQ : ∀ v : Vec sh, (diagonal (vecS tf) : Mat sh) *ᵥ v = fun p => vecS tf p * v p := by
    intro v; funext p; rw [mulVec_diagonal]
  simp only [Fdfd.eTfsfSource, FdfdF.eTfsfSource, smul_mulVec, sub_mulVec, ← mulVec_mulVec, Pi.smul_apply, Pi.sub_apply, hQ,
    smul_eq_mul, ← C24_e_full_no_mu_partial]
  rw [div_mul_eq_mul_div, one_mul]; rfl

/-! ### C25: symmetry -/

theorem pSquared_eq (dxes : Dx sh) (c : Fin 3) (x : Idx sh) : pSquared dxes (c, x) = volE dxes.1 dxes.2 c x := by
  revert c
  refine forall_fin3 ?_ ?_ ?_
  · rw [volE_0]; rfl
  · rw [volE_1]; rfl
  · rw [volE_2]; rfl

/-- Every width is nonzero. -/
def GridNz (dxes : Dx sh) : Prop := Nonzero dxes.1 ∧ Nonzero dxes.2

theorem volE_ne {dxes : Dx sh} (h : GridNz dxes) (c : Fin 3) (x : Idx sh) : volE dxes.1 dxes.2 c x ≠ 0 := by
  have := h.1; have := h.2
  revert c
  refine forall_fin3 ?_ ?_ ?_
  · rw [volE_0]; exact mul_ne_zero (mul_ne_zero (h.1 _ _) (h.2 _ _)) (h.2 _ _)
  · rw [volE_1]; exact mul_ne_zero (mul_ne_zero (h.2 _ _) (h.1 _ _)) (h.2 _ _)
  · rw [volE_2]; exact mul_ne_zero (mul_ne_zero (h.2 _ _) (h.2 _ _)) (h.1 _ _)

theorem volH_ne {dxes : Dx sh} (h : GridNz dxes) (c : Fin 3) (x : Idx sh) : volH dxes.1 dxes.2 c x ≠ 0 := by
  revert c
  refine forall_fin3 ?_ ?_ ?_
  · rw [volH_0]; exact mul_ne_zero (mul_ne_zero (h.2 _ _) (h.1 _ _)) (h.1 _ _)
  · rw [volH_1]; exact mul_ne_zero (mul_ne_zero (h.1 _ _) (h.2 _ _)) (h.1 _ _)
  · rw [volH_2]; exact mul_ne_zero (mul_ne_zero (h.1 _ _) (h.1 _ _)) (h.2 _ _)

theorem pSquared_ne {dxes : Dx sh} (h : GridNz dxes) (p : Pos sh) : pSquared dxes p ≠ 0 := by
  obtain ⟨c, x⟩ := p
  rw [pSquared_eq]; exact volE_ne h c x

/-- Weighted adjointness of the two curls as a matrix identity: `V_E·curl_b = curl_fᵀ·V_H`. -/
theorem vol_curl {dxes : Dx sh} (h : GridNz dxes) :
    (diagonal (pSquared dxes) : Mat sh) * OperatorsS.curlBack dxes.2
      = (OperatorsS.curlForward dxes.1)ᵀ * diagonal (fun p : Pos sh => volH dxes.1 dxes.2 p.1 p.2) := by
  have key : ∀ u v : Vec sh, u ⬝ᵥ (((diagonal (pSquared dxes) : Mat sh) * OperatorsS.curlBack dxes.2) *ᵥ v)
      = u ⬝ᵥ (((OperatorsS.curlForward dxes.1)ᵀ * diagonal (fun p : Pos sh => volH dxes.1 dxes.2 p.1 p.2)) *ᵥ v) := by
    intro u v
    rw [← mulVec_mulVec, ← mulVec_mulVec, dotProduct_mulVec u (OperatorsS.curlForward dxes.1)ᵀ, vecMul_transpose,
      curlForward_mulVec, curlBack_mulVec]
    have := C06_curl_adjoint_weighted dxes.1 dxes.2 h.1 h.2 (unS u) (unS v)
    simp only [dotProduct, mulVec_diagonal, Fintype.sum_prod_type, vecS_apply, pSquared_eq]
    calc _ = _ := Finset.sum_congr rfl fun c _ => Finset.sum_congr rfl fun x _ => by
            show _ = volE dxes.1 dxes.2 c x * (unS u c x * Functional.curlBack (some dxes.2) (unS v) c x)
            rw [unS_apply]; ring
      _ = _ := this
      _ = _ := Finset.sum_congr rfl fun c _ => Finset.sum_congr rfl fun x _ => by
            rw [unS_apply]; ring
  ext i j
  have := key (Pi.single i 1) (Pi.single j 1)
  simpa using this

theorem sqrt_sq (z : ℂ) : z ^ (1 / 2 : ℂ) * z ^ (1 / 2 : ℂ) = z := by
  have := Complex.cpow_nat_inv_pow z two_ne_zero
  rw [← pow_two, one_div]; exact_mod_cast this

/-- A mask matrix is a diagonal of zeros and ones. -/
theorem notMask_diag (m : Option (Pos sh → Bool)) : ∃ d : Pos sh → ℝ, notMask m = diagonal fun p => (d p : ℂ) := by
  rcases m with _ | m
  · exact ⟨fun _ => 1, by simp [notMask]⟩
  · refine ⟨fun p => if m p then 0 else 1, ?_⟩
    rw [notMask]; congr 1; funext p
    show (if m p then (0 : ℂ) else 1) = ((if m p then (0 : ℝ) else 1 : ℝ) : ℂ)
    split <;> simp

theorem muDiv_diag (mu : Option (Vec sh)) : muDiv mu = diagonal fun p => (muV mu p)⁻¹ := by
  rcases mu with _ | m
  · rw [muDiv, ← diagonal_one]; congr 1; funext p; simp
  · rw [muDiv]; congr 1; funext p; rw [one_div]; rfl

/-- `V_E · e_full` as a manifestly symmetric product. -/
theorem vol_eFull (ω : ℂ) (dxes : Dx sh) (hg : GridNz dxes) (eps : Vec sh) (mu : Option (Vec sh)) (pec pmc : Option (Pos sh → Bool))
    (pe pm : Vec sh) (hpe : notMask pec = diagonal pe) (hpm : notMask pmc = diagonal pm) :
    (diagonal (pSquared dxes) : Mat sh) * eFull ω dxes eps mu pec pmc
      = diagonal pe * ((OperatorsS.curlForward dxes.1)ᵀ
          * diagonal (fun p : Pos sh => volH dxes.1 dxes.2 p.1 p.2 * pm p * (muV mu p)⁻¹) * OperatorsS.curlForward dxes.1
          - ω ^ 2 • diagonal (fun p => pSquared dxes p * eps p)) * diagonal pe := by
  have c1 : (diagonal (pSquared dxes) : Mat sh) * diagonal pe = diagonal pe * diagonal (pSquared dxes) := by
    rw [diagonal_mul_diagonal, diagonal_mul_diagonal]; congr 1; funext p; ring
  simp only [eFull, hpe, hpm, muDiv_diag]
  rw [← Matrix.mul_assoc, ← Matrix.mul_assoc, c1, Matrix.mul_assoc (diagonal pe), Matrix.mul_sub]
  simp only [← Matrix.mul_assoc]
  rw [vol_curl hg, Matrix.mul_assoc _ (diagonal _) (diagonal pm), diagonal_mul_diagonal, Matrix.mul_assoc _ (diagonal _) (diagonal _),
    diagonal_mul_diagonal, Matrix.mul_smul, diagonal_mul_diagonal]

/-- `V_E · e_full` is symmetric. -/
theorem vol_eFull_symm (ω : ℂ) (dxes : Dx sh) (hg : GridNz dxes) (eps : Vec sh) (mu : Option (Vec sh))
    (pec pmc : Option (Pos sh → Bool)) :
    ((diagonal (pSquared dxes) : Mat sh) * eFull ω dxes eps mu pec pmc)ᵀ = diagonal (pSquared dxes) * eFull ω dxes eps mu pec pmc := by
  obtain ⟨pe, hpe⟩ := notMask_diag pec
  obtain ⟨pm, hpm⟩ := notMask_diag pmc
  rw [vol_eFull ω dxes hg eps mu pec pmc _ _ hpe hpm]
  simp only [transpose_mul, transpose_sub, transpose_smul, transpose_transpose, diagonal_transpose, Matrix.mul_assoc]

/-- C25: the preconditioned wave operator is symmetric, for complex widths and with conductors. -/
theorem C25_symmetric (ω : ℂ) (dxes : Dx sh) (hg : GridNz dxes) (eps : Vec sh) (mu : Option (Vec sh))
    (pec pmc : Option (Pos sh → Bool)) :
    ((preconditioners dxes).1 * eFull ω dxes eps mu pec pmc * (preconditioners dxes).2)ᵀ
      = (preconditioners dxes).1 * eFull ω dxes eps mu pec pmc * (preconditioners dxes).2 := by
  have hS := vol_eFull_symm ω dxes hg eps mu pec pmc
  ext i j
  have hij := congrFun (congrFun hS i) j
  have p1 := sqrt_sq (pSquared dxes i)
  have p2 := sqrt_sq (pSquared dxes j)
  have n1 : pSquared dxes i ^ (1 / 2 : ℂ) ≠ 0 := fun h0 => pSquared_ne hg i (by rw [← p1, h0, mul_zero])
  have n2 : pSquared dxes j ^ (1 / 2 : ℂ) ≠ 0 := fun h0 => pSquared_ne hg j (by rw [← p2, h0, mul_zero])
  rw [transpose_apply, diagonal_mul, diagonal_mul, ← p1, ← p2] at hij
  simp only [preconditioners, transpose_apply, diagonal_mul, mul_diagonal]
  field_simp
  linear_combination hij

/-- C25: the two preconditioners are inverse to each other. -/
theorem C25_inverse (dxes : Dx sh) (hg : GridNz dxes) :
    (preconditioners dxes).1 * (preconditioners dxes).2 = 1 ∧ (preconditioners dxes).2 * (preconditioners dxes).1 = 1 := by
  have n : ∀ i : Pos sh, pSquared dxes i ^ (1 / 2 : ℂ) ≠ 0 := fun i h0 => pSquared_ne hg i (by rw [← sqrt_sq (pSquared dxes i), h0, mul_zero])
  simp only [preconditioners, diagonal_mul_diagonal]
  constructor
  · rw [← diagonal_one]; congr 1; funext p; exact mul_one_div_cancel (n p)
  · rw [← diagonal_one]; congr 1; funext p; exact one_div_mul_cancel (n p)

/-- C25, hypotheses are met: a grid with complex (PML) widths. -/
example : GridNz (sh := fun _ => 4) (fun _ i => 1 + I * (i : ℕ), fun _ _ => 2 + 3 * I) := by
  constructor
  · intro a i h
    have := congrArg Complex.re h
    simp at this
  · intro a i h
    have := congrArg Complex.re h
    simp at this

/-! ### C26 -/

theorem ehFull_mulVec {ω : ℂ} {dxes : Dx sh} {eps mu : Vec sh} {A} (hA : Fdfd.ehFull ω dxes eps (some mu) none none = .ok A)
    (E H : Vec sh) : A *ᵥ Sum.elim E H
      = Sum.elim (fun p => cH dxes H p - I * ω * (eps p * E p)) (fun p => cE dxes E p + I * ω * (mu p * H p)) := by
  cases hA
  rw [fromBlocks_mulVec]
  simp only [Sum.elim_comp_inl, Sum.elim_comp_inr, notMask, Matrix.one_mul, Matrix.mul_one, neg_mulVec, smul_mulVec]
  congr 1
  · funext p
    simp only [Pi.add_apply, Pi.neg_apply, Pi.smul_apply, mulVec_diagonal, smul_eq_mul, curlBack_mulVec]; ring
  · funext p
    simp only [Pi.add_apply, Pi.smul_apply, mulVec_diagonal, smul_eq_mul, curlForward_mulVec]

/-- C26: first-order system ⟺ second-order equation, with electric and magnetic sources. -/
theorem C26_first_second_order (ω : ℂ) (hω : ω ≠ 0) (dxes : Dx sh) (eps mu : Vec sh) (hmu : ∀ p, mu p ≠ 0)
    (A : Matrix (Pos sh ⊕ Pos sh) (Pos sh ⊕ Pos sh) ℂ) (hA : Fdfd.ehFull ω dxes eps (some mu) none none = .ok A)
    (E H J M : Vec sh) :
    A *ᵥ Sum.elim E H = Sum.elim J (-M) ↔
      eFull ω dxes eps (some mu) none none *ᵥ E = (-I * ω) • (J + Fdfd.m2j ω dxes (some mu) *ᵥ M) ∧
      H = Fdfd.e2h ω dxes (some mu) none *ᵥ E + fun p => M p / (-I * ω * mu p) := by
  have hI : (I : ℂ) ≠ 0 := I_ne_zero
  have hII : (I : ℂ) ^ 2 = -1 := I_sq
  rw [ehFull_mulVec hA]
  -- the magnetic equation is the recovery formula
  have hH : (∀ p, cE dxes E p + I * ω * (mu p * H p) = -M p) ↔
      H = Fdfd.e2h ω dxes (some mu) none *ᵥ E + fun p => M p / (-I * ω * mu p) := by
    rw [funext_iff]
    refine forall_congr' fun p => ?_
    have := hmu p
    rw [Pi.add_apply, e2h_mulVec, muV_some, div_div, ← add_div, eq_div_iff (by simp [hI, hω, this])]
    constructor <;> intro h <;> linear_combination -h
  have hsplit : (Sum.elim (fun p => cH dxes H p - I * ω * (eps p * E p)) (fun p => cE dxes E p + I * ω * (mu p * H p))
      = Sum.elim J (-M)) ↔ (∀ p, cH dxes H p - I * ω * (eps p * E p) = J p)
        ∧ (∀ p, cE dxes E p + I * ω * (mu p * H p) = -M p) := by
    rw [funext_iff, Sum.forall]
    rfl
  rw [hsplit, ← hH]
  refine and_congr_left fun hM => ?_
  have hHp : H = fun p => (-1 / (I * ω)) * (cE dxes E p / mu p + M p / mu p) := by
    funext p
    have := hmu p
    have h1 := hM p
    field_simp
    linear_combination h1
  have hcH : ∀ p, cH dxes H p = (-1 / (I * ω)) * (cH dxes (fun q => cE dxes E q / mu q) p + cH dxes (fun q => M q / mu q) p) := by
    intro p
    rw [hHp, cH_smul, cH_add]
  rw [funext_iff]
  refine forall_congr' fun p => ?_
  rw [eFull_mulVec, Pi.smul_apply, Pi.add_apply, m2j_mulVec, hcH p]
  simp only [muV_some, smul_eq_mul]
  generalize cH dxes (fun q => cE dxes E q / mu q) p = a
  generalize cH dxes (fun q => M q / mu q) p = b
  rw [← mul_left_inj' (mul_ne_zero (neg_ne_zero.2 hI) hω)]
  field_simp
  constructor <;> intro h
  · linear_combination h - ω ^ 2 * eps p * E p * hII
  · linear_combination h + ω ^ 2 * eps p * E p * hII

/-- C26 with `M = 0`: `H = e2h E`. -/
theorem C26_no_magnetic_source (ω : ℂ) (hω : ω ≠ 0) (dxes : Dx sh) (eps mu : Vec sh) (hmu : ∀ p, mu p ≠ 0)
    (A : Matrix (Pos sh ⊕ Pos sh) (Pos sh ⊕ Pos sh) ℂ) (hA : Fdfd.ehFull ω dxes eps (some mu) none none = .ok A)
    (E H J : Vec sh) :
    A *ᵥ Sum.elim E H = Sum.elim J 0 ↔
      eFull ω dxes eps (some mu) none none *ᵥ E = (-I * ω) • J ∧ H = Fdfd.e2h ω dxes (some mu) none *ᵥ E := by
  have := C26_first_second_order ω hω dxes eps mu hmu A hA E H J 0
  simpa [mulVec_zero, funext_iff] using this

/-- C26 for the functional operators with `mu = None` (where the sparse `eh_full` raises). -/
theorem C26_functional_no_mu (ω : ℂ) (hω : ω ≠ 0) (dxes : Dx sh) (eps E H J : VField sh ℂ) :
    ((∀ c x, (FdfdF.ehFull ω dxes eps none E H).1 c x = J c x) ∧ ∀ c x, (FdfdF.ehFull ω dxes eps none E H).2 c x = 0) ↔
      (∀ c x, FdfdF.eFull ω dxes eps none E c x = -I * ω * J c x) ∧ ∀ c x, H c x = FdfdF.e2h ω dxes none E c x := by
  obtain ⟨A, hA⟩ : ∃ A, Fdfd.ehFull ω dxes (vecS eps) (some 1) none none = .ok A := ⟨_, rfl⟩
  have key := C26_no_magnetic_source ω hω dxes (vecS eps) 1 (fun _ => one_ne_zero) A hA (vecS E) (vecS H) (vecS J)
  rw [ehFull_mulVec hA] at key
  simp only [funext_iff, Sum.forall, Sum.elim_inl, Sum.elim_inr, Prod.forall, vecS_apply, eFull_mulVec, e2h_mulVec, muV_some,
    Pi.one_apply, div_one, one_mul, Pi.smul_apply, smul_eq_mul, Pi.zero_apply, unS_vecS, ← mul_assoc] at key
  simp only [FdfdF.ehFull, FdfdF.eFull, FdfdF.e2h]
  exact key

/-- C26, hypotheses are met: the system exists for every grid with mu given. -/
example : ∃ A, Fdfd.ehFull (sh := fun _ => 3) 2 (fun _ _ => 1, fun _ _ => 1) (fun _ => 2) (some fun _ => 3) none none = .ok A :=
  ⟨_, rfl⟩

/-! ### C27 -/

/-- C27: a source-free electric solution gives a source-free magnetic one, from which it is recovered. -/
theorem C27_e_to_h (ω : ℂ) (hω : ω ≠ 0) (dxes : Dx sh) (eps : Vec sh) (heps : ∀ p, eps p ≠ 0) (mu : Option (Vec sh))
    (hmu : ∀ m, mu = some m → ∀ p, m p ≠ 0) (E : Vec sh) (hE : eFull ω dxes eps mu none none *ᵥ E = 0) :
    hFull ω dxes eps mu none none *ᵥ (Fdfd.e2h ω dxes mu none *ᵥ E) = 0 ∧
      ∀ p, E p = (OperatorsS.curlBack dxes.2 *ᵥ (Fdfd.e2h ω dxes mu none *ᵥ E)) p / (I * ω * eps p) := by
  have hI : (I : ℂ) ≠ 0 := I_ne_zero
  have hII : (I : ℂ) ^ 2 = -1 := I_sq
  have hm : ∀ p, muV mu p ≠ 0 := by
    intro p; cases mu with
    | none => exact one_ne_zero
    | some m => exact hmu m rfl p
  have hh : Fdfd.e2h ω dxes mu none *ᵥ E = fun p => (1 / (-I * ω)) * (cE dxes E p / muV mu p) := by
    funext p; rw [e2h_mulVec]; have := hm p; field_simp
  have hrec : ∀ p, cH dxes (Fdfd.e2h ω dxes mu none *ᵥ E) p = I * ω * (eps p * E p) := by
    intro p
    have h1 := congrFun hE p
    rw [eFull_mulVec, Pi.zero_apply] at h1
    rw [hh, cH_smul, sub_eq_zero.1 h1]
    field_simp
    linear_combination -(eps p * E p) * hII
  constructor
  · funext p
    have : (fun q => cH dxes (Fdfd.e2h ω dxes mu none *ᵥ E) q / eps q) = fun q => I * ω * E q := by
      funext q; rw [hrec]; have := heps q; field_simp
    rw [hFull_mulVec, this, cE_smul, Pi.zero_apply, hh]
    have := hm p
    field_simp
    linear_combination (ω * cE dxes E p) * hII
  · intro p
    have := heps p
    rw [curlBack_mulVec, hrec]
    field_simp

/-- C27: conversely, a source-free magnetic solution gives a source-free electric one, from which it is recovered by `e2h`. -/
theorem C27_h_to_e (ω : ℂ) (hω : ω ≠ 0) (dxes : Dx sh) (eps : Vec sh) (heps : ∀ p, eps p ≠ 0) (mu : Option (Vec sh))
    (hmu : ∀ m, mu = some m → ∀ p, m p ≠ 0) (H : Vec sh) (hH : hFull ω dxes eps mu none none *ᵥ H = 0) (E : Vec sh)
    (hE : ∀ p, E p = (OperatorsS.curlBack dxes.2 *ᵥ H) p / (I * ω * eps p)) :
    eFull ω dxes eps mu none none *ᵥ E = 0 ∧ H = Fdfd.e2h ω dxes mu none *ᵥ E := by
  have hI : (I : ℂ) ≠ 0 := I_ne_zero
  have hII : (I : ℂ) ^ 2 = -1 := I_sq
  have hm : ∀ p, muV mu p ≠ 0 := by
    intro p; cases mu with
    | none => exact one_ne_zero
    | some m => exact hmu m rfl p
  have hEe : E = fun p => (1 / (I * ω)) * (cH dxes H p / eps p) := by
    funext p; rw [hE, curlBack_mulVec]; have := heps p; field_simp
  have hcE : ∀ p, cE dxes E p = -I * ω * (muV mu p * H p) := by
    intro p
    have h1 := congrFun hH p
    rw [hFull_mulVec, Pi.zero_apply] at h1
    rw [hEe, cE_smul, sub_eq_zero.1 h1]
    field_simp
    linear_combination (muV mu p * H p) * hII
  constructor
  · funext p
    have : (fun q => cE dxes E q / muV mu q) = fun q => -I * ω * H q := by
      funext q; rw [hcE]; have := hm q; field_simp
    rw [eFull_mulVec, this, cH_smul, Pi.zero_apply, hE, curlBack_mulVec]
    have := heps p
    field_simp
    linear_combination -(ω * cH dxes H p) * hII
  · funext p
    rw [e2h_mulVec, hcE]
    have := hm p
    field_simp

/-! ### C34 -/

/-- C34: the backward divergence of `εE` is fixed by that of `J`. -/
theorem C34_charge (ω : ℂ) (hω : ω ≠ 0) (dxes : Dx sh) (eps : Vec sh) (mu : Option (Vec sh)) (E J : Vec sh)
    (h : eFull ω dxes eps mu none none *ᵥ E = (-I * ω) • J) (x : Idx sh) :
    divBack (some dxes.2) (fun c y => eps (c, y) * E (c, y)) x = (I / ω) * divBack (some dxes.2) (fun c y => J (c, y)) x := by
  have h0 := divBack_curlBack (some dxes.2) (unS fun q => cE dxes E q / muV mu q) x
  have hp : ∀ c y, Functional.curlBack (some dxes.2) (unS fun q => cE dxes E q / muV mu q) c y
      = ω ^ 2 * (eps (c, y) * E (c, y)) - I * ω * J (c, y) := by
    intro c y
    have := congrFun h (c, y)
    rw [eFull_mulVec, Pi.smul_apply, smul_eq_mul] at this
    have h2 : cH dxes (fun q => cE dxes E q / muV mu q) (c, y) = Functional.curlBack (some dxes.2) (unS fun q => cE dxes E q / muV mu q) c y := rfl
    rw [← h2]; linear_combination this
  have hII : (I : ℂ) ^ 2 = -1 := I_sq
  have h1 : ω ^ 2 * divBack (some dxes.2) (fun c y => eps (c, y) * E (c, y)) x
      - I * ω * divBack (some dxes.2) (fun c y => J (c, y)) x = 0 := by
    rw [← h0]
    simp only [divBack, hp, Finset.mul_sum, ← Finset.sum_sub_distrib]
    exact Finset.sum_congr rfl fun a _ => by ring
  have h2 : ω * divBack (some dxes.2) (fun c y => eps (c, y) * E (c, y)) x
      - I * divBack (some dxes.2) (fun c y => J (c, y)) x = 0 := by
    rw [← mul_right_inj' hω]; linear_combination h1
  field_simp
  linear_combination h2

/-- C34: no free charge for divergence-free currents. -/
theorem C34_no_charge (ω : ℂ) (hω : ω ≠ 0) (dxes : Dx sh) (eps : Vec sh) (mu : Option (Vec sh)) (E J : Vec sh)
    (h : eFull ω dxes eps mu none none *ᵥ E = (-I * ω) • J) (hJ : ∀ x, divBack (some dxes.2) (fun c y => J (c, y)) x = 0)
    (x : Idx sh) : divBack (some dxes.2) (fun c y => eps (c, y) * E (c, y)) x = 0 := by
  rw [C34_charge ω hω dxes eps mu E J h, hJ, mul_zero]

/-- C34, hypotheses are met: any field is the response to some current. -/
example (ω : ℂ) (hω : ω ≠ 0) (dxes : Dx sh) (eps : Vec sh) (mu : Option (Vec sh)) (E : Vec sh) :
    ∃ J, eFull ω dxes eps mu none none *ᵥ E = (-I * ω) • J :=
  ⟨(-I * ω)⁻¹ • (eFull ω dxes eps mu none none *ᵥ E), by
    rw [smul_smul, mul_inv_cancel₀ (mul_ne_zero (neg_ne_zero.2 I_ne_zero) hω), one_smul]⟩

/-- C27, C29, hypotheses are met: on a grid of two cells per axis the field alternating along x and polarised along y is a source-free solution at `ω = 2`. -/
example : ∃ E : Vec fun _ => 2, E ≠ 0 ∧ eFull 2 (fun _ _ => 1, fun _ _ => 1) (fun _ => 1) none none none *ᵥ E = 0 := by
  refine ⟨fun p => ![0, 1, 0] p.1 * (-1) ^ (p.2 0 : ℕ), fun h => ?_, ?_⟩
  · have := congrFun h (1, fun _ => ⟨0, by decide +revert⟩)
    simp at this
  · funext ⟨c, x⟩
    have hs1 : ∀ i : Fin (2), (-1 : ℂ) ^ (wrap i 1 : ℕ) = -(-1) ^ (i : ℕ) := by
      show ∀ i : Fin 2, (-1 : ℂ) ^ (wrap i 1 : ℕ) = -(-1) ^ (i : ℕ)
      intro i; fin_cases i <;> simp [wrap]
    have hs2 : ∀ i : Fin (2), (-1 : ℂ) ^ (wrap i (-1) : ℕ) = -(-1) ^ (i : ℕ) := by
      show ∀ i : Fin 2, (-1 : ℂ) ^ (wrap i (-1) : ℕ) = -(-1) ^ (i : ℕ)
      intro i; fin_cases i <;> simp [wrap]
    have h1 : ∀ (y : Idx (fun _ => 2)) k, shiftIdx 1 k y 0 = y 0 := fun y k => shiftIdx_of_ne (show (0 : Fin 3) ≠ 1 by decide) k y
    have h2 : ∀ (y : Idx (fun _ => 2)) k, shiftIdx 2 k y 0 = y 0 := fun y k => shiftIdx_of_ne (show (0 : Fin 3) ≠ 2 by decide) k y
    have hw : ∀ (a : Fin 3) (i : Fin 2), wOf (sh := fun _ : Fin 3 => 2) (some fun _ _ => (1 : ℂ)) a i = 1 := fun a i => rfl
    rw [eFull_mulVec]
    revert c
    refine forall_fin3 ?_ ?_ ?_
    · simp [cE, cH, unS, derivForward_eq, derivBack_eq, h1, h2]
    · simp [cE, cH, unS, derivForward_eq, derivBack_eq, h1, h2, hs1, hs2, hw]
      ring
    · simp [cE, cH, unS, derivForward_eq, derivBack_eq, h1, h2]

/-! ### C28 -/

/-- C28: rows and columns of `e_full` at PEC positions are zero. -/
theorem C28_pec_zero (ω : ℂ) (dxes : Dx sh) (eps : Vec sh) (mu : Option (Vec sh)) (pec : Pos sh → Bool)
    (pmc : Option (Pos sh → Bool)) (p q : Pos sh) (hp : pec p = true) :
    eFull ω dxes eps mu (some pec) pmc p q = 0 ∧ eFull ω dxes eps mu (some pec) pmc q p = 0 := by
  simp [eFull, notMask, diagonal_mul, mul_diagonal, hp]

/-- C28: `e_full @ E` does not depend on E at PEC positions. -/
theorem C28_pec_independent (ω : ℂ) (dxes : Dx sh) (eps : Vec sh) (mu : Option (Vec sh)) (pec : Pos sh → Bool)
    (pmc : Option (Pos sh → Bool)) (E E' : Vec sh) (h : ∀ p, pec p = false → E p = E' p) :
    eFull ω dxes eps mu (some pec) pmc *ᵥ E = eFull ω dxes eps mu (some pec) pmc *ᵥ E' := by
  funext r
  simp only [mulVec, dotProduct]
  refine Finset.sum_congr rfl fun q _ => ?_
  cases hq : pec q
  · rw [h q hq]
  · rw [(C28_pec_zero ω dxes eps mu pec pmc q r hq).2, zero_mul, zero_mul]

/-- C28: apart from PEC positions the operator is the one without PEC, applied to the field that vanishes in the
conductor. -/
theorem C28_pec_elsewhere (ω : ℂ) (dxes : Dx sh) (eps : Vec sh) (mu : Option (Vec sh)) (pec : Pos sh → Bool)
    (pmc : Option (Pos sh → Bool)) (E : Vec sh) (p : Pos sh) (hp : pec p = false) :
    (eFull ω dxes eps mu (some pec) pmc *ᵥ E) p
      = (eFull ω dxes eps mu none pmc *ᵥ fun q => if pec q then 0 else E q) p := by
  have h1 : (notMask (some pec) : Mat sh) *ᵥ E = fun q => if pec q then 0 else E q := by
    funext q; rw [notMask_mulVec]
  simp only [eFull]
  rw [← mulVec_mulVec, ← mulVec_mulVec, h1, notMask_mulVec]
  simp [notMask, hp]

/-- C28: PMC positions carry no magnetic field in `e_full`: the operator is `-iω·curl(e2h E) − ω²εE` with the masked `e2h`. -/
theorem C28_pmc_e_full (ω : ℂ) (hω : ω ≠ 0) (dxes : Dx sh) (eps : Vec sh) (mu : Option (Vec sh)) (pmc : Option (Pos sh → Bool))
    (E : Vec sh) (p : Pos sh) :
    (eFull ω dxes eps mu none pmc *ᵥ E) p
      = -I * ω * (OperatorsS.curlBack dxes.2 *ᵥ (Fdfd.e2h ω dxes mu pmc *ᵥ E)) p - ω ^ 2 * (eps p * E p) := by
  have hI : (I : ℂ) ≠ 0 := I_ne_zero
  have h1 : notMask pmc *ᵥ muDiv mu *ᵥ (OperatorsS.curlForward dxes.1 *ᵥ E) = (-I * ω) • (Fdfd.e2h ω dxes mu pmc *ᵥ E) := by
    have h2 : Fdfd.e2h ω dxes mu pmc = notMask pmc * Fdfd.e2h ω dxes mu none := by
      cases pmc
      · simp [notMask]
      · rfl
    rw [h2, ← mulVec_mulVec, ← mulVec_smul]
    congr 1
    funext q
    rw [muDiv_mulVec, curlForward_mulVec, Pi.smul_apply, e2h_mulVec, smul_eq_mul, div_right_comm]
    field_simp
  simp only [eFull, notMask, Matrix.one_mul, Matrix.mul_one, sub_mulVec, ← mulVec_mulVec, Pi.sub_apply, smul_mulVec, Pi.smul_apply,
    mulVec_diagonal, smul_eq_mul]
  have h3 := congrFun (congrArg (fun v => OperatorsS.curlBack dxes.2 *ᵥ v) h1) p
  simp only [mulVec_smul, Pi.smul_apply, smul_eq_mul, notMask] at h3
  rw [← h3]

/-- C28: `e2h @ E` is zero at PMC positions and unaffected elsewhere. -/
theorem C28_pmc_e2h (ω : ℂ) (dxes : Dx sh) (mu : Option (Vec sh)) (pmc : Pos sh → Bool) (E : Vec sh) (p : Pos sh) :
    (Fdfd.e2h ω dxes mu (some pmc) *ᵥ E) p = if pmc p then 0 else (Fdfd.e2h ω dxes mu none *ᵥ E) p := by
  have h2 : Fdfd.e2h ω dxes mu (some pmc) = notMask (some pmc) * Fdfd.e2h ω dxes mu none := rfl
  rw [h2, ← mulVec_mulVec, notMask_mulVec]

/-- C28: rows and columns of `h_full` at PMC positions are zero. -/
theorem C28_pmc_zero (ω : ℂ) (dxes : Dx sh) (eps : Vec sh) (mu : Option (Vec sh)) (pec : Option (Pos sh → Bool))
    (pmc : Pos sh → Bool) (p q : Pos sh) (hp : pmc p = true) :
    hFull ω dxes eps mu pec (some pmc) p q = 0 ∧ hFull ω dxes eps mu pec (some pmc) q p = 0 := by
  simp [hFull, notMask, diagonal_mul, mul_diagonal, hp]

/-- C28: away from PMC positions `h_full @ H` is `curl E' − ω²μH`, where the electric quantity `E' = curl H / ε` is built
from the field that vanishes in the magnetic conductor and is itself set to zero in the electric one. -/
theorem C28_h_full_value (ω : ℂ) (dxes : Dx sh) (eps mu : Vec sh) (pec pmc : Pos sh → Bool) (H : Vec sh) (p : Pos sh)
    (hp : pmc p = false) :
    (hFull ω dxes eps (some mu) (some pec) (some pmc) *ᵥ H) p
      = (OperatorsS.curlForward dxes.1 *ᵥ fun q =>
          if pec q then 0 else (OperatorsS.curlBack dxes.2 *ᵥ fun r => if pmc r then 0 else H r) q / eps q) p
        - ω ^ 2 * (mu p * H p) := by
  have h1 : (notMask (some pmc) : Mat sh) *ᵥ H = fun q => if pmc q then 0 else H q := by
    funext q; rw [notMask_mulVec]
  simp only [hFull]
  rw [← mulVec_mulVec, ← mulVec_mulVec, h1, notMask_mulVec, sub_mulVec, ← mulVec_mulVec, ← mulVec_mulVec, ← mulVec_mulVec]
  have h2 : (notMask (some pec) : Mat sh) *ᵥ (diagonal fun p => 1 / eps p) *ᵥ
        (OperatorsS.curlBack dxes.2 *ᵥ fun r => if pmc r then 0 else H r)
      = fun q => if pec q then 0 else (OperatorsS.curlBack dxes.2 *ᵥ fun r => if pmc r then 0 else H r) q / eps q := by
    funext q; rw [notMask_mulVec, mulVec_diagonal]; simp only [one_div_mul_eq_div]
  rw [h2]
  simp [smul_mulVec, mulVec_diagonal, hp]

/-- C28: the permittivity inside a perfect conductor has no effect on `h_full`. -/
theorem C28_h_full_pec (ω : ℂ) (dxes : Dx sh) (eps eps' : Vec sh) (mu : Option (Vec sh)) (pec : Pos sh → Bool)
    (pmc : Option (Pos sh → Bool)) (h : ∀ p, pec p = false → eps p = eps' p) :
    hFull ω dxes eps mu (some pec) pmc = hFull ω dxes eps' mu (some pec) pmc := by
  have h1 : (notMask (some pec) : Mat sh) * diagonal (fun p => 1 / eps p) = notMask (some pec) * diagonal fun p => 1 / eps' p := by
    simp only [notMask, diagonal_mul_diagonal]
    congr 1
    funext p
    cases hq : pec p
    · rw [h p hq]
    · simp
  simp only [hFull]
  rw [Matrix.mul_assoc (OperatorsS.curlForward dxes.1) (notMask (some pec)), h1, ← Matrix.mul_assoc]

/-- C28: masks without conductors have no effect on any of the operators. -/
theorem C28_empty_masks (ω : ℂ) (dxes : Dx sh) (eps : Vec sh) (mu : Option (Vec sh)) :
    eFull ω dxes eps mu (some fun _ => false) (some fun _ => false) = eFull ω dxes eps mu none none ∧
    hFull ω dxes eps mu (some fun _ => false) (some fun _ => false) = hFull ω dxes eps mu none none ∧
    Fdfd.ehFull ω dxes eps mu (some fun _ => false) (some fun _ => false) = Fdfd.ehFull ω dxes eps mu none none ∧
    Fdfd.e2h ω dxes mu (some fun _ => false) = Fdfd.e2h ω dxes mu none := by
  have h1 : (notMask (some fun _ => false) : Mat sh) = notMask none := by simp [notMask]
  refine ⟨by simp only [eFull, h1], by simp only [hFull, h1], by simp only [Fdfd.ehFull, h1], ?_⟩
  have h2 : Fdfd.e2h ω dxes mu (some fun _ => false) = notMask (some fun _ => false) * Fdfd.e2h ω dxes mu none := rfl
  rw [h2, h1]; simp [notMask]

/-- C28: in the first-order system, PEC and PMC positions have zero rows and columns. -/
theorem C28_eh_full (ω : ℂ) (dxes : Dx sh) (eps mu : Vec sh) (pec pmc : Pos sh → Bool) (A)
    (hA : Fdfd.ehFull ω dxes eps (some mu) (some pec) (some pmc) = .ok A) (p : Pos sh) (r : Pos sh ⊕ Pos sh) :
    (pec p = true → A (.inl p) r = 0 ∧ A r (.inl p) = 0) ∧ (pmc p = true → A (.inr p) r = 0 ∧ A r (.inr p) = 0) := by
  cases hA
  constructor <;> intro hp <;> rcases r with r | r <;>
    simp only [notMask, diagonal_mul, mul_diagonal, hp, fromBlocks_apply₁₁, fromBlocks_apply₁₂, fromBlocks_apply₂₁,
      fromBlocks_apply₂₂, Matrix.neg_apply, if_true, zero_mul, mul_zero, neg_zero, and_self]

/-! ### C29 -/

/-- C29: the field cut off at the edge of the mask is driven by the TFSF currents. -/
theorem C29_launches (tf : Vec sh) (ω : ℂ) (hω : ω ≠ 0) (dxes : Dx sh) (eps : Vec sh) (mu : Option (Vec sh)) (E : Vec sh)
    (hE : eFull ω dxes eps mu none none *ᵥ E = 0) :
    eFull ω dxes eps mu none none *ᵥ (fun p => tf p * E p) = (-I * ω) • (Fdfd.eTfsfSource tf ω dxes eps mu *ᵥ E) := by
  have hI : (-I * ω) ≠ 0 := mul_ne_zero (neg_ne_zero.2 I_ne_zero) hω
  have hQ : (diagonal tf : Mat sh) *ᵥ E = fun p => tf p * E p := by funext p; rw [mulVec_diagonal]
  simp only [Fdfd.eTfsfSource, smul_mulVec, sub_mulVec, ← mulVec_mulVec, hE, hQ, mulVec_zero, sub_zero, smul_smul]
  rw [mul_one_div_cancel hI, one_smul]

/-- `q` belongs to the curl-curl neighbourhood of `p = (c, x)`: same component one cell away across `c`, or another
component `a` on the four edges around which the field circulates. -/
def CurlNear (p q : Pos sh) : Prop :=
  (q.1 = p.1 ∧ (q.2 = p.2 ∨ ∃ a, a ≠ p.1 ∧ (q.2 = shiftIdx a 1 p.2 ∨ q.2 = shiftIdx a (-1) p.2))) ∨
  (q.1 ≠ p.1 ∧ (q.2 = p.2 ∨ q.2 = shiftIdx q.1 (-1) p.2 ∨ q.2 = shiftIdx p.1 1 p.2 ∨
    q.2 = shiftIdx p.1 1 (shiftIdx q.1 (-1) p.2)))

theorem eFull_mask_const (tf : Vec sh) (ω : ℂ) (dxes : Dx sh) (eps : Vec sh) (mu : Option (Vec sh)) (E : Vec sh) (p : Pos sh)
    (h : ∀ q, CurlNear p q → tf q = tf p) :
    (eFull ω dxes eps mu none none *ᵥ fun q => tf q * E q) p = tf p * (eFull ω dxes eps mu none none *ᵥ E) p := by
  rw [eFull_mulVec, eFull_mulVec]
  obtain ⟨c, x⟩ := p
  have hs : ∀ a, a ≠ c → tf (c, shiftIdx a 1 x) = tf (c, x) ∧ tf (c, shiftIdx a (-1) x) = tf (c, x) := fun a ha =>
    ⟨h _ (Or.inl ⟨rfl, Or.inr ⟨a, ha, Or.inl rfl⟩⟩), h _ (Or.inl ⟨rfl, Or.inr ⟨a, ha, Or.inr rfl⟩⟩)⟩
  have ho : ∀ a, a ≠ c → tf (a, x) = tf (c, x) ∧ tf (a, shiftIdx a (-1) x) = tf (c, x) ∧ tf (a, shiftIdx c 1 x) = tf (c, x) ∧
      tf (a, shiftIdx c 1 (shiftIdx a (-1) x)) = tf (c, x) := fun a ha =>
    ⟨h _ (Or.inr ⟨ha, Or.inl rfl⟩), h _ (Or.inr ⟨ha, Or.inr (Or.inl rfl)⟩), h _ (Or.inr ⟨ha, Or.inr (Or.inr (Or.inl rfl))⟩),
      h _ (Or.inr ⟨ha, Or.inr (Or.inr (Or.inr rfl))⟩)⟩
  clear h
  revert c
  have n01 : (0 : Fin 3) ≠ 1 := by decide
  have n02 : (0 : Fin 3) ≠ 2 := by decide
  have n12 : (1 : Fin 3) ≠ 2 := by decide
  refine forall_fin3 ?_ ?_ ?_
  · intro hs ho
    obtain ⟨a1, a2⟩ := hs 1 n01.symm
    obtain ⟨a3, a4⟩ := hs 2 n02.symm
    obtain ⟨b1, b2, b3, b4⟩ := ho 1 n01.symm
    obtain ⟨c1, c2, c3, c4⟩ := ho 2 n02.symm
    simp only [vecS_apply, curlBack_0, derivBack_eq, unS_apply, curlForward_2, curlForward_1, derivForward_eq, shiftIdx_fwd_back,
      a1, a2, a3, a4, b1, b2, b3, b4, c1, c2, c3, c4]
    ring
  · intro hs ho
    obtain ⟨a1, a2⟩ := hs 0 n01
    obtain ⟨a3, a4⟩ := hs 2 n12.symm
    obtain ⟨b1, b2, b3, b4⟩ := ho 0 n01
    obtain ⟨c1, c2, c3, c4⟩ := ho 2 n12.symm
    simp only [vecS_apply, curlBack_1, derivBack_eq, unS_apply, curlForward_2, curlForward_0, derivForward_eq, shiftIdx_fwd_back,
      a1, a2, a3, a4, b1, b2, b3, b4, c1, c2, c3, c4]
    ring
  · intro hs ho
    obtain ⟨a1, a2⟩ := hs 0 n02
    obtain ⟨a3, a4⟩ := hs 1 n12
    obtain ⟨b1, b2, b3, b4⟩ := ho 0 n02
    obtain ⟨c1, c2, c3, c4⟩ := ho 1 n12
    simp only [vecS_apply, curlBack_2, derivBack_eq, unS_apply, curlForward_1, curlForward_0, derivForward_eq, shiftIdx_fwd_back,
      a1, a2, a3, a4, b1, b2, b3, b4, c1, c2, c3, c4]
    ring

theorem tfsf_mulVec (tf : Vec sh) (ω : ℂ) (dxes : Dx sh) (eps : Vec sh) (mu : Option (Vec sh)) (E : Vec sh) (p : Pos sh) :
    (Fdfd.eTfsfSource tf ω dxes eps mu *ᵥ E) p
      = 1 / (-I * ω) * ((eFull ω dxes eps mu none none *ᵥ fun q => tf q * E q) p - tf p * (eFull ω dxes eps mu none none *ᵥ E) p) := by
  have hQ : (diagonal tf : Mat sh) *ᵥ E = fun p => tf p * E p := by funext p; rw [mulVec_diagonal]
  simp only [Fdfd.eTfsfSource, smul_mulVec, sub_mulVec, ← mulVec_mulVec, hQ, Pi.smul_apply, Pi.sub_apply, smul_eq_mul, mulVec_diagonal]

/-- C29: no current where the mask is constant on the curl-curl neighbourhood, whatever the field. -/
theorem C29_local (tf : Vec sh) (ω : ℂ) (dxes : Dx sh) (eps : Vec sh) (mu : Option (Vec sh)) (E : Vec sh) (p : Pos sh)
    (h : ∀ q, CurlNear p q → tf q = tf p) : (Fdfd.eTfsfSource tf ω dxes eps mu *ᵥ E) p = 0 := by
  rw [tfsf_mulVec, eFull_mask_const tf ω dxes eps mu E p h, sub_self, mul_zero]

/-- C29, hypotheses are met: a 0/1 box mask that is constant around a cell away from its edge but not everywhere. -/
example : ∃ (tf : Vec fun _ => 8) (p r : Pos fun _ => 8), (∀ q, CurlNear p q → tf q = tf p) ∧ tf r ≠ tf p := by
  refine ⟨fun q => if (q.2 0 : ℕ) < 4 then 1 else 0, (0, fun _ => 2), (0, fun _ => 6), ?_, ?_⟩
  · have h0 : ∀ a : Fin 3, ((shiftIdx a (-1) (fun _ => 2) : Idx fun _ : Fin 3 => 8) 0 : ℕ) < 4 := by decide
    have h1 : ∀ a : Fin 3, ((shiftIdx a 1 (fun _ => 2) : Idx fun _ : Fin 3 => 8) 0 : ℕ) < 4 := by decide
    have h2 : ∀ a b : Fin 3, ((shiftIdx b 1 (shiftIdx a (-1) (fun _ => 2)) : Idx fun _ : Fin 3 => 8) 0 : ℕ) < 4 := by decide
    rintro ⟨c, y⟩ (⟨-, h | ⟨a, -, h | h⟩⟩ | ⟨-, h | h | h | h⟩) <;> simp only at h <;> subst h
    · rfl
    · simp only [h1 a, if_true]; rfl
    · simp only [h0 a, if_true]; rfl
    · rfl
    · simp only [h0 c, if_true]; rfl
    · simp only [h1 0, if_true]; rfl
    · simp only [h2 c 0, if_true]; rfl
  · show (if ((6 : Fin 8) : ℕ) < 4 then (1 : ℂ) else 0) ≠ if ((2 : Fin 8) : ℕ) < 4 then (1 : ℂ) else 0
    simp

/-! ### C30 -/

open Classical in
theorem boundary_mulVec (mask : Vec sh) (ω : ℂ) (dxes : Dx sh) (eps : Vec sh) (mu : Option (Vec sh)) (per : Bool) (E : Vec sh)
    (p : Pos sh) : (eBoundarySource mask ω dxes eps mu per *ᵥ E) p
      = if boundaryMask mask per p then (Fdfd.eTfsfSource mask ω dxes eps mu *ᵥ E) p else 0 := by
  rw [eBoundarySource, ← mulVec_mulVec, mulVec_diagonal]
  split <;> simp

/-- A neighbour of the cell along axis `a` (in direction `s`) as the mask sees it: periodic, or repeating the edge cell. -/
def NbrVal (mask : Vec sh) (per : Bool) (c : Fin 3) (x : Idx sh) (a : Fin 3) (s : ℤ) (v : ℂ) : Prop :=
  ∃ y : Idx sh, v = mask (c, y) ∧ (∀ b, b ≠ a → y b = x b) ∧
    (if per then ((y a : ℕ) : ℤ) = ((x a : ℕ) + s) % (sh a : ℤ)
      else (((y a : ℕ) : ℤ) = (x a : ℕ) + s ∨ (y a = x a ∧ ((x a : ℕ) + s < 0 ∨ (sh a : ℤ) ≤ (x a : ℕ) + s))))

/-- C30: `e_boundary_source` is the TFSF current exactly at the positions where some one-cell shift changes the mask. -/
theorem C30_rows_partial (mask : Vec sh) (ω : ℂ) (dxes : Dx sh) (eps : Vec sh) (mu : Option (Vec sh)) (per : Bool) (E : Vec sh)
    (c : Fin 3) (x : Idx sh) :
    ((∃ a s v, sh a ≠ 1 ∧ (s = 1 ∨ s = -1) ∧ NbrVal mask per c x a s v ∧ v ≠ mask (c, x)) →
      (eBoundarySource mask ω dxes eps mu per *ᵥ E) (c, x) = (Fdfd.eTfsfSource mask ω dxes eps mu *ᵥ E) (c, x)) ∧
    ((∀ a s v, sh a ≠ 1 → (s = 1 ∨ s = -1) → NbrVal mask per c x a s v → v = mask (c, x)) →
      (eBoundarySource mask ω dxes eps mu per *ᵥ E) (c, x) = 0) := by
  have key : ∀ a s v, NbrVal mask per c x a s v ↔
      v = mask (c, if per then shiftIdx a s x else mirrorIdx a s x) := by
    intro a s v
    constructor
    · rintro ⟨y, rfl, hb, hy⟩
      congr 2
      cases per
      · simp only [Bool.false_eq_true, if_false] at hy ⊢
        unfold mirrorIdx
        rcases hy with hy | ⟨hy, hx⟩
        · have hr : 0 ≤ ((x a : ℕ) : ℤ) + s ∧ ((x a : ℕ) : ℤ) + s < sh a := by
            rw [← hy]; exact ⟨Int.natCast_nonneg _, by exact_mod_cast (y a).2⟩
          rw [if_pos hr]
          funext b
          by_cases hba : b = a
          · subst hba
            apply fin_ext_int
            rw [shiftIdx_same, wrap_val, Int.emod_eq_of_lt hr.1 hr.2, hy]
          · rw [shiftIdx_of_ne hba, hb b hba]
        · rw [if_neg (by omega)]
          funext b
          by_cases hba : b = a
          · subst hba; exact hy
          · exact hb b hba
      · simp only [if_true] at hy ⊢
        funext b
        by_cases hba : b = a
        · subst hba
          apply fin_ext_int
          rw [shiftIdx_same, wrap_val, hy]
        · rw [shiftIdx_of_ne hba, hb b hba]
    · rintro rfl
      refine ⟨_, rfl, ?_, ?_⟩
      · intro b hba
        cases per
        · simp only [Bool.false_eq_true, if_false, mirrorIdx]
          split
          · exact shiftIdx_of_ne hba _ _
          · rfl
        · simp only [if_true]; exact shiftIdx_of_ne hba _ _
      · cases per
        · simp only [Bool.false_eq_true, if_false, mirrorIdx]
          split
          · rename_i hr
            left
            rw [shiftIdx_same, wrap_val, Int.emod_eq_of_lt hr.1 hr.2]
          · rename_i hr
            right
            exact ⟨rfl, by omega⟩
        · simp only [if_true, shiftIdx_same, wrap_val]
  constructor
  · rintro ⟨a, s, v, ha, hs, hv, hne⟩
    rw [boundary_mulVec, if_pos]
    refine ⟨a, ha, s, ?_, ?_⟩
    · rcases hs with rfl | rfl <;> simp
    · rw [(key a s v).1 hv] at hne
      exact sub_ne_zero.2 hne
  · intro h
    rw [boundary_mulVec, if_neg]
    rintro ⟨a, ha, s, hs, hne⟩
    refine hne (sub_eq_zero.2 (h a s _ ha ?_ ((key a s _).2 rfl)))
    simp only [List.mem_cons, List.not_mem_nil, or_false] at hs
    exact hs.symm

/-- C30: wherever the boundary mask covers the curl-curl neighbourhood the currents are all there. -/
theorem C30_complete_partial (mask : Vec sh) (ω : ℂ) (dxes : Dx sh) (eps : Vec sh) (mu : Option (Vec sh)) (per : Bool)
    (h : ∀ p q, CurlNear p q → mask q ≠ mask p → boundaryMask mask per p) :
    eBoundarySource mask ω dxes eps mu per = Fdfd.eTfsfSource mask ω dxes eps mu := by
  have : ∀ E, eBoundarySource mask ω dxes eps mu per *ᵥ E = Fdfd.eTfsfSource mask ω dxes eps mu *ᵥ E := by
    intro E
    funext p
    rw [boundary_mulVec]
    split
    · rfl
    · rename_i hp
      refine (C29_local mask ω dxes eps mu E p fun q hq => ?_).symm
      by_contra hne
      exact hp (h p q hq hne)
  ext i j
  have := congrFun (this (Pi.single j 1)) i
  simpa using this

/-- C30, slab masks: for a mask that depends on one coordinate only (the usual mode-source slab), with periodic edges, the
boundary source is the TFSF source. -/
theorem C30_slab_partial (m : (a : Fin 3) → Fin (sh a) → ℂ) (b : Fin 3) (ω : ℂ) (dxes : Dx sh) (eps : Vec sh) (mu : Option (Vec sh)) :
    eBoundarySource (fun p => m b (p.2 b)) ω dxes eps mu true = Fdfd.eTfsfSource (fun p => m b (p.2 b)) ω dxes eps mu := by
  refine C30_complete_partial _ ω dxes eps mu true fun p q hpq hne => ?_
  obtain ⟨c, x⟩ := p
  obtain ⟨c', y⟩ := q
  have hb : sh b ≠ 1 := by
    intro h1
    refine hne (congrArg (m b) ?_)
    have : Subsingleton (Fin (sh b)) := by rw [h1]; infer_instance
    exact Subsingleton.elim _ _
  have hor : y b = wrap (x b) 1 ∨ y b = wrap (x b) (-1) := by
    have s1 : ∀ a (s : ℤ) (z : Idx sh), shiftIdx a s z b = z b ∨ (a = b ∧ shiftIdx a s z b = wrap (z b) s) := by
      intro a s z
      by_cases hab : b = a
      · subst hab; exact Or.inr ⟨rfl, shiftIdx_same _ _ _⟩
      · exact Or.inl (shiftIdx_of_ne hab _ _)
    have hxb : y b ≠ x b := fun e => hne (congrArg (m b) e)
    rcases hpq with ⟨-, h | ⟨a, -, h | h⟩⟩ | ⟨hc, h | h | h | h⟩ <;> simp only at h <;> subst h
    · exact absurd rfl hxb
    · rcases s1 a 1 x with e | ⟨-, e⟩
      · exact absurd e hxb
      · exact Or.inl e
    · rcases s1 a (-1) x with e | ⟨-, e⟩
      · exact absurd e hxb
      · exact Or.inr e
    · exact absurd rfl hxb
    · rcases s1 c' (-1) x with e | ⟨-, e⟩
      · exact absurd e hxb
      · exact Or.inr e
    · rcases s1 c 1 x with e | ⟨-, e⟩
      · exact absurd e hxb
      · exact Or.inl e
    · simp only at hc
      rcases s1 c 1 (shiftIdx c' (-1) x) with e | ⟨e0, e⟩
      · rcases s1 c' (-1) x with e' | ⟨-, e'⟩
        · exact absurd (e.trans e') hxb
        · exact Or.inr (e.trans e')
      · rcases s1 c' (-1) x with e' | ⟨e0', e'⟩
        · exact Or.inl (e.trans (by rw [e']))
        · exact absurd (e0'.trans e0.symm) hc
  rcases hor with h | h
  · refine ⟨b, hb, 1, by simp, ?_⟩
    simp only [if_true, shiftIdx_same]
    simp only at hne
    rw [← h]; exact sub_ne_zero.2 hne
  · refine ⟨b, hb, -1, by simp, ?_⟩
    simp only [if_true, shiftIdx_same]
    simp only at hne
    rw [← h]; exact sub_ne_zero.2 hne

/-- C30 (disagreement): at the outer corners of a mask the boundary source drops TFSF currents. One-cell mask in a 5×5×5 grid
of unit cells with ε = 1: the TFSF current in a diagonally adjacent cell is nonzero, the boundary source has none there. -/
theorem C30_corner_missing_partial (per : Bool) :
    ∃ (dxes : Dx fun _ => 5) (eps mask E : Vec fun _ => 5) (ω : ℂ) (p : Pos fun _ => 5), ω ≠ 0 ∧
      (∀ q, mask q = 0 ∨ mask q = 1) ∧ (∀ c c' x, mask (c, x) = mask (c', x)) ∧
      (eBoundarySource mask ω dxes eps none per *ᵥ E) p = 0 ∧ (Fdfd.eTfsfSource mask ω dxes eps none *ᵥ E) p ≠ 0 := by
  let s : Idx fun _ : Fin 3 => 5 := ![3, 1, 2]
  let x : Idx fun _ : Fin 3 => 5 := fun _ => 2
  let mask : Vec fun _ => 5 := fun q => if q.2 = s then 1 else 0
  let E : Vec fun _ => 5 := fun q => if q.1 = 1 ∧ q.2 = s then 1 else 0
  let dx : Dx fun _ => 5 := (fun _ _ => 1, fun _ _ => 1)
  have hx : x ≠ s := by decide
  refine ⟨dx, fun _ => 1, mask, E, 1, (0, x), one_ne_zero, ?_, fun _ _ _ => rfl, ?_, ?_⟩
  · intro q; by_cases h : q.2 = s
    · exact Or.inr (if_pos h)
    · exact Or.inl (if_neg h)
  · rw [boundary_mulVec, if_neg]
    rintro ⟨a, -, t, ht, hne⟩
    have h1 : ∀ a : Fin 3, ∀ t ∈ ([-1, 1] : List ℤ), (shiftIdx a t x : Idx fun _ : Fin 3 => 5) ≠ s ∧ mirrorIdx a t x ≠ s := by
      decide
    refine hne ?_
    have h2 : (if per then shiftIdx a t x else mirrorIdx a t x) ≠ s := by
      cases per
      · exact (h1 a t ht).2
      · exact (h1 a t ht).1
    show (if (if per then shiftIdx a t x else mirrorIdx a t x) = s then (1 : ℂ) else 0) - (if x = s then 1 else 0) = 0
    rw [if_neg h2, if_neg hx, sub_zero]
  · rw [tfsf_mulVec, eFull_mulVec]
    have hm : mask (0, x) = 0 := if_neg hx
    have hME : (fun q => mask q * E q) = E := by
      funext q
      show (if q.2 = s then (1 : ℂ) else 0) * (if q.1 = 1 ∧ q.2 = s then 1 else 0) = _
      by_cases h : q.2 = s
      · rw [if_pos h, one_mul]
      · rw [if_neg h, zero_mul]; exact (if_neg fun h' => h h'.2).symm
    have hE0 : ∀ y, E (0, y) = 0 := fun y => if_neg fun h => absurd (show (0 : Fin 3) = 1 from h.1) (by decide)
    have hE2 : ∀ y, E (2, y) = 0 := fun y => if_neg fun h => absurd (show (2 : Fin 3) = 1 from h.1) (by decide)
    have hE1 : ∀ y, E (1, y) = if y = s then 1 else 0 := fun y => by
      show (if (1 : Fin 3) = 1 ∧ y = s then (1 : ℂ) else 0) = _
      simp only [true_and]
    have e1 : (shiftIdx 0 1 x : Idx fun _ : Fin 3 => 5) ≠ s := by decide
    have e2 : (shiftIdx 0 1 (shiftIdx 1 (-1) x) : Idx fun _ : Fin 3 => 5) = s := by decide
    have e3 : (shiftIdx 1 (-1) x : Idx fun _ : Fin 3 => 5) ≠ s := by decide
    have hc : cH dx (fun q => cE dx E q / muV none q) (0, x) = -1 := by
      simp only [vecS_apply, curlBack_0, derivBack_eq, unS_apply, curlForward_2, curlForward_1, derivForward_eq, muV_none,
        Pi.one_apply, hE0, hE1, hE2, e1, e2, e3, hx, if_true, if_false, wOf_some, dx]
      norm_num
    rw [hME, hc, hm, hE0]
    simp

end Meanas.Props
