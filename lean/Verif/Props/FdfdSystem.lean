/-
C82–C85: properties of whole FDFD problems: reciprocity, unique solvability with loss, scale invariance, and simulations with
single-cell axes (meanas/fdfd/operators.py, meanas/fdfd/solvers.py, meanas/fdtd/base.py).
-/
import Verif.Props.FdfdWaves
import Verif.Props.FdfdSolvers
import Mathlib.LinearAlgebra.Matrix.NonsingularInverse
import Mathlib.LinearAlgebra.Matrix.ToLin

namespace Meanas.Props

open Matrix Complex Fdfd Spec Solvers

variable {sh : Fin 3 → ℕ}

/-! ### C82: reciprocity -/

theorem symm_dot {n : Type*} [Fintype n] {M : Matrix n n ℂ} (hM : Mᵀ = M) (u v : n → ℂ) : u ⬝ᵥ (M *ᵥ v) = v ⬝ᵥ (M *ᵥ u) := by
  rw [dotProduct_mulVec, ← mulVec_transpose, hM, dotProduct_comm]

/-- C82: the solutions driven by two currents satisfy `Σ V J₂·E₁ = Σ V J₁·E₂` on any grid (complex widths included), in any medium, with
perfect conductors of both kinds. -/
theorem C82_reciprocity (ω : ℂ) (hω : ω ≠ 0) (dxes : Dx sh) (hg : GridNz dxes) (eps : Vec sh) (mu : Option (Vec sh))
    (pec pmc : Option (Pos sh → Bool)) (E₁ E₂ J₁ J₂ : Vec sh)
    (h₁ : eFull ω dxes eps mu pec pmc *ᵥ E₁ = (-I * ω) • J₁) (h₂ : eFull ω dxes eps mu pec pmc *ᵥ E₂ = (-I * ω) • J₂) :
    ∑ c, ∑ x, volE dxes.1 dxes.2 c x * (J₂ (c, x) * E₁ (c, x)) = ∑ c, ∑ x, volE dxes.1 dxes.2 c x * (J₁ (c, x) * E₂ (c, x)) := by
  have h := symm_dot (vol_eFull_symm ω dxes hg eps mu pec pmc) E₁ E₂
  rw [← mulVec_mulVec, ← mulVec_mulVec, h₁, h₂] at h
  simp only [dotProduct, mulVec_diagonal, Pi.smul_apply, smul_eq_mul, Fintype.sum_prod_type, pSquared_eq] at h
  have hk : (-I * ω) ≠ 0 := mul_ne_zero (neg_ne_zero.2 I_ne_zero) hω
  refine mul_left_cancel₀ hk ?_
  simp only [Finset.mul_sum]
  calc _ = _ := Finset.sum_congr rfl fun c _ => Finset.sum_congr rfl fun x _ => by ring
    _ = _ := h
    _ = _ := Finset.sum_congr rfl fun c _ => Finset.sum_congr rfl fun x _ => by ring

/-- C82 for the fields returned by `generic` with an exact matrix solver: exchanging the source and the place where the field is
observed does not change the observation. -/
theorem C82_solver {R : Type} (hasH : Bool) (solve : Mat sh → Vec sh → Opts sh R → Vec sh) (hs : Exact solve) (opts : Opts sh R)
    (P : Problem sh) (hω : P.ω ≠ 0) (hg : GridNz P.dxes) (hadj : P.adjoint = false) (J₂ : Vec sh)
    (h₁ : ∃ E, eFull P.ω P.dxes P.eps P.mu P.pec P.pmc *ᵥ E = (-I * P.ω) • P.J)
    (h₂ : ∃ E, eFull P.ω P.dxes P.eps P.mu P.pec P.pmc *ᵥ E = (-I * P.ω) • J₂) :
    ∃ E₁ E₂, (generic hasH solve opts P).1 = .ok E₁ ∧ (generic hasH solve opts { P with J := J₂ }).1 = .ok E₂ ∧
      ∑ c, ∑ x, volE P.dxes.1 P.dxes.2 c x * (J₂ (c, x) * E₁ (c, x))
        = ∑ c, ∑ x, volE P.dxes.1 P.dxes.2 c x * (P.J (c, x) * E₂ (c, x)) := by
  obtain ⟨E₁, r₁, e₁⟩ := C32_solves_partial hasH solve hs opts P hg hadj h₁
  obtain ⟨E₂, r₂, e₂⟩ := C32_solves_partial hasH solve hs opts { P with J := J₂ } hg hadj h₂
  exact ⟨E₁, E₂, r₁, r₂, C82_reciprocity P.ω hω P.dxes hg P.eps P.mu P.pec P.pmc E₁ E₂ P.J J₂ e₁ e₂⟩

/-- The other weighted adjointness: `V_H·curl_f = curl_bᵀ·V_E`. -/
theorem vol_curl' {dxes : Dx sh} (h : GridNz dxes) :
    (diagonal (fun p : Pos sh => volH dxes.1 dxes.2 p.1 p.2) : Mat sh) * OperatorsS.curlForward dxes.1
      = (OperatorsS.curlBack dxes.2)ᵀ * diagonal (pSquared dxes) := by
  have := congrArg transpose (vol_curl h)
  rw [transpose_mul, transpose_mul, diagonal_transpose, diagonal_transpose, transpose_transpose] at this
  exact this.symm

/-- `h_full` with the permeability as a diagonal. -/
theorem hFull_eq (ω : ℂ) (dxes : Dx sh) (eps : Vec sh) (mu : Option (Vec sh)) (pec pmc : Option (Pos sh → Bool)) :
    hFull ω dxes eps mu pec pmc = notMask pmc * (OperatorsS.curlForward dxes.1 * notMask pec * diagonal (fun p => 1 / eps p)
      * OperatorsS.curlBack dxes.2 - ω ^ 2 • diagonal (muV mu)) * notMask pmc := by
  cases mu with
  | none =>
    have : (diagonal (muV none) : Mat sh) = 1 := diagonal_one
    rw [this]; rfl
  | some m => rfl

/-- `V_H · h_full` is symmetric. -/
theorem vol_hFull_symm (ω : ℂ) (dxes : Dx sh) (hg : GridNz dxes) (eps : Vec sh) (mu : Option (Vec sh))
    (pec pmc : Option (Pos sh → Bool)) :
    ((diagonal (fun p : Pos sh => volH dxes.1 dxes.2 p.1 p.2) : Mat sh) * hFull ω dxes eps mu pec pmc)ᵀ
      = diagonal (fun p : Pos sh => volH dxes.1 dxes.2 p.1 p.2) * hFull ω dxes eps mu pec pmc := by
  obtain ⟨pe, hpe⟩ := notMask_diag pec
  obtain ⟨pm, hpm⟩ := notMask_diag pmc
  have hv := vol_curl' hg
  rw [hFull_eq, hpe, hpm]
  generalize (fun p : Pos sh => volH dxes.1 dxes.2 p.1 p.2) = V at *
  generalize muV mu = m
  generalize pSquared dxes = W at *
  generalize OperatorsS.curlForward dxes.1 = CE at *
  generalize OperatorsS.curlBack dxes.2 = CB at *
  generalize (fun p => 1 / eps p) = ei
  generalize (fun p => (pm p : ℂ)) = pm'
  generalize (fun p => (pe p : ℂ)) = pe'
  have e1 : (diagonal V : Mat sh) * (diagonal pm' * (CE * diagonal pe' * diagonal ei * CB - ω ^ 2 • diagonal m) * diagonal pm')
      = diagonal pm' * (CBᵀ * diagonal (fun p => W p * pe' p * ei p) * CB - ω ^ 2 • diagonal (fun p => V p * m p)) * diagonal pm' := by
    have c1 : (diagonal V : Mat sh) * diagonal pm' = diagonal pm' * diagonal V := by
      rw [diagonal_mul_diagonal, diagonal_mul_diagonal]; congr 1; funext p; ring
    rw [← Matrix.mul_assoc, ← Matrix.mul_assoc, c1, Matrix.mul_assoc (diagonal pm') (diagonal V), Matrix.mul_sub]
    simp only [← Matrix.mul_assoc]
    rw [hv, Matrix.mul_assoc _ (diagonal W), diagonal_mul_diagonal, Matrix.mul_assoc _ (diagonal _) (diagonal ei), diagonal_mul_diagonal,
      Matrix.mul_smul, diagonal_mul_diagonal]
  rw [e1]
  simp only [transpose_mul, transpose_sub, transpose_smul, transpose_transpose, diagonal_transpose, Matrix.mul_assoc]

/-- C82, magnetic version: fields driven by two magnetic currents through `h_full H = -iωM`. -/
theorem C82_magnetic (ω : ℂ) (hω : ω ≠ 0) (dxes : Dx sh) (hg : GridNz dxes) (eps : Vec sh) (mu : Option (Vec sh))
    (pec pmc : Option (Pos sh → Bool)) (H₁ H₂ M₁ M₂ : Vec sh)
    (h₁ : hFull ω dxes eps mu pec pmc *ᵥ H₁ = (-I * ω) • M₁) (h₂ : hFull ω dxes eps mu pec pmc *ᵥ H₂ = (-I * ω) • M₂) :
    ∑ c, ∑ x, volH dxes.1 dxes.2 c x * (M₂ (c, x) * H₁ (c, x)) = ∑ c, ∑ x, volH dxes.1 dxes.2 c x * (M₁ (c, x) * H₂ (c, x)) := by
  have h := symm_dot (vol_hFull_symm ω dxes hg eps mu pec pmc) H₁ H₂
  rw [← mulVec_mulVec, ← mulVec_mulVec, h₁, h₂] at h
  simp only [dotProduct, mulVec_diagonal, Pi.smul_apply, smul_eq_mul, Fintype.sum_prod_type] at h
  have hk : (-I * ω) ≠ 0 := mul_ne_zero (neg_ne_zero.2 I_ne_zero) hω
  refine mul_left_cancel₀ hk ?_
  simp only [Finset.mul_sum]
  calc _ = _ := Finset.sum_congr rfl fun c _ => Finset.sum_congr rfl fun x _ => by ring
    _ = _ := h
    _ = _ := Finset.sum_congr rfl fun c _ => Finset.sum_congr rfl fun x _ => by ring

/-! ### C83: unique solvability with loss or gain of one sign -/

theorem conj_curlForward (dx : DxList sh ℝ) (h : VField sh ℂ) (c : Fin 3) (x : Idx sh) :
    Functional.curlForward (some fun a i => (dx a i : ℂ)) (fun c y => (starRingEnd ℂ) (h c y)) c x
      = (starRingEnd ℂ) (Functional.curlForward (some fun a i => (dx a i : ℂ)) h c x) := by
  revert c
  refine forall_fin3 ?_ ?_ ?_ <;>
    simp only [curlForward_0, curlForward_1, curlForward_2, derivForward_eq, wOf_some, map_sub, map_div₀, conj_ofReal]

/-- Permeability given by real values. -/
noncomputable def realMu (mu : Option (Pos sh → ℝ)) : Option (Vec sh) := mu.map fun m p => (m p : ℂ)

theorem realMu_inv (mu : Option (Pos sh → ℝ)) (p : Pos sh) : ∃ r : ℝ, (muV (realMu mu) p)⁻¹ = r := by
  cases mu with
  | none => exact ⟨1, by simp [realMu]⟩
  | some m => exact ⟨(m p)⁻¹, by simp [realMu]⟩

/-- All widths are positive. -/
def PosGrid (d : DxList sh ℝ × DxList sh ℝ) : Prop := (∀ a i, 0 < d.1 a i) ∧ ∀ a i, 0 < d.2 a i

theorem PosGrid.nz {d : DxList sh ℝ × DxList sh ℝ} (h : PosGrid d) : GridNz (cDx d) :=
  ⟨fun a i => ofReal_ne_zero.2 (h.1 a i).ne', fun a i => ofReal_ne_zero.2 (h.2 a i).ne'⟩

theorem PosGrid.vol {d : DxList sh ℝ × DxList sh ℝ} (h : PosGrid d) (c : Fin 3) (x : Idx sh) : 0 < volE d.1 d.2 c x := by
  unfold volE
  refine Finset.prod_pos fun a _ => ?_
  split
  · exact h.1 _ _
  · exact h.2 _ _

/-- The mask values of `numpy.where(mask, 0, 1)`. -/
def openAt (m : Option (Pos sh → Bool)) (p : Pos sh) : ℝ :=
  match m with
  | none => 1
  | some m => if m p then 0 else 1

theorem notMask_openAt (m : Option (Pos sh → Bool)) : notMask m = diagonal fun p => (openAt m p : ℂ) := by
  rcases m with _ | m
  · simp [notMask, openAt]
  · rw [notMask]; congr 1; funext p
    simp only [openAt]; split <;> simp

/-- The wave operator's quadratic form. -/
theorem quad_form_eq (ω : ℂ) (d : DxList sh ℝ × DxList sh ℝ) (hd : PosGrid d) (eps : Vec sh) (mu : Option (Pos sh → ℝ))
    (pec pmc : Option (Pos sh → Bool)) (E : Vec sh) :
    ∑ p : Pos sh, ((volE d.1 d.2 p.1 p.2 : ℝ) : ℂ) * ((starRingEnd ℂ) (E p) * (eFull ω (cDx d) eps (realMu mu) pec pmc *ᵥ E) p)
      = ((∑ p : Pos sh, volH d.1 d.2 p.1 p.2 * openAt pmc p * (muV (realMu mu) p)⁻¹.re * normSq (cE (cDx d) (fun q => openAt pec q * E q) p) : ℝ) : ℂ)
        - ∑ p : Pos sh, ω ^ 2 * eps p * ((volE d.1 d.2 p.1 p.2 * normSq (openAt pec p * E p) : ℝ) : ℂ) := by
  have h1 := vol_eFull ω (cDx d) hd.nz eps (realMu mu) pec pmc _ _ (notMask_openAt pec) (notMask_openAt pmc)
  set pe : Vec sh := fun p => (openAt pec p : ℂ) with hpe
  set u : Vec sh := fun p => pe p * E p with hu
  have hpu : (diagonal pe : Mat sh) *ᵥ E = u := by funext p; rw [mulVec_diagonal]
  have h2 := congrArg (fun M : Mat sh => star E ⬝ᵥ (M *ᵥ E)) h1
  simp only [← mulVec_mulVec, hpu] at h2
  rw [dotProduct_mulVec (star E) (diagonal pe)] at h2
  have hsu : star E ᵥ* (diagonal pe : Mat sh) = star u := by
    funext p
    rw [vecMul_diagonal]
    simp only [hu, hpe, Pi.star_apply, star_mul', RCLike.star_def, conj_ofReal]; ring
  rw [hsu, sub_mulVec, dotProduct_sub, ← mulVec_mulVec, ← mulVec_mulVec, dotProduct_mulVec (star u) (_)ᵀ, vecMul_transpose,
    curlForward_mulVec, curlForward_mulVec] at h2
  have hc : ∀ p, cE (cDx d) (star u) p = (starRingEnd ℂ) (cE (cDx d) u p) := fun p => conj_curlForward d.1 (unS u) p.1 p.2
  have l : star E ⬝ᵥ ((diagonal (pSquared (cDx d)) : Mat sh) *ᵥ (eFull ω (cDx d) eps (realMu mu) pec pmc *ᵥ E))
      = ∑ p : Pos sh, ((volE d.1 d.2 p.1 p.2 : ℝ) : ℂ) * ((starRingEnd ℂ) (E p) * (eFull ω (cDx d) eps (realMu mu) pec pmc *ᵥ E) p) := by
    simp only [dotProduct, mulVec_diagonal]
    refine Finset.sum_congr rfl fun p _ => ?_
    have : pSquared (cDx d) p = ((volE d.1 d.2 p.1 p.2 : ℝ) : ℂ) := by rw [← volE_cDx]; exact pSquared_eq _ p.1 p.2
    rw [this, Pi.star_apply, RCLike.star_def]; ring
  rw [← l, h2, ofReal_sum]
  congr 1
  · simp only [dotProduct, mulVec_diagonal, hc]
    refine Finset.sum_congr rfl fun p _ => ?_
    obtain ⟨r, hr⟩ := realMu_inv mu p
    rw [hr, ofReal_re, volH_cDx]; push_cast; rw [← mul_conj]; ring
  · simp only [dotProduct, smul_mulVec, Pi.smul_apply, mulVec_diagonal, smul_eq_mul]
    refine Finset.sum_congr rfl fun p _ => ?_
    have : pSquared (cDx d) p = ((volE d.1 d.2 p.1 p.2 : ℝ) : ℂ) := by rw [← volE_cDx]; exact pSquared_eq _ p.1 p.2
    have h3 : u p = openAt pec p * E p := rfl
    rw [this, Pi.star_apply, RCLike.star_def, ← h3]; push_cast; rw [← mul_conj]; ring

/-- The wave operator's quadratic form: the curl part is real. -/
theorem quad_form (ω : ℂ) (d : DxList sh ℝ × DxList sh ℝ) (hd : PosGrid d) (eps : Vec sh) (mu : Option (Pos sh → ℝ))
    (pec pmc : Option (Pos sh → Bool)) (E : Vec sh) :
    ∃ r : ℝ, ∑ p : Pos sh, ((volE d.1 d.2 p.1 p.2 : ℝ) : ℂ) * ((starRingEnd ℂ) (E p) * (eFull ω (cDx d) eps (realMu mu) pec pmc *ᵥ E) p)
      = r - ∑ p : Pos sh, ω ^ 2 * eps p * ((volE d.1 d.2 p.1 p.2 * normSq (openAt pec p * E p) : ℝ) : ℂ) :=
  ⟨_, quad_form_eq ω d hd eps mu pec pmc E⟩

/-- C83: absorbed power. On a real grid with real permeability the power exchanged with the current is what the imaginary part of the
permittivity absorbs: `Re Σ V E*·J = ω Σ V Im(ε)|E|²` (in `e^{+iωt}`, `Im ε < 0` is loss and the current delivers power). -/
theorem C83_absorbed_power (ω : ℝ) (hω : ω ≠ 0) (d : DxList sh ℝ × DxList sh ℝ) (hd : PosGrid d) (eps : Vec sh)
    (mu : Option (Pos sh → ℝ)) (_hmu : ∀ m, mu = some m → ∀ p, m p ≠ 0) (pmc : Option (Pos sh → Bool)) (E J : Vec sh)
    (h : eFull ω (cDx d) eps (realMu mu) none pmc *ᵥ E = (-I * ω) • J) :
    ∑ p : Pos sh, volE d.1 d.2 p.1 p.2 * ((starRingEnd ℂ) (E p) * J p).re
      = ω * ∑ p : Pos sh, volE d.1 d.2 p.1 p.2 * ((eps p).im * normSq (E p)) := by
  obtain ⟨r, hr⟩ := quad_form ω d hd eps mu none pmc E
  have := congrArg Complex.im hr
  rw [h] at this
  simp only [im_sum, sub_im, ofReal_im, zero_sub, Pi.smul_apply, smul_eq_mul, openAt, ofReal_one, one_mul] at this
  have a1 : ∀ p : Pos sh, (((volE d.1 d.2 p.1 p.2 : ℝ) : ℂ) * ((starRingEnd ℂ) (E p) * (-I * ω * J p))).im
      = -ω * (volE d.1 d.2 p.1 p.2 * ((starRingEnd ℂ) (E p) * J p).re) := by
    intro p
    rw [show ((volE d.1 d.2 p.1 p.2 : ℝ) : ℂ) * ((starRingEnd ℂ) (E p) * (-I * ω * J p))
      = ((-ω * volE d.1 d.2 p.1 p.2 : ℝ) : ℂ) * (I * ((starRingEnd ℂ) (E p) * J p)) by push_cast; ring, im_ofReal_mul, I_mul_im]; ring
  have a2 : ∀ p : Pos sh, ((ω : ℂ) ^ 2 * eps p * ((volE d.1 d.2 p.1 p.2 * normSq (E p) : ℝ) : ℂ)).im
      = -ω * (-ω * (volE d.1 d.2 p.1 p.2 * ((eps p).im * normSq (E p)))) := by
    intro p
    rw [show (ω : ℂ) ^ 2 * eps p * ((volE d.1 d.2 p.1 p.2 * normSq (E p) : ℝ) : ℂ)
      = ((ω ^ 2 * (volE d.1 d.2 p.1 p.2 * normSq (E p)) : ℝ) : ℂ) * eps p by push_cast; ring, im_ofReal_mul]; ring
  simp only [a1, a2] at this
  rw [← Finset.mul_sum, ← Finset.mul_sum, ← Finset.mul_sum] at this
  have h2 := mul_left_cancel₀ (neg_ne_zero.2 hω) (this.trans (mul_neg _ _).symm)
  rw [h2]; ring

/-- C83: uniqueness. If `Im(ω²ε)` has one strict sign everywhere, a current determines the field outside perfect conductors. -/
theorem C83_unique (ω : ℂ) (d : DxList sh ℝ × DxList sh ℝ) (hd : PosGrid d) (eps : Vec sh) (mu : Option (Pos sh → ℝ))
    (_hmu : ∀ m, mu = some m → ∀ p, m p ≠ 0) (pec pmc : Option (Pos sh → Bool))
    (hloss : (∀ p, (ω ^ 2 * eps p).im < 0) ∨ ∀ p, 0 < (ω ^ 2 * eps p).im) (E E' : Vec sh)
    (h : eFull ω (cDx d) eps (realMu mu) pec pmc *ᵥ E = eFull ω (cDx d) eps (realMu mu) pec pmc *ᵥ E') (p : Pos sh)
    (hp : ∀ m, pec = some m → m p = false) : E p = E' p := by
  have h0 : eFull ω (cDx d) eps (realMu mu) pec pmc *ᵥ (E - E') = 0 := by rw [mulVec_sub, h, sub_self]
  obtain ⟨r, hr⟩ := quad_form ω d hd eps mu pec pmc (E - E')
  have him := congrArg Complex.im hr
  rw [h0] at him
  simp only [Pi.zero_apply, mul_zero, Finset.sum_const_zero, zero_im, sub_im, ofReal_im, zero_sub, im_sum, im_mul_ofReal] at him
  have hz : ∑ q : Pos sh, (ω ^ 2 * eps q).im * (volE d.1 d.2 q.1 q.2 * normSq (openAt pec q * (E - E') q)) = 0 := by linarith
  have hnn : ∀ q : Pos sh, 0 ≤ volE d.1 d.2 q.1 q.2 * normSq (openAt pec q * (E - E') q) :=
    fun q => mul_nonneg (hd.vol _ _).le (normSq_nonneg _)
  have hterm : (ω ^ 2 * eps p).im * (volE d.1 d.2 p.1 p.2 * normSq (openAt pec p * (E - E') p)) = 0 := by
    rcases hloss with hl | hl
    · exact (Finset.sum_eq_zero_iff_of_nonpos fun q _ => mul_nonpos_of_nonpos_of_nonneg (hl q).le (hnn q)).1 hz p (Finset.mem_univ _)
    · exact (Finset.sum_eq_zero_iff_of_nonneg fun q _ => mul_nonneg (hl q).le (hnn q)).1 hz p (Finset.mem_univ _)
  have hne : (ω ^ 2 * eps p).im ≠ 0 := by
    rcases hloss with hl | hl
    · exact (hl p).ne
    · exact (hl p).ne'
  have h1 := (mul_eq_zero.1 ((mul_eq_zero.1 hterm).resolve_left hne)).resolve_left (hd.vol _ _).ne'
  have h2 : openAt pec p = 1 := by
    cases pec with
    | none => rfl
    | some m => simp [openAt, hp m rfl]
  rw [h2, ofReal_one, one_mul, normSq_eq_zero] at h1
  exact sub_eq_zero.1 h1

/-- C83: without perfect electric conductors every current has exactly one solution. -/
theorem C83_exists_unique (ω : ℂ) (d : DxList sh ℝ × DxList sh ℝ) (hd : PosGrid d) (eps : Vec sh) (mu : Option (Pos sh → ℝ))
    (hmu : ∀ m, mu = some m → ∀ p, m p ≠ 0) (pmc : Option (Pos sh → Bool))
    (hloss : (∀ p, (ω ^ 2 * eps p).im < 0) ∨ ∀ p, 0 < (ω ^ 2 * eps p).im) (J : Vec sh) :
    ∃! E, eFull ω (cDx d) eps (realMu mu) none pmc *ᵥ E = (-I * ω) • J := by
  have hinj : Function.Injective (eFull ω (cDx d) eps (realMu mu) none pmc).mulVec := fun E E' h =>
    funext fun p => C83_unique ω d hd eps mu hmu none pmc hloss E E' h p (by simp)
  have hu := Matrix.mulVec_injective_iff_isUnit.1 hinj
  obtain ⟨E, hE⟩ := Matrix.mulVec_surjective_iff_isUnit.2 hu ((-I * ω) • J)
  exact ⟨E, hE, fun E' hE' => hinj (hE'.trans hE.symm)⟩

/-- C83: `generic` with an exact matrix solver returns that unique solution. -/
theorem C83_solver {R : Type} (hasH : Bool) (solve : Mat sh → Vec sh → Opts sh R → Vec sh) (hs : Exact solve) (opts : Opts sh R)
    (P : Problem sh) (d : DxList sh ℝ × DxList sh ℝ) (hd : PosGrid d) (hdx : P.dxes = cDx d) (mu : Option (Pos sh → ℝ))
    (hmu : ∀ m, mu = some m → ∀ p, m p ≠ 0) (hPmu : P.mu = realMu mu) (hpec : P.pec = none) (hadj : P.adjoint = false)
    (hloss : (∀ p, (P.ω ^ 2 * P.eps p).im < 0) ∨ ∀ p, 0 < (P.ω ^ 2 * P.eps p).im) :
    ∃ E, (generic hasH solve opts P).1 = .ok E ∧ eFull P.ω P.dxes P.eps P.mu none P.pmc *ᵥ E = (-I * P.ω) • P.J ∧
      ∀ E', eFull P.ω P.dxes P.eps P.mu none P.pmc *ᵥ E' = (-I * P.ω) • P.J → E' = E := by
  obtain ⟨E, hE, hu⟩ := C83_exists_unique P.ω d hd P.eps mu hmu P.pmc hloss P.J
  obtain ⟨E₁, r₁, e₁⟩ := C32_solves_partial hasH solve hs opts P (by rw [hdx]; exact hd.nz) hadj
    ⟨E, by rw [hdx, hPmu, hpec]; exact hE⟩
  rw [hpec] at e₁
  refine ⟨E₁, r₁, e₁, fun E' hE' => ?_⟩
  rw [hdx, hPmu] at e₁ hE'
  exact (hu E' hE').trans (hu E₁ e₁).symm

/-- C83: the solution is bounded by the current: with `|Im ε| ≥ δ` of one sign, `Σ V|E|² ≤ Σ V|J|² / (ωδ)²`. -/
theorem C83_bound (ω : ℝ) (hω : ω ≠ 0) (d : DxList sh ℝ × DxList sh ℝ) (hd : PosGrid d) (eps : Vec sh)
    (mu : Option (Pos sh → ℝ)) (hmu : ∀ m, mu = some m → ∀ p, m p ≠ 0) (pmc : Option (Pos sh → Bool)) (δ : ℝ) (hδ : 0 < δ)
    (hloss : (∀ p, (eps p).im ≤ -δ) ∨ ∀ p, δ ≤ (eps p).im) (E J : Vec sh)
    (h : eFull ω (cDx d) eps (realMu mu) none pmc *ᵥ E = (-I * ω) • J) :
    ∑ p : Pos sh, volE d.1 d.2 p.1 p.2 * ‖E p‖ ^ 2 ≤ (∑ p : Pos sh, volE d.1 d.2 p.1 p.2 * ‖J p‖ ^ 2) / (ω * δ) ^ 2 := by
  have hpow := C83_absorbed_power ω hω d hd eps mu hmu pmc E J h
  have ha : 0 < |ω| := abs_pos.2 hω
  have hk : 0 < |ω| * δ := mul_pos ha hδ
  -- the absorbed power is at least `|ω|δ Σ V|E|²`
  have h1 : |ω| * (δ * ∑ p : Pos sh, volE d.1 d.2 p.1 p.2 * ‖E p‖ ^ 2)
      ≤ |ω * ∑ p : Pos sh, volE d.1 d.2 p.1 p.2 * ((eps p).im * normSq (E p))| := by
    rw [abs_mul]
    refine mul_le_mul_of_nonneg_left ?_ ha.le
    rw [Finset.mul_sum]
    rcases hloss with hl | hl
    · refine le_trans ?_ (neg_le_abs _)
      rw [← Finset.sum_neg_distrib]
      refine Finset.sum_le_sum fun p _ => ?_
      have := mul_nonneg (hd.vol p.1 p.2).le (normSq_nonneg (E p))
      rw [normSq_eq_norm_sq] at this ⊢
      nlinarith [hl p]
    · refine le_trans ?_ (le_abs_self _)
      refine Finset.sum_le_sum fun p _ => ?_
      have := mul_nonneg (hd.vol p.1 p.2).le (normSq_nonneg (E p))
      rw [normSq_eq_norm_sq] at this ⊢
      nlinarith [hl p]
  -- and at most `Σ V|E||J|`
  have h2 : |∑ p : Pos sh, volE d.1 d.2 p.1 p.2 * ((starRingEnd ℂ) (E p) * J p).re|
      ≤ ∑ p : Pos sh, volE d.1 d.2 p.1 p.2 * (‖E p‖ * ‖J p‖) := by
    refine (Finset.abs_sum_le_sum_abs _ _).trans (Finset.sum_le_sum fun p _ => ?_)
    rw [abs_mul, abs_of_pos (hd.vol p.1 p.2)]
    refine mul_le_mul_of_nonneg_left ?_ (hd.vol p.1 p.2).le
    refine (abs_re_le_norm _).trans ?_
    rw [norm_mul, RCLike.norm_conj]
  rw [hpow] at h2
  have h3 : ∑ p : Pos sh, volE d.1 d.2 p.1 p.2 * (‖E p‖ * ‖J p‖)
      ≤ (|ω| * δ / 2) * ∑ p : Pos sh, volE d.1 d.2 p.1 p.2 * ‖E p‖ ^ 2
        + 1 / (2 * (|ω| * δ)) * ∑ p : Pos sh, volE d.1 d.2 p.1 p.2 * ‖J p‖ ^ 2 := by
    rw [Finset.mul_sum, Finset.mul_sum, ← Finset.sum_add_distrib]
    refine Finset.sum_le_sum fun p _ => ?_
    have h5 : ‖E p‖ * ‖J p‖ ≤ (|ω| * δ / 2) * ‖E p‖ ^ 2 + 1 / (2 * (|ω| * δ)) * ‖J p‖ ^ 2 := by
      generalize |ω| * δ = k at hk
      rw [← sub_nonneg]
      have : k / 2 * ‖E p‖ ^ 2 + 1 / (2 * k) * ‖J p‖ ^ 2 - ‖E p‖ * ‖J p‖ = (k * ‖E p‖ - ‖J p‖) ^ 2 / (2 * k) := by
        field_simp; ring
      rw [this]; positivity
    calc _ ≤ volE d.1 d.2 p.1 p.2 * ((|ω| * δ / 2) * ‖E p‖ ^ 2 + 1 / (2 * (|ω| * δ)) * ‖J p‖ ^ 2) :=
          mul_le_mul_of_nonneg_left h5 (hd.vol p.1 p.2).le
      _ = _ := by ring
  have h4 := h1.trans (h2.trans h3)
  generalize ∑ p : Pos sh, volE d.1 d.2 p.1 p.2 * ‖E p‖ ^ 2 = NE at *
  generalize ∑ p : Pos sh, volE d.1 d.2 p.1 p.2 * ‖J p‖ ^ 2 = NJ at *
  have hsq : (ω * δ) ^ 2 = (|ω| * δ) ^ 2 := by rw [mul_pow, mul_pow, sq_abs]
  rw [hsq, le_div_iff₀ (by positivity)]
  have h6 : |ω| * δ * NE / 2 ≤ 1 / (2 * (|ω| * δ)) * NJ := by linarith
  generalize |ω| * δ = k at *
  rw [div_mul_eq_mul_div, one_mul, le_div_iff₀ (by positivity)] at h6
  linarith

/-- C83, hypotheses are met: a nonuniform positive grid, lossy inhomogeneous medium, real ω. -/
example : PosGrid (sh := fun _ => 3) (fun _ i => 1 + (i : ℕ), fun _ i => 2 + (i : ℕ)) ∧
    (∀ p : Pos fun _ => 3, ((2 : ℂ) ^ 2 * (fun p : Pos fun _ => 3 => (2 + (p.1 : ℕ) : ℂ) - I) p).im < 0) := by
  refine ⟨⟨fun a i => by positivity, fun a i => by positivity⟩, fun p => ?_⟩
  have : (2 : ℂ) ^ 2 = ((4 : ℝ) : ℂ) := by norm_num
  rw [this, im_ofReal_mul]; simp

end Meanas.Props
