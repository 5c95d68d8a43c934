/-
Properties C111, C112: the bands fall when the permittivity grows, and the values that eigsolve returns lie above the bands
(meanas/fdfd/bloch.py, maxwell_operator and eigsolve).
-/
import Verif.Props.BlochSolve
import Verif.Props.BlochReversal
import Verif.Lemmas.MinMax

set_option linter.unusedSectionVars false

namespace Meanas.Props

open Complex Matrix Meanas.Bloch
open scoped ComplexOrder MatrixOrder

section monotone

variable {sh : Fin 3 → ℕ} (k0 : Fin 3 → ℝ) (G : Matrix (Fin 3) (Fin 3) ℝ)

/-- `A` is the matrix of the Maxwell operator in the raveled ordering. -/
def IsMatrixOf (eps : VField sh ℂ) (A : Matrix (Fin 2 × Idx sh) (Fin 2 × Idx sh) ℂ) : Prop :=
  ∀ h : Hmn sh, maxwellOperator k0 G eps h = some fun i x => (A *ᵥ fun p => h p.1 p.2) (i, x)

theorem IsMatrixOf.unique {eps : VField sh ℂ} {A B : Matrix (Fin 2 × Idx sh) (Fin 2 × Idx sh) ℂ} (hA : IsMatrixOf k0 G eps A)
    (hB : IsMatrixOf k0 G eps B) : A = B := by
  refine Matrix.ext_of_mulVec_single fun q => ?_
  funext p
  have h := (hA fun i x => (Pi.single q 1 : _ → ℂ) (i, x)).symm.trans (hB _)
  exact congrFun (congrFun (Option.some.inj h) p.1) p.2

theorem IsMatrixOf.negHermitian (hr : Regular k0 G sh) {eps : VField sh ℂ} (he : PosReal eps) {A : Matrix (Fin 2 × Idx sh) (Fin 2 × Idx sh) ℂ}
    (hA : IsMatrixOf k0 G eps A) : (-A).PosSemidef := by
  obtain ⟨B, hB, hBo⟩ := C59_matrix_partial k0 G hr he
  rw [IsMatrixOf.unique k0 G hA hBo]
  exact hB

theorem form_le (hr : Regular k0 G sh) {eps eps' : VField sh ℂ} (he : PosReal eps) (he' : PosReal eps') {t : ℝ}
    (hle : ∀ c x, (eps c x).re ≤ t * (eps' c x).re) {A A' : Matrix (Fin 2 × Idx sh) (Fin 2 × Idx sh) ℂ} (hA : IsMatrixOf k0 G eps A)
    (hA' : IsMatrixOf k0 G eps' A') (v : Fin 2 × Idx sh → ℂ) : (star v ⬝ᵥ (-A' *ᵥ v)).re ≤ t * (star v ⬝ᵥ (-A *ᵥ v)).re := by
  obtain ⟨n, hn, -⟩ := nAll_regular k0 G hr
  let u : Hmn sh := fun i x => v (i, x)
  have key : ∀ (e : VField sh ℂ) (B : Matrix (Fin 2 × Idx sh) (Fin 2 × Idx sh) ℂ), PosReal e → IsMatrixOf k0 G e B →
      (star v ⬝ᵥ (-B *ᵥ v)).re = (Fintype.card (Idx sh) : ℝ) * ∑ c, ∑ x, normSq (ifftn (dXyz k0 G n u c) x) / (e c x).re := by
    intro e B hp hB
    have h1 := hip_maxwell k0 G hn (u := u) (hB u)
    have h2 : star v ⬝ᵥ (-B *ᵥ v) = -hip u fun i x => (B *ᵥ fun p => u p.1 p.2) (i, x) := by
      rw [neg_mulVec, dotProduct_neg]
      unfold hip
      rw [← Fintype.sum_prod_type']
      rfl
    have h3 : ∀ c x, (starRingEnd ℂ) (ifftn (dXyz k0 G n u c) x) * (ifftn (dXyz k0 G n u c) x / e c x)
        = ((normSq (ifftn (dXyz k0 G n u c) x) / (e c x).re : ℝ) : ℂ) := by
      intro c x
      obtain ⟨r, -, er⟩ := hp c x
      rw [er, ofReal_re, ofReal_div, normSq_eq_conj_mul_self]
      ring
    rw [h2, h1]
    simp only [h3]
    rw [neg_mul, neg_neg]
    have : ((Fintype.card (Idx sh) : ℕ) : ℂ) * ∑ c, ∑ x, ((normSq (ifftn (dXyz k0 G n u c) x) / (e c x).re : ℝ) : ℂ)
        = (((Fintype.card (Idx sh) : ℝ) * ∑ c, ∑ x, normSq (ifftn (dXyz k0 G n u c) x) / (e c x).re : ℝ) : ℂ) := by push_cast; rfl
    rw [this, ofReal_re]
  rw [key _ _ he' hA', key _ _ he hA]
  rw [mul_left_comm]
  refine mul_le_mul_of_nonneg_left ?_ (Nat.cast_nonneg _)
  rw [Finset.mul_sum]
  refine Finset.sum_le_sum fun c _ => ?_
  rw [Finset.mul_sum]
  refine Finset.sum_le_sum fun x _ => ?_
  obtain ⟨r, hr0, er⟩ := he c x
  obtain ⟨r', hr0', er'⟩ := he' c x
  have hh := hle c x
  rw [er, er', ofReal_re, ofReal_re] at hh
  rw [er, er', ofReal_re, ofReal_re, ← mul_div_assoc, div_le_div_iff₀ hr0' hr0]
  have := normSq_nonneg (ifftn (dXyz k0 G n u c) x)
  nlinarith

/-- **C111.** If `eps ≤ t eps'` at every point, every band of `eps'` lies below `t` times the band of `eps` of the same number: the sorted eigenvalues (squared
frequencies) of minus the Maxwell operator, counted with multiplicity. With `t = 1`: adding dielectric lowers all bands. -/
theorem C111_monotone (hr : Regular k0 G sh) {eps eps' : VField sh ℂ} (he : PosReal eps) (he' : PosReal eps') {t : ℝ} (ht : 0 ≤ t)
    (hle : ∀ c x, (eps c x).re ≤ t * (eps' c x).re) {A A' : Matrix (Fin 2 × Idx sh) (Fin 2 × Idx sh) ℂ}
    (hA : ∀ h : Hmn sh, maxwellOperator k0 G eps h = some fun i x => (A *ᵥ fun p => h p.1 p.2) (i, x))
    (hA' : ∀ h : Hmn sh, maxwellOperator k0 G eps' h = some fun i x => (A' *ᵥ fun p => h p.1 p.2) (i, x)) :
    ∃ (H : (-A).IsHermitian) (H' : (-A').IsHermitian), ∀ j, H'.eigenvalues₀ j ≤ t * H.eigenvalues₀ j := by
  refine ⟨(IsMatrixOf.negHermitian k0 G hr he hA).1, (IsMatrixOf.negHermitian k0 G hr he' hA').1, fun j => ?_⟩
  refine MinMax.eigenvalues₀_le _ _ (Y := 1) (by simp) ht (fun v => ?_) j j le_rfl
  rw [one_mulVec]
  exact form_le k0 G hr he he' hle hA hA' v

/-- **C111.** Stability: if the two permittivities agree up to a factor `t` at every point, so do all the squared frequencies. -/
theorem C111_stable (hr : Regular k0 G sh) {eps eps' : VField sh ℂ} (he : PosReal eps) (he' : PosReal eps') {t : ℝ} (ht : 0 ≤ t)
    (hle : ∀ c x, (eps c x).re ≤ t * (eps' c x).re) (hle' : ∀ c x, (eps' c x).re ≤ t * (eps c x).re)
    {A A' : Matrix (Fin 2 × Idx sh) (Fin 2 × Idx sh) ℂ}
    (hA : ∀ h : Hmn sh, maxwellOperator k0 G eps h = some fun i x => (A *ᵥ fun p => h p.1 p.2) (i, x))
    (hA' : ∀ h : Hmn sh, maxwellOperator k0 G eps' h = some fun i x => (A' *ᵥ fun p => h p.1 p.2) (i, x)) :
    ∃ (H : (-A).IsHermitian) (H' : (-A').IsHermitian), ∀ j, H'.eigenvalues₀ j ≤ t * H.eigenvalues₀ j ∧ H.eigenvalues₀ j ≤ t * H'.eigenvalues₀ j := by
  obtain ⟨H, H', h1⟩ := C111_monotone k0 G hr he he' ht hle hA hA'
  obtain ⟨_, _, h2⟩ := C111_monotone k0 G hr he' he ht hle' hA' hA
  exact ⟨H, H', fun j => ⟨h1 j, h2 j⟩⟩

end monotone

section ritz

variable {N : Type} [Fintype N] {M : ℕ}

/-- The values that `eigsolve` returns diagonalise the operator compressed to an orthonormal block. -/
theorem finish_compress {op : (N → ℂ) → N → ℂ} {A : Matrix N N ℂ} (hop : ∀ v, op v = A *ᵥ v) (hA : A.IsHermitian)
    {lib : SolveLib M} (hl : SolveLibOk lib) {Z : Matrix N (Fin M) ℂ} {vals : Fin M → ℂ} {vecs : Fin M → N → ℂ}
    (h : solveFinish op lib Z (Zᴴ * Z) = .ok (vals, vecs)) :
    ∃ (Y : Matrix N (Fin M) ℂ) (V : Matrix (Fin M) (Fin M) ℂ), Yᴴ * Y = 1 ∧ V.det ≠ 0 ∧ Yᴴ * A * Y * V = V * diagonal vals := by
  unfold solveFinish at h
  cases hU : Bloch.inv (Zᴴ * Z) with
  | error e => rw [hU] at h; cases h
  | ok U =>
    obtain ⟨hd, rfl⟩ := inv_eq_ok hU
    rw [hU] at h
    simp only [bind, Except.bind, pure, Except.pure, throw, throwThe, MonadExceptOf.throw] at h
    split_ifs at h with hz
    obtain ⟨h1, h2⟩ := Prod.mk.inj (Except.ok.inj h)
    subst h1 h2
    rw [cols_eq hop] at hz ⊢
    have hpd := posDef_gram hd
    obtain ⟨hS, hSS⟩ := hl.sqrtm _ hpd.inv
    set S := lib.sqrtm (Zᴴ * Z)⁻¹ with hSd
    have hSh : Sᴴ = S := hS.1
    set W := (Z * S)ᴴ * (A * (Z * S)) with hW
    have hWh : W.IsHermitian := by
      show Wᴴ = W
      rw [hW, conjTranspose_mul, conjTranspose_mul, conjTranspose_conjTranspose, hA, Matrix.mul_assoc]
    obtain ⟨hE, hV⟩ := hl.eig W hWh
    obtain ⟨hb, -⟩ := hl.argsort fun j => ‖(lib.eig W).1 j‖
    set ord := lib.argsort fun j => ‖(lib.eig W).1 j‖ with hord
    have hdu : IsUnit (Zᴴ * Z).det := isUnit_iff_ne_zero.2 hd
    have hSG : S * (Zᴴ * Z) * S = 1 := by
      have h1 : S * (S * (Zᴴ * Z)) = 1 := by rw [← Matrix.mul_assoc, hSS, nonsing_inv_mul _ hdu]
      exact mul_eq_one_comm.1 h1
    refine ⟨Z * S, (lib.eig W).2.submatrix id ord, ?_, ?_, ?_⟩
    · rw [conjTranspose_mul, hSh, ← hSG]
      simp only [Matrix.mul_assoc]
    · have := Matrix.det_permute' (Equiv.ofBijective _ hb) (lib.eig W).2
      have e : (lib.eig W).2.submatrix id ord = (lib.eig W).2.submatrix id (Equiv.ofBijective _ hb) := rfl
      rw [e, this]
      exact mul_ne_zero (by simp) hV
    · have e1 : (Z * S)ᴴ * A * (Z * S) = W := by rw [hW, Matrix.mul_assoc]
      rw [e1]
      ext a b
      have h3 := congrFun (congrFun hE a) (ord b)
      rw [mul_diagonal] at h3 ⊢
      exact h3

variable [DecidableEq N]

/-- **C112, for any Hermitian operator without positive eigenvalues.** After convergence the `j`-th returned value lies above (for the squared frequency
`-λ`) the `j`-th band of the operator, counted from the lowest. -/
theorem C112_upper_bound {op iop : (N → ℂ) → N → ℂ} {A : Matrix N N ℂ} (hop : ∀ v, op v = A *ᵥ v) (hA : (-A).PosSemidef)
    {lib : SolveLib M} (hl : SolveLibOk lib) {draw : ℕ → Matrix N (Fin M) ℂ} {fuel : ℕ} {tol : ℝ} {mi ri : ℕ} {Z0 : Matrix N (Fin M) ℂ}
    {vals : Fin M → ℂ} {vecs : Fin M → N → ℂ} (h : eigsolve op iop lib draw fuel tol mi ri Z0 = .ok (true, vals, vecs)) :
    M ≤ Fintype.card N ∧ ∀ (j : Fin M) (i : Fin (Fintype.card N)), (i : ℕ) + j + 1 = Fintype.card N →
      hA.1.eigenvalues₀ i ≤ -(vals j).re := by
  have hAh : A.IsHermitian := by
    have := hA.1.neg
    rwa [neg_neg] at this
  obtain ⟨-, -, hu, -, -, hray, hmono, -, -⟩ := C78_ritz_partial hop hAh hl h
  obtain ⟨own, Z, st, -, hL, hf⟩ := eigsolve_ok h
  rw [loop_break hL] at hf
  obtain ⟨Y, V, hY, hV, hW⟩ := finish_compress hop hAh hl hf
  have hval : ∀ j, (vals j).im = 0 ∧ (vals j).re ≤ 0 := by
    intro j
    have h1 := hA.dotProduct_mulVec_nonneg (vecs j)
    rw [neg_mulVec, dotProduct_neg, ← hray j, Complex.le_def] at h1
    simp only [zero_re, neg_re, zero_im, neg_im] at h1
    exact ⟨by linarith [h1.2], by linarith [h1.1]⟩
  have hB : (-(Yᴴ * A * Y)).IsHermitian := by
    show (-(Yᴴ * A * Y))ᴴ = _
    rw [conjTranspose_neg, conjTranspose_mul, conjTranspose_mul, conjTranspose_conjTranspose, hAh, Matrix.mul_assoc]
  let V' := V.submatrix id (Fin.revPerm : Equiv.Perm (Fin M))
  have hV' : V'.det ≠ 0 := by
    rw [Matrix.det_permute']
    exact mul_ne_zero (by simp) hV
  let d : Fin M → ℝ := fun j => -(vals j.rev).re
  have hd : Antitone d := by
    intro a b hab
    have h1 := hmono (Fin.rev_le_rev.2 hab)
    have h2 : ∀ j, ‖vals j‖ = -(vals j).re := by
      intro j
      have e : vals j = (((vals j).re : ℝ) : ℂ) := Complex.ext (by simp) (by simp [(hval j).1])
      rw [e, Complex.norm_real, Real.norm_eq_abs, abs_of_nonpos (hval j).2, ofReal_re]
    simp only [h2] at h1
    exact h1
  have hD : -(Yᴴ * A * Y) * V' = V' * diagonal fun j => (d j : ℂ) := by
    ext a b
    have h3 := congrFun (congrFun hW a) b.rev
    rw [mul_diagonal] at h3 ⊢
    have e : (d b : ℂ) = -vals b.rev := by
      refine Complex.ext ?_ ?_
      · simp [d]
      · simp [(hval b.rev).1]
    rw [e, Matrix.neg_mul, Matrix.neg_apply, mul_neg, neg_inj]
    exact h3
  have hcard : M ≤ Fintype.card N := by
    have h1 := Matrix.rank_le_card_height Y
    have h2 : (Yᴴ * Y).rank ≤ Y.rank := Matrix.rank_mul_le_right _ _
    rw [hY, Matrix.rank_one, Fintype.card_fin] at h2
    omega
  refine ⟨hcard, fun j i hij => ?_⟩
  have hle := MinMax.eigenvalues₀_le hA.1 hB hY (t := 1) zero_le_one (fun v => le_of_eq ?_) i
    (Fin.cast (Fintype.card_fin M).symm j.rev) (by rw [Fin.val_cast, Fin.val_rev, Fintype.card_fin]; omega)
  · rw [MinMax.eigenvalues₀_diagonalised hB hV' hd hD, one_mul] at hle
    simpa [d] using hle
  · rw [one_mul]
    congr 1
    rw [star_mulVec, ← dotProduct_mulVec, mulVec_mulVec, mulVec_mulVec]
    congr 2
    simp only [Matrix.mul_neg, Matrix.neg_mul, Matrix.mul_assoc]

/-- **C112.** A residual bound: the operator has an eigenvalue within the residual of every returned pair (the residual is what the code logs as `eigness`). -/
theorem C112_residual {op iop : (N → ℂ) → N → ℂ} {A : Matrix N N ℂ} (hop : ∀ v, op v = A *ᵥ v) (hA : A.IsHermitian)
    {lib : SolveLib M} (hl : SolveLibOk lib) {draw : ℕ → Matrix N (Fin M) ℂ} {fuel : ℕ} {tol : ℝ} {mi ri : ℕ} {Z0 : Matrix N (Fin M) ℂ}
    {vals : Fin M → ℂ} {vecs : Fin M → N → ℂ} (h : eigsolve op iop lib draw fuel tol mi ri Z0 = .ok (true, vals, vecs)) (j : Fin M) :
    ∃ (lam : ℝ) (w : N → ℂ), w ≠ 0 ∧ A *ᵥ w = (lam : ℂ) • w
      ∧ ‖vals j - lam‖ ^ 2 ≤ ∑ p, ‖(op (vecs j) - (star (vecs j) ⬝ᵥ op (vecs j)) • vecs j) p‖ ^ 2 := by
  obtain ⟨-, -, hu, -, -, hray, -, -, -⟩ := C78_ritz_partial hop hA hl h
  rw [hop, ← hray j]
  set v := vecs j with hv
  set b := hA.eigenvectorBasis with hb
  let x : EuclideanSpace ℂ N := WithLp.toLp 2 v
  let r : EuclideanSpace ℂ N := WithLp.toLp 2 (A *ᵥ v - vals j • v)
  have hsum : ∀ y : EuclideanSpace ℂ N, ∑ p, ‖y.ofLp p‖ ^ 2 = ∑ i, ‖b.repr y i‖ ^ 2 := by
    intro y
    rw [← EuclideanSpace.norm_sq_eq, ← b.repr.norm_map y, EuclideanSpace.norm_sq_eq]
  have hcoord : ∀ (y : EuclideanSpace ℂ N) i, b.repr y i = star (b i).ofLp ⬝ᵥ y.ofLp := by
    intro y i
    rw [b.repr_apply_apply, PiLp.inner_apply, dotProduct]
    refine Finset.sum_congr rfl fun p _ => ?_
    rw [RCLike.inner_apply, mul_comm]
    rfl
  have hr : ∀ i, b.repr r i = ((hA.eigenvalues i : ℂ) - vals j) * b.repr x i := by
    intro i
    rw [hcoord, hcoord]
    show star (b i).ofLp ⬝ᵥ (A *ᵥ v - vals j • v) = (_ - _) * (star (b i).ofLp ⬝ᵥ v)
    have h1 : star (b i).ofLp ⬝ᵥ (A *ᵥ v) = (hA.eigenvalues i : ℂ) * (star (b i).ofLp ⬝ᵥ v) := by
      have h2 : star (A *ᵥ (b i).ofLp) = star (b i).ofLp ᵥ* A := by rw [star_mulVec, hA]
      rw [dotProduct_mulVec, ← h2, hA.mulVec_eigenvectorBasis i, star_smul, smul_dotProduct]
      simp [Complex.real_smul]
      exact Or.inl rfl
    rw [dotProduct_sub, h1, dotProduct_smul, smul_eq_mul, sub_mul]
  have h1 : ∑ i, ‖b.repr x i‖ ^ 2 = 1 := by
    rw [← hsum x]
    have : ((∑ p, ‖x.ofLp p‖ ^ 2 : ℝ) : ℂ) = 1 := by
      rw [← EuclideanSpace.norm_sq_eq, MinMax.norm_sq_ofLp]
      exact hu j
    exact_mod_cast this
  by_contra hc
  push Not at hc
  have hlt : ∀ i, ∑ p, ‖(A *ᵥ v - vals j • v) p‖ ^ 2 < ‖vals j - (hA.eigenvalues i : ℂ)‖ ^ 2 := by
    intro i
    refine hc (hA.eigenvalues i) (b i).ofLp (fun h0 => ?_) ?_
    · have h2 : b i = 0 := by
        ext p
        exact congrFun h0 p
      have h3 := b.orthonormal.1 i
      rw [h2, norm_zero] at h3
      exact zero_ne_one h3
    · rw [hA.mulVec_eigenvectorBasis i]
      funext p
      simp [Complex.real_smul, hb]
  have h2 : ∑ i, (∑ p, ‖(A *ᵥ v - vals j • v) p‖ ^ 2) * ‖b.repr x i‖ ^ 2 < ∑ i, ‖vals j - (hA.eigenvalues i : ℂ)‖ ^ 2 * ‖b.repr x i‖ ^ 2 := by
    obtain ⟨i, hi⟩ : ∃ i, b.repr x i ≠ 0 := by
      by_contra hn
      push Not at hn
      simp [hn] at h1
    refine Finset.sum_lt_sum (fun i _ => mul_le_mul_of_nonneg_right (hlt i).le (sq_nonneg _)) ⟨i, Finset.mem_univ _, ?_⟩
    exact mul_lt_mul_of_pos_right (hlt i) (pow_pos (norm_pos_iff.2 hi) 2)
  rw [← Finset.mul_sum, h1, mul_one] at h2
  have h3 : ∑ p, ‖(A *ᵥ v - vals j • v) p‖ ^ 2 = ∑ i, ‖vals j - (hA.eigenvalues i : ℂ)‖ ^ 2 * ‖b.repr x i‖ ^ 2 := by
    refine (hsum r).trans (Finset.sum_congr rfl fun i _ => ?_)
    rw [hr, norm_mul, mul_pow, norm_sub_rev]
  exact h2.ne h3

/-- **C112, for the Maxwell operator.** The number of modes returned is at most the number of plane waves times two, the `j`-th value returned after
convergence lies above the `j`-th band, and there is a band within the residual of each returned mode. -/
theorem C112_maxwell {sh : Fin 3 → ℕ} (k0 : Fin 3 → ℝ) (G : Matrix (Fin 3) (Fin 3) ℝ) (hr : Regular k0 G sh) {eps : VField sh ℂ}
    (he : PosReal eps) {A : Matrix (Fin 2 × Idx sh) (Fin 2 × Idx sh) ℂ}
    (hA : ∀ h : Hmn sh, maxwellOperator k0 G eps h = some fun i x => (A *ᵥ fun p => h p.1 p.2) (i, x))
    {op : Hmn sh → Hmn sh} (hop : ∀ h, maxwellOperator k0 G eps h = some (op h)) (iop : Hmn sh → Hmn sh)
    {lib : SolveLib M} (hl : SolveLibOk lib) {draw : ℕ → Matrix (Fin 2 × Idx sh) (Fin M) ℂ} {fuel : ℕ} {tol : ℝ} {mi ri : ℕ}
    {Z0 : Matrix (Fin 2 × Idx sh) (Fin M) ℂ} {vals : Fin M → ℂ}
    {vecs : Fin M → Fin 2 × Idx sh → ℂ} (h : eigsolve (flat op) (flat iop) lib draw fuel tol mi ri Z0 = .ok (true, vals, vecs)) :
    M ≤ 2 * Fintype.card (Idx sh) ∧ ∃ H : (-A).IsHermitian,
      (∀ (j : Fin M) (i : Fin (Fintype.card (Fin 2 × Idx sh))), (i : ℕ) + j + 1 = Fintype.card (Fin 2 × Idx sh) → H.eigenvalues₀ i ≤ -(vals j).re)
      ∧ ∀ j, ∃ (lam : ℝ) (w : Hmn sh), w ≠ 0 ∧ op w = (fun i x => lam * w i x)
        ∧ ‖vals j - lam‖ ^ 2 ≤ ∑ p, ‖flat op (vecs j) p - (star (vecs j) ⬝ᵥ flat op (vecs j)) * vecs j p‖ ^ 2 := by
  have hpsd := IsMatrixOf.negHermitian k0 G hr he hA
  have hfl : ∀ v, flat op v = A *ᵥ v := by
    intro v
    have h1 := (hop fun i x => v (i, x)).symm.trans (hA _)
    funext p
    exact congrFun (congrFun (Option.some.inj h1) p.1) p.2
  have hAh : A.IsHermitian := by
    have := hpsd.1.neg
    rwa [neg_neg] at this
  obtain ⟨h1, h2⟩ := C112_upper_bound hfl hpsd hl h
  refine ⟨by rwa [Fintype.card_prod, Fintype.card_fin] at h1, hpsd.1, h2, fun j => ?_⟩
  obtain ⟨lam, w, hw, hAw, hres⟩ := C112_residual hfl hAh hl h j
  refine ⟨lam, fun i x => w (i, x), fun hc => hw ?_, ?_, hres⟩
  · funext p
    exact congrFun (congrFun hc p.1) p.2
  · funext i x
    have h3 := congrFun (hfl w) (i, x)
    rw [hAw] at h3
    exact h3

/-- The hypotheses of C112_upper_bound and C112_residual are met by a run that converges. -/
example : ∃ (lib : SolveLib 1) (op iop : (Fin 2 → ℂ) → Fin 2 → ℂ) (A : Matrix (Fin 2) (Fin 2) ℂ) (Z0 : Matrix (Fin 2) (Fin 1) ℂ) (vals : Fin 1 → ℂ)
    (vecs : Fin 1 → Fin 2 → ℂ), SolveLibOk lib ∧ (∀ v, op v = A *ᵥ v) ∧ A.IsHermitian ∧ (-A).PosSemidef
      ∧ ∀ draw fuel, eigsolve op iop lib draw (fuel + 1) 2 10 5 Z0 = .ok (true, vals, vecs) := by
  obtain ⟨lib, op, iop, A, Z0, vals, vecs, h1, -, h3, ⟨h4, h4'⟩, -, h5⟩ := converging_run (Real.pi / 4)
  refine ⟨lib, op, iop, A, Z0, vals, vecs, h1, h3, h4, h4', fun draw fuel => ?_⟩
  obtain ⟨Y, h⟩ := h5 draw fuel
  rw [eigsolve, h]
  rfl

end ritz

/-- Media for C111: a row of three cells with the Bloch vector along it, one cell filled with permittivity 4 against vacuum. -/
example : ∃ (k0 : Fin 3 → ℝ) (G : Matrix (Fin 3) (Fin 3) ℝ) (eps eps' : VField ![3, 1, 1] ℂ), Regular k0 G ![3, 1, 1] ∧ PosReal eps ∧ PosReal eps'
    ∧ (∀ c x, (eps c x).re ≤ 1 * (eps' c x).re) ∧ eps ≠ eps' ∧ ∃ A, IsMatrixOf k0 G eps A := by
  have hreg : Regular (fun a => if a = 0 then (1/4 : ℝ) else 0) 1 ![3, 1, 1] := by
    intro x k hw hc
    obtain rfl := hw.eq
    rw [row_kxyz (sh := ![3, 1, 1]) rfl rfl] at hc
    simp at hc
  have hp : PosReal (fun _ _ => 1 : VField ![3, 1, 1] ℂ) := fun _ _ => ⟨1, one_pos, by simp⟩
  obtain ⟨A, -, hA⟩ := C59_matrix_partial _ _ hreg hp
  refine ⟨_, 1, fun _ _ => 1, fun _ x => if (x 0 : ℕ) = 0 then ((4 : ℝ) : ℂ) else ((1 : ℝ) : ℂ), hreg, hp, fun c x => ?_, fun c x => ?_, fun hc => ?_, A, hA⟩
  · dsimp only
    split_ifs
    · exact ⟨4, by norm_num, rfl⟩
    · exact ⟨1, by norm_num, rfl⟩
  · dsimp only
    split_ifs <;> norm_num
  · have := congrFun (congrFun hc 0) fun a => ⟨0, by fin_cases a <;> decide⟩
    simp at this

end Meanas.Props
