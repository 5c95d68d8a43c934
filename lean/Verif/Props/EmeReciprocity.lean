/-
Property C114: interfaces of eigenmode expansion are reciprocal, and `get_tr` returns the scattering that matches the tangential fields.
-/
import Verif.Props.Eme

set_option linter.unusedSectionVars false

namespace Meanas.Props

open Matrix Complex Eme Wg2

variable {sh : Fin 2 → ℕ} {n : ℕ}

/-! ### Least squares and transposition -/

theorem transpose_conj (A : Matrix (Fin n) (Fin n) ℂ) : Aᵀᴴ = Aᴴᵀ := rfl

section
variable {A X : Matrix (Fin n) (Fin n) ℂ}

theorem range_zero {Z : Matrix (Fin n) (Fin n) ℂ} (h : A * (Aᴴ * Z) = 0) : Aᴴ * Z = 0 := by
  have : (Aᴴ * Z)ᴴ * (Aᴴ * Z) = 0 := by
    rw [conjTranspose_mul, conjTranspose_conjTranspose, Matrix.mul_assoc, h, Matrix.mul_zero]
  open scoped ComplexOrder in exact conjTranspose_mul_self_eq_zero.1 this

theorem lstsq_unique {B X Y : Matrix (Fin n) (Fin n) ℂ} (hX : IsLstsq A B X) (hY : IsLstsq A B Y) : X = Y := by
  obtain ⟨Z, hZ⟩ := hX.minimal
  obtain ⟨W, hW⟩ := hY.minimal
  have h1 : X - Y = Aᴴ * (Z - W) := by rw [hZ, hW, Matrix.mul_sub]
  have h2 : Aᴴ * (A * (X - Y)) = 0 := by
    rw [Matrix.mul_sub, Matrix.mul_sub, ← Matrix.mul_assoc, ← Matrix.mul_assoc, hX.normal, hY.normal, sub_self]
  have h3 : A * (X - Y) = 0 := by
    have : (A * (X - Y))ᴴ * (A * (X - Y)) = 0 := by
      rw [conjTranspose_mul, Matrix.mul_assoc, h2, Matrix.mul_zero]
    open scoped ComplexOrder in exact conjTranspose_mul_self_eq_zero.1 this
  rw [h1] at h3
  exact sub_eq_zero.1 (h1.trans (range_zero h3))

theorem lstsq_pinv (h : IsLstsq A 1 X) : IsPinv A X := by
  obtain ⟨Y, hY⟩ := h.minimal
  have h1 : Aᴴ * A * X = Aᴴ := by rw [h.normal, Matrix.mul_one]
  have h2 : Xᴴ * (Aᴴ * A) = A := by
    have := congrArg conjTranspose h1
    simpa [conjTranspose_mul, Matrix.mul_assoc] using this
  have h3 : (A * X)ᴴ * (A * X) = A * X := by
    rw [conjTranspose_mul, ← Matrix.mul_assoc, Matrix.mul_assoc Xᴴ, h2]
  have hap : (A * X)ᴴ = A * X := by
    rw [← h3, conjTranspose_mul, conjTranspose_conjTranspose]
  have apa : A * X * A = A := by
    rw [← hap, conjTranspose_mul, Matrix.mul_assoc, h2]
  have h4 : X * A * Aᴴ = Aᴴ := by
    have e : X * A * Aᴴ - Aᴴ = Aᴴ * (Y * A * Aᴴ - 1) := by
      rw [Matrix.mul_sub, Matrix.mul_one, hY]; simp only [Matrix.mul_assoc]
    have z : A * (X * A * Aᴴ - Aᴴ) = 0 := by
      rw [Matrix.mul_sub, ← Matrix.mul_assoc, ← Matrix.mul_assoc, apa, sub_self]
    rw [e] at z
    exact sub_eq_zero.1 (e.trans (range_zero z))
  have hpa : (X * A)ᴴ = X * A := by
    have h5 : A * (X * A)ᴴ = A := by
      have := congrArg conjTranspose h4
      rwa [conjTranspose_mul, conjTranspose_conjTranspose] at this
    have e : X * A - (X * A)ᴴ = Aᴴ * (Y * A - Xᴴ) := by
      rw [Matrix.mul_sub, ← Matrix.mul_assoc, ← hY, conjTranspose_mul]
    have z : A * (X * A - (X * A)ᴴ) = 0 := by
      rw [Matrix.mul_sub, ← Matrix.mul_assoc, apa, h5, sub_self]
    rw [e] at z
    exact (sub_eq_zero.1 (e.trans (range_zero z))).symm
  have pap : X * A * X = X := by
    have e : X * A * X - X = Aᴴ * (Y * A * X - Y) := by
      rw [Matrix.mul_sub, ← hY]; simp only [← Matrix.mul_assoc, ← hY]
    have z : A * (X * A * X - X) = 0 := by
      rw [Matrix.mul_sub, ← Matrix.mul_assoc, ← Matrix.mul_assoc, apa, sub_self]
    rw [e] at z
    exact sub_eq_zero.1 (e.trans (range_zero z))
  exact ⟨apa, pap, hap, hpa⟩

theorem _root_.Meanas.Eme.IsPinv.transpose {P : Matrix (Fin n) (Fin n) ℂ} (h : IsPinv A P) : IsPinv Aᵀ Pᵀ where
  apa := by
    have := congrArg Matrix.transpose h.apa
    simpa [transpose_mul, Matrix.mul_assoc] using this
  pap := by
    have := congrArg Matrix.transpose h.pap
    simpa [transpose_mul, Matrix.mul_assoc] using this
  hap := by
    rw [← transpose_mul]
    have := congrArg Matrix.transpose h.hpa
    rwa [← transpose_conj] at this
  hpa := by
    rw [← transpose_mul]
    have := congrArg Matrix.transpose h.hap
    rwa [← transpose_conj] at this

end

theorem _root_.Meanas.Eme.IsLstsq.smul {A B X : Matrix (Fin n) (Fin n) ℂ} (h : IsLstsq A B X) (c : ℂ) : IsLstsq A (c • B) (c • X) where
  normal := by rw [Matrix.mul_smul, Matrix.mul_smul, h.normal]
  minimal := by
    obtain ⟨Y, hY⟩ := h.minimal
    exact ⟨c • Y, by rw [Matrix.mul_smul, ← hY]⟩

theorem lstsq_transpose {A X X' : Matrix (Fin n) (Fin n) ℂ} {c : ℂ} (hc : c ≠ 0) (h : IsLstsq A (diagonal fun _ => c) X)
    (h' : IsLstsq Aᵀ (diagonal fun _ => c) X') : X' = Xᵀ := by
  have hd : (diagonal fun _ : Fin n => c) = c • (1 : Matrix (Fin n) (Fin n) ℂ) := by
    rw [← diagonal_one, ← diagonal_smul]; congr 1; funext i; simp
  rw [hd] at h h'
  have h1 := h.smul c⁻¹
  rw [smul_smul, inv_mul_cancel₀ hc, one_smul] at h1
  have h2 := ((lstsq_pinv h1).transpose.lstsq 1).smul c
  rw [Matrix.mul_one] at h2
  rw [transpose_smul, smul_smul, mul_inv_cancel₀ hc, one_smul] at h2
  exact lstsq_unique h' h2

/-! ### Functions of the singular values do not depend on the decomposition -/

/-- Singular values by row. -/
noncomputable def sv (d : Svd n n) (i : Fin n) : ℝ := d.s (Fin.cast (min_self n).symm i)

theorem sigma_diagonal (s : Fin (min n n) → ℝ) : sigma (r := n) (c := n) s = diagonal fun i => (s (Fin.cast (min_self n).symm i) : ℂ) := by
  ext i j
  rw [sigma, diagonal_apply]
  by_cases h : i = j
  · rw [dif_pos (by rw [h]), if_pos h]; rfl
  · rw [dif_neg fun h' => h (Fin.ext h'), if_neg h]

theorem svd_function_unique {M : Matrix (Fin n) (Fin n) ℂ} {d d' : Svd n n} (h : IsSvd M d) (h' : IsSvd M d') (f : ℝ → ℝ) (f0 : f 0 = 0) :
    d.U * sigma (fun k => f (d.s k)) * d.V = d'.U * sigma (fun k => f (d'.s k)) * d'.V := by
  have hU := h.unitaryU; have hV := h.unitaryV; have hU' := h'.unitaryU; have hV' := h'.unitaryV
  have hVV : d.V * d.Vᴴ = 1 := mul_eq_one_comm.1 hV
  have hUU' : d'.U * d'.Uᴴ = 1 := mul_eq_one_comm.1 hU'
  have hVV' : d'.V * d'.Vᴴ = 1 := mul_eq_one_comm.1 hV'
  set S : Matrix (Fin n) (Fin n) ℂ := diagonal fun i => (sv d i : ℂ) with hS
  set S' : Matrix (Fin n) (Fin n) ℂ := diagonal fun i => (sv d' i : ℂ) with hS'
  set W := d'.Uᴴ * d.U with hW
  set Z := d'.V * d.Vᴴ with hZ
  have hM : M = d.U * S * d.V := by rw [hS]; exact h.eq_sigma.trans (by rw [sigma_diagonal]; rfl)
  have hM' : M = d'.U * S' * d'.V := by rw [hS']; exact h'.eq_sigma.trans (by rw [sigma_diagonal]; rfl)
  have hSs : Sᴴ = S := by rw [hS, diagonal_conjTranspose]; congr 1; funext i; simp
  have hSs' : S'ᴴ = S' := by rw [hS', diagonal_conjTranspose]; congr 1; funext i; simp
  have e1 : W * S = S' * Z := by
    have := congrArg (fun Q => d'.Uᴴ * Q * d.Vᴴ) (hM.symm.trans hM')
    simp only [Matrix.mul_assoc] at this
    rw [hVV, Matrix.mul_one, ← Matrix.mul_assoc d'.Uᴴ d'.U, hU', Matrix.one_mul] at this
    rw [hW, hZ, Matrix.mul_assoc]
    exact this
  have e2 : Z * S = S' * W := by
    have := congrArg (fun Q => d'.V * Qᴴ * d.U) (hM.symm.trans hM')
    simp only [conjTranspose_mul, hSs, hSs', Matrix.mul_assoc] at this
    rw [hU, Matrix.mul_one, ← Matrix.mul_assoc d'.V d'.Vᴴ, hVV', Matrix.one_mul] at this
    rw [hW, hZ, Matrix.mul_assoc]
    exact this
  have key : W * (diagonal fun i => (f (sv d i) : ℂ)) = (diagonal fun i => (f (sv d' i) : ℂ)) * Z := by
    ext i j
    have a1 := congrFun (congrFun e1 i) j
    have a2 := congrFun (congrFun e2 i) j
    rw [hS, hS', mul_diagonal, diagonal_mul] at a1 a2
    rw [mul_diagonal, diagonal_mul]
    have p1 : 0 ≤ sv d j := h.nonneg _
    have p2 : 0 ≤ sv d' i := h'.nonneg _
    by_cases hs : sv d j = sv d' i
    · by_cases hz : sv d j = 0
      · rw [← hs, hz, f0]; simp
      · rw [← hs] at a1 ⊢
        have : W i j = Z i j := by
          have hz' : (sv d j : ℂ) ≠ 0 := by exact_mod_cast hz
          refine mul_right_cancel₀ hz' ?_
          rw [a1, mul_comm]
        rw [this, mul_comm]
    · have hne : (sv d j : ℂ) ^ 2 - (sv d' i : ℂ) ^ 2 ≠ 0 := by
        have : sv d j ^ 2 - sv d' i ^ 2 ≠ 0 := by
          intro hc
          apply hs
          have : (sv d j - sv d' i) * (sv d j + sv d' i) = 0 := by ring_nf; ring_nf at hc; exact hc
          rcases mul_eq_zero.1 this with q | q
          · linarith
          · linarith
        exact_mod_cast this
      have w0 : W i j = 0 := by
        have : W i j * ((sv d j : ℂ) ^ 2 - (sv d' i : ℂ) ^ 2) = 0 := by linear_combination (sv d j : ℂ) * a1 + (sv d' i : ℂ) * a2
        exact (mul_eq_zero.1 this).resolve_right hne
      have z0 : Z i j = 0 := by
        have : Z i j * ((sv d j : ℂ) ^ 2 - (sv d' i : ℂ) ^ 2) = 0 := by linear_combination (sv d j : ℂ) * a2 + (sv d' i : ℂ) * a1
        exact (mul_eq_zero.1 this).resolve_right hne
      rw [w0, z0]; simp
  rw [sigma_diagonal, sigma_diagonal]
  have k2 := congrArg (fun Q => d'.U * Q * d.V) key
  simp only [hW, hZ, Matrix.mul_assoc] at k2
  rw [hV, Matrix.mul_one, ← Matrix.mul_assoc d'.U d'.Uᴴ, hUU', Matrix.one_mul] at k2
  rw [Matrix.mul_assoc, Matrix.mul_assoc]
  exact k2

/-- The transposed decomposition. -/
theorem _root_.Meanas.Eme.IsSvd.transpose {M : Matrix (Fin n) (Fin n) ℂ} {d : Svd n n} (h : IsSvd M d) : IsSvd Mᵀ ⟨d.Vᵀ, d.s, d.Uᵀ⟩ where
  unitaryU := by
    show (d.Vᵀ)ᴴ * d.Vᵀ = 1
    rw [transpose_conj, ← transpose_mul, mul_eq_one_comm.1 h.unitaryV, transpose_one]
  unitaryV := by
    show (d.Uᵀ)ᴴ * d.Uᵀ = 1
    rw [transpose_conj, ← transpose_mul, mul_eq_one_comm.1 h.unitaryU, transpose_one]
  nonneg := h.nonneg
  sorted := h.sorted
  factors := fun i j => by
    rw [transpose_apply, h.factors]
    exact Finset.sum_congr rfl fun k _ => by simp only [transpose_apply]; ring

/-! ### Reciprocity -/

/-- **C114.** If all modes of both sides have the same nonzero norm (`inner_product(e, h, conj_h=False)`, for instance 1), the transmission from right to left
is the transpose of the transmission from left to right, also after the clipping of gain, and whether or not the overlap matrix is invertible. -/
theorem C114_reciprocal {nL nR : ℕ} (ehL : Modes nL sh) (ehR : Modes nR sh) (dxes : Dx2 sh) (L : Lib) (hL : LibOk L) (b : ℂ)
    (hbL : ∀ i, innerProduct (ehL i).1 (ehL i).2 dxes 0 false false = .ok b) (hbR : ∀ i, innerProduct (ehR i).1 (ehR i).2 dxes 0 false false = .ok b)
    {t12 r12 t21 r21} (h1 : getTr ehL ehR dxes L = .ok (t12, r12)) (h2 : getTr ehR ehL dxes L = .ok (t21, r21)) : t21 = t12ᵀ := by
  have hn := C55_square ehL ehR dxes L h1
  subst hn
  have bL : ∀ l, B11 ehL dxes l = b := fun l => by rw [B11, ip, hbL]
  have bR : ∀ l, B11 ehR dxes l = b := fun l => by rw [B11, ip, hbR]
  rw [getTr_square] at h1 h2
  simp only at h1 h2
  split_ifs at h1 with hB1
  split_ifs at h2 with hB2
  injection h1 with h1
  injection h2 with h2
  have ht12 := (Prod.mk.inj h1).1
  have ht21 := (Prod.mk.inj h2).1
  by_cases hb : b = 0
  · have : IsEmpty (Fin nL) := ⟨fun l => hB1 ⟨l, by rw [bL, hb]⟩⟩
    ext i j; exact isEmptyElim i
  set A := A21 ehL ehR dxes + A12 ehL ehR dxes with hA
  have hA' : A21 ehR ehL dxes + A12 ehR ehL dxes = Aᵀ := by
    ext i j
    simp only [hA, Matrix.add_apply, transpose_apply, A12, A21]
    ring
  simp only [bL] at ht12
  simp only [bR, hA'] at ht21
  have hX := lstsq_transpose (mul_ne_zero two_ne_zero hb) (hL.lstsq A (diagonal fun _ => 2 * b)) (hL.lstsq Aᵀ (diagonal fun _ => 2 * b))
  rw [hX] at ht21
  set X := L.lstsq A (diagonal fun _ => 2 * b)
  let f : ℝ → ℝ := fun s => if 1 < s then 1 / s else s
  have hu := svd_function_unique (hL.svd Xᵀ) (hL.svd X).transpose f (by simp [f])
  have hs : ∀ s : Fin (min nL nL) → ℝ, (sigma (r := nL) (c := nL) s)ᵀ = sigma s := fun s => by rw [sigma_diagonal, diagonal_transpose]
  rw [← ht21, ← ht12, transpose_mul, transpose_mul, hs, ← Matrix.mul_assoc]
  exact hu

/-- **C56.** For normalised modes, `get_s` and `get_abcd` describe the same interface exactly if the transmission matrix is symmetric. -/
theorem C56_normalised_partial (ehL ehR : Modes n sh) (dxes : Dx2 sh) (L : Lib) (hL : LibOk L) (b : ℂ)
    (hbL : ∀ i, innerProduct (ehL i).1 (ehL i).2 dxes 0 false false = .ok b) (hbR : ∀ i, innerProduct (ehR i).1 (ehR i).2 dxes 0 false false = .ok b)
    {t12 r12 t21 r21} (h1 : getTr ehL ehR dxes L = .ok (t12, r12)) (h2 : getTr ehR ehL dxes L = .ok (t21, r21)) (hdet : IsUnit t12.det) :
    ∃ S M, getS ehL ehR dxes L false false = .ok S ∧ getAbcd ehL ehR dxes L = .ok M ∧ (SameInterface S M ↔ t12.IsSymm) := by
  have ht := C114_reciprocal ehL ehR dxes L hL b hbL hbR h1 h2
  obtain ⟨S, M, hS, hM, h⟩ := C56_same_iff_partial ehL ehR dxes L hL h1 h2 (by rw [ht, det_transpose]; exact hdet)
  refine ⟨S, M, hS, hM, h.trans ?_⟩
  rw [ht]
  exact eq_comm

/-- **C56.** With one mode on either side they always do. -/
theorem C56_single_mode_partial (ehL ehR : Modes 1 sh) (dxes : Dx2 sh) (L : Lib) (hL : LibOk L) (b : ℂ)
    (hbL : ∀ i, innerProduct (ehL i).1 (ehL i).2 dxes 0 false false = .ok b) (hbR : ∀ i, innerProduct (ehR i).1 (ehR i).2 dxes 0 false false = .ok b)
    {t12 r12 t21 r21} (h1 : getTr ehL ehR dxes L = .ok (t12, r12)) (h2 : getTr ehR ehL dxes L = .ok (t21, r21)) (ht : t12 0 0 ≠ 0) :
    ∃ S M, getS ehL ehR dxes L false false = .ok S ∧ getAbcd ehL ehR dxes L = .ok M ∧ SameInterface S M := by
  obtain ⟨S, M, hS, hM, h⟩ := C56_normalised_partial ehL ehR dxes L hL b hbL hbR h1 h2 (by rw [det_fin_one]; exact isUnit_iff_ne_zero.2 ht)
  exact ⟨S, M, hS, hM, h.2 (by ext i j; fin_cases i; fin_cases j; rfl)⟩

/-! ### Matching the tangential fields -/

theorem ip_value (dxes : Dx2 sh) (e h : V 3 sh) : ip dxes e h
    = 1 / 2 * ∑ x, (e (0, x) * h (1, x) * ipW dxes 0 x - e (1, x) * h (0, x) * ipW dxes 1 x) := by
  rw [ip, C43_inner_product_value]
  simp [overlapSum, fld]

/-- The overlap is bilinear in the transverse fields. -/
theorem ip_bilinear (dxes : Dx2 sh) {m k : ℕ} (E H : V 3 sh) (e : Fin m → V 3 sh) (h : Fin k → V 3 sh) (a : Fin m → ℂ) (b : Fin k → ℂ)
    (hE : ∀ c : Fin 3, c ≠ 2 → ∀ x, E (c, x) = ∑ i, a i * e i (c, x)) (hH : ∀ c : Fin 3, c ≠ 2 → ∀ x, H (c, x) = ∑ j, b j * h j (c, x)) :
    ip dxes E H = ∑ i, ∑ j, a i * b j * ip dxes (e i) (h j) := by
  have h0 : (0 : Fin 3) ≠ 2 := by decide
  have h1 : (1 : Fin 3) ≠ 2 := by decide
  simp only [ip_value, hE _ h0, hE _ h1, hH _ h0, hH _ h1, Finset.mul_sum, Finset.sum_mul, ← Finset.sum_sub_distrib]
  rw [Finset.sum_comm]
  refine Eq.trans ?_ (Finset.sum_comm)
  refine Finset.sum_congr rfl fun j _ => ?_
  rw [Finset.sum_comm]
  refine Finset.sum_congr rfl fun i _ => Finset.sum_congr rfl fun x _ => ?_
  ring

/-- The tangential fields of both sides agree: for incidence of the left mode `i`, with reflected amplitudes `R · i` and transmitted amplitudes `T · i`. A
reflected mode has the same transverse E and the opposite transverse H (C102). -/
def Matches (ehL ehR : Modes n sh) (T R : Matrix (Fin n) (Fin n) ℂ) : Prop :=
  ∀ (i : Fin n) (c : Fin 3), c ≠ 2 → ∀ x,
    (ehL i).1 (c, x) + ∑ l, R l i * (ehL l).1 (c, x) = ∑ j, T j i * (ehR j).1 (c, x)
      ∧ (ehL i).2 (c, x) - ∑ l, R l i * (ehL l).2 (c, x) = ∑ j, T j i * (ehR j).2 (c, x)

/-- **C114.** If some amplitudes match the tangential fields exactly, without gain in transmission, `get_tr` returns them. -/
theorem C114_matching (ehL ehR : Modes n sh) (dxes : Dx2 sh) (L : Lib) (hL : LibOk L) (b : Fin n → ℂ) (hb : ∀ i, b i ≠ 0)
    (ho : ∀ i j, innerProduct (ehL i).1 (ehL j).2 dxes 0 false false = .ok (if i = j then b i else 0)) {T R : Matrix (Fin n) (Fin n) ℂ}
    (hm : Matches ehL ehR T R) (hp : ∀ x, power (T *ᵥ x) ≤ power x) : getTr ehL ehR dxes L = .ok (T, R) := by
  have hip : ∀ i j, ip dxes (ehL i).1 (ehL j).2 = if i = j then b i else 0 := fun i j => by rw [ip, ho]
  have hB : ∀ l, B11 ehL dxes l = b l := fun l => by rw [B11, hip, if_pos rfl]
  have hB' : (B11 ehL dxes) = b := funext hB
  -- overlaps of the matched fields with the left modes
  have k1 : A21 ehL ehR dxes * T = diagonal b + diagonal b * R := by
    ext l i
    have e1 : ip dxes (fun p => ∑ j, T j i * (ehR j).1 p) (ehL l).2 = ∑ j, T j i * ip dxes (ehR j).1 (ehL l).2 := by
      rw [ip_bilinear dxes _ _ (fun j => (ehR j).1) (fun _ : Fin 1 => (ehL l).2) (fun j => T j i) (fun _ => 1) (fun _ _ _ => rfl) (fun _ _ _ => by simp)]
      simp
    have e2 : ip dxes (fun p => ∑ j, T j i * (ehR j).1 p) (ehL l).2
        = ∑ m, ((if m = i then 1 else 0) + R m i) * ip dxes (ehL m).1 (ehL l).2 := by
      rw [ip_bilinear dxes _ _ (fun m => (ehL m).1) (fun _ : Fin 1 => (ehL l).2) (fun m => (if m = i then 1 else 0) + R m i) (fun _ => 1) ?_
        (fun _ _ _ => by simp)]
      · simp
      · intro c hc x
        rw [← (hm i c hc x).1]
        simp [add_mul, Finset.sum_add_distrib]
    rw [mul_apply, Matrix.add_apply, diagonal_mul, diagonal_apply]
    simp only [hip, mul_ite, mul_zero, Finset.sum_ite_eq', Finset.mem_univ, if_true] at e2
    calc ∑ j, A21 ehL ehR dxes l j * T j i = ∑ j, T j i * ip dxes (ehR j).1 (ehL l).2 := Finset.sum_congr rfl fun j _ => mul_comm _ _
      _ = _ := by rw [← e1, e2]; split_ifs <;> ring
  have k2 : A12 ehL ehR dxes * T = diagonal b - diagonal b * R := by
    ext l i
    have e1 : ip dxes (ehL l).1 (fun p => ∑ j, T j i * (ehR j).2 p) = ∑ j, T j i * ip dxes (ehL l).1 (ehR j).2 := by
      rw [ip_bilinear dxes _ _ (fun _ : Fin 1 => (ehL l).1) (fun j => (ehR j).2) (fun _ => 1) (fun j => T j i) (fun _ _ _ => by simp) (fun _ _ _ => rfl)]
      simp
    have e2 : ip dxes (ehL l).1 (fun p => ∑ j, T j i * (ehR j).2 p)
        = ∑ m, ((if m = i then 1 else 0) - R m i) * ip dxes (ehL l).1 (ehL m).2 := by
      rw [ip_bilinear dxes _ _ (fun _ : Fin 1 => (ehL l).1) (fun m => (ehL m).2) (fun _ => 1) (fun m => (if m = i then 1 else 0) - R m i)
        (fun _ _ _ => by simp) ?_]
      · simp
      · intro c hc x
        rw [← (hm i c hc x).2]
        simp [sub_mul, Finset.sum_sub_distrib]
    rw [mul_apply, Matrix.sub_apply, diagonal_mul, diagonal_apply]
    simp only [hip, mul_ite, mul_zero, Finset.sum_ite_eq, Finset.mem_univ, if_true] at e2
    calc ∑ j, A12 ehL ehR dxes l j * T j i = ∑ j, T j i * ip dxes (ehL l).1 (ehR j).2 := Finset.sum_congr rfl fun j _ => mul_comm _ _
      _ = _ := by rw [← e1, e2]; split_ifs <;> ring
  have hT : (A21 ehL ehR dxes + A12 ehL ehR dxes) * T = diagonal fun l => 2 * B11 ehL dxes l := by
    rw [Matrix.add_mul, k1, k2, hB']
    ext i j
    simp only [Matrix.add_apply, Matrix.sub_apply, diagonal_apply]
    split_ifs <;> ring
  have hdet : IsUnit (A21 ehL ehR dxes + A12 ehL ehR dxes).det := by
    have := congrArg det hT
    rw [det_mul, det_diagonal] at this
    rw [isUnit_iff_ne_zero]
    intro hc
    rw [hc, zero_mul] at this
    exact (Finset.prod_ne_zero_iff.2 fun i _ => mul_ne_zero two_ne_zero (by rw [hB]; exact hb i)) this.symm
  rw [C55_mode_matching ehL ehR dxes L hL (fun l => by rw [hB]; exact hb l) hdet T hT hp]
  congr 2
  rw [Matrix.mul_assoc, Matrix.sub_mul, k1, k2]
  ext i j
  rw [diagonal_mul, Matrix.sub_apply, Matrix.add_apply, Matrix.sub_apply, diagonal_mul, hB]
  have := hb i
  field_simp
  ring

/-- The transverse fields are real, as for guided modes of lossless waveguides up to a common phase. -/
def RealModes (eh : Modes n sh) : Prop :=
  ∀ i (c : Fin 3), c ≠ 2 → ∀ x, (starRingEnd ℂ) ((eh i).1 (c, x)) = (eh i).1 (c, x) ∧ (starRingEnd ℂ) ((eh i).2 (c, x)) = (eh i).2 (c, x)

/-- **C114.** Real orthonormal modes on both sides: the matched amplitudes conserve power, so nothing is clipped and `get_tr` returns them. -/
theorem C114_lossless (ehL ehR : Modes n sh) (dxes : Dx2 sh) (L : Lib) (hL : LibOk L) (b : ℂ) (hb : b ≠ 0)
    (hoL : ∀ i j, innerProduct (ehL i).1 (ehL j).2 dxes 0 false false = .ok (if i = j then b else 0))
    (hoR : ∀ i j, innerProduct (ehR i).1 (ehR j).2 dxes 0 false false = .ok (if i = j then b else 0)) (hrL : RealModes ehL) (hrR : RealModes ehR)
    {T R : Matrix (Fin n) (Fin n) ℂ} (hm : Matches ehL ehR T R) :
    getTr ehL ehR dxes L = .ok (T, R) ∧ ∀ x, power (T *ᵥ x) + power (R *ᵥ x) = power x := by
  have hP : ∀ x, power (T *ᵥ x) + power (R *ᵥ x) = power x := by
    intro x
    have hipL : ∀ i j, ip dxes (ehL i).1 (ehL j).2 = if i = j then b else 0 := fun i j => by rw [ip, hoL]
    have hipR : ∀ i j, ip dxes (ehR i).1 (ehR j).2 = if i = j then b else 0 := fun i j => by rw [ip, hoR]
    let E : V 3 sh := fun p => ∑ j, (T *ᵥ x) j * (ehR j).1 p
    let H : V 3 sh := fun p => ∑ j, (starRingEnd ℂ) ((T *ᵥ x) j) * (ehR j).2 p
    have e1 : ip dxes E H = b * ∑ j, (T *ᵥ x) j * (starRingEnd ℂ) ((T *ᵥ x) j) := by
      rw [ip_bilinear dxes E H (fun j => (ehR j).1) (fun j => (ehR j).2) _ _ (fun _ _ _ => rfl) (fun _ _ _ => rfl)]
      simp only [hipR, mul_ite, mul_zero, Finset.sum_ite_eq, Finset.mem_univ, if_true, Finset.mul_sum]
      exact Finset.sum_congr rfl fun j _ => by ring
    have hE : ∀ c : Fin 3, c ≠ 2 → ∀ y, E (c, y) = ∑ i, (x i + (R *ᵥ x) i) * (ehL i).1 (c, y) := by
      intro c hc y
      have a1 : E (c, y) = ∑ i, x i * ∑ j, T j i * (ehR j).1 (c, y) := by
        simp only [E, mulVec, dotProduct, Finset.sum_mul, Finset.mul_sum]
        rw [Finset.sum_comm]
        exact Finset.sum_congr rfl fun i _ => Finset.sum_congr rfl fun j _ => by ring
      rw [a1]
      have a2 : ∀ i, ∑ j, T j i * (ehR j).1 (c, y) = (ehL i).1 (c, y) + ∑ l, R l i * (ehL l).1 (c, y) := fun i => ((hm i c hc y).1).symm
      simp only [a2, mul_add, add_mul, Finset.sum_add_distrib, mulVec, dotProduct, Finset.mul_sum, Finset.sum_mul]
      congr 1
      rw [Finset.sum_comm]
      exact Finset.sum_congr rfl fun i _ => Finset.sum_congr rfl fun j _ => by ring
    have hH : ∀ c : Fin 3, c ≠ 2 → ∀ y, H (c, y) = ∑ i, (starRingEnd ℂ) (x i - (R *ᵥ x) i) * (ehL i).2 (c, y) := by
      intro c hc y
      have a1 : H (c, y) = (starRingEnd ℂ) (∑ i, x i * ∑ j, T j i * (ehR j).2 (c, y)) := by
        simp only [H, mulVec, dotProduct, Finset.sum_mul, Finset.mul_sum, map_sum, map_mul, (hrR _ c hc y).2]
        rw [Finset.sum_comm]
        exact Finset.sum_congr rfl fun i _ => Finset.sum_congr rfl fun j _ => by ring
      rw [a1]
      have a2 : ∀ i, ∑ j, T j i * (ehR j).2 (c, y) = (ehL i).2 (c, y) - ∑ l, R l i * (ehL l).2 (c, y) := fun i => ((hm i c hc y).2).symm
      simp only [a2, mul_sub, sub_mul, Finset.sum_sub_distrib, mulVec, dotProduct, Finset.mul_sum, Finset.sum_mul, map_sub, map_sum, map_mul,
        (hrL _ c hc y).2]
      congr 1
      rw [Finset.sum_comm]
      exact Finset.sum_congr rfl fun i _ => Finset.sum_congr rfl fun j _ => by ring
    have e2 : ip dxes E H = b * ∑ i, (x i + (R *ᵥ x) i) * (starRingEnd ℂ) (x i - (R *ᵥ x) i) := by
      rw [ip_bilinear dxes E H (fun j => (ehL j).1) (fun j => (ehL j).2) _ _ hE hH]
      simp only [hipL, mul_ite, mul_zero, Finset.sum_ite_eq, Finset.mem_univ, if_true, Finset.mul_sum]
      exact Finset.sum_congr rfl fun j _ => by ring
    have e3 := mul_left_cancel₀ hb (e1.symm.trans e2)
    have e4 := congrArg re e3
    rw [re_sum, re_sum] at e4
    have e5 : ∀ z : ℂ, (z * (starRingEnd ℂ) z).re = ‖z‖ ^ 2 := fun z => by rw [mul_conj, ofReal_re, normSq_eq_norm_sq]
    have e6 : ∀ u v : ℂ, ((u + v) * (starRingEnd ℂ) (u - v)).re = ‖u‖ ^ 2 - ‖v‖ ^ 2 := fun u v => by
      rw [← normSq_eq_norm_sq, ← normSq_eq_norm_sq, normSq_apply, normSq_apply]
      simp; ring
    simp only [e5, e6, Finset.sum_sub_distrib] at e4
    unfold power
    linarith
  refine ⟨C114_matching ehL ehR dxes L hL (fun _ => b) (fun _ => hb) hoL hm fun x => ?_, hP⟩
  have := hP x
  have h0 : 0 ≤ power (R *ᵥ x) := Finset.sum_nonneg fun _ _ => by positivity
  linarith

/-! ### The hypotheses can be met -/

/-- A plane wave on one cell, and the same wave in a medium with the fourfold index. -/
noncomputable def waveL : Modes 1 (fun _ => 1) := fun _ => (cell 1 0, cell 0 2)
noncomputable def waveR : Modes 1 (fun _ => 1) := fun _ => (cell (1 / 2) 0, cell 0 4)

/-- Fresnel's coefficients for an index step from 1 to 4. -/
example (L : Lib) (hL : LibOk L) : getTr waveL waveR (fun _ _ => 1, fun _ _ => 1) L = .ok (!![4 / 5], !![-3 / 5]) := by
  refine (C114_lossless waveL waveR (fun _ _ => 1, fun _ _ => 1) L hL 1 one_ne_zero ?_ ?_ ?_ ?_ ?_).1
  · intro i j; fin_cases i; fin_cases j; simp [waveL, ip_cell]
  · intro i j; fin_cases i; fin_cases j; simp [waveR, ip_cell]; norm_num
  · intro i c hc x; simp only [waveL, cell]; refine ⟨?_, ?_⟩ <;> fin_cases c <;> simp <;> exact map_ofNat _ _
  · intro i c hc x; simp only [waveR, cell]; refine ⟨?_, ?_⟩ <;> fin_cases c <;> simp <;> exact map_ofNat _ _
  · intro i c hc x
    fin_cases i
    fin_cases c
    · constructor <;> simp [waveL, waveR, cell]; norm_num
    · constructor <;> simp [waveL, waveR, cell]; norm_num
    · exact absurd rfl hc

/-- For the two bases `pol2`, `pol2'` of Props/Eme, which `get_tr` relates by a rotation, the transmissions are transposes of each other. -/
example (L : Lib) (hL : LibOk L) : ∃ t12 r12 t21 r21, getTr pol2 pol2' (fun _ _ => 1, fun _ _ => 1) L = .ok (t12, r12)
    ∧ getTr pol2' pol2 (fun _ _ => 1, fun _ _ => 1) L = .ok (t21, r21) ∧ t21 = t12ᵀ := by
  have n1 : ∀ i, innerProduct (pol2 i).1 (pol2 i).2 (fun _ _ => 1, fun _ _ => 1) 0 false false = .ok (1 : ℂ) := by
    intro i; fin_cases i <;> simp [pol2, ip_cell]
  have n2 : ∀ i, innerProduct (pol2' i).1 (pol2' i).2 (fun _ _ => 1, fun _ _ => 1) 0 false false = .ok (1 : ℂ) := by
    intro i; fin_cases i <;> simp [pol2', ip_cell]
  have g1 : ∃ p, getTr pol2 pol2' (fun _ _ => 1, fun _ _ => 1) L = .ok p := by
    rw [getTr_square]; simp only
    rw [if_neg (by push Not; intro l; rw [B11, ip, n1]; exact one_ne_zero)]
    exact ⟨_, rfl⟩
  have g2 : ∃ p, getTr pol2' pol2 (fun _ _ => 1, fun _ _ => 1) L = .ok p := by
    rw [getTr_square]; simp only
    rw [if_neg (by push Not; intro l; rw [B11, ip, n2]; exact one_ne_zero)]
    exact ⟨_, rfl⟩
  obtain ⟨⟨t12, r12⟩, h1⟩ := g1
  obtain ⟨⟨t21, r21⟩, h2⟩ := g2
  exact ⟨t12, r12, t21, r21, h1, h2, C114_reciprocal pol2 pol2' _ L hL 1 n1 n2 h1 h2⟩

end Meanas.Props
