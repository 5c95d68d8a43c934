/-
Eigenmode expansion (meanas/fdfd/eme.py): C55, C56, C57. The numpy routines enter through their contracts `LibOk` (met by some library, see
`libOk_exists`).
-/
import Mathlib.LinearAlgebra.Matrix.IsDiag
import Verif.Lemmas.Svd
import Verif.Props.Waveguide2dModes

set_option linter.unusedSectionVars false

namespace Meanas.Props

open Matrix Complex Eme Wg2

variable {sh : Fin 2 → ℕ} {n : ℕ}

/-- Power carried by a vector of amplitudes. -/
noncomputable def power {m : ℕ} (x : Fin m → ℂ) : ℝ := ∑ i, ‖x i‖ ^ 2

theorem power_eq {m : ℕ} (x : Fin m → ℂ) : ((power x : ℝ) : ℂ) = star x ⬝ᵥ x := by
  simp only [power, dotProduct, ofReal_sum, Pi.star_apply, star_def, ← normSq_eq_conj_mul_self, normSq_eq_norm_sq]

theorem power_unitary {W : Matrix (Fin n) (Fin n) ℂ} (hW : Wᴴ * W = 1) (x : Fin n → ℂ) : power (W *ᵥ x) = power x := by
  have : ((power (W *ᵥ x) : ℝ) : ℂ) = power x := by
    rw [power_eq, power_eq, dot_mulVec_conj, hW, one_mulVec]
  exact_mod_cast this

theorem sigma_mulVec (s : Fin (min n n) → ℝ) (x : Fin n → ℂ) (i : Fin n) : (sigma (r := n) (c := n) s *ᵥ x) i = s (Fin.cast (min_self n).symm i) * x i := by
  rw [mulVec, dotProduct, Finset.sum_eq_single i]
  · rw [sigma, dif_pos rfl]; rfl
  · intro j _ hj
    rw [sigma, dif_neg fun h => hj (Fin.ext h.symm), zero_mul]
  · simp

/-- Singular values at most one mean that no power is gained, and conversely. -/
theorem passive_iff {A : Matrix (Fin n) (Fin n) ℂ} {d : Svd n n} (h : IsSvd A d) : (∀ x, power (A *ᵥ x) ≤ power x) ↔ ∀ k, d.s k ≤ 1 := by
  have hp : ∀ x, power (A *ᵥ x) = power (sigma (r := n) (c := n) d.s *ᵥ (d.V *ᵥ x)) := fun x => by
    conv_lhs => rw [h.eq_sigma]
    rw [← mulVec_mulVec, ← mulVec_mulVec, power_unitary h.unitaryU]
  constructor
  · intro H k
    set i : Fin n := Fin.cast (min_self n) k
    have := H (d.Vᴴ *ᵥ Pi.single i 1)
    have hv : d.V *ᵥ (d.Vᴴ *ᵥ (Pi.single i 1 : Fin n → ℂ)) = Pi.single i 1 := by
      rw [mulVec_mulVec, mul_eq_one_comm.1 h.unitaryV, one_mulVec]
    rw [hp, hv, power_unitary (W := d.Vᴴ) (by rw [conjTranspose_conjTranspose]; exact mul_eq_one_comm.1 h.unitaryV)] at this
    have e1 : power (Pi.single i (1 : ℂ) : Fin n → ℂ) = 1 := by
      rw [power, Finset.sum_eq_single i]
      · simp
      · intro j _ hj; simp [hj]
      · simp
    have e2 : power (sigma (r := n) (c := n) d.s *ᵥ Pi.single i 1) = d.s k ^ 2 := by
      rw [power, Finset.sum_eq_single i]
      · rw [sigma_mulVec]; simp [i]
      · intro j _ hj; rw [sigma_mulVec]; simp [hj]
      · simp
    rw [e1, e2] at this
    have h0 := h.nonneg k
    nlinarith
  · intro H x
    rw [hp, ← power_unitary h.unitaryV x]
    refine Finset.sum_le_sum fun i _ => ?_
    rw [sigma_mulVec, norm_mul, norm_real, mul_pow, Real.norm_of_nonneg (h.nonneg _)]
    have h0 := h.nonneg (Fin.cast (min_self n).symm i)
    have h1 := H (Fin.cast (min_self n).symm i)
    have h2 : d.s (Fin.cast (min_self n).symm i) ^ 2 ≤ 1 := by nlinarith
    nlinarith [sq_nonneg ‖(d.V *ᵥ x) i‖]

open Classical in
/-- `get_tr` for equally many modes on both sides. -/
theorem getTr_square (ehL ehR : Modes n sh) (dxes : Dx2 sh) (L : Lib) :
    getTr ehL ehR dxes L =
      let sv := L.svd (L.lstsq (A21 ehL ehR dxes + A12 ehL ehR dxes) (diagonal fun l => 2 * B11 ehL dxes l))
      let tt := sv.U * sigma (fun k => if 1 < sv.s k then 1 / sv.s k else sv.s k) * sv.V
      if ∃ l, B11 ehL dxes l = 0 then .error "RuntimeWarning: divide by zero"
      else .ok (tt, (diagonal fun l => 0.5 / B11 ehL dxes l) * (A21 ehL ehR dxes - A12 ehL ehR dxes) * tt) := by
  have hmul : ∀ (U V : Matrix (Fin n) (Fin n) ℂ) (st : Fin (min n n) → ℝ), matmul U (diagonal fun k => (st k : ℂ)) =
      .ok (U * (diagonal fun k => (st k : ℂ)).submatrix (Fin.cast (min_self n).symm) id) ∧
      matmul (U * (diagonal fun k => (st k : ℂ)).submatrix (Fin.cast (min_self n).symm) id) V = .ok (U * sigma st * V) := by
    intro U V st
    refine ⟨dif_pos (min_self n).symm, (dif_pos (min_self n)).trans (congrArg Except.ok ?_)⟩
    have hs : sigma (r := n) (c := n) st = (diagonal fun k => (st k : ℂ)).submatrix (Fin.cast (min_self n).symm) (Fin.cast (min_self n).symm) := by
      ext i j
      rw [submatrix_apply, diagonal_apply, sigma]
      by_cases h : i = j
      · rw [dif_pos (by rw [h]), if_pos (by rw [h])]; rfl
      · rw [dif_neg fun h' => h (Fin.ext h'), if_neg fun h' => h (by simpa using h')]
    rw [hs]
    ext i j
    rw [mul_apply, mul_apply]
    refine (Equiv.sum_comp (finCongr (min_self n).symm) _).symm.trans ?_
    refine Finset.sum_congr rfl fun k _ => ?_
    rw [mul_apply, mul_apply]
    rfl
  unfold getTr
  simp only
  rw [(hmul _ (L.svd (L.lstsq (A21 ehL ehR dxes + A12 ehL ehR dxes) (diagonal fun l => 2 * B11 ehL dxes l))).V _).1]
  simp only
  rw [(hmul _ (L.svd (L.lstsq (A21 ehL ehR dxes + A12 ehL ehR dxes) (diagonal fun l => 2 * B11 ehL dxes l))).V _).2]

/-- `get_tr` returns only for equally many modes on both sides. -/
theorem C55_square {nL nR : ℕ} (ehL : Modes nL sh) (ehR : Modes nR sh) (dxes : Dx2 sh) (L : Lib) {t r} (h : getTr ehL ehR dxes L = .ok (t, r)) :
    nL = nR := by
  by_contra hn
  unfold getTr at h
  simp only at h
  split at h
  · exact absurd h (by simp)
  · rename_i us hus
    unfold matmul at hus
    split at hus
    · split at h
      · exact absurd h (by simp)
      · rename_i tt htt
        unfold matmul at htt
        split at htt
        · omega
        · exact absurd htt (by simp)
    · exact absurd hus (by simp)

/-- Replacing the singular values. -/
theorem isSvd_sigma {A : Matrix (Fin n) (Fin n) ℂ} {d : Svd n n} (h : IsSvd A d) (st : Fin (min n n) → ℝ) (x : Fin n → ℂ) (h0 : ∀ k, 0 ≤ st k)
    (h1 : ∀ k, st k ≤ 1) : power ((d.U * sigma st * d.V) *ᵥ x) ≤ power x := by
  rw [← mulVec_mulVec, ← mulVec_mulVec, power_unitary h.unitaryU, ← power_unitary h.unitaryV x]
  refine Finset.sum_le_sum fun i _ => ?_
  rw [sigma_mulVec, norm_mul, norm_real, mul_pow, Real.norm_of_nonneg (h0 _)]
  have h0 := h0 (Fin.cast (min_self n).symm i)
  have h1 := h1 (Fin.cast (min_self n).symm i)
  have h2 : st (Fin.cast (min_self n).symm i) ^ 2 ≤ 1 := by nlinarith
  nlinarith [sq_nonneg ‖(d.V *ᵥ x) i‖]

/-- C55: whenever `get_tr` returns, its transmission matrix gains no power; in any singular value decomposition all singular values are at most 1. -/
theorem C55_passive {nL nR : ℕ} (ehL : Modes nL sh) (ehR : Modes nR sh) (dxes : Dx2 sh) (L : Lib) (hL : LibOk L) {t r}
    (h : getTr ehL ehR dxes L = .ok (t, r)) : (∀ x, power (t *ᵥ x) ≤ power x) ∧ ∀ d, IsSvd t d → ∀ k, d.s k ≤ 1 := by
  have hn := C55_square ehL ehR dxes L h
  subst hn
  have H : ∀ x, power (t *ᵥ x) ≤ power x := by
    rw [getTr_square] at h
    simp only at h
    split_ifs at h
    injection h with h
    have ht := (Prod.mk.inj h).1
    subst ht
    intro x
    have hs := hL.svd (L.lstsq (A21 ehL ehR dxes + A12 ehL ehR dxes) (diagonal fun l => 2 * B11 ehL dxes l))
    refine isSvd_sigma hs _ x (fun k => ?_) (fun k => ?_) <;> split_ifs with hk
    · positivity
    · exact hs.nonneg k
    · rw [div_le_one (by linarith)]; exact hk.le
    · exact not_lt.1 hk
  exact ⟨H, fun d hd => (passive_iff hd).1 H⟩

/-- Without gain, `get_tr` returns the solution of the mode matching equations. -/
theorem C55_mode_matching (ehL ehR : Modes n sh) (dxes : Dx2 sh) (L : Lib) (hL : LibOk L) (hB : ∀ l, B11 ehL dxes l ≠ 0)
    (hdet : IsUnit (A21 ehL ehR dxes + A12 ehL ehR dxes).det) (T : Matrix (Fin n) (Fin n) ℂ)
    (hT : (A21 ehL ehR dxes + A12 ehL ehR dxes) * T = diagonal fun l => 2 * B11 ehL dxes l) (hp : ∀ x, power (T *ᵥ x) ≤ power x) :
    getTr ehL ehR dxes L = .ok (T, (diagonal fun l => 0.5 / B11 ehL dxes l) * (A21 ehL ehR dxes - A12 ehL ehR dxes) * T) := by
  rw [getTr_square]
  simp only
  set A := A21 ehL ehR dxes + A12 ehL ehR dxes
  have hX : L.lstsq A (diagonal fun l => 2 * B11 ehL dxes l) = T := by
    have h1 := (hL.lstsq A (diagonal fun l => 2 * B11 ehL dxes l)).normal
    rw [← hT, ← Matrix.mul_assoc] at h1
    rw [← hT]
    have hu : IsUnit (Aᴴ * A).det := by
      rw [det_mul, det_conjTranspose]; exact (hdet.star).mul hdet
    exact (Matrix.isUnit_iff_isUnit_det _ |>.2 hu).mul_left_cancel h1
  rw [hX]
  have hs := hL.svd T
  have h1 := (passive_iff hs).1 hp
  have he : (fun k => if 1 < (L.svd T).s k then 1 / (L.svd T).s k else (L.svd T).s k) = (L.svd T).s := by
    funext k; rw [if_neg (not_lt.2 (h1 k))]
  rw [he, ← hs.eq_sigma, if_neg (by push Not; exact hB)]

/-- C55: the same orthogonal modes on both sides (each with nonzero power, for instance normalised) give full transmission and no reflection. -/
theorem C55_identical (eh : Modes n sh) (dxes : Dx2 sh) (L : Lib) (hL : LibOk L) (b : Fin n → ℂ) (hb : ∀ i, b i ≠ 0)
    (ho : ∀ i j, innerProduct (eh i).1 (eh j).2 dxes 0 false false = .ok (if i = j then b i else 0)) : getTr eh eh dxes L = .ok (1, 0) := by
  have hip : ∀ i j, ip dxes (eh i).1 (eh j).2 = if i = j then b i else 0 := fun i j => by rw [ip, ho]
  have h12 : A12 eh eh dxes = diagonal b := by
    ext i j; rw [A12, hip, diagonal_apply]
  have h21 : A21 eh eh dxes = diagonal b := by
    ext i j; rw [A21, hip, diagonal_apply]
    by_cases h : i = j
    · rw [if_pos h, if_pos h.symm, h]
    · rw [if_neg h, if_neg (Ne.symm h)]
  have hB : ∀ l, B11 eh dxes l = b l := fun l => by rw [B11, hip, if_pos rfl]
  have := C55_mode_matching eh eh dxes L hL (fun l => by rw [hB]; exact hb l) (by
    rw [h12, h21, diagonal_add, det_diagonal, isUnit_iff_ne_zero]
    exact Finset.prod_ne_zero_iff.2 fun i _ => by rw [← two_mul]; exact mul_ne_zero two_ne_zero (hb i)) 1 (by
    rw [Matrix.mul_one, h12, h21, diagonal_add]
    congr 1; funext i; rw [hB, two_mul]) (fun x => by rw [one_mulVec])
  rw [this, h12, h21, sub_self, Matrix.mul_zero, Matrix.zero_mul]

/-! ### C56 -/

section
variable (ehL ehR : Modes n sh) (dxes : Dx2 sh) (L : Lib)

/-- Amplitudes at an interface: `a1`, `a2` come in from the left and right, `b1`, `b2` go out to the left and right; `t12`, `r12` belong to
incidence from the left, `t21`, `r21` to incidence from the right. -/
def Scatters (t12 r12 t21 r21 : Matrix (Fin n) (Fin n) ℂ) (a1 a2 b1 b2 : Fin n → ℂ) : Prop :=
  b1 = r12 *ᵥ a1 + t21 *ᵥ a2 ∧ b2 = t12 *ᵥ a1 + r21 *ᵥ a2

/-- `S` maps incoming to outgoing amplitudes exactly when `M` maps the amplitudes on the left `(a1, b1)` to those on the right `(b2, a2)`. -/
def SameInterface (S : Matrix (Fin (n + n)) (Fin (n + n)) ℂ) (M : Matrix (Fin n ⊕ Fin n) (Fin n ⊕ Fin n) ℂ) : Prop :=
  ∀ a1 a2 b1 b2 : Fin n → ℂ, S *ᵥ Fin.append a1 a2 = Fin.append b1 b2 ↔ M *ᵥ Sum.elim a1 b1 = Sum.elim b2 a2

theorem pinv_inv (hL : LibOk L) {t : Matrix (Fin n) (Fin n) ℂ} (h : IsUnit t.det) : L.pinv t * t = 1 ∧ t * L.pinv t = 1 := by
  have hu := (Matrix.isUnit_iff_isUnit_det _).2 h
  have := (hL.pinv t).apa
  rw [Matrix.mul_assoc] at this
  have h1 : L.pinv t * t = 1 := hu.mul_left_cancel (by rw [this, Matrix.mul_one])
  exact ⟨h1, mul_eq_one_comm.1 h1⟩

/-- C56 for `get_abcd`: with invertible transmission from the right, the transfer matrix describes the interface. -/
theorem C56_abcd_partial (hL : LibOk L) {t12 r12 t21 r21 : Matrix (Fin n) (Fin n) ℂ} (h1 : getTr ehL ehR dxes L = .ok (t12, r12))
    (h2 : getTr ehR ehL dxes L = .ok (t21, r21)) (hdet : IsUnit t21.det) :
    ∃ M, getAbcd ehL ehR dxes L = .ok M ∧
      ∀ a1 a2 b1 b2, Scatters t12 r12 t21 r21 a1 a2 b1 b2 ↔ M *ᵥ Sum.elim a1 b1 = Sum.elim b2 a2 := by
  obtain ⟨p1, p2⟩ := pinv_inv L hL hdet
  have hm : ∀ X Y : Matrix (Fin n) (Fin n) ℂ, matmul X Y = .ok (X * Y) := fun X Y => dif_pos rfl
  refine ⟨_, by
    unfold getAbcd
    simp only [h1, h2, hm]
    rw [dif_pos trivial], ?_⟩
  intro a1 a2 b1 b2
  set q := L.pinv t21
  show _ ↔ fromBlocks (t12 - r21 * (q * r12)) (r21 * q) (-(q * r12)) q *ᵥ _ = _
  rw [fromBlocks_mulVec, Sum.elim_eq_iff]
  simp only [Sum.elim_comp_inl, Sum.elim_comp_inr, sub_mulVec, neg_mulVec, ← mulVec_mulVec]
  constructor
  · rintro ⟨rfl, rfl⟩
    have e : q *ᵥ (t21 *ᵥ a2) = a2 := by rw [mulVec_mulVec, p1, one_mulVec]
    simp only [mulVec_add, e]
    constructor <;> abel
  · rintro ⟨e1, e2⟩
    have hb : b1 = r12 *ᵥ a1 + t21 *ᵥ a2 := by
      have e3 : ∀ z, t21 *ᵥ (q *ᵥ z) = z := fun z => by rw [mulVec_mulVec, p2, one_mulVec]
      rw [← e2, mulVec_add, mulVec_neg, e3, e3]; abel
    refine ⟨hb, ?_⟩
    have e : q *ᵥ (t21 *ᵥ a2) = a2 := by rw [mulVec_mulVec, p1, one_mulVec]
    rw [← e1, hb]
    simp only [mulVec_add, e]
    abel

/-- The matrix assembled by `get_s`: the transmission blocks are exchanged with respect to `Scatters`. -/
noncomputable def rawS (t12 r12 t21 r21 : Matrix (Fin n) (Fin n) ℂ) : Matrix (Fin (n + n)) (Fin (n + n)) ℂ :=
  (fromBlocks r12 t12 t21 r21).submatrix finSumFinEquiv.symm finSumFinEquiv.symm

/-- `numpy.diag(sing) @ U @ V`. -/
noncomputable def nogain (L : Lib) {m : ℕ} (S : Matrix (Fin m) (Fin m) ℂ) : Matrix (Fin m) (Fin m) ℂ :=
  (diagonal fun k => ((L.svd S).s (Fin.cast (min_self _).symm k) : ℂ)) * (L.svd S).U * (L.svd S).V

theorem getS_value {t12 r12 t21 r21 : Matrix (Fin n) (Fin n) ℂ} (h1 : getTr ehL ehR dxes L = .ok (t12, r12))
    (h2 : getTr ehR ehL dxes L = .ok (t21, r21)) :
    getS ehL ehR dxes L false false = .ok (rawS t12 r12 t21 r21) ∧ getS ehL ehR dxes L true false = .ok (nogain L (rawS t12 r12 t21 r21)) := by
  constructor <;>
  · unfold getS
    rw [h1, h2]
    simp only
    rw [dif_pos trivial]
    rfl

theorem append_elim (a b : Fin n → ℂ) : Fin.append a b = Sum.elim a b ∘ finSumFinEquiv.symm := by
  funext i
  refine Fin.addCases (fun i => ?_) (fun i => ?_) i
  · rw [Fin.append_left, Function.comp, finSumFinEquiv_symm_apply_castAdd]; rfl
  · rw [Fin.append_right, Function.comp, finSumFinEquiv_symm_apply_natAdd]; rfl

theorem block_append (A B C D : Matrix (Fin n) (Fin n) ℂ) (a1 a2 : Fin n → ℂ) :
    rawS B A C D *ᵥ Fin.append a1 a2 = Fin.append (A *ᵥ a1 + B *ᵥ a2) (C *ᵥ a1 + D *ᵥ a2) := by
  rw [rawS, append_elim, append_elim, submatrix_mulVec_equiv, Function.comp_assoc]
  simp [fromBlocks_mulVec]

theorem append_inj {a b c d : Fin n → ℂ} : Fin.append a b = Fin.append c d ↔ a = c ∧ b = d := by
  constructor
  · intro h
    refine ⟨funext fun i => ?_, funext fun i => ?_⟩
    · simpa using congrFun h (Fin.castAdd n i)
    · have := congrFun h (Fin.natAdd n i)
      rwa [Fin.append_right, Fin.append_right] at this
  · rintro ⟨rfl, rfl⟩; rfl

/-- C56, exactly when it holds: `get_s` and `get_abcd` agree if and only if the two transmission matrices are equal. -/
theorem C56_same_iff_partial (hL : LibOk L) {t12 r12 t21 r21 : Matrix (Fin n) (Fin n) ℂ} (h1 : getTr ehL ehR dxes L = .ok (t12, r12))
    (h2 : getTr ehR ehL dxes L = .ok (t21, r21)) (hdet : IsUnit t21.det) :
    ∃ S M, getS ehL ehR dxes L false false = .ok S ∧ getAbcd ehL ehR dxes L = .ok M ∧ (SameInterface S M ↔ t12 = t21) := by
  obtain ⟨M, hM, hM'⟩ := C56_abcd_partial ehL ehR dxes L hL h1 h2 hdet
  refine ⟨_, M, (getS_value ehL ehR dxes L h1 h2).1, hM, ?_⟩
  unfold SameInterface
  simp only [block_append, append_inj, ← hM', Scatters]
  constructor
  · intro h
    ext i j
    have h' := (h 0 (Pi.single j 1) (t12 *ᵥ Pi.single j 1) (r21 *ᵥ Pi.single j 1)).1 ⟨by simp, by simp⟩
    have := congrFun h'.1 i
    simpa using this
  · rintro rfl a1 a2 b1 b2
    exact ⟨fun ⟨h, h'⟩ => ⟨h.symm, h'.symm⟩, fun ⟨h, h'⟩ => ⟨h.symm, h'.symm⟩⟩
end

/-- Fields on a single cell. -/
noncomputable def cell (x y : ℂ) : V 3 (fun _ => 1) := fun p => if p.1 = 0 then x else if p.1 = 1 then y else 0

theorem ip_cell (ex ey hx hy : ℂ) : innerProduct (cell ex ey) (cell hx hy) (fun _ _ => 1, fun _ _ => 1) 0 false false = .ok (1 / 2 * (ex * hy - ey * hx)) := by
  rw [C43_inner_product_value]
  refine congrArg Except.ok ?_
  have : Unique (Idx (fun _ : Fin 2 => 1)) := ⟨⟨fun _ => 0⟩, fun x => funext fun a => Subsingleton.elim _ _⟩
  rw [overlapSum, Fintype.sum_unique]
  simp [fld, cell, ipW]

/-- The two polarisations of a plane wave on one cell, normalised and orthogonal. -/
noncomputable def pol2 : Modes 2 (fun _ => 1) := fun i => if i = 0 then (cell 1 0, cell 0 2) else (cell 0 1, cell (-2) 0)
/-- The same two modes, listed in another basis: second polarisation, then minus the first. -/
noncomputable def pol2' : Modes 2 (fun _ => 1) := fun i => if i = 0 then (cell 0 1, cell (-2) 0) else (cell (-1) 0, cell 0 (-2))

/-- The hypotheses of C55 are met: both mode sets are orthonormal, and `get_tr` returns. -/
example (L : Lib) (hL : LibOk L) : getTr pol2 pol2 (fun _ _ => 1, fun _ _ => 1) L = .ok (1, 0) := by
  refine C55_identical pol2 _ L hL (fun _ => 1) (fun _ => one_ne_zero) ?_
  intro i j
  fin_cases i <;> fin_cases j <;> simp [pol2, ip_cell]

/-- C56 is false: for the two mode sets above (a rotation of the basis) `get_s` has the transmission blocks in the wrong places. -/
theorem C56_fails_partial (L : Lib) (hL : LibOk L) :
    ∃ S M, getS pol2 pol2' (fun _ _ => 1, fun _ _ => 1) L false false = .ok S ∧ getAbcd pol2 pol2' (fun _ _ => 1, fun _ _ => 1) L = .ok M ∧
      ¬ SameInterface S M := by
  have hip : ∀ a b c d : ℂ, ip (fun _ _ => 1, fun _ _ => 1) (cell a b) (cell c d) = 1 / 2 * (a * d - b * c) := fun a b c d => by rw [ip, ip_cell]
  have e1 : A12 pol2 pol2' (fun _ _ => 1, fun _ _ => 1) = !![0, -1; 1, 0] := by
    ext i j; fin_cases i <;> fin_cases j <;> simp [A12, pol2, pol2', hip]
  have e2 : A21 pol2 pol2' (fun _ _ => 1, fun _ _ => 1) = !![0, -1; 1, 0] := by
    ext i j; fin_cases i <;> fin_cases j <;> simp [A21, pol2, pol2', hip]
  have e3 : A12 pol2' pol2 (fun _ _ => 1, fun _ _ => 1) = !![0, 1; -1, 0] := by
    ext i j; fin_cases i <;> fin_cases j <;> simp [A12, pol2, pol2', hip]
  have e4 : A21 pol2' pol2 (fun _ _ => 1, fun _ _ => 1) = !![0, 1; -1, 0] := by
    ext i j; fin_cases i <;> fin_cases j <;> simp [A21, pol2, pol2', hip]
  have b1 : ∀ l, B11 pol2 (fun _ _ => 1, fun _ _ => 1) l = 1 := by
    intro l; fin_cases l <;> simp [B11, pol2, hip]
  have b2 : ∀ l, B11 pol2' (fun _ _ => 1, fun _ _ => 1) l = 1 := by
    intro l; fin_cases l <;> simp [B11, pol2', hip]
  have hpow : ∀ x : Fin 2 → ℂ, power (!![0, 1; -1, 0] *ᵥ x) ≤ power x ∧ power (!![0, -1; 1, 0] *ᵥ x) ≤ power x := by
    intro x
    simp [power, Fin.sum_univ_two, mulVec, dotProduct, add_comm]
  have t1 := C55_mode_matching pol2 pol2' (fun _ _ => 1, fun _ _ => 1) L hL (fun l => by rw [b1]; exact one_ne_zero) (by
    rw [e1, e2]; simp [det_fin_two]) !![0, 1; -1, 0] (by
    rw [e1, e2]; ext i j; fin_cases i <;> fin_cases j <;> simp [b1, mul_apply, Fin.sum_univ_two] <;> norm_num) (fun x => (hpow x).1)
  have t2 := C55_mode_matching pol2' pol2 (fun _ _ => 1, fun _ _ => 1) L hL (fun l => by rw [b2]; exact one_ne_zero) (by
    rw [e3, e4]; simp [det_fin_two]) !![0, -1; 1, 0] (by
    rw [e3, e4]; ext i j; fin_cases i <;> fin_cases j <;> simp [b2, mul_apply, Fin.sum_univ_two] <;> norm_num) (fun x => (hpow x).2)
  obtain ⟨S, M, hS, hM, h⟩ := C56_same_iff_partial pol2 pol2' _ L hL t1 t2 (by simp [det_fin_two])
  refine ⟨S, M, hS, hM, fun hc => ?_⟩
  have := congrFun (congrFun (h.1 hc) 0) 1
  norm_num at this

/-! ### C57 -/

/-- C57: with `force_reciprocal` the result is symmetric, whatever the other option. -/
theorem C57_reciprocal {nL nR : ℕ} (ehL : Modes nL sh) (ehR : Modes nR sh) (dxes : Dx2 sh) (L : Lib) (ng : Bool) {S}
    (h : getS ehL ehR dxes L ng true = .ok S) : Sᵀ = S := by
  unfold getS at h
  split at h
  · exact absurd h (by simp)
  · split at h
    · exact absurd h (by simp)
    · simp only at h
      split at h
      · injection h with h
        subst h
        simp only [if_true, transpose_smul, transpose_add, transpose_transpose]
        exact congrArg _ (add_comm _ _)
      · exact absurd h (by simp)

/-- C57: `force_reciprocal` returns the symmetric matrix closest to the result without it, in the sum of squares; a matrix that is symmetric already is kept. -/
theorem C57_reciprocal_nearest {nL nR : ℕ} (ehL : Modes nL sh) (ehR : Modes nR sh) (dxes : Dx2 sh) (L : Lib) (ng : Bool) {S0}
    (h : getS ehL ehR dxes L ng false = .ok S0) :
    ∃ S, getS ehL ehR dxes L ng true = .ok S ∧ (S0ᵀ = S0 → S = S0) ∧
      ∀ T, Tᵀ = T → ∑ i, ∑ j, normSq (S0 i j - S i j) ≤ ∑ i, ∑ j, normSq (S0 i j - T i j) := by
  have hS : getS ehL ehR dxes L ng true = .ok ((0.5 : ℂ) • (S0 + S0ᵀ)) := by
    unfold getS at h ⊢
    rcases h1 : getTr ehL ehR dxes L with e | ⟨t12, r12⟩
    · rw [h1] at h; cases h
    · rcases h2 : getTr ehR ehL dxes L with e | ⟨t21, r21⟩
      · rw [h1, h2] at h; cases h
      · rw [h1, h2] at h
        simp only [Bool.false_eq_true, if_false, if_true] at h ⊢
        by_cases hn : nR = nL
        · rw [dif_pos hn] at h ⊢
          injection h with h
          rw [h]
        · rw [dif_neg hn] at h; cases h
  refine ⟨_, hS, fun hs => ?_, fun T hT => ?_⟩
  · rw [hs, ← two_smul ℂ S0, smul_smul]; norm_num
  · have swap : ∀ f : Fin (nL + nL) → Fin (nL + nL) → ℝ, ∑ i, ∑ j, f j i = ∑ i, ∑ j, f i j := fun f => Finset.sum_comm
    have e1 : ∑ i, ∑ j, normSq (S0 i j - T i j) = ∑ i, ∑ j, (normSq (S0 i j - T i j) + normSq (S0 j i - T i j)) / 2 := by
      have : ∑ i, ∑ j, normSq (S0 j i - T i j) = ∑ i, ∑ j, normSq (S0 i j - T i j) := by
        rw [← swap]
        refine Finset.sum_congr rfl fun i _ => Finset.sum_congr rfl fun j _ => ?_
        rw [show T j i = T i j from congrFun (congrFun hT i) j]
      simp only [add_div, Finset.sum_add_distrib, ← Finset.sum_div, this]
      ring
    rw [e1]
    refine Finset.sum_le_sum fun i _ => Finset.sum_le_sum fun j _ => ?_
    have : S0 i j - ((0.5 : ℂ) • (S0 + S0ᵀ)) i j = ((S0 i j - T i j) - (S0 j i - T i j)) / 2 := by
      simp only [Matrix.smul_apply, Matrix.add_apply, transpose_apply, smul_eq_mul]; ring
    rw [this, normSq_div]
    have p := normSq_sub (S0 i j - T i j) (S0 j i - T i j)
    have q := normSq_add (S0 i j - T i j) (S0 j i - T i j)
    have r := normSq_nonneg (S0 i j - T i j + (S0 j i - T i j))
    rw [show normSq 2 = 4 by norm_num [normSq_apply]]
    linarith

/-- C57: with `force_nogain` alone, `S @ S^H` is diagonal. -/
theorem C57_diagonal_partial {nL nR : ℕ} (ehL : Modes nL sh) (ehR : Modes nR sh) (dxes : Dx2 sh) (L : Lib) (hL : LibOk L) {S}
    (h : getS ehL ehR dxes L true false = .ok S) : Matrix.IsDiag (S * Sᴴ) := by
  unfold getS at h
  split at h
  · exact absurd h (by simp)
  · split at h
    · exact absurd h (by simp)
    · simp only at h
      split at h
      · injection h with h
        subst h
        simp only [if_true, Bool.false_eq_true, if_false]
        generalize submatrix _ _ _ = ss
        have hs := hL.svd ss
        have hV := mul_eq_one_comm.1 hs.unitaryV
        have hU := mul_eq_one_comm.1 hs.unitaryU
        set D := diagonal fun k => (((L.svd ss).s (Fin.cast (min_self _).symm k) : ℝ) : ℂ)
        have : D * (L.svd ss).U * (L.svd ss).V * (D * (L.svd ss).U * (L.svd ss).V)ᴴ = D * Dᴴ := by
          rw [conjTranspose_mul, conjTranspose_mul]
          calc _ = D * (L.svd ss).U * ((L.svd ss).V * (L.svd ss).Vᴴ) * (L.svd ss).Uᴴ * Dᴴ := by simp only [Matrix.mul_assoc]
            _ = D * ((L.svd ss).U * (L.svd ss).Uᴴ) * Dᴴ := by rw [hV, Matrix.mul_one]; simp only [Matrix.mul_assoc]
            _ = _ := by rw [hU, Matrix.mul_one]
        rw [this, diagonal_conjTranspose, diagonal_mul_diagonal]
        exact isDiag_diagonal _
      · exact absurd h (by simp)

/-- A left and a right mode of unit power on one cell: `A12 = 0`, `A21 = 2`. -/
noncomputable def gainL : Modes 1 (fun _ => 1) := fun _ => (cell 1 0, cell 0 2)
noncomputable def gainR : Modes 1 (fun _ => 1) := fun _ => (cell 2 1, cell (-2) 0)

theorem power_scale {m : ℕ} {A : Matrix (Fin m) (Fin m) ℂ} {d : Svd m m} (h : IsSvd A d) (q : ℝ) (H : ∀ x, power (A *ᵥ x) = q * power x) (k) :
    d.s k ^ 2 = q := by
  have hp : ∀ x, power (A *ᵥ x) = power (sigma (r := m) (c := m) d.s *ᵥ (d.V *ᵥ x)) := fun x => by
    conv_lhs => rw [h.eq_sigma]
    rw [← mulVec_mulVec, ← mulVec_mulVec, power_unitary h.unitaryU]
  set i : Fin m := Fin.cast (min_self m) k
  have := H (d.Vᴴ *ᵥ Pi.single i 1)
  have hv : d.V *ᵥ (d.Vᴴ *ᵥ (Pi.single i 1 : Fin m → ℂ)) = Pi.single i 1 := by
    rw [mulVec_mulVec, mul_eq_one_comm.1 h.unitaryV, one_mulVec]
  rw [hp, hv, power_unitary (W := d.Vᴴ) (by rw [conjTranspose_conjTranspose]; exact mul_eq_one_comm.1 h.unitaryV)] at this
  have e1 : power (Pi.single i (1 : ℂ) : Fin m → ℂ) = 1 := by
    rw [power, Finset.sum_eq_single i]
    · simp
    · intro j _ hj; simp [hj]
    · simp
  have e2 : power (sigma (r := m) (c := m) d.s *ᵥ Pi.single i 1) = d.s k ^ 2 := by
    rw [power, Finset.sum_eq_single i]
    · rw [sigma_mulVec]; simp [i]
    · intro j _ hj; rw [sigma_mulVec]; simp [hj]
    · simp
  rw [e1, e2, mul_one] at this
  exact this

/-- C57 is false for the gain: `force_nogain` keeps the singular values. The interface above doubles the power of every input, with the option
as without it. -/
theorem C57_gain_partial (L : Lib) (hL : LibOk L) :
    ∃ S, getS gainL gainR (fun _ _ => 1, fun _ _ => 1) L true false = .ok S ∧ (∀ x, power (S *ᵥ x) = 2 * power x) ∧
      ∀ d, IsSvd S d → ∀ k, d.s k = Real.sqrt 2 := by
  have hip : ∀ a b c d : ℂ, ip (fun _ _ => 1, fun _ _ => 1) (cell a b) (cell c d) = 1 / 2 * (a * d - b * c) := fun a b c d => by rw [ip, ip_cell]
  have e1 : A12 gainL gainR (fun _ _ => 1, fun _ _ => 1) = !![0] := by
    ext i j; fin_cases i; fin_cases j; simp [A12, gainL, gainR, hip]
  have e2 : A21 gainL gainR (fun _ _ => 1, fun _ _ => 1) = !![2] := by
    ext i j; fin_cases i; fin_cases j; simp [A21, gainL, gainR, hip]
  have e3 : A12 gainR gainL (fun _ _ => 1, fun _ _ => 1) = !![2] := by
    ext i j; fin_cases i; fin_cases j; simp [A12, gainL, gainR, hip]
  have e4 : A21 gainR gainL (fun _ _ => 1, fun _ _ => 1) = !![0] := by
    ext i j; fin_cases i; fin_cases j; simp [A21, gainL, gainR, hip]
  have b1 : ∀ l, B11 gainL (fun _ _ => 1, fun _ _ => 1) l = 1 := by
    intro l; simp [B11, gainL, hip]
  have b2 : ∀ l, B11 gainR (fun _ _ => 1, fun _ _ => 1) l = 1 := by
    intro l; simp [B11, gainR, hip]
  have t1 := C55_mode_matching gainL gainR (fun _ _ => 1, fun _ _ => 1) L hL (fun l => by rw [b1]; exact one_ne_zero) (by
    rw [e1, e2]; simp) 1 (by
    rw [e1, e2]; ext i j; fin_cases i; fin_cases j; simp [b1]) (fun x => by rw [one_mulVec])
  have t2 := C55_mode_matching gainR gainL (fun _ _ => 1, fun _ _ => 1) L hL (fun l => by rw [b2]; exact one_ne_zero) (by
    rw [e3, e4]; simp) 1 (by
    rw [e3, e4]; ext i j; fin_cases i; fin_cases j; simp [b2]) (fun x => by rw [one_mulVec])
  have r1 : (diagonal fun l => 0.5 / B11 gainL (fun _ _ => 1, fun _ _ => 1) l) * (A21 gainL gainR (fun _ _ => 1, fun _ _ => 1)
      - A12 gainL gainR (fun _ _ => 1, fun _ _ => 1)) * 1 = (1 : Matrix (Fin 1) (Fin 1) ℂ) := by
    rw [e1, e2]; ext i j; fin_cases i; fin_cases j; simp [b1]; norm_num
  have r2 : (diagonal fun l => 0.5 / B11 gainR (fun _ _ => 1, fun _ _ => 1) l) * (A21 gainR gainL (fun _ _ => 1, fun _ _ => 1)
      - A12 gainR gainL (fun _ _ => 1, fun _ _ => 1)) * 1 = (-1 : Matrix (Fin 1) (Fin 1) ℂ) := by
    rw [e3, e4]; ext i j; fin_cases i; fin_cases j; simp [b2]; norm_num
  rw [r1] at t1
  rw [r2] at t2
  refine ⟨_, (getS_value gainL gainR _ L t1 t2).2, ?_⟩
  set ss : Matrix (Fin (1 + 1)) (Fin (1 + 1)) ℂ := rawS 1 1 1 (-1)
  have hss : ∀ x, power (ss *ᵥ x) = 2 * power x := by
    intro x
    obtain ⟨a, b, rfl⟩ : ∃ a b : Fin 1 → ℂ, x = Fin.append a b := ⟨fun _ => x 0, fun _ => x 1, by
      funext i; fin_cases i <;> rfl⟩
    rw [block_append]
    simp only [power, Fin.sum_univ_add, Fin.append_left, Fin.append_right, Finset.univ_unique, Finset.sum_singleton, one_mulVec, neg_mulVec]
    have := parallelogram_law_with_norm ℝ (a default) (b default)
    simp only [Pi.add_apply, Pi.neg_apply, ← sub_eq_add_neg]
    linarith
  have hs := hL.svd ss
  have hk := power_scale hs 2 hss
  have hpow : ∀ x, power (nogain L ss *ᵥ x) = 2 * power x := by
    intro x
    rw [nogain, ← mulVec_mulVec, ← mulVec_mulVec]
    conv_rhs => rw [← power_unitary hs.unitaryV x, ← power_unitary hs.unitaryU (_ *ᵥ x), power, Finset.mul_sum]
    refine Finset.sum_congr rfl fun i _ => ?_
    rw [mulVec_diagonal, norm_mul, norm_real, mul_pow, Real.norm_eq_abs, sq_abs, hk]
  refine ⟨hpow, fun d hd k => ?_⟩
  rw [← power_scale hd 2 hpow k, Real.sqrt_sq (hd.nonneg k)]

end Meanas.Props
