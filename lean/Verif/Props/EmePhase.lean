/-
Eigenmode expansion under reordering of the modes and under the arbitrary phase factors of eigenvectors (meanas/fdfd/eme.py): C137.
-/
import Verif.Props.Eme

set_option linter.unusedSectionVars false

namespace Meanas.Props

open Matrix Complex Eme Wg2
open scoped ComplexOrder

variable {sh : Fin 2 → ℕ} {n : ℕ}

/-- The same modes in another order, each multiplied (electric and magnetic field alike) by a factor. -/
noncomputable def rearrange (eh : Modes n sh) (σ : Equiv.Perm (Fin n)) (u : Fin n → ℂ) : Modes n sh :=
  fun i => (u i • (eh (σ i)).1, u i • (eh (σ i)).2)

theorem emeIp_smul (dxes : Dx2 sh) (a b : ℂ) (e h : V 3 sh) : ip dxes (a • e) (b • h) = a * b * ip dxes e h := by
  unfold ip
  rw [C43_inner_product_value, C43_inner_product_value]
  simp only [overlapSum, fld, Pi.smul_apply, smul_eq_mul, Finset.mul_sum, Bool.false_eq_true, if_false]
  refine Finset.sum_congr rfl fun x _ => ?_
  ring

/-- Least squares solutions without null space component are unique. -/
theorem lstsq_unique_min {r c k : ℕ} {A : Matrix (Fin r) (Fin c) ℂ} {B : Matrix (Fin r) (Fin k) ℂ} {X Y : Matrix (Fin c) (Fin k) ℂ}
    (hX : IsLstsq A B X) (hY : IsLstsq A B Y) : X = Y := by
  obtain ⟨x, hx⟩ := hX.minimal
  obtain ⟨y, hy⟩ := hY.minimal
  have h : Aᴴ * A * (X - Y) = 0 := by rw [Matrix.mul_sub, hX.normal, hY.normal, sub_self]
  rw [conjTranspose_mul_self_mul_eq_zero] at h
  rw [hx, hy, ← Matrix.mul_sub, ← Matrix.mul_assoc, self_mul_conjTranspose_mul_eq_zero] at h
  rw [← sub_eq_zero, hx, hy, ← Matrix.mul_sub, h]

/-- Pseudo-inverses are unique. -/
theorem pinv_unique {r c : ℕ} {A : Matrix (Fin r) (Fin c) ℂ} {P Q : Matrix (Fin c) (Fin r) ℂ} (hP : IsPinv A P) (hQ : IsPinv A Q) : P = Q := by
  have h1 := lstsq_unique_min (hP.lstsq (1 : Matrix (Fin r) (Fin r) ℂ)) (hQ.lstsq 1)
  rwa [Matrix.mul_one, Matrix.mul_one] at h1

theorem sigma_apply (s : Fin (min n n) → ℝ) (i j : Fin n) :
    sigma (r := n) (c := n) s i j = if i = j then (s (Fin.cast (min_self n).symm i) : ℂ) else 0 := by
  rw [sigma]
  by_cases h : i = j
  · rw [dif_pos (by rw [h]), if_pos h]; rfl
  · rw [dif_neg fun h' => h (Fin.ext h'), if_neg h]

theorem sigma_diag (s : Fin (min n n) → ℝ) : sigma (r := n) (c := n) s = diagonal fun i => (s (Fin.cast (min_self n).symm i) : ℂ) := by
  ext i j; rw [sigma_apply, diagonal_apply]

/-- A function of the singular values that vanishes at zero gives a matrix that does not depend on which decomposition was found, and that
follows unitary changes of basis on either side. -/
theorem clip_unique {A A' W Z : Matrix (Fin n) (Fin n) ℂ} {d d' : Svd n n} (h : IsSvd A d) (h' : IsSvd A' d') (hW : Wᴴ * W = 1) (hZ : Zᴴ * Z = 1)
    (e : A' = W * A * Z) (f : ℝ → ℝ) (f0 : f 0 = 0) :
    d'.U * sigma (fun k => f (d'.s k)) * d'.V = W * (d.U * sigma (fun k => f (d.s k)) * d.V) * Z := by
  have hW' := mul_eq_one_comm.1 hW
  have hZ' := mul_eq_one_comm.1 hZ
  have hU := h.unitaryU
  have hV := mul_eq_one_comm.1 h.unitaryV
  have hU1 := h'.unitaryU
  have hU2 := mul_eq_one_comm.1 hU1
  have hV1 := h'.unitaryV
  have hV2 := mul_eq_one_comm.1 hV1
  set S := sigma (r := n) (c := n) d.s with hS
  set S' := sigma (r := n) (c := n) d'.s with hS'
  have a1 : A = d.U * S * d.V := h.eq_sigma
  have a2 : A' = d'.U * S' * d'.V := h'.eq_sigma
  have hSh : Sᴴ = S := by
    rw [hS, sigma_diag, diagonal_conjTranspose]; congr 1; funext i; simp
  have hSh' : S'ᴴ = S' := by
    rw [hS', sigma_diag, diagonal_conjTranspose]; congr 1; funext i; simp
  set P := d'.Uᴴ * W * d.U with hP
  set Q := d'.V * Zᴴ * d.Vᴴ with hQ
  -- `P S = S' Q` and `Q S = S' P`
  have k1 : P * S = S' * Q := by
    have : d'.Uᴴ * A' * (Zᴴ * d.Vᴴ) = d'.Uᴴ * (W * A * Z) * (Zᴴ * d.Vᴴ) := by rw [e]
    rw [a2, a1] at this
    calc P * S = d'.Uᴴ * W * d.U * S * (d.V * (Z * Zᴴ) * d.Vᴴ) := by rw [hZ', Matrix.mul_one, hV, Matrix.mul_one]
      _ = d'.Uᴴ * (W * (d.U * S * d.V) * Z) * (Zᴴ * d.Vᴴ) := by simp only [Matrix.mul_assoc]
      _ = d'.Uᴴ * (d'.U * S' * d'.V) * (Zᴴ * d.Vᴴ) := this.symm
      _ = (d'.Uᴴ * d'.U) * S' * Q := by rw [hQ]; simp only [Matrix.mul_assoc]
      _ = S' * Q := by rw [hU1, Matrix.one_mul]
  have k2 : Q * S = S' * P := by
    have : A'ᴴ = (W * A * Z)ᴴ := by rw [e]
    rw [a2, a1] at this
    simp only [conjTranspose_mul, hSh, hSh'] at this
    calc Q * S = d'.V * Zᴴ * d.Vᴴ * S * (d.Uᴴ * (Wᴴ * W) * d.U) := by rw [hW, Matrix.mul_one, hU, Matrix.mul_one]
      _ = d'.V * (Zᴴ * (d.Vᴴ * (S * d.Uᴴ) * Wᴴ)) * (W * d.U) := by simp only [Matrix.mul_assoc]
      _ = d'.V * (d'.Vᴴ * (S' * d'.Uᴴ)) * (W * d.U) := by rw [← this]
      _ = (d'.V * d'.Vᴴ) * S' * P := by rw [hP]; simp only [Matrix.mul_assoc]
      _ = S' * P := by rw [hV2, Matrix.one_mul]
  have k3 : P * sigma (fun k => f (d.s k)) = sigma (fun k => f (d'.s k)) * Q := by
    ext i j
    have e1 := congrFun (congrFun k1 i) j
    have e2 := congrFun (congrFun k2 i) j
    rw [hS, hS', sigma_diag, sigma_diag, mul_diagonal, diagonal_mul] at e1 e2
    rw [sigma_diag, sigma_diag, mul_diagonal, diagonal_mul]
    have n1 := h.nonneg (Fin.cast (min_self n).symm j)
    have n2 := h'.nonneg (Fin.cast (min_self n).symm i)
    generalize d.s (Fin.cast (min_self n).symm j) = s at *
    generalize d'.s (Fin.cast (min_self n).symm i) = s' at *
    by_cases hs : s = s'
    · subst hs
      by_cases h0 : s = 0
      · rw [h0, f0]; simp
      · have : P i j = Q i j := by
          have hc : (s : ℂ) ≠ 0 := by exact_mod_cast h0
          rw [mul_comm] at e1
          exact mul_left_cancel₀ hc e1
        rw [this, mul_comm]
    · have hq : ((s : ℂ) ^ 2 - (s' : ℂ) ^ 2) ≠ 0 := by
        rw [sub_ne_zero]
        intro hh
        have : s ^ 2 = s' ^ 2 := by exact_mod_cast hh
        exact hs ((pow_left_inj₀ n1 n2 two_ne_zero).1 this)
      have p0 : P i j = 0 := by
        have : ((s : ℂ) ^ 2 - (s' : ℂ) ^ 2) * P i j = 0 := by linear_combination (s : ℂ) * e1 + (s' : ℂ) * e2
        exact (mul_eq_zero.1 this).resolve_left hq
      have q0 : Q i j = 0 := by
        have : ((s : ℂ) ^ 2 - (s' : ℂ) ^ 2) * Q i j = 0 := by linear_combination (s : ℂ) * e2 + (s' : ℂ) * e1
        exact (mul_eq_zero.1 this).resolve_left hq
      rw [p0, q0]; simp
  calc d'.U * sigma (fun k => f (d'.s k)) * d'.V
      = d'.U * sigma (fun k => f (d'.s k)) * (d'.V * (Zᴴ * (d.Vᴴ * d.V)  * Z)) := by rw [h.unitaryV, Matrix.mul_one, hZ, Matrix.mul_one]
    _ = d'.U * (sigma (fun k => f (d'.s k)) * Q) * d.V * Z := by rw [hQ]; simp only [Matrix.mul_assoc]
    _ = d'.U * (P * sigma (fun k => f (d.s k))) * d.V * Z := by rw [k3]
    _ = (d'.U * d'.Uᴴ) * W * (d.U * sigma (fun k => f (d.s k)) * d.V) * Z := by rw [hP]; simp only [Matrix.mul_assoc]
    _ = _ := by rw [hU2, Matrix.one_mul]

/-- Reordering and scaling as a matrix. -/
noncomputable def mono (σ : Equiv.Perm (Fin n)) (u : Fin n → ℂ) : Matrix (Fin n) (Fin n) ℂ := fun i j => if j = σ i then u i else 0

theorem mono_mul (σ : Equiv.Perm (Fin n)) (u : Fin n → ℂ) (X : Matrix (Fin n) (Fin n) ℂ) (i j : Fin n) : (mono σ u * X) i j = u i * X (σ i) j := by
  rw [mul_apply, Finset.sum_eq_single (σ i)]
  · rw [mono, if_pos rfl]
  · intro k _ hk; rw [mono, if_neg hk, zero_mul]
  · simp

theorem mul_monoT (σ : Equiv.Perm (Fin n)) (u : Fin n → ℂ) (X : Matrix (Fin n) (Fin n) ℂ) (i j : Fin n) : (X * (mono σ u)ᵀ) i j = X i (σ j) * u j := by
  rw [mul_apply, Finset.sum_eq_single (σ j)]
  · rw [transpose_apply, mono, if_pos rfl]
  · intro k _ hk; rw [transpose_apply, mono, if_neg hk, mul_zero]
  · simp

theorem mono_conj (σ : Equiv.Perm (Fin n)) (u : Fin n → ℂ) : (mono σ u)ᴴ = (mono σ (star u))ᵀ := by
  ext i j
  rw [conjTranspose_apply, transpose_apply, mono, mono]
  split_ifs <;> simp

theorem phase_mul {z : ℂ} (h : ‖z‖ = 1) : z * star z = 1 := by
  rw [star_def, mul_conj, normSq_eq_norm_sq, h]; simp

theorem mono_unitary (σ : Equiv.Perm (Fin n)) {u : Fin n → ℂ} (hu : ∀ i, ‖u i‖ = 1) : mono σ u * (mono σ u)ᴴ = 1 := by
  ext i j
  rw [mono_mul, mono_conj, transpose_apply, mono, one_apply]
  by_cases h : i = j
  · subst h; rw [if_pos rfl, if_pos rfl, Pi.star_apply, phase_mul (hu i)]
  · rw [if_neg (fun h' => h (σ.injective h')), if_neg h, mul_zero]

section
variable (ehL ehR : Modes n sh) (dxes : Dx2 sh) (σ τ : Equiv.Perm (Fin n)) (u v : Fin n → ℂ)

theorem A12_rearrange : A12 (rearrange ehL σ u) (rearrange ehR τ v) dxes = mono σ u * A12 ehL ehR dxes * (mono τ v)ᵀ := by
  ext i j
  rw [mul_monoT, mono_mul, A12, A12, rearrange, rearrange, emeIp_smul]; ring

theorem A21_rearrange : A21 (rearrange ehL σ u) (rearrange ehR τ v) dxes = mono σ u * A21 ehL ehR dxes * (mono τ v)ᵀ := by
  ext i j
  rw [mul_monoT, mono_mul, A21, A21, rearrange, rearrange, emeIp_smul]; ring

theorem B11_rearrange (i : Fin n) : B11 (rearrange ehL σ u) dxes i = u i * u i * B11 ehL dxes (σ i) := by
  rw [B11, B11, rearrange, emeIp_smul]

/-- C137: other phases and another order of the modes on either side change the transmission and reflection matrices of `get_tr` by exactly these
phases and this order, whether or not singular values are clipped; in particular no power ratio changes. -/
theorem C137_get_tr (L : Lib) (hL : LibOk L) (hu : ∀ i, ‖u i‖ = 1) (hv : ∀ i, ‖v i‖ = 1) {t r : Matrix (Fin n) (Fin n) ℂ}
    (h : getTr ehL ehR dxes L = .ok (t, r)) :
    ∃ t' r', getTr (rearrange ehL σ u) (rearrange ehR τ v) dxes L = .ok (t', r') ∧
      (∀ i j, t' i j = star (v i) * t (τ i) (σ j) * u j) ∧ (∀ i j, r' i j = star (u i) * r (σ i) (σ j) * u j) := by
  rw [getTr_square] at h ⊢
  simp only at h ⊢
  have hB : (∃ l, B11 (rearrange ehL σ u) dxes l = 0) ↔ ∃ l, B11 ehL dxes l = 0 := by
    have hu0 : ∀ i, u i ≠ 0 := fun i h0 => by have := hu i; rw [h0, norm_zero] at this; exact zero_ne_one this
    constructor
    · rintro ⟨l, hl⟩
      rw [B11_rearrange] at hl
      exact ⟨σ l, (mul_eq_zero.1 hl).resolve_left (mul_ne_zero (hu0 l) (hu0 l))⟩
    · rintro ⟨l, hl⟩
      exact ⟨σ.symm l, by rw [B11_rearrange, Equiv.apply_symm_apply, hl, mul_zero]⟩
  split_ifs at h with hb
  rw [if_neg (fun h' => hb (hB.1 h'))]
  have hP := mono_unitary σ hu
  have hP' := mul_eq_one_comm.1 hP
  have hQ := mono_unitary τ hv
  have hQ' := mul_eq_one_comm.1 hQ
  set P := mono σ u with hPd
  set Q := mono τ v with hQd
  have hPt : P.transposeᴴ * Pᵀ = 1 := by
    have := congrArg transpose hP
    rw [transpose_mul, transpose_one] at this
    exact this
  have hPt' := mul_eq_one_comm.1 hPt
  have hQt : Qᵀ * Q.transposeᴴ = 1 := by
    have := congrArg transpose hQ'
    rw [transpose_mul, transpose_one] at this
    exact this
  have hQt' := mul_eq_one_comm.1 hQt
  have eA : A21 (rearrange ehL σ u) (rearrange ehR τ v) dxes + A12 (rearrange ehL σ u) (rearrange ehR τ v) dxes =
      P * (A21 ehL ehR dxes + A12 ehL ehR dxes) * Qᵀ := by
    rw [A12_rearrange, A21_rearrange, Matrix.mul_add, Matrix.add_mul]
  have eD : (diagonal fun l => 2 * B11 (rearrange ehL σ u) dxes l) = P * (diagonal fun l => 2 * B11 ehL dxes l) * Pᵀ := by
    ext i j
    rw [mul_monoT, mono_mul, diagonal_apply, diagonal_apply]
    by_cases hij : i = j
    · subst hij; rw [if_pos rfl, if_pos rfl, B11_rearrange]; ring
    · rw [if_neg hij, if_neg (fun h' => hij (σ.injective h'))]; ring
  set A := A21 ehL ehR dxes + A12 ehL ehR dxes with hA
  set D : Matrix (Fin n) (Fin n) ℂ := diagonal fun l => 2 * B11 ehL dxes l
  have eX : L.lstsq (P * A * Qᵀ) (P * D * Pᵀ) = Q.transposeᴴ * L.lstsq A D * Pᵀ := by
    refine lstsq_unique_min (hL.lstsq _ _) ⟨?_, ?_⟩
    · have hn := (hL.lstsq A D).normal
      calc (P * A * Qᵀ)ᴴ * (P * A * Qᵀ) * (Q.transposeᴴ * L.lstsq A D * Pᵀ)
          = Q.transposeᴴ * Aᴴ * (Pᴴ * P) * A * (Qᵀ * Q.transposeᴴ) * L.lstsq A D * Pᵀ := by
            simp only [conjTranspose_mul, Matrix.mul_assoc]
        _ = Q.transposeᴴ * (Aᴴ * A * L.lstsq A D) * Pᵀ := by rw [hP', hQt]; simp only [Matrix.mul_one, Matrix.mul_assoc]
        _ = Q.transposeᴴ * Aᴴ * (Pᴴ * P) * D * Pᵀ := by rw [hn, hP']; simp only [Matrix.mul_one, Matrix.mul_assoc]
        _ = _ := by simp only [conjTranspose_mul, Matrix.mul_assoc]
    · obtain ⟨Y, hY⟩ := (hL.lstsq A D).minimal
      refine ⟨P * Y * Pᵀ, ?_⟩
      calc Q.transposeᴴ * L.lstsq A D * Pᵀ = Q.transposeᴴ * Aᴴ * (Pᴴ * P) * Y * Pᵀ := by
            rw [hP', ← Matrix.mul_one (Q.transposeᴴ * Aᴴ), ← hP', hP', Matrix.mul_one, Matrix.mul_one, Matrix.mul_assoc Q.transposeᴴ Aᴴ Y, ← hY]
        _ = _ := by simp only [conjTranspose_mul, Matrix.mul_assoc]
  rw [eA, eD, eX]
  set X := L.lstsq A D
  have hc := clip_unique (hL.svd X) (hL.svd (Q.transposeᴴ * X * Pᵀ)) (W := Q.transposeᴴ) (Z := Pᵀ)
    (by rw [conjTranspose_conjTranspose]; exact hQt) hPt rfl (fun s => if 1 < s then 1 / s else s) (by norm_num)
  injection h with h
  obtain ⟨ht, hr⟩ := Prod.mk.inj h
  rw [ht] at hc hr
  refine ⟨_, _, rfl, ?_, ?_⟩
  · intro i j
    rw [hc, mul_monoT, hQd]
    have : (mono τ v).transposeᴴ = mono τ (star v) := by
      rw [show (mono τ v).transposeᴴ = (mono τ v)ᴴᵀ from rfl, mono_conj]
      rfl
    rw [this, mono_mul, Pi.star_apply]
  · intro i j
    rw [hc, A12_rearrange, A21_rearrange, ← Matrix.sub_mul, ← Matrix.mul_sub]
    have : (diagonal fun l => 0.5 / B11 (rearrange ehL σ u) dxes l) * (P * (A21 ehL ehR dxes - A12 ehL ehR dxes) * Qᵀ) * (Q.transposeᴴ * t * Pᵀ)
        = (diagonal fun l => 0.5 / B11 (rearrange ehL σ u) dxes l) * (P * ((A21 ehL ehR dxes - A12 ehL ehR dxes) * t)) * Pᵀ := by
      calc _ = (diagonal fun l => 0.5 / B11 (rearrange ehL σ u) dxes l) * P * (A21 ehL ehR dxes - A12 ehL ehR dxes) * (Qᵀ * Q.transposeᴴ) * t * Pᵀ := by
            simp only [Matrix.mul_assoc]
        _ = _ := by rw [hQt]; simp only [Matrix.mul_one, Matrix.mul_assoc]
    rw [this, mul_monoT, diagonal_mul, mono_mul, ← hr, Matrix.mul_assoc, diagonal_mul, B11_rearrange]
    have h1 := phase_mul (hu i)
    have hu0 : u i ≠ 0 := fun h0 => by rw [h0, zero_mul] at h1; exact zero_ne_one h1
    have hs : star (u i) = (u i)⁻¹ := eq_inv_of_mul_eq_one_right h1
    have hb' : B11 ehL dxes (σ i) ≠ 0 := fun h' => hb ⟨_, h'⟩
    rw [hs]
    field_simp

theorem sandwich_apply (a b : Fin n → ℂ) (X : Matrix (Fin n) (Fin n) ℂ) (i j : Fin n) :
    (mono τ a * X * (mono σ b)ᵀ) i j = a i * X (τ i) (σ j) * b j := by
  rw [mul_monoT, mono_mul]

theorem monoT_mul_star (hu : ∀ i, ‖u i‖ = 1) : (mono σ u)ᵀ * mono σ (star u) = 1 := by
  have h1 := mul_eq_one_comm.1 (mono_unitary σ hu)
  have := congrArg transpose h1
  rwa [transpose_mul, transpose_one, mono_conj, transpose_transpose] at this

theorem pinv_rearrange (L : Lib) (hL : LibOk L) (hu : ∀ i, ‖u i‖ = 1) (hv : ∀ i, ‖v i‖ = 1) (t : Matrix (Fin n) (Fin n) ℂ) :
    L.pinv (mono σ (star u) * t * (mono τ v)ᵀ) = mono τ (star v) * L.pinv t * (mono σ u)ᵀ := by
  have p1 := monoT_mul_star σ u hu
  have q1 := monoT_mul_star τ v hv
  have h := hL.pinv t
  have hs : ∀ (π : Equiv.Perm (Fin n)) (w : Fin n → ℂ), (mono π w)ᵀᴴ = mono π (star w) := fun π w => by
    rw [show (mono π w)ᵀᴴ = (mono π w)ᴴᵀ from rfl, mono_conj, transpose_transpose]
  have hs' : ∀ (π : Equiv.Perm (Fin n)) (w : Fin n → ℂ), (mono π (star w))ᴴ = (mono π w)ᵀ := fun π w => by
    rw [mono_conj, star_star]
  set Pt := (mono σ u)ᵀ
  set Pb := mono σ (star u)
  set Qt := (mono τ v)ᵀ
  set Qb := mono τ (star v)
  have a1 : Pb * t * Qt * (Qb * L.pinv t * Pt) = Pb * (t * L.pinv t) * Pt := by
    calc _ = Pb * t * (Qt * Qb) * L.pinv t * Pt := by simp only [Matrix.mul_assoc]
      _ = _ := by rw [q1]; simp only [Matrix.mul_one, Matrix.mul_assoc]
  have a2 : Qb * L.pinv t * Pt * (Pb * t * Qt) = Qb * (L.pinv t * t) * Qt := by
    calc _ = Qb * L.pinv t * (Pt * Pb) * t * Qt := by simp only [Matrix.mul_assoc]
      _ = _ := by rw [p1]; simp only [Matrix.mul_one, Matrix.mul_assoc]
  refine pinv_unique (hL.pinv _) ⟨?_, ?_, ?_, ?_⟩
  · rw [a1]
    calc Pb * (t * L.pinv t) * Pt * (Pb * t * Qt) = Pb * (t * L.pinv t) * (Pt * Pb) * t * Qt := by simp only [Matrix.mul_assoc]
      _ = Pb * (t * L.pinv t * t) * Qt := by rw [p1]; simp only [Matrix.mul_one, Matrix.mul_assoc]
      _ = _ := by rw [h.apa]
  · rw [a2]
    calc Qb * (L.pinv t * t) * Qt * (Qb * L.pinv t * Pt) = Qb * (L.pinv t * t) * (Qt * Qb) * L.pinv t * Pt := by simp only [Matrix.mul_assoc]
      _ = Qb * (L.pinv t * t * L.pinv t) * Pt := by rw [q1]; simp only [Matrix.mul_one, Matrix.mul_assoc]
      _ = _ := by rw [h.pap]
  · rw [a1, conjTranspose_mul, conjTranspose_mul, h.hap, hs, hs', ← Matrix.mul_assoc]
  · rw [a2, conjTranspose_mul, conjTranspose_mul, h.hpa, hs, hs', ← Matrix.mul_assoc]

/-- The four matrices of the rearranged interface. -/
theorem getTr_rearrange (L : Lib) (hL : LibOk L) (hu : ∀ i, ‖u i‖ = 1) (hv : ∀ i, ‖v i‖ = 1) {t r : Matrix (Fin n) (Fin n) ℂ}
    (h : getTr ehL ehR dxes L = .ok (t, r)) : getTr (rearrange ehL σ u) (rearrange ehR τ v) dxes L =
      .ok (mono τ (star v) * t * (mono σ u)ᵀ, mono σ (star u) * r * (mono σ u)ᵀ) := by
  obtain ⟨t', r', h', ht, hr⟩ := C137_get_tr ehL ehR dxes σ τ u v L hL hu hv h
  rw [h']
  congr 2
  · ext i j; rw [ht, sandwich_apply, Pi.star_apply]
  · ext i j; rw [hr, sandwich_apply, Pi.star_apply]

/-- C137: the transfer matrix of `get_abcd` follows the phases and the order of the modes in the same way. -/
theorem C137_get_abcd (L : Lib) (hL : LibOk L) (hu : ∀ i, ‖u i‖ = 1) (hv : ∀ i, ‖v i‖ = 1) {M} (h : getAbcd ehL ehR dxes L = .ok M) :
    ∃ M', getAbcd (rearrange ehL σ u) (rearrange ehR τ v) dxes L = .ok M' ∧
      ∀ x y, M' x y = star (Sum.elim v v x) * M (Sum.map τ τ x) (Sum.map σ σ y) * Sum.elim u u y := by
  have hm : ∀ X Y : Matrix (Fin n) (Fin n) ℂ, matmul X Y = .ok (X * Y) := fun X Y => dif_pos rfl
  unfold getAbcd at h ⊢
  rcases h1 : getTr ehL ehR dxes L with e | ⟨t12, r12⟩
  · rw [h1] at h; cases h
  rcases h2 : getTr ehR ehL dxes L with e | ⟨t21, r21⟩
  · rw [h1, h2] at h; cases h
  rw [h1, h2] at h
  simp only [hm] at h
  rw [dif_pos trivial] at h
  rw [getTr_rearrange ehL ehR dxes σ τ u v L hL hu hv h1, getTr_rearrange ehR ehL dxes τ σ v u L hL hv hu h2]
  simp only [hm]
  rw [dif_pos trivial, pinv_rearrange σ τ u v L hL hu hv]
  injection h with h
  subst h
  have p1 := monoT_mul_star σ u hu
  have q1 := monoT_mul_star τ v hv
  set Pt := (mono σ u)ᵀ with hPt
  set Pb := mono σ (star u) with hPb
  set Qt := (mono τ v)ᵀ with hQt
  set Qb := mono τ (star v) with hQb
  set q := L.pinv t21
  have e1 : Qb * q * Pt * (Pb * r12 * Pt) = Qb * (q * r12) * Pt := by
    calc _ = Qb * q * (Pt * Pb) * r12 * Pt := by simp only [Matrix.mul_assoc]
      _ = _ := by rw [p1]; simp only [Matrix.mul_one, Matrix.mul_assoc]
  have e2 : ∀ Y Z : Matrix (Fin n) (Fin n) ℂ, Qb * Y * Qt * (Qb * Z * Pt) = Qb * (Y * Z) * Pt := fun Y Z => by
    calc _ = Qb * Y * (Qt * Qb) * Z * Pt := by simp only [Matrix.mul_assoc]
      _ = _ := by rw [q1]; simp only [Matrix.mul_one, Matrix.mul_assoc]
  refine ⟨_, rfl, ?_⟩
  rw [e1, e2, e2, ← Matrix.sub_mul, ← Matrix.mul_sub]
  rintro (i | i) (j | j)
  · simp only [fromBlocks_apply₁₁, Sum.map_inl, Sum.elim_inl, hQb, hPt]
    rw [sandwich_apply, Pi.star_apply]
  · simp only [fromBlocks_apply₁₂, Sum.map_inl, Sum.map_inr, Sum.elim_inl, Sum.elim_inr, hQb, hPt]
    rw [sandwich_apply, Pi.star_apply]
  · simp only [fromBlocks_apply₂₁, Sum.map_inl, Sum.map_inr, Sum.elim_inl, Sum.elim_inr, hQb, hPt, submatrix_apply, Fin.cast_refl, id, Matrix.neg_apply]
    rw [sandwich_apply, Pi.star_apply]
    ring
  · simp only [fromBlocks_apply₂₂, Sum.map_inr, Sum.elim_inr, hQb, hPt, submatrix_apply, Fin.cast_refl, id]
    rw [sandwich_apply, Pi.star_apply]

/-- C137: no entry of the scattering matrix of `get_s` changes its magnitude. With `force_reciprocal` this is proved for sign changes only, the other
case is false (`C137_reciprocal_phase_fails_partial`). -/
theorem C137_get_s_partial (L : Lib) (hL : LibOk L) (rc : Bool) (hu : ∀ i, ‖u i‖ = 1) (hv : ∀ i, ‖v i‖ = 1)
    (hrc : rc = true → ∀ i, star (u i) = u i ∧ star (v i) = v i) {S} (h : getS ehL ehR dxes L false rc = .ok S) :
    ∃ S', getS (rearrange ehL σ u) (rearrange ehR τ v) dxes L false rc = .ok S' ∧ ∀ i j,
      ‖S' (Fin.castAdd n i) (Fin.castAdd n j)‖ = ‖S (Fin.castAdd n (σ i)) (Fin.castAdd n (σ j))‖ ∧
      ‖S' (Fin.castAdd n i) (Fin.natAdd n j)‖ = ‖S (Fin.castAdd n (τ i)) (Fin.natAdd n (σ j))‖ ∧
      ‖S' (Fin.natAdd n i) (Fin.castAdd n j)‖ = ‖S (Fin.natAdd n (σ i)) (Fin.castAdd n (τ j))‖ ∧
      ‖S' (Fin.natAdd n i) (Fin.natAdd n j)‖ = ‖S (Fin.natAdd n (τ i)) (Fin.natAdd n (τ j))‖ := by
  unfold getS at h ⊢
  rcases h1 : getTr ehL ehR dxes L with e | ⟨t12, r12⟩
  · rw [h1] at h; cases h
  rcases h2 : getTr ehR ehL dxes L with e | ⟨t21, r21⟩
  · rw [h1, h2] at h; cases h
  rw [h1, h2] at h
  simp only [Bool.false_eq_true, if_false] at h
  rw [dif_pos trivial] at h
  rw [getTr_rearrange ehL ehR dxes σ τ u v L hL hu hv h1, getTr_rearrange ehR ehL dxes τ σ v u L hL hv hu h2]
  simp only [Bool.false_eq_true, if_false]
  rw [dif_pos trivial]
  injection h with h
  subst h
  refine ⟨_, rfl, ?_⟩
  have ns : ∀ w : ℂ, ‖star w‖ = ‖w‖ := fun w => norm_star w
  intro i j
  cases rc
  · simp only [Bool.false_eq_true, if_false, submatrix_apply, finSumFinEquiv_symm_apply_castAdd, finSumFinEquiv_symm_apply_natAdd, fromBlocks_apply₁₁,
      fromBlocks_apply₁₂, fromBlocks_apply₂₁, fromBlocks_apply₂₂, Fin.cast_refl, id]
    simp only [sandwich_apply, norm_mul, Pi.star_apply, ns, hu, hv, mul_one, one_mul, and_self]
  · have hh := hrc rfl
    simp only [if_true, Matrix.smul_apply, Matrix.add_apply, transpose_apply, submatrix_apply, finSumFinEquiv_symm_apply_castAdd,
      finSumFinEquiv_symm_apply_natAdd, fromBlocks_apply₁₁, fromBlocks_apply₁₂, fromBlocks_apply₂₁, fromBlocks_apply₂₂, Fin.cast_refl, id]
    simp only [sandwich_apply, Pi.star_apply, (hh _).1, (hh _).2, smul_eq_mul, norm_mul]
    refine ⟨?_, ?_, ?_, ?_⟩
    · rw [show u i * r12 (σ i) (σ j) * u j + u j * r12 (σ j) (σ i) * u i = u i * (r12 (σ i) (σ j) + r12 (σ j) (σ i)) * u j by ring,
        norm_mul, norm_mul, hu, hu, one_mul, mul_one]
    · rw [show v i * t12 (τ i) (σ j) * u j + u j * t21 (σ j) (τ i) * v i = v i * (t12 (τ i) (σ j) + t21 (σ j) (τ i)) * u j by ring,
        norm_mul, norm_mul, hu, hv, one_mul, mul_one]
    · rw [show u i * t21 (σ i) (τ j) * v j + v j * t12 (τ j) (σ i) * u i = u i * (t21 (σ i) (τ j) + t12 (τ j) (σ i)) * v j by ring,
        norm_mul, norm_mul, hu, hv, one_mul, mul_one]
    · rw [show v i * r21 (τ i) (τ j) * v j + v j * r21 (τ j) (τ i) * v i = v i * (r21 (τ i) (τ j) + r21 (τ j) (τ i)) * v j by ring,
        norm_mul, norm_mul, hv, hv, one_mul, mul_one]

/-- C137 is false with `force_reciprocal`: a waveguide joined to itself transmits everything, but if its modes are a quarter period out of phase on the
right, `get_s` returns the zero matrix. -/
theorem C137_reciprocal_phase_fails_partial (eh : Modes n sh) (L : Lib) (hL : LibOk L) (b : Fin n → ℂ) (hb : ∀ i, b i ≠ 0)
    (ho : ∀ i j, innerProduct (eh i).1 (eh j).2 dxes 0 false false = .ok (if i = j then b i else 0)) :
    (∃ S, getS eh eh dxes L false true = .ok S ∧ ∀ i, S (Fin.natAdd n i) (Fin.castAdd n i) = 1) ∧
      getS eh (rearrange eh 1 fun _ => I) dxes L false true = .ok 0 := by
  have h := C55_identical eh dxes L hL b hb ho
  have e1 : getTr (rearrange eh 1 fun _ => (1 : ℂ)) (rearrange eh 1 fun _ => I) dxes L = .ok (diagonal fun _ => -I, 0) := by
    rw [getTr_rearrange eh eh dxes 1 1 _ _ L hL (by simp) (by simp) h, Matrix.mul_zero, Matrix.zero_mul]
    congr 2
    ext i j
    rw [sandwich_apply, one_apply, diagonal_apply]
    by_cases hij : i = j <;> simp [hij]
  have e2 : getTr (rearrange eh 1 fun _ => I) (rearrange eh 1 fun _ => (1 : ℂ)) dxes L = .ok (diagonal fun _ => I, 0) := by
    rw [getTr_rearrange eh eh dxes 1 1 _ _ L hL (by simp) (by simp) h, Matrix.mul_zero, Matrix.zero_mul]
    congr 2
    ext i j
    rw [sandwich_apply, one_apply, diagonal_apply]
    by_cases hij : i = j <;> simp [hij]
  have e0 : (rearrange eh 1 fun _ => (1 : ℂ)) = eh := by
    funext i; simp [rearrange]
  rw [e0] at e1 e2
  constructor
  · unfold getS
    rw [h]
    simp only [Bool.false_eq_true, if_false, if_true]
    rw [dif_pos trivial]
    refine ⟨_, rfl, fun i => ?_⟩
    simp only [Matrix.smul_apply, Matrix.add_apply, transpose_apply, submatrix_apply, finSumFinEquiv_symm_apply_castAdd,
      finSumFinEquiv_symm_apply_natAdd, fromBlocks_apply₁₂, fromBlocks_apply₂₁, Fin.cast_refl, id, one_apply_eq, smul_eq_mul]
    norm_num
  · unfold getS
    rw [e1, e2]
    simp only [Bool.false_eq_true, if_false, if_true]
    rw [dif_pos trivial]
    congr 1
    ext x y
    refine Fin.addCases (fun i => ?_) (fun i => ?_) x <;> refine Fin.addCases (fun j => ?_) (fun j => ?_) y <;>
    simp only [Matrix.smul_apply, Matrix.add_apply, transpose_apply, submatrix_apply, finSumFinEquiv_symm_apply_castAdd,
      finSumFinEquiv_symm_apply_natAdd, fromBlocks_apply₁₁, fromBlocks_apply₁₂, fromBlocks_apply₂₁, fromBlocks_apply₂₂, Fin.cast_refl, id, diagonal_apply,
      smul_eq_mul, Matrix.zero_apply, add_zero, mul_zero]
    · by_cases hij : i = j
      · simp [hij]
      · simp [hij, Ne.symm hij]
    · by_cases hij : i = j
      · simp [hij]
      · simp [hij, Ne.symm hij]
end

/-- The hypotheses are met: the two polarisations, exchanged, one of them with the phase `i`. -/
example (L : Lib) (hL : LibOk L) : ∃ t' r', getTr (rearrange pol2 (Equiv.swap 0 1) ![I, 1]) (rearrange pol2 1 ![1, -1]) (fun _ _ => 1, fun _ _ => 1) L = .ok (t', r') ∧
    t' 1 0 = -I := by
  have h := C55_identical pol2 (fun _ _ => 1, fun _ _ => 1) L hL (fun _ => 1) (fun _ => one_ne_zero) (by
    intro i j
    fin_cases i <;> fin_cases j <;> simp [pol2, ip_cell])
  obtain ⟨t', r', h', ht, -⟩ := C137_get_tr pol2 pol2 _ (Equiv.swap 0 1) 1 ![I, 1] ![1, -1] L hL
    (by intro i; fin_cases i <;> simp) (by intro i; fin_cases i <;> simp) h
  refine ⟨t', r', h', ?_⟩
  rw [ht, show (1 : Equiv.Perm (Fin 2)) 1 = Equiv.swap 0 1 0 by decide, one_apply_eq]
  simp

end Meanas.Props
