/-
Property C119: the scattering matrix of a lossless interface of eigenmode expansion is symmetric and unitary.
-/
import Verif.Props.EmeReciprocity

set_option linter.unusedSectionVars false

namespace Meanas.Props

open Matrix Complex Eme Wg2

variable {sh : Fin 2 → ℕ} {n : ℕ}

/-! ### Overlaps of the matched fields -/

/-- Overlaps of fields expanded in two mode sets. -/
theorem ip_expand (dxes : Dx2 sh) (e h E H : Fin n → V 3 sh) (a c : Matrix (Fin n) (Fin n) ℂ)
    (hE : ∀ i, ∀ k : Fin 3, k ≠ 2 → ∀ x, E i (k, x) = ∑ m, a m i * e m (k, x)) (hH : ∀ i, ∀ k : Fin 3, k ≠ 2 → ∀ x, H i (k, x) = ∑ m, c m i * h m (k, x)) :
    (of fun i k => ip dxes (E i) (H k)) = aᵀ * (of fun i k => ip dxes (e i) (h k)) * c := by
  ext i k
  rw [of_apply, ip_bilinear dxes (E i) (H k) e h _ _ (hE i) (hH k)]
  simp only [mul_apply, transpose_apply, of_apply, Finset.sum_mul]
  rw [Finset.sum_comm]
  exact Finset.sum_congr rfl fun _ _ => Finset.sum_congr rfl fun _ _ => by ring

theorem scalar_matrix (b : ℂ) : (of fun i j : Fin n => if i = j then b else 0) = b • (1 : Matrix (Fin n) (Fin n) ℂ) := by
  ext i j; simp [Matrix.one_apply]

section
variable {ehL ehR : Modes n sh} {dxes : Dx2 sh} {b : ℂ} {T R : Matrix (Fin n) (Fin n) ℂ}

theorem matches_left (hm : Matches ehL ehR T R) (i : Fin n) (c : Fin 3) (hc : c ≠ 2) (x) :
    ∑ j, T j i * (ehR j).1 (c, x) = ∑ l, (1 + R) l i * (ehL l).1 (c, x) ∧ ∑ j, T j i * (ehR j).2 (c, x) = ∑ l, (1 - R) l i * (ehL l).2 (c, x) := by
  rw [← (hm i c hc x).1, ← (hm i c hc x).2]
  simp [add_mul, sub_mul, Finset.sum_add_distrib, Finset.sum_sub_distrib, Matrix.one_apply]

theorem matches_of_left (h : ∀ (i : Fin n) (c : Fin 3), c ≠ 2 → ∀ x,
    ∑ j, T j i * (ehR j).1 (c, x) = ∑ l, (1 + R) l i * (ehL l).1 (c, x) ∧ ∑ j, T j i * (ehR j).2 (c, x) = ∑ l, (1 - R) l i * (ehL l).2 (c, x)) :
    Matches ehL ehR T R := by
  intro i c hc x
  rw [(h i c hc x).1, (h i c hc x).2]
  simp [add_mul, sub_mul, Finset.sum_add_distrib, Finset.sum_sub_distrib, Matrix.one_apply]

variable (hb : b ≠ 0) (hoL : ∀ i j, innerProduct (ehL i).1 (ehL j).2 dxes 0 false false = .ok (if i = j then b else 0))
  (hoR : ∀ i j, innerProduct (ehR i).1 (ehR j).2 dxes 0 false false = .ok (if i = j then b else 0)) (hm : Matches ehL ehR T R)
include hb hoL hoR hm

theorem matched_square : (1 + Rᵀ) * (1 - R) = Tᵀ * T := by
  have gL : (of fun i k => ip dxes (ehL i).1 (ehL k).2) = b • (1 : Matrix (Fin n) (Fin n) ℂ) := by
    rw [← scalar_matrix]; ext i k; rw [of_apply, of_apply, ip, hoL]
  have gR : (of fun i k => ip dxes (ehR i).1 (ehR k).2) = b • (1 : Matrix (Fin n) (Fin n) ℂ) := by
    rw [← scalar_matrix]; ext i k; rw [of_apply, of_apply, ip, hoR]
  have e1 := ip_expand dxes (fun i => (ehR i).1) (fun i => (ehR i).2) (fun i p => ∑ j, T j i * (ehR j).1 p) (fun i p => ∑ j, T j i * (ehR j).2 p) T T
    (fun _ _ _ _ => rfl) (fun _ _ _ _ => rfl)
  have e2 := ip_expand dxes (fun i => (ehL i).1) (fun i => (ehL i).2) (fun i p => ∑ j, T j i * (ehR j).1 p) (fun i p => ∑ j, T j i * (ehR j).2 p) (1 + R) (1 - R)
    (fun i k hk x => (matches_left hm i k hk x).1) (fun i k hk x => (matches_left hm i k hk x).2)
  rw [e1, gR, gL] at e2
  simp only [Matrix.mul_smul, Matrix.smul_mul, Matrix.mul_one, transpose_add, transpose_one] at e2
  exact (smul_right_injective _ hb e2).symm

theorem matched_symm : R.IsSymm := by
  have h1 := matched_square hb hoL hoR hm
  have h2 := congrArg Matrix.transpose h1
  simp only [transpose_mul, transpose_sub, transpose_add, transpose_transpose, transpose_one] at h2
  have h3 := h1.trans h2.symm
  have h4 : (2 : ℂ) • (Rᵀ - R) = 0 := by
    have e : (1 + Rᵀ) * (1 - R) - (1 - Rᵀ) * (1 + R) = (2 : ℂ) • (Rᵀ - R) := by rw [two_smul]; noncomm_ring
    rw [← e, h3, sub_self]
  exact sub_eq_zero.1 ((smul_eq_zero.1 h4).resolve_left two_ne_zero)

theorem matched_inv : IsUnit T.det := by
  have gL : (of fun i k => ip dxes (ehL i).1 (ehL k).2) = b • (1 : Matrix (Fin n) (Fin n) ℂ) := by
    rw [← scalar_matrix]; ext i k; rw [of_apply, of_apply, ip, hoL]
  have e1 := ip_expand dxes (fun i => (ehR i).1) (fun i => (ehL i).2) (fun i p => ∑ j, T j i * (ehR j).1 p) (fun i => (ehL i).2) T 1
    (fun _ _ _ _ => rfl) (fun _ _ _ _ => by simp [Matrix.one_apply])
  have e1' := ip_expand dxes (fun i => (ehL i).1) (fun i => (ehL i).2) (fun i p => ∑ j, T j i * (ehR j).1 p) (fun i => (ehL i).2) (1 + R) 1
    (fun i k hk x => (matches_left hm i k hk x).1) (fun _ _ _ _ => by simp [Matrix.one_apply])
  have e2 := ip_expand dxes (fun i => (ehL i).1) (fun i => (ehR i).2) (fun i => (ehL i).1) (fun i p => ∑ j, T j i * (ehR j).2 p) 1 T
    (fun _ _ _ _ => by simp [Matrix.one_apply]) (fun _ _ _ _ => rfl)
  have e2' := ip_expand dxes (fun i => (ehL i).1) (fun i => (ehL i).2) (fun i => (ehL i).1) (fun i p => ∑ j, T j i * (ehR j).2 p) 1 (1 - R)
    (fun _ _ _ _ => by simp [Matrix.one_apply]) (fun i k hk x => (matches_left hm i k hk x).2)
  rw [e1, gL] at e1'
  rw [e2, gL] at e2'
  set G := of fun i k => ip dxes (ehR i).1 (ehL k).2
  set G' := of fun i k => ip dxes (ehL i).1 (ehR k).2
  simp only [Matrix.mul_one, Matrix.mul_smul, transpose_one, Matrix.one_mul, Matrix.smul_mul] at e1' e2'
  have e3 := congrArg Matrix.transpose e1'
  simp only [transpose_mul, transpose_transpose, transpose_smul] at e3
  have h : ((2 * b)⁻¹ • (Gᵀ + G')) * T = 1 := by
    rw [Matrix.smul_mul, Matrix.add_mul, e3, e2', ← smul_add, smul_smul]
    have : (1 + R) + (1 - R) = (2 : ℂ) • (1 : Matrix (Fin n) (Fin n) ℂ) := by rw [two_smul]; abel
    rw [this, smul_smul]
    have : (2 * b)⁻¹ * b * 2 = 1 := by field_simp
    rw [this, one_smul]
  exact isUnit_det_of_left_inverse h

/-- The interface can be crossed the other way round. -/
theorem matched_reverse : Matches ehR ehL Tᵀ (-(T * R * T⁻¹)) := by
  have hu := matched_inv hb hoL hoR hm
  have hs : Rᵀ = R := matched_symm hb hoL hoR hm
  have hq := matched_square hb hoL hoR hm
  rw [hs] at hq
  have hq' : (1 - R) * (1 + R) = Tᵀ * T := by rw [← hq]; noncomm_ring
  have p1 : T * T⁻¹ = 1 := mul_nonsing_inv T hu
  have k1 : T * ((1 - R) * T⁻¹) = 1 + -(T * R * T⁻¹) := by
    rw [Matrix.sub_mul, Matrix.one_mul, Matrix.mul_sub, p1, ← Matrix.mul_assoc]; abel
  have k2 : T * ((1 + R) * T⁻¹) = 1 - -(T * R * T⁻¹) := by
    rw [Matrix.add_mul, Matrix.one_mul, Matrix.mul_add, p1, ← Matrix.mul_assoc]; abel
  have k3 : (1 + R) * ((1 - R) * T⁻¹) = Tᵀ := by rw [← Matrix.mul_assoc, hq, Matrix.mul_assoc, p1, Matrix.mul_one]
  have k4 : (1 - R) * ((1 + R) * T⁻¹) = Tᵀ := by rw [← Matrix.mul_assoc, hq', Matrix.mul_assoc, p1, Matrix.mul_one]
  have comb : ∀ (f g : Fin n → ℂ) (A : Matrix (Fin n) (Fin n) ℂ), (∀ i, ∑ j, T j i * f j = ∑ l, A l i * g l) →
      ∀ (B : Matrix (Fin n) (Fin n) ℂ) i, ∑ l, (A * B) l i * g l = ∑ j, (T * B) j i * f j := by
    intro f g A h B i
    have := congrArg (fun v => v ᵥ* B) (funext h)
    have e1 : ∀ (M : Matrix (Fin n) (Fin n) ℂ) (v : Fin n → ℂ) k, ∑ l, M l k * v l = (v ᵥ* M) k := fun M v k => by
      simp [vecMul, dotProduct, mul_comm]
    simp only [e1] at this ⊢
    rw [← vecMul_vecMul, ← vecMul_vecMul]
    exact (congrFun this i).symm
  refine matches_of_left fun i c hc x => ⟨?_, ?_⟩
  · have := comb (fun j => (ehR j).1 (c, x)) (fun l => (ehL l).1 (c, x)) (1 + R) (fun i => (matches_left hm i c hc x).1) ((1 - R) * T⁻¹) i
    rw [k3, k1] at this
    exact this
  · have := comb (fun j => (ehR j).2 (c, x)) (fun l => (ehL l).2 (c, x)) (1 - R) (fun i => (matches_left hm i c hc x).2) ((1 + R) * T⁻¹) i
    rw [k4, k2] at this
    exact this

end

/-! ### Unitarity -/

theorem matches_conj {ehL ehR : Modes n sh} (hrL : RealModes ehL) (hrR : RealModes ehR) {T R : Matrix (Fin n) (Fin n) ℂ} (hm : Matches ehL ehR T R) :
    Matches ehL ehR (T.map (starRingEnd ℂ)) (R.map (starRingEnd ℂ)) := by
  intro i c hc x
  have h1 := congrArg (starRingEnd ℂ) (hm i c hc x).1
  have h2 := congrArg (starRingEnd ℂ) (hm i c hc x).2
  simp only [map_add, map_sub, map_sum, map_mul, (hrL _ c hc x).1, (hrL _ c hc x).2, (hrR _ c hc x).1, (hrR _ c hc x).2] at h1 h2
  exact ⟨h1, h2⟩

section
variable (ehL ehR : Modes n sh) (dxes : Dx2 sh) (L : Lib) (hL : LibOk L) (b : ℂ) (hb : b ≠ 0)
    (hoL : ∀ i j, innerProduct (ehL i).1 (ehL j).2 dxes 0 false false = .ok (if i = j then b else 0))
    (hoR : ∀ i j, innerProduct (ehR i).1 (ehR j).2 dxes 0 false false = .ok (if i = j then b else 0)) (hrL : RealModes ehL) (hrR : RealModes ehR)
    {T R : Matrix (Fin n) (Fin n) ℂ} (hm : Matches ehL ehR T R)
include hL hb hoL hoR hrL hrR hm

/-- Amplitudes at the interface with blocks as in `Scatters`. -/
noncomputable def physS (t12 r12 t21 r21 : Matrix (Fin n) (Fin n) ℂ) : Matrix (Fin n ⊕ Fin n) (Fin n ⊕ Fin n) ℂ := fromBlocks r12 t21 t12 r21

/-- **C119.** A lossless interface (real orthonormal modes on both sides, whose tangential fields can be matched for incidence from the left): `get_tr`
returns for both directions, and the four matrices it returns form a symmetric unitary scattering matrix. -/
theorem C119_unitary_partial : ∃ R', getTr ehL ehR dxes L = .ok (T, R) ∧ getTr ehR ehL dxes L = .ok (Tᵀ, R')
    ∧ (physS T R Tᵀ R').IsSymm ∧ (physS T R Tᵀ R')ᴴ * physS T R Tᵀ R' = 1 := by
  have hm' := matched_reverse hb hoL hoR hm
  set R' := -(T * R * T⁻¹) with hR'
  have hu := matched_inv hb hoL hoR hm
  have h1 := C114_lossless ehL ehR dxes L hL b hb hoL hoR hrL hrR hm
  have h2 := C114_lossless ehR ehL dxes L hL b hb hoR hoL hrR hrL hm'
  have hs : Rᵀ = R := matched_symm hb hoL hoR hm
  have hs' : R'ᵀ = R' := matched_symm hb hoR hoL hm'
  have hq := matched_square hb hoL hoR hm
  have hq' := matched_square hb hoR hoL hm'
  rw [hs] at hq
  rw [hs', transpose_transpose] at hq'
  have hsym : (physS T R Tᵀ R').IsSymm := by
    rw [IsSymm, physS, fromBlocks_transpose, hs, hs', transpose_transpose]
  refine ⟨R', h1.1, h2.1, hsym, ?_⟩
  -- the matrices are real
  have c1 := h1.1.symm.trans (C114_lossless ehL ehR dxes L hL b hb hoL hoR hrL hrR (matches_conj hrL hrR hm)).1
  have c2 := h2.1.symm.trans (C114_lossless ehR ehL dxes L hL b hb hoR hoL hrR hrL (matches_conj hrR hrL hm')).1
  injection c1 with c1
  injection c2 with c2
  have cT : Tᴴ = Tᵀ := by
    have := congrArg Matrix.transpose (Prod.mk.inj c1).1
    exact this.symm
  have cT' : Tᵀᴴ = T := by
    have := congrArg Matrix.transpose (Prod.mk.inj c2).1
    rw [transpose_transpose] at this
    exact this.symm
  have cR : Rᴴ = R := by
    have := congrArg Matrix.transpose (Prod.mk.inj c1).2
    rw [hs] at this
    exact this.symm
  have cR' : R'ᴴ = R' := by
    have := congrArg Matrix.transpose (Prod.mk.inj c2).2
    rw [hs'] at this
    exact this.symm
  have x1 : R' * T = -(T * R) := by rw [hR', Matrix.neg_mul, Matrix.mul_assoc, nonsing_inv_mul T hu, Matrix.mul_one]
  have x2 : Tᵀ * R' = -(R * Tᵀ) := by
    have := congrArg Matrix.transpose x1
    clear_value R'
    rwa [transpose_mul, transpose_neg, transpose_mul, hs, hs'] at this
  rw [physS, fromBlocks_conjTranspose, cT, cT', cR, cR', fromBlocks_multiply, ← fromBlocks_one]
  congr 1
  · rw [← hq]; noncomm_ring
  · rw [x2]; abel
  · rw [x1]; abel
  · rw [← hq']; noncomm_ring

/-- **C119.** So the outgoing power is the incoming power, for incidence from both sides at once. -/
theorem C119_power_partial {t12 r12 t21 r21 : Matrix (Fin n) (Fin n) ℂ} (h1 : getTr ehL ehR dxes L = .ok (t12, r12))
    (h2 : getTr ehR ehL dxes L = .ok (t21, r21)) (a1 a2 b1 b2 : Fin n → ℂ) (hs : Scatters t12 r12 t21 r21 a1 a2 b1 b2) :
    power b1 + power b2 = power a1 + power a2 := by
  obtain ⟨R', g1, g2, -, hU⟩ := C119_unitary_partial ehL ehR dxes L hL b hb hoL hoR hrL hrR hm
  rw [h1] at g1
  rw [h2] at g2
  injection g1 with g1
  injection g2 with g2
  obtain ⟨rfl, rfl⟩ := Prod.mk.inj g1
  obtain ⟨rfl, rfl⟩ := Prod.mk.inj g2
  have pw : ∀ a c : Fin n → ℂ, ((power a + power c : ℝ) : ℂ) = star (Sum.elim a c) ⬝ᵥ Sum.elim a c := by
    intro a c
    rw [ofReal_add, power_eq, power_eq]
    simp [dotProduct, Fintype.sum_sum_type]
  have hb' : Sum.elim b1 b2 = physS t12 r12 t12ᵀ r21 *ᵥ Sum.elim a1 a2 := by
    rw [physS, fromBlocks_mulVec, hs.1, hs.2]
    simp
  have : ((power b1 + power b2 : ℝ) : ℂ) = (power a1 + power a2 : ℝ) := by
    rw [pw, pw, hb', star_mulVec, dotProduct_mulVec, vecMul_vecMul, hU, vecMul_one]
  exact_mod_cast this

/-- **C119** for `get_s`: its matrix is symmetric, and it is unitary if the transmission matrix is symmetric (a single mode, or no coupling between modes
with the same numbering on both sides). -/
theorem C119_get_s_partial : ∃ S, getS ehL ehR dxes L false false = .ok S ∧ S.IsSymm ∧ (T.IsSymm → Sᴴ * S = 1) := by
  obtain ⟨R', g1, g2, hS, hU⟩ := C119_unitary_partial ehL ehR dxes L hL b hb hoL hoR hrL hrR hm
  refine ⟨_, (getS_value ehL ehR dxes L g1 g2).1, ?_, ?_⟩
  · rw [IsSymm, physS, fromBlocks_transpose] at hS
    rw [IsSymm, rawS, transpose_submatrix, fromBlocks_transpose, transpose_transpose, (fromBlocks_inj.1 hS).1, (fromBlocks_inj.1 hS).2.2.2]
  · intro hT
    rw [IsSymm] at hT
    rw [physS, hT] at hU
    rw [rawS, hT, conjTranspose_submatrix, submatrix_mul_equiv, hU, submatrix_one_equiv]

end

/-! ### The matrix of `get_s` is not unitary in general -/

/-- Two polarisations of a plane wave on one cell; on the right hand side the second polarisation sees the same medium, the first one the fourfold index. The
modes are listed in the opposite order there. -/
noncomputable def birefringent : Modes 2 (fun _ => 1) := fun i => if i = 0 then (cell 0 1, cell (-2) 0) else (cell (1 / 2) 0, cell 0 4)

theorem birefringent_matches : Matches pol2 birefringent !![0, 1; 4 / 5, 0] !![-3 / 5, 0; 0, 0] := by
  intro i c hc x
  fin_cases i <;> fin_cases c
  all_goals first
    | exact absurd rfl hc
    | (constructor <;> simp [pol2, birefringent, cell, Fin.sum_univ_two] <;> norm_num)

theorem birefringent_left (i j : Fin 2) : innerProduct (pol2 i).1 (pol2 j).2 (fun _ _ => 1, fun _ _ => 1) 0 false false = .ok (if i = j then (1 : ℂ) else 0) := by
  fin_cases i <;> fin_cases j <;> simp [pol2, ip_cell]

theorem birefringent_right (i j : Fin 2) :
    innerProduct (birefringent i).1 (birefringent j).2 (fun _ _ => 1, fun _ _ => 1) 0 false false = .ok (if i = j then (1 : ℂ) else 0) := by
  fin_cases i <;> fin_cases j <;> simp [birefringent, ip_cell] <;> norm_num

theorem birefringent_real : RealModes pol2 ∧ RealModes birefringent := by
  constructor <;> intro i c hc x <;> fin_cases i <;> fin_cases c <;> simp [pol2, birefringent, cell] <;> exact map_ofNat _ _

theorem power_append (a c : Fin n → ℂ) : power (Fin.append a c) = power a + power c := by
  simp only [power, Fin.sum_univ_add, Fin.append_left, Fin.append_right]

/-- **C119 is false of `get_s`.** For this lossless interface, light coming in from the left is amplified by 36 %. -/
theorem C119_gain_partial (L : Lib) (hL : LibOk L) : ∃ S, getS pol2 birefringent (fun _ _ => 1, fun _ _ => 1) L false false = .ok S
    ∧ power (S *ᵥ Fin.append ![1, 0] 0) = 34 / 25 ∧ power (Fin.append ![(1 : ℂ), 0] (0 : Fin 2 → ℂ)) = 1 ∧ Sᴴ * S ≠ 1 := by
  obtain ⟨R', g1, g2, -, -⟩ := C119_unitary_partial pol2 birefringent (fun _ _ => 1, fun _ _ => 1) L hL 1 one_ne_zero birefringent_left birefringent_right
    birefringent_real.1 birefringent_real.2 birefringent_matches
  have h1 : power (rawS !![0, 1; 4 / 5, 0] !![-3 / 5, 0; 0, 0] !![0, 1; 4 / 5, 0]ᵀ R' *ᵥ Fin.append ![1, 0] 0) = 34 / 25 := by
    rw [block_append, power_append]
    simp [power, Fin.sum_univ_two, mulVec, dotProduct]
    norm_num
  have h2 : power (Fin.append ![(1 : ℂ), 0] (0 : Fin 2 → ℂ)) = 1 := by
    rw [power_append]
    simp [power, Fin.sum_univ_two]
  refine ⟨_, (getS_value _ _ _ _ g1 g2).1, h1, h2, fun hc => ?_⟩
  have := power_unitary hc (Fin.append ![1, 0] 0)
  rw [h1, h2] at this
  norm_num at this

/-- The hypotheses of the positive statements are met by the index step of Props/EmeReciprocity: its matrix is unitary. -/
example (L : Lib) (hL : LibOk L) : ∃ S, getS waveL waveR (fun _ _ => 1, fun _ _ => 1) L false false = .ok S ∧ Sᴴ * S = 1 := by
  obtain ⟨S, h, -, h'⟩ := C119_get_s_partial waveL waveR (fun _ _ => 1, fun _ _ => 1) L hL 1 one_ne_zero
    (by intro i j; fin_cases i; fin_cases j; simp [waveL, ip_cell]) (by intro i j; fin_cases i; fin_cases j; simp [waveR, ip_cell]; norm_num)
    (by intro i c hc x; simp only [waveL, cell]; refine ⟨?_, ?_⟩ <;> fin_cases c <;> simp <;> exact map_ofNat _ _)
    (by intro i c hc x; simp only [waveR, cell]; refine ⟨?_, ?_⟩ <;> fin_cases c <;> simp <;> exact map_ofNat _ _)
    (T := !![4 / 5]) (R := !![-3 / 5]) (by
      intro i c hc x
      fin_cases i
      fin_cases c
      · constructor <;> simp [waveL, waveR, cell]; norm_num
      · constructor <;> simp [waveL, waveR, cell]; norm_num
      · exact absurd rfl hc)
  exact ⟨S, h, h' (by ext i j; fin_cases i; fin_cases j; rfl)⟩

end Meanas.Props
