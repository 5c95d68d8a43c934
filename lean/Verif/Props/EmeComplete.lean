/-
C185 (eigenmode expansion with all modes kept). `get_tr` (meanas/fdfd/eme.py:10-41) between two cross-sections whose modes (meanas/fdfd/waveguide_2d.py) are all in the lists.
-/
import Verif.Props.EmeReciprocity

namespace Meanas.Props

open Matrix Complex Eme Wg2 Spec

variable {sh : Fin 2 → ℕ} {n : ℕ}

/-- Every transverse E field of the cross-section is a sum of the modes. -/
def CompleteE (eh : Modes n sh) : Prop := ∀ F : V 3 sh, ∃ u : Fin n → ℂ, ∀ c : Fin 3, c ≠ 2 → ∀ x, F (c, x) = ∑ l, u l * (eh l).1 (c, x)

/-- Incident amplitudes `a`, reflected amplitudes `r` and transmitted amplitudes `t` give the same transverse E and H on both sides of the interface. -/
def Joins (ehL ehR : Modes n sh) (a r t : Fin n → ℂ) : Prop :=
  ∀ c : Fin 3, c ≠ 2 → ∀ x, ∑ l, (a l + r l) * (ehL l).1 (c, x) = ∑ j, t j * (ehR j).1 (c, x)
    ∧ ∑ l, (a l - r l) * (ehL l).2 (c, x) = ∑ j, t j * (ehR j).2 (c, x)

/-- An H field without overlap with any E field has no transverse part. -/
theorem ip_nondegenerate (dxes : Dx2 sh) (hw : ∀ c x, ipW dxes c x ≠ 0) {H : V 3 sh} (h : ∀ F, ip dxes F H = 0) (c : Fin 3) (hc : c ≠ 2) (x : Idx sh) : H (c, x) = 0 := by
  have k : ∀ c' : Fin 3, ip dxes (fun p => if p = (c', x) then 1 else 0) H = 0 := fun c' => h _
  fin_cases c
  · have := k 1
    rw [ip_value] at this
    simp only [Prod.mk.injEq, zero_ne_one, false_and, if_false, true_and, ite_mul, zero_mul, one_mul, zero_sub, Finset.sum_neg_distrib, Finset.sum_ite_eq', Finset.mem_univ, if_true] at this
    have h1 : ((ipW dxes 1 x : ℝ) : ℂ) ≠ 0 := ofReal_ne_zero.2 (hw 1 x)
    simpa [h1] using this
  · have := k 0
    rw [ip_value] at this
    simp only [Prod.mk.injEq, one_ne_zero, false_and, if_false, true_and, ite_mul, zero_mul, one_mul, sub_zero, Finset.sum_ite_eq', Finset.mem_univ, if_true] at this
    have h1 : ((ipW dxes 0 x : ℝ) : ℂ) ≠ 0 := ofReal_ne_zero.2 (hw 0 x)
    simpa [h1] using this
  · exact absurd rfl hc

section
variable {ehL ehR : Modes n sh} {dxes : Dx2 sh} {b : Fin n → ℂ}

theorem joins_iff (hb : ∀ i, b i ≠ 0) (ho : ∀ i j, innerProduct (ehL i).1 (ehL j).2 dxes 0 false false = .ok (if i = j then b i else 0))
    (hc : CompleteE ehL) (hw : ∀ c x, ipW dxes c x ≠ 0) (a r t : Fin n → ℂ) :
    Joins ehL ehR a r t ↔ (∀ l, (A21 ehL ehR dxes *ᵥ t) l = b l * (a l + r l)) ∧ ∀ l, (A12 ehL ehR dxes *ᵥ t) l = b l * (a l - r l) := by
  have hip : ∀ i j, ip dxes (ehL i).1 (ehL j).2 = if i = j then b i else 0 := fun i j => by rw [ip, ho]
  have e1 : ∀ l, ip dxes (fun p => ∑ j, t j * (ehR j).1 p) (ehL l).2 = (A21 ehL ehR dxes *ᵥ t) l := fun l => by
    rw [ip_bilinear dxes _ _ (fun j => (ehR j).1) (fun _ : Fin 1 => (ehL l).2) t (fun _ => 1) (fun _ _ _ => rfl) (fun _ _ _ => by simp)]
    simp [mulVec, dotProduct, A21, mul_comm]
  have e2 : ∀ l, ip dxes (ehL l).1 (fun p => ∑ j, t j * (ehR j).2 p) = (A12 ehL ehR dxes *ᵥ t) l := fun l => by
    rw [ip_bilinear dxes _ _ (fun _ : Fin 1 => (ehL l).1) (fun j => (ehR j).2) (fun _ => 1) t (fun _ _ _ => by simp) (fun _ _ _ => rfl)]
    simp [mulVec, dotProduct, A12, mul_comm]
  have e3 : ∀ (u : Fin n → ℂ) (F : V 3 sh) (_ : ∀ c : Fin 3, c ≠ 2 → ∀ x, F (c, x) = ∑ l, u l * (ehL l).1 (c, x)) l, ip dxes F (ehL l).2 = b l * u l := fun u F hF l => by
    rw [ip_bilinear dxes _ _ (fun m => (ehL m).1) (fun _ : Fin 1 => (ehL l).2) u (fun _ => 1) hF (fun _ _ _ => by simp)]
    simp [hip, mul_comm]
  have e4 : ∀ (u : Fin n → ℂ) (F : V 3 sh) (_ : ∀ c : Fin 3, c ≠ 2 → ∀ x, F (c, x) = ∑ l, u l * (ehL l).2 (c, x)) l, ip dxes (ehL l).1 F = b l * u l := fun u F hF l => by
    rw [ip_bilinear dxes _ _ (fun _ : Fin 1 => (ehL l).1) (fun m => (ehL m).2) (fun _ => 1) u (fun _ _ _ => by simp) hF]
    simp [hip, mul_comm]
  refine ⟨fun h => ⟨fun l => ?_, fun l => ?_⟩, fun h c hc' x => ⟨?_, ?_⟩⟩
  · rw [← e1, e3 (fun l => a l + r l) _ fun c hc x => ((h c hc x).1).symm]
  · rw [← e2, e4 (fun l => a l - r l) _ fun c hc x => ((h c hc x).2).symm]
  · obtain ⟨u, hu⟩ := hc fun p => ∑ j, t j * (ehR j).1 p
    have : ∀ l, u l = a l + r l := fun l => mul_left_cancel₀ (hb l) (by rw [← h.1 l, ← e1, e3 u _ hu])
    rw [hu c hc' x]
    simp only [this]
  · set G : V 3 sh := fun p => ∑ l, (a l - r l) * (ehL l).2 p - ∑ j, t j * (ehR j).2 p with hG
    have g0 : ∀ F, ip dxes F G = 0 := fun F => by
      obtain ⟨u, hu⟩ := hc F
      have g1 : ∀ l, ip dxes (ehL l).1 G = 0 := fun l => by
        have := ip_bilinear dxes (ehL l).1 G (fun _ : Fin 1 => (ehL l).1) ![fun p => ∑ l, (a l - r l) * (ehL l).2 p, fun p => ∑ j, t j * (ehR j).2 p] (fun _ => 1) ![1, -1]
          (fun _ _ _ => by simp) (fun c _ x => by simp [hG, Fin.sum_univ_two]; ring)
        rw [this]
        simp only [Fin.sum_univ_two, Finset.univ_unique, Finset.sum_singleton, Matrix.cons_val_zero, Matrix.cons_val_one]
        rw [e4 (fun l => a l - r l) _ (fun _ _ _ => rfl), e2, h.2]
        ring
      rw [ip_bilinear dxes F G (fun l => (ehL l).1) (fun _ : Fin 1 => G) u (fun _ => 1) hu (fun _ _ _ => by simp)]
      simp [g1]
    exact sub_eq_zero.1 (ip_nondegenerate dxes hw g0 c hc' x)

theorem matches_iff {T R : Matrix (Fin n) (Fin n) ℂ} : Matches ehL ehR T R ↔ ∀ a, Joins ehL ehR a (R *ᵥ a) (T *ᵥ a) := by
  have col : ∀ (M : Matrix (Fin n) (Fin n) ℂ) (a : Fin n → ℂ) (f : Fin n → ℂ), ∑ j, (M *ᵥ a) j * f j = ∑ i, a i * ∑ j, M j i * f j := fun M a f => by
    simp only [mulVec, dotProduct, Finset.sum_mul, Finset.mul_sum]
    rw [Finset.sum_comm]
    exact Finset.sum_congr rfl fun i _ => Finset.sum_congr rfl fun j _ => by ring
  constructor
  · intro h a c hc x
    rw [col T a fun j => (ehR j).1 (c, x), col T a fun j => (ehR j).2 (c, x)]
    simp only [add_mul, sub_mul, Finset.sum_add_distrib, Finset.sum_sub_distrib]
    rw [col R a fun j => (ehL j).1 (c, x), col R a fun j => (ehL j).2 (c, x), ← Finset.sum_add_distrib, ← Finset.sum_sub_distrib]
    refine ⟨Finset.sum_congr rfl fun i _ => ?_, Finset.sum_congr rfl fun i _ => ?_⟩
    · rw [← (h i c hc x).1]; ring
    · rw [← (h i c hc x).2]; ring
  · intro h i c hc x
    have := h (Pi.single i 1) c hc x
    simp only [mulVec_single_one, col_apply, add_mul, sub_mul, Finset.sum_add_distrib, Finset.sum_sub_distrib] at this
    simpa [Pi.single_apply] using this

theorem isUnit_of_no_trapped (hb : ∀ i, b i ≠ 0) (ho : ∀ i j, innerProduct (ehL i).1 (ehL j).2 dxes 0 false false = .ok (if i = j then b i else 0))
    (hc : CompleteE ehL) (hw : ∀ c x, ipW dxes c x ≠ 0) (h : ∀ r t, Joins ehL ehR 0 r t → t = 0) : IsUnit (A21 ehL ehR dxes + A12 ehL ehR dxes).det := by
  have J := fun a r t => joins_iff (ehR := ehR) hb ho hc hw a r t
  set A := A21 ehL ehR dxes + A12 ehL ehR dxes with hA
  rw [isUnit_iff_ne_zero]
  intro hd
  obtain ⟨t, ht, hz⟩ := Matrix.exists_mulVec_eq_zero_iff.2 hd
  refine ht (h (fun l => (A21 ehL ehR dxes *ᵥ t) l / b l) t ((J _ _ _).2 ⟨fun l => ?_, fun l => ?_⟩))
  · rw [Pi.zero_apply, zero_add, mul_div_cancel₀ _ (hb l)]
  · have := congrFun hz l
    rw [hA, Matrix.add_mulVec, Pi.add_apply, Pi.zero_apply] at this
    rw [Pi.zero_apply, zero_sub, mul_neg, mul_div_cancel₀ _ (hb l)]
    linear_combination this

/-- **C185.** If the list of the left modes is complete, the fields of the two sides can be joined for every incident wave exactly if no field can live at the interface without incident wave
(outgoing waves only). -/
theorem C185_joined_iff (hb : ∀ i, b i ≠ 0) (ho : ∀ i j, innerProduct (ehL i).1 (ehL j).2 dxes 0 false false = .ok (if i = j then b i else 0))
    (hc : CompleteE ehL) (hw : ∀ c x, ipW dxes c x ≠ 0) :
    (∃ T R, Matches ehL ehR T R) ↔ ∀ r t, Joins ehL ehR 0 r t → t = 0 := by
  have J := fun a r t => joins_iff (ehR := ehR) hb ho hc hw a r t
  set A := A21 ehL ehR dxes + A12 ehL ehR dxes with hA
  constructor
  · rintro ⟨T, R, hm⟩ r t h
    rw [matches_iff] at hm
    have hT : A * T = diagonal fun l => 2 * b l := by
      refine Matrix.ext_of_mulVec_single fun i => ?_
      have := (J _ _ _).1 (hm (Pi.single i 1))
      rw [← mulVec_mulVec, hA, Matrix.add_mulVec]
      funext l
      rw [Pi.add_apply, this.1, this.2, mulVec_diagonal]
      ring
    have hdet : IsUnit A.det := by
      have := congrArg det hT
      rw [det_mul, det_diagonal] at this
      rw [isUnit_iff_ne_zero]
      intro hc
      rw [hc, zero_mul] at this
      exact (Finset.prod_ne_zero_iff.2 fun i _ => mul_ne_zero two_ne_zero (hb i)) this.symm
    have h' := (J 0 r t).1 h
    have hz : A *ᵥ t = 0 := by
      rw [hA, Matrix.add_mulVec]
      funext l
      rw [Pi.add_apply, h'.1, h'.2]
      simp
    exact Matrix.eq_zero_of_mulVec_eq_zero hdet.ne_zero hz
  · intro h
    have hdet : IsUnit A.det := isUnit_of_no_trapped hb ho hc hw h
    refine ⟨A⁻¹ * diagonal fun l => 2 * b l, (diagonal fun l => (b l)⁻¹) * (A21 ehL ehR dxes * (A⁻¹ * diagonal fun l => 2 * b l)) - 1, ?_⟩
    rw [matches_iff]
    intro a
    have hs : A *ᵥ ((A⁻¹ * diagonal fun l => 2 * b l) *ᵥ a) = fun l => 2 * b l * a l := by
      rw [mulVec_mulVec, ← Matrix.mul_assoc, mul_nonsing_inv _ hdet, Matrix.one_mul]
      funext l
      rw [mulVec_diagonal]
    generalize (A⁻¹ * diagonal fun l => 2 * b l) = T at hs ⊢
    rw [J, Matrix.sub_mulVec, Matrix.one_mulVec, ← mulVec_mulVec, ← mulVec_mulVec]
    refine ⟨fun l => ?_, fun l => ?_⟩
    · rw [Pi.sub_apply, mulVec_diagonal]
      have := hb l
      field_simp
      ring
    · have := congrFun hs l
      rw [hA, Matrix.add_mulVec, Pi.add_apply] at this
      rw [Pi.sub_apply, mulVec_diagonal]
      have hbl := hb l
      field_simp
      linear_combination this

/-- **C185.** Then there is exactly one way to join the fields, whatever comes in, and `get_tr` returns its amplitudes if and only if the transmission shows no gain. -/
theorem C185_exact (hb : ∀ i, b i ≠ 0) (ho : ∀ i j, innerProduct (ehL i).1 (ehL j).2 dxes 0 false false = .ok (if i = j then b i else 0))
    (hc : CompleteE ehL) (hw : ∀ c x, ipW dxes c x ≠ 0) (hq : ∀ r t, Joins ehL ehR 0 r t → t = 0) (L : Lib) (hL : LibOk L) :
    ∃ T R, (∀ a r t, Joins ehL ehR a r t ↔ r = R *ᵥ a ∧ t = T *ᵥ a) ∧ (getTr ehL ehR dxes L = .ok (T, R) ↔ ∀ x, power (T *ᵥ x) ≤ power x) := by
  obtain ⟨T, R, hm⟩ := (C185_joined_iff hb ho hc hw).2 hq
  refine ⟨T, R, fun a r t => ⟨fun h => ?_, ?_⟩, fun h => (C55_passive ehL ehR dxes L hL h).1, C114_matching ehL ehR dxes L hL b hb ho hm⟩
  · have J := fun a r t => joins_iff (ehR := ehR) hb ho hc hw a r t
    have h1 := (J _ _ _).1 h
    have h2 := (J _ _ _).1 (matches_iff.1 hm a)
    have hd : Joins ehL ehR 0 (r - R *ᵥ a) (t - T *ᵥ a) := (J _ _ _).2 ⟨fun l => by
      simp only [Matrix.mulVec_sub, Pi.sub_apply, h1.1, h2.1, Pi.zero_apply]; ring, fun l => by
      simp only [Matrix.mulVec_sub, Pi.sub_apply, h1.2, h2.2, Pi.zero_apply]; ring⟩
    have ht := hq _ _ hd
    refine ⟨?_, sub_eq_zero.1 ht⟩
    funext l
    have := ((J _ _ _).1 hd).1 l
    simp only [ht, Matrix.mulVec_zero, Pi.zero_apply, zero_add, Pi.sub_apply] at this
    exact sub_eq_zero.1 ((mul_eq_zero.1 this.symm).resolve_left (hb l))
  · rintro ⟨rfl, rfl⟩
    exact matches_iff.1 hm a
/-- Inverting singular values does not make the transmission singular. -/
theorem getTr_isUnit (hA : IsUnit (A21 ehL ehR dxes + A12 ehL ehR dxes).det) (hB : ∀ l, B11 ehL dxes l ≠ 0) (L : Lib) (hL : LibOk L) :
    ∃ t r, getTr ehL ehR dxes L = .ok (t, r) ∧ IsUnit t.det := by
  rw [getTr_square]
  simp only
  rw [if_neg (by push Not; exact hB)]
  refine ⟨_, _, rfl, ?_⟩
  set A := A21 ehL ehR dxes + A12 ehL ehR dxes
  have hl := (hL.lstsq A (diagonal fun l => 2 * B11 ehL dxes l)).normal
  set X := L.lstsq A (diagonal fun l => 2 * B11 ehL dxes l)
  have hX : X.det ≠ 0 := fun h0 => by
    have := congrArg det hl
    rw [det_mul, h0, mul_zero, det_mul, det_diagonal, det_conjTranspose] at this
    refine mul_ne_zero (star_ne_zero.2 hA.ne_zero) (Finset.prod_ne_zero_iff.2 fun i _ => mul_ne_zero two_ne_zero (hB i)) this.symm
  have hs := hL.svd X
  have e := hs.eq_sigma
  rw [sigma_diagonal] at e
  have e' := congrArg det e
  rw [det_mul, det_mul, det_diagonal] at e'
  rw [e'] at hX
  rw [isUnit_iff_ne_zero, sigma_diagonal, det_mul, det_mul, det_diagonal]
  have h1 := left_ne_zero_of_mul hX
  refine mul_ne_zero (mul_ne_zero (left_ne_zero_of_mul h1) (Finset.prod_ne_zero_iff.2 fun i hi => ?_)) (right_ne_zero_of_mul hX)
  have h2 := Finset.prod_ne_zero_iff.1 (right_ne_zero_of_mul h1) i hi
  rw [ofReal_ne_zero] at h2 ⊢
  split_ifs
  · exact one_div_ne_zero h2
  · exact h2

/-- Waves on both sides: amplitudes `a`, `t` of the forward and `r`, `d` of the backward waves (whose H is reversed), left and right of the interface. -/
def JoinsBoth (ehL ehR : Modes n sh) (a r t d : Fin n → ℂ) : Prop :=
  ∀ c : Fin 3, c ≠ 2 → ∀ x, ∑ l, (a l + r l) * (ehL l).1 (c, x) = ∑ j, (t j + d j) * (ehR j).1 (c, x)
    ∧ ∑ l, (a l - r l) * (ehL l).2 (c, x) = ∑ j, (t j - d j) * (ehR j).2 (c, x)

/-- **C185.** The transfer matrix with all modes kept: if the modes of both sides are complete and orthogonal and no field can live at the interface by itself, then `get_abcd` is
exact (waves on the two sides join to a continuous field if and only if the matrix takes the amplitudes on the left to those on the right) if and only if the exact transmission shows no gain in either
direction. -/
theorem C185_transfer {b' : Fin n → ℂ} (hb : ∀ i, b i ≠ 0) (ho : ∀ i j, innerProduct (ehL i).1 (ehL j).2 dxes 0 false false = .ok (if i = j then b i else 0)) (hc : CompleteE ehL)
    (hb' : ∀ i, b' i ≠ 0) (ho' : ∀ i j, innerProduct (ehR i).1 (ehR j).2 dxes 0 false false = .ok (if i = j then b' i else 0)) (hc' : CompleteE ehR) (hw : ∀ c x, ipW dxes c x ≠ 0)
    (hq : ∀ r t, Joins ehL ehR 0 r t → t = 0) (L : Lib) (hL : LibOk L) :
    ∃ M, getAbcd ehL ehR dxes L = .ok M ∧ ((∀ a r t d, JoinsBoth ehL ehR a r t d ↔ M *ᵥ Sum.elim a r = Sum.elim t d) ↔
      (∀ a r t, Joins ehL ehR a r t → power t ≤ power a) ∧ ∀ a r t, Joins ehR ehL a r t → power t ≤ power a) := by
  -- a field at the interface seen from the right is one seen from the left
  have sw : ∀ r t, Joins ehR ehL 0 r t ↔ Joins ehL ehR 0 t r := fun r t => by
    refine forall_congr' fun c => forall_congr' fun _ => forall_congr' fun x => ?_
    simp only [Pi.zero_apply, zero_add, zero_sub, neg_mul, Finset.sum_neg_distrib]
    exact ⟨fun h => ⟨h.1.symm, by rw [← h.2, neg_neg]⟩, fun h => ⟨h.1.symm, by rw [← h.2, neg_neg]⟩⟩
  obtain ⟨T, R, h1, g1⟩ := C185_exact hb ho hc hw hq L hL
  have hq' : ∀ r t, Joins ehR ehL 0 r t → t = 0 := fun r t h => by
    have := ((h1 _ _ _).1 ((sw r t).1 h)).1
    rwa [Matrix.mulVec_zero] at this
  obtain ⟨T', R', h2, g2⟩ := C185_exact hb' ho' hc' hw hq' L hL
  have hB : ∀ l, B11 ehL dxes l ≠ 0 := fun l => by rw [B11, ip, ho, if_pos rfl]; exact hb l
  have hB' : ∀ l, B11 ehR dxes l ≠ 0 := fun l => by rw [B11, ip, ho', if_pos rfl]; exact hb' l
  obtain ⟨t12, r12, e1, -⟩ := getTr_isUnit (isUnit_of_no_trapped hb ho hc hw hq) hB L hL
  obtain ⟨t21, r21, e2, hdet⟩ := getTr_isUnit (isUnit_of_no_trapped hb' ho' hc' hw hq') hB' L hL
  obtain ⟨M, hM, hs⟩ := C56_abcd_partial ehL ehR dxes L hL e1 e2 hdet
  refine ⟨M, hM, ?_⟩
  -- the exact scattering
  have ex : ∀ a r t d, JoinsBoth ehL ehR a r t d ↔ Scatters T R T' R' a d r t := fun a r t d => by
    have j1 := (h1 a _ _).2 ⟨rfl, rfl⟩
    have j2 := (h2 d _ _).2 ⟨rfl, rfl⟩
    have hd : JoinsBoth ehL ehR a r t d ↔ Joins ehL ehR 0 (r - (R *ᵥ a + T' *ᵥ d)) (t - (T *ᵥ a + R' *ᵥ d)) := by
      refine forall_congr' fun c => forall_congr' fun hc => forall_congr' fun x => ?_
      obtain ⟨p1, p2⟩ := j1 c hc x
      obtain ⟨q1, q2⟩ := j2 c hc x
      simp only [Pi.zero_apply, Pi.sub_apply, Pi.add_apply, zero_add, zero_sub, neg_mul, add_mul, sub_mul, Finset.sum_neg_distrib, Finset.sum_add_distrib, Finset.sum_sub_distrib] at p1 p2 q1 q2 ⊢
      exact ⟨fun h => ⟨by linear_combination h.1 - p1 + q1, by linear_combination h.2 - p2 - q2⟩, fun h => ⟨by linear_combination h.1 + p1 - q1, by linear_combination h.2 + p2 + q2⟩⟩
    rw [hd, h1, Matrix.mulVec_zero, Matrix.mulVec_zero, sub_eq_zero, sub_eq_zero]
    exact Iff.rfl
  constructor
  · intro hall
    have key : ∀ a d, R *ᵥ a + T' *ᵥ d = r12 *ᵥ a + t21 *ᵥ d ∧ T *ᵥ a + R' *ᵥ d = t12 *ᵥ a + r21 *ᵥ d := fun a d =>
      (hs a d _ _).2 ((hall a _ _ d).1 ((ex a _ _ d).2 ⟨rfl, rfl⟩))
    refine ⟨fun a r t h => ?_, fun a r t h => ?_⟩
    · have := (key a 0).2
      simp only [Matrix.mulVec_zero, add_zero] at this
      rw [((h1 a r t).1 h).2, this]
      exact (C55_passive ehL ehR dxes L hL e1).1 a
    · have := (key 0 a).1
      simp only [Matrix.mulVec_zero, zero_add] at this
      rw [((h2 a r t).1 h).2, this]
      exact (C55_passive ehR ehL dxes L hL e2).1 a
  · rintro ⟨hp, hp'⟩ a r t d
    have f1 := e1.symm.trans (g1.2 fun x => hp x _ _ ((h1 x (R *ᵥ x) (T *ᵥ x)).2 ⟨rfl, rfl⟩))
    have f2 := e2.symm.trans (g2.2 fun x => hp' x _ _ ((h2 x (R' *ᵥ x) (T' *ᵥ x)).2 ⟨rfl, rfl⟩))
    cases f1
    cases f2
    rw [ex, hs]

/-- **C185.** Without gain, the transfer matrices of the two directions undo each other: crossing the interface and coming back changes nothing. -/
theorem C185_inverse {b' : Fin n → ℂ} (hb : ∀ i, b i ≠ 0) (ho : ∀ i j, innerProduct (ehL i).1 (ehL j).2 dxes 0 false false = .ok (if i = j then b i else 0)) (hc : CompleteE ehL)
    (hb' : ∀ i, b' i ≠ 0) (ho' : ∀ i j, innerProduct (ehR i).1 (ehR j).2 dxes 0 false false = .ok (if i = j then b' i else 0)) (hc' : CompleteE ehR) (hw : ∀ c x, ipW dxes c x ≠ 0)
    (hq : ∀ r t, Joins ehL ehR 0 r t → t = 0) (hp : ∀ a r t, Joins ehL ehR a r t → power t ≤ power a) (hp' : ∀ a r t, Joins ehR ehL a r t → power t ≤ power a) (L : Lib) (hL : LibOk L) :
    ∃ M M', getAbcd ehL ehR dxes L = .ok M ∧ getAbcd ehR ehL dxes L = .ok M' ∧ M' * M = 1 ∧ M * M' = 1 := by
  obtain ⟨M, hM, h⟩ := C185_transfer (ehR := ehR) hb ho hc hb' ho' hc' hw hq L hL
  have hx := h.2 ⟨hp, hp'⟩
  -- nothing can live at the interface seen from the right either
  have hq' : ∀ r t, Joins ehR ehL 0 r t → t = 0 := fun r t h' => by
    obtain ⟨T, R, h1, -⟩ := C185_exact hb ho hc hw hq L hL
    have hj : Joins ehL ehR 0 t r := fun c hc x => by
      have := h' c hc x
      simp only [Pi.zero_apply, zero_add, zero_sub, neg_mul, Finset.sum_neg_distrib] at this ⊢
      exact ⟨this.1.symm, by rw [← this.2, neg_neg]⟩
    rw [((h1 _ _ _).1 hj).1, Matrix.mulVec_zero]
  obtain ⟨M', hM', h'⟩ := C185_transfer (ehR := ehL) hb' ho' hc' hb ho hc hw hq' L hL
  have hx' := h'.2 ⟨hp', hp⟩
  have sw : ∀ a r t d, JoinsBoth ehL ehR a r t d → JoinsBoth ehR ehL t d a r := fun a r t d q c hc x => ⟨(q c hc x).1.symm, (q c hc x).2.symm⟩
  have one : M' * M = 1 := by
    refine Matrix.ext_of_mulVec_single fun i => ?_
    rw [← mulVec_mulVec, Matrix.one_mulVec]
    set v : Fin n ⊕ Fin n → ℂ := Pi.single i 1
    have hv : v = Sum.elim (v ∘ Sum.inl) (v ∘ Sum.inr) := (Sum.elim_comp_inl_inr v).symm
    have hu : M *ᵥ v = Sum.elim ((M *ᵥ v) ∘ Sum.inl) ((M *ᵥ v) ∘ Sum.inr) := (Sum.elim_comp_inl_inr _).symm
    have j := (hx (v ∘ Sum.inl) (v ∘ Sum.inr) ((M *ᵥ v) ∘ Sum.inl) ((M *ᵥ v) ∘ Sum.inr)).2 (by rw [← hv, ← hu])
    have k := (hx' _ _ _ _).1 (sw _ _ _ _ j)
    rwa [← hv, ← hu] at k
  exact ⟨M, M', hM, hM', one, mul_eq_one_comm.1 one⟩
end

/-- **C185.** Where its hypotheses come from: all modes of a cross-section with equal, real E and H widths, with different wavenumbers (none of them zero), have the orthogonality that C185 needs, and the
weights are nonzero. -/
theorem C185_modes {ω : ℂ} (hω : ω ≠ 0) {dx : DxList sh ℂ} (hdx : Nonzero dx) (hre : ∀ a i, (dx a i).im = 0) {eps mu : Fin 3 → Arr sh ℂ} (heps : ∀ x, eps 2 x ≠ 0) {β : Fin n → ℂ}
    (hβ : ∀ i, β i ≠ 0) (hd : ∀ i j, i ≠ j → β i ^ 2 ≠ β j ^ 2) {eh : Modes n sh} (hm : ∀ i, Spec.IsMode (β i) ω dx dx eps mu (fld (eh i).1) (fld (eh i).2))
    (hne : ∀ i, ∃ c : Fin 3, c ≠ 2 ∧ ∃ x, (eh i).1 (c, x) ≠ 0) (hc : CompleteE eh) :
    (∀ c x, ipW (dx, dx) c x ≠ 0) ∧ ∃ b : Fin n → ℂ, (∀ i, b i ≠ 0) ∧ ∀ i j, innerProduct (eh i).1 (eh j).2 (dx, dx) 0 false false = .ok (if i = j then b i else 0) := by
  have hr : ∀ a i, (dx a i).re ≠ 0 := fun a i h => hdx a i (Complex.ext h (hre a i))
  have hw : ∀ c x, ipW (dx, dx) c x ≠ 0 := fun c x => by
    fin_cases c <;> simp [ipW, hr]
  have h0 : ∀ i j, i ≠ j → ip (dx, dx) (eh i).1 (eh j).2 = 0 := fun i j hij => by
    rw [ip, C69_inner_product_orthogonal hdx hre (hm i) (hm j) (hd i j hij) 0]
  refine ⟨hw, fun i => ip (dx, dx) (eh i).1 (eh i).2, fun i hb => ?_, fun i j => ?_⟩
  · have hH := ip_nondegenerate (dx, dx) hw (H := (eh i).2) fun F => by
      obtain ⟨u, hu⟩ := hc F
      rw [ip_bilinear (dx, dx) F _ (fun l => (eh l).1) (fun _ : Fin 1 => (eh i).2) u (fun _ => 1) hu (fun _ _ _ => by simp)]
      refine Finset.sum_eq_zero fun l _ => Finset.sum_eq_zero fun _ _ => ?_
      by_cases hl : l = i
      · rw [hl, show ip (dx, dx) (eh i).1 (eh i).2 = 0 from hb, mul_zero]
      · rw [h0 l i hl, mul_zero]
    have f0 : fld (eh i).2 0 = 0 := funext fun x => hH 0 (by decide) x
    have f1 : fld (eh i).2 1 = 0 := funext fun x => hH 1 (by decide) x
    have e2 : fld (eh i).1 2 = 0 := funext fun x => by
      have := (hm i).ampereZ x
      simp only [f0, f1, Spec.gradBack, Pi.zero_apply, sub_zero, zero_div] at this
      simpa [hω, heps x] using this.symm
    obtain ⟨c, hc2, x, hx⟩ := hne i
    fin_cases c
    · have := (hm i).faradayY x
      simp only [f1, e2, Spec.gradForward, Pi.zero_apply, sub_zero, zero_div, mul_zero] at this
      exact hx ((mul_eq_zero.1 this).resolve_left (mul_ne_zero (neg_ne_zero.2 I_ne_zero) (hβ i)))
    · have := (hm i).faradayX x
      simp only [f0, e2, Spec.gradForward, Pi.zero_apply, sub_zero, zero_sub, zero_div, mul_zero, neg_eq_zero] at this
      exact hx ((mul_eq_zero.1 this).resolve_left (mul_ne_zero (neg_ne_zero.2 I_ne_zero) (hβ i)))
    · exact hc2 rfl
  · split_ifs with h
    · subst h
      simp only [ip]
      rw [C43_inner_product_value]
    · exact C69_inner_product_orthogonal hdx hre (hm i) (hm j) (hd i j h) 0

/-- Its hypotheses are met by the two polarisations in a birefringent medium on one cell, with wavenumbers 1 and 2. -/
example : let eh : Modes 2 (fun _ => 1) := ![(cell 1 0, cell 0 1), (cell 0 1, cell (-2) 0)]
    ∃ b : Fin 2 → ℂ, (∀ i, b i ≠ 0) ∧ ∀ i j, innerProduct (eh i).1 (eh j).2 (fun _ _ => 1, fun _ _ => 1) 0 false false = .ok (if i = j then b i else 0) := by
  refine (C185_modes (ω := 1) (β := ![1, 2]) (eps := fun c _ => ![1, 4, 1] c) (mu := fun _ _ => 1) one_ne_zero (fun _ _ => one_ne_zero) (fun _ _ => by simp) (fun _ => one_ne_zero) ?_ ?_ ?_ ?_ ?_).2
  · intro i; fin_cases i <;> norm_num
  · intro i j h; fin_cases i <;> fin_cases j <;> first | exact absurd rfl h | norm_num
  · intro i
    fin_cases i <;> constructor <;> intro x <;> simp [Spec.gradForward, Spec.gradBack, fld, cell] <;> ring
  · intro i
    fin_cases i
    · exact ⟨0, by decide, fun _ => 0, by simp [cell]⟩
    · exact ⟨1, by decide, fun _ => 0, by simp [cell]⟩
  · intro F
    refine ⟨![F (0, fun _ => 0), F (1, fun _ => 0)], fun c hc x => ?_⟩
    have hx : x = fun _ => 0 := funext fun _ => Subsingleton.elim _ _
    subst hx
    fin_cases c
    · simp [Fin.sum_univ_two, cell]
    · simp [Fin.sum_univ_two, cell]
    · exact absurd rfl hc

/-! ### Vacuum against a metal -/

/-- The two polarisations of a plane wave in vacuum, on one cell. -/
noncomputable def vac2 : Modes 2 (fun _ => 1) := ![(cell 1 0, cell 0 1), (cell 0 1, cell (-1) 0)]
/-- The two decaying waves in a metal with `eps = -9/16` at `omega = 1` (wavenumber `-3i/4`), with amplitude `s`. -/
noncomputable def metal2 (s : ℂ) : Modes 2 (fun _ => 1) := ![(cell s 0, cell 0 (-(3 / 4) * I * s)), (cell 0 s, cell (3 / 4 * I * s) 0)]

theorem cell_mode (eps β : ℂ) (h : β ^ 2 = eps) (ex ey : ℂ) :
    Spec.IsMode β 1 (fun _ _ => 1) (fun _ _ => 1) (fun _ _ => eps) (fun _ _ => 1) (fld (cell ex ey)) (fld (cell (-β * ey) (β * ex))) := by
  subst h
  constructor <;> intro x <;> simp [Spec.gradForward, Spec.gradBack, fld, cell] <;> ring

theorem vac2_overlap (i j : Fin 2) : innerProduct (vac2 i).1 (vac2 j).2 (fun _ _ => 1, fun _ _ => 1) 0 false false = .ok (if i = j then 1 / 2 else 0) := by
  fin_cases i <;> fin_cases j <;> simp [vac2, ip_cell]

theorem vac2_complete : CompleteE vac2 := by
  intro F
  refine ⟨![F (0, fun _ => 0), F (1, fun _ => 0)], fun c hc x => ?_⟩
  have hx : x = fun _ => 0 := funext fun _ => Subsingleton.elim _ _
  subst hx
  fin_cases c
  · simp [Fin.sum_univ_two, vac2, cell]
  · simp [Fin.sum_univ_two, vac2, cell]
  · exact absurd rfl hc

/-- Both sides of the interface written out: a wave that comes in is totally reflected, with a phase, and a decaying field of 1.6 times its amplitude is excited in the metal. -/
theorem metal_joins {s : ℂ} (hs : s ≠ 0) (a r t : Fin 2 → ℂ) :
    Joins vac2 (metal2 s) a r t ↔ r = ((7 + 24 * I) / 25) • a ∧ t = (8 * (4 + 3 * I) / (25 * s)) • a := by
  have key : ∀ a r t : ℂ, (a + r = t * s ∧ a - r = t * (-(3 / 4) * I * s)) ↔ (r = (7 + 24 * I) / 25 * a ∧ t = 8 * (4 + 3 * I) / (25 * s) * a) := fun a r t => by
    constructor
    · rintro ⟨h1, h2⟩
      have ht : t * s = 8 * (4 + 3 * I) / 25 * a := by
        linear_combination (-(4 * (4 + 3 * I)) / 25) * (h1 + h2) + (9 / 25) * t * s * (I_sq : I ^ 2 = -1)
      refine ⟨by linear_combination h1 + ht, ?_⟩
      field_simp
      linear_combination 25 * ht
    · rintro ⟨rfl, rfl⟩
      constructor
      · field_simp; ring
      · field_simp
        linear_combination 72 * a * (I_sq : I ^ 2 = -1)
  constructor
  · intro h
    have h0 := h 0 (by decide) fun _ => 0
    have h1 := h 1 (by decide) fun _ => 0
    simp only [Fin.sum_univ_two, vac2, metal2, cell, Matrix.cons_val_zero, Matrix.cons_val_one, if_true, one_ne_zero, if_false, mul_zero, mul_one, add_zero, zero_add] at h0 h1
    have k0 := (key (a 0) (r 0) (t 0)).1 ⟨h0.1, by linear_combination h1.2⟩
    have k1 := (key (a 1) (r 1) (t 1)).1 ⟨h1.1, by linear_combination -h0.2⟩
    refine ⟨funext fun l => ?_, funext fun l => ?_⟩ <;> fin_cases l
    exacts [k0.1, k1.1, k0.2, k1.2]
  · rintro ⟨hr, ht⟩
    have k0 := (key (a 0) (r 0) (t 0)).2 ⟨by rw [hr]; rfl, by rw [ht]; rfl⟩
    have k1 := (key (a 1) (r 1) (t 1)).2 ⟨by rw [hr]; rfl, by rw [ht]; rfl⟩
    intro c hc x
    fin_cases c
    · simp [Fin.sum_univ_two, vac2, metal2, cell]
      exact ⟨k0.1, by linear_combination -k1.2⟩
    · simp [Fin.sum_univ_two, vac2, metal2, cell]
      exact ⟨k1.1, by linear_combination k0.2⟩
    · exact absurd rfl hc

theorem metal_matrices (s : ℂ) : A21 vac2 (metal2 s) (fun _ _ => 1, fun _ _ => 1) = (s / 2) • 1
    ∧ A12 vac2 (metal2 s) (fun _ _ => 1, fun _ _ => 1) = (-(3 / 8) * I * s) • 1 ∧ B11 vac2 (fun _ _ => 1, fun _ _ => 1) = fun _ => 1 / 2 := by
  have hip : ∀ a b c d : ℂ, ip (fun _ _ => 1, fun _ _ => 1) (cell a b) (cell c d) = 1 / 2 * (a * d - b * c) := fun a b c d => by rw [ip, ip_cell]
  refine ⟨?_, ?_, ?_⟩
  · ext i j; fin_cases i <;> fin_cases j <;> simp [A21, vac2, metal2, hip] <;> ring
  · ext i j; fin_cases i <;> fin_cases j <;> simp [A12, vac2, metal2, hip] <;> ring
  · ext i; fin_cases i <;> simp [B11, vac2, hip]

/-- C185 is false of `get_tr` if decaying modes are kept: a transmitted amplitude may exceed one without any gain, but `get_tr` inverts every singular value above one. At the metal, where
the exact reflection has modulus one, it returns a reflection of modulus 25/64 (85 % of the power are lost at a lossless interface); with the modes of the metal scaled by two it returns
the exact result. -/
theorem C185_metal_partial (L : Lib) (hL : LibOk L) :
    (∀ s : ℂ, s ≠ 0 → ∀ a r t, Joins vac2 (metal2 s) a r t ↔ r = ((7 + 24 * I) / 25) • a ∧ t = (8 * (4 + 3 * I) / (25 * s)) • a)
    ∧ getTr vac2 (metal2 1) (fun _ _ => 1, fun _ _ => 1) L = .ok (((4 + 3 * I) / 8) • 1, ((7 + 24 * I) / 64) • 1)
    ∧ getTr vac2 (metal2 2) (fun _ _ => 1, fun _ _ => 1) L = .ok ((4 * (4 + 3 * I) / 25) • 1, ((7 + 24 * I) / 25) • 1)
    ∧ ‖(7 + 24 * I) / 25‖ = 1 := by
  refine ⟨fun s hs => metal_joins hs, ?_, ?_, ?_⟩
  · obtain ⟨m1, m2, m3⟩ := metal_matrices 1
    rw [getTr_square, m1, m2, m3]
    simp only
    rw [if_neg (by simp)]
    set z : ℂ := (4 + 3 * I) / 5 with hz
    have hzz : star z * z = 1 := by
      simp only [hz, star_div₀, star_add, star_mul', RCLike.star_def, conj_I, map_ofNat]
      linear_combination (-(9 / 25)) * (I_sq : I ^ 2 = -1)
    have hX : IsLstsq ((1 / 2 : ℂ) • (1 : Matrix (Fin 2) (Fin 2) ℂ) + (-(3 / 8) * I * 1) • 1) (diagonal fun _ => 2 * (1 / 2)) ((8 / 5 * z) • 1) := by
      have e : (1 / 2 : ℂ) • (1 : Matrix (Fin 2) (Fin 2) ℂ) + (-(3 / 8) * I * 1) • 1 = (5 / 8 * star z) • 1 := by
        rw [← add_smul]
        congr 1
        simp only [hz, star_div₀, star_add, star_mul', RCLike.star_def, conj_I, map_ofNat]
        ring
      have d : (diagonal fun _ => 2 * (1 / 2) : Matrix (Fin 2) (Fin 2) ℂ) = 1 := by
        rw [← diagonal_one]; congr 1; funext; norm_num
      rw [e, d]
      constructor
      · rw [Matrix.mul_assoc, smul_mul_smul_comm, Matrix.one_mul, show (5 / 8 * star z * (8 / 5 * z) : ℂ) = 1 by linear_combination hzz, one_smul]
      · refine ⟨(64 / 25 : ℂ) • 1, ?_⟩
        rw [conjTranspose_smul, conjTranspose_one, smul_mul_smul_comm, Matrix.one_mul]
        congr 1
        rw [star_mul', star_star, show star (5 / 8 : ℂ) = 5 / 8 by simp]
        ring
    rw [lstsq_unique (hL.lstsq _ _) hX]
    have hS : IsSvd ((8 / 5 * z) • (1 : Matrix (Fin 2) (Fin 2) ℂ)) ⟨z • 1, fun _ => 8 / 5, 1⟩ := by
      refine ⟨?_, ?_, fun _ => by norm_num, fun _ _ _ => le_rfl, fun i j => ?_⟩
      · rw [conjTranspose_smul, conjTranspose_one, smul_mul_smul_comm, hzz]; simp
      · simp
      · fin_cases i <;> fin_cases j <;> simp [Matrix.one_apply, mul_comm]
    have hf := svd_function_unique (hL.svd ((8 / 5 * z) • (1 : Matrix (Fin 2) (Fin 2) ℂ))) hS (fun x => if 1 < x then 1 / x else x) (by norm_num)
    simp only at hf
    rw [hf]
    have hd : z • (1 : Matrix (Fin 2) (Fin 2) ℂ) * sigma (fun _ => if (1 : ℝ) < 8 / 5 then 1 / (8 / 5) else 8 / 5) * 1 = ((4 + 3 * I) / 8) • 1 := by
      rw [sigma_diagonal, Matrix.mul_one, Matrix.smul_mul, Matrix.one_mul]
      ext i j
      fin_cases i <;> fin_cases j <;> norm_num [hz]
      all_goals ring
    rw [hd]
    congr 2
    ext i j
    fin_cases i <;> fin_cases j <;> simp [Matrix.mul_apply, Fin.sum_univ_two]
    all_goals linear_combination (9 / 64) * (I_sq : I ^ 2 = -1)
  · refine C114_matching vac2 (metal2 2) _ L hL (fun _ => 1 / 2) (by norm_num) vac2_overlap (matches_iff.2 fun a => (metal_joins two_ne_zero a _ _).2 ⟨?_, ?_⟩) fun x => ?_
    · rw [Matrix.smul_mulVec, Matrix.one_mulVec]
    · rw [Matrix.smul_mulVec, Matrix.one_mulVec]
      congr 1; ring
    · have hn : ‖(4 * (4 + 3 * I) / 25 : ℂ)‖ ^ 2 = 16 / 25 := by
        rw [← normSq_eq_norm_sq, normSq_apply]; norm_num
      simp only [power, Matrix.smul_mulVec, Matrix.one_mulVec, Pi.smul_apply, smul_eq_mul, norm_mul, mul_pow, hn, ← Finset.mul_sum]
      have : 0 ≤ ∑ i, ‖x i‖ ^ 2 := Finset.sum_nonneg fun _ _ => by positivity
      linarith
  · have hn : ‖((7 + 24 * I) / 25 : ℂ)‖ ^ 2 = 1 := by
      rw [← normSq_eq_norm_sq, normSq_apply]; norm_num
    nlinarith [norm_nonneg ((7 + 24 * I) / 25 : ℂ)]

/-- The fields of the example are modes, and the interface meets the hypotheses of C185. -/
theorem C185_metal_hypotheses (s : ℂ) (hs : s ≠ 0) :
    (∀ i, Spec.IsMode 1 1 (fun _ _ => 1) (fun _ _ => 1) (fun _ _ => 1) (fun _ _ => 1) (fld (vac2 i).1) (fld (vac2 i).2))
    ∧ (∀ i, Spec.IsMode (-(3 / 4) * I) 1 (fun _ _ => 1) (fun _ _ => 1) (fun _ _ => -(9 / 16)) (fun _ _ => 1) (fld (metal2 s i).1) (fld (metal2 s i).2))
    ∧ (∀ i j, innerProduct (vac2 i).1 (vac2 j).2 (fun _ _ => 1, fun _ _ => 1) 0 false false = .ok (if i = j then 1 / 2 else 0)) ∧ CompleteE vac2
    ∧ (∀ c x, ipW (sh := fun _ => 1) (fun _ _ => 1, fun _ _ => 1) c x ≠ 0) ∧ ∀ r t, Joins vac2 (metal2 s) 0 r t → t = 0 := by
  refine ⟨fun i => ?_, fun i => ?_, vac2_overlap, vac2_complete, fun c x => ?_, fun r t h => ?_⟩
  · fin_cases i
    · have := cell_mode 1 1 (by norm_num) 1 0
      simpa [vac2] using this
    · have := cell_mode 1 1 (by norm_num) 0 1
      simpa [vac2] using this
  · have hb : (-(3 / 4) * I : ℂ) ^ 2 = -(9 / 16) := by linear_combination (9 / 16) * (I_sq : I ^ 2 = -1)
    fin_cases i
    · have := cell_mode _ _ hb s 0
      simpa [metal2] using this
    · have := cell_mode _ _ hb 0 s
      simpa [metal2] using this
  · fin_cases c <;> simp [ipW]
  · rw [((metal_joins hs 0 r t).1 h).2, smul_zero]

/-- Both polarisations, in a medium with the fourfold index. -/
noncomputable def glass2 : Modes 2 (fun _ => 1) := ![(cell (1 / 2) 0, cell 0 4), (cell 0 (1 / 2), cell (-4) 0)]

theorem glass_joins {ehL ehR : Modes 2 (fun _ => 1)} (h : ehL = pol2 ∧ ehR = glass2 ∨ ehL = glass2 ∧ ehR = pol2) (a r t : Fin 2 → ℂ) (hj : Joins ehL ehR a r t) : t = (4 / 5 : ℂ) • a := by
  have h0 := hj 0 (by decide) fun _ => 0
  have h1 := hj 1 (by decide) fun _ => 0
  rcases h with ⟨rfl, rfl⟩ | ⟨rfl, rfl⟩
  · simp [Fin.sum_univ_two, pol2, glass2, cell] at h0 h1
    funext l
    fin_cases l
    · change t 0 = 4 / 5 * a 0
      linear_combination (-2 / 5) * h0.1 - (1 / 5) * h1.2
    · change t 1 = 4 / 5 * a 1
      linear_combination (-2 / 5) * h1.1 - (1 / 5) * h0.2
  · simp [Fin.sum_univ_two, pol2, glass2, cell] at h0 h1
    funext l
    fin_cases l
    · change t 0 = 4 / 5 * a 0
      linear_combination (-4 / 5) * h0.1 - (1 / 10) * h1.2
    · change t 1 = 4 / 5 * a 1
      linear_combination (-4 / 5) * h1.1 - (1 / 10) * h0.2

/-- The hypotheses of `C185_transfer` and of `C185_inverse` (with `glass_joins` in both directions) are met by a step of the index from 1 to 4. -/
example (L : Lib) (hL : LibOk L) : ∃ M, getAbcd pol2 glass2 (fun _ _ => 1, fun _ _ => 1) L = .ok M ∧ ∀ a r t d, JoinsBoth pol2 glass2 a r t d ↔ M *ᵥ Sum.elim a r = Sum.elim t d := by
  have hp : ∀ a t : Fin 2 → ℂ, t = (4 / 5 : ℂ) • a → power t ≤ power a := fun a t h => by
    subst h
    have hn : ‖(4 / 5 : ℂ)‖ ^ 2 = 16 / 25 := by
      rw [← normSq_eq_norm_sq, normSq_apply]; norm_num
    simp only [power, Pi.smul_apply, smul_eq_mul, norm_mul, mul_pow, hn, ← Finset.mul_sum]
    have : 0 ≤ ∑ i, ‖a i‖ ^ 2 := Finset.sum_nonneg fun _ _ => by positivity
    linarith
  refine (fun ⟨M, hM, h⟩ => ⟨M, hM, h.2 ⟨fun a r t h => hp a t (glass_joins (.inl ⟨rfl, rfl⟩) a r t h), fun a r t h => hp a t (glass_joins (.inr ⟨rfl, rfl⟩) a r t h)⟩⟩)
    (C185_transfer (b := fun _ => 1) (b' := fun _ => 1) (fun _ => one_ne_zero) (fun i j => ?_) (fun F => ⟨![F (0, fun _ => 0), F (1, fun _ => 0)], fun c hc x => ?_⟩)
    (fun _ => one_ne_zero) (fun i j => ?_) (fun F => ⟨![2 * F (0, fun _ => 0), 2 * F (1, fun _ => 0)], fun c hc x => ?_⟩) (fun c x => ?_) (fun r t h => ?_) L hL)
  · fin_cases i <;> fin_cases j <;> simp [pol2, ip_cell]
  · have hx : x = fun _ => 0 := funext fun _ => Subsingleton.elim _ _
    subst hx
    fin_cases c
    · simp [Fin.sum_univ_two, pol2, cell]
    · simp [Fin.sum_univ_two, pol2, cell]
    · exact absurd rfl hc
  · fin_cases i <;> fin_cases j <;> simp [glass2, ip_cell] <;> norm_num
  · have hx : x = fun _ => 0 := funext fun _ => Subsingleton.elim _ _
    subst hx
    fin_cases c
    · simp [Fin.sum_univ_two, glass2, cell]; ring
    · simp [Fin.sum_univ_two, glass2, cell]; ring
    · exact absurd rfl hc
  · fin_cases c <;> simp [ipW]
  · rw [glass_joins (.inl ⟨rfl, rfl⟩) 0 r t h, smul_zero]

/-! ### The scale of the modes -/

/-- Modes multiplied by a number. -/
noncomputable def scaled (s : ℂ) (eh : Modes n sh) : Modes n sh := fun i => (s • (eh i).1, s • (eh i).2)

theorem joins_scaled {ehL ehR : Modes n sh} (s : ℂ) (a r t : Fin n → ℂ) : Joins ehL (scaled s ehR) a r t ↔ Joins ehL ehR a r (s • t) := by
  refine forall_congr' fun c => forall_congr' fun _ => forall_congr' fun x => ?_
  simp only [scaled, Pi.smul_apply, smul_eq_mul, mul_assoc, mul_left_comm s]

/-- **C185.** A remedy: whatever the interface, `get_tr` is exact if the modes on the right are scaled up far enough. -/
theorem C185_scaled {ehL ehR : Modes n sh} {dxes : Dx2 sh} {b : Fin n → ℂ} (hb : ∀ i, b i ≠ 0)
    (ho : ∀ i j, innerProduct (ehL i).1 (ehL j).2 dxes 0 false false = .ok (if i = j then b i else 0)) (hc : CompleteE ehL) (hw : ∀ c x, ipW dxes c x ≠ 0)
    (hq : ∀ r t, Joins ehL ehR 0 r t → t = 0) (L : Lib) (hL : LibOk L) :
    ∃ s₀ : ℝ, 0 < s₀ ∧ ∀ s : ℂ, s₀ ≤ ‖s‖ → ∃ T R, getTr ehL (scaled s ehR) dxes L = .ok (T, R) ∧ ∀ a r t, Joins ehL (scaled s ehR) a r t ↔ r = R *ᵥ a ∧ t = T *ᵥ a := by
  obtain ⟨T, R, h, -⟩ := C185_exact hb ho hc hw hq L hL
  -- the transmission is bounded
  obtain ⟨B, hB0, hB⟩ : ∃ B : ℝ, 0 < B ∧ ∀ x, power (T *ᵥ x) ≤ B ^ 2 * power x := by
    have hF : 0 ≤ ∑ i, ∑ j, ‖T i j‖ ^ 2 := Finset.sum_nonneg fun _ _ => Finset.sum_nonneg fun _ _ => by positivity
    refine ⟨∑ i, ∑ j, ‖T i j‖ ^ 2 + 1, by linarith, fun x => ?_⟩
    have hx : 0 ≤ power x := Finset.sum_nonneg fun _ _ => by positivity
    have h1 : power (T *ᵥ x) ≤ (∑ i, ∑ j, ‖T i j‖ ^ 2) * power x := by
      rw [Finset.sum_mul]
      refine Finset.sum_le_sum fun i _ => ?_
      refine le_trans ?_ (Finset.sum_mul_sq_le_sq_mul_sq Finset.univ (fun j => ‖T i j‖) fun j => ‖x j‖)
      refine pow_le_pow_left₀ (norm_nonneg _) ?_ 2
      refine (norm_sum_le _ _).trans (Finset.sum_le_sum fun j _ => (norm_mul (T i j) (x j)).le)
    refine h1.trans (mul_le_mul_of_nonneg_right ?_ hx)
    nlinarith
  refine ⟨B, hB0, fun s hs => ?_⟩
  have hs0 : s ≠ 0 := fun h0 => by rw [h0, norm_zero] at hs; linarith
  have hj : ∀ a r t, Joins ehL (scaled s ehR) a r t ↔ r = R *ᵥ a ∧ t = (s⁻¹ • T) *ᵥ a := fun a r t => by
    rw [joins_scaled, h, Matrix.smul_mulVec, eq_inv_smul_iff₀ hs0]
  refine ⟨s⁻¹ • T, R, C114_matching ehL (scaled s ehR) dxes L hL b hb ho (matches_iff.2 fun a => (hj _ _ _).2 ⟨rfl, rfl⟩) fun x => ?_, hj⟩
  rw [Matrix.smul_mulVec]
  have e : power (s⁻¹ • (T *ᵥ x)) = (‖s‖ ^ 2)⁻¹ * power (T *ᵥ x) := by
    simp only [power, Pi.smul_apply, smul_eq_mul, norm_mul, mul_pow, norm_inv, inv_pow, ← Finset.mul_sum]
  rw [e]
  have hx : 0 ≤ power x := Finset.sum_nonneg fun _ _ => by positivity
  have h2 : B ^ 2 ≤ ‖s‖ ^ 2 := pow_le_pow_left₀ hB0.le hs 2
  have h3 : 0 < ‖s‖ ^ 2 := by positivity
  rw [inv_mul_le_iff₀ h3]
  exact (hB x).trans (mul_le_mul_of_nonneg_right h2 hx)

/-- C185 fails for the transfer matrix whatever the scale: at the metal, `get_tr` is never exact in both directions, which `get_abcd` and `get_s` need. -/
theorem C185_any_scale_partial (L : Lib) (hL : LibOk L) (s : ℂ) (hs : s ≠ 0) :
    ¬ ∃ T R T' R', getTr vac2 (metal2 s) (fun _ _ => 1, fun _ _ => 1) L = .ok (T, R) ∧ getTr (metal2 s) vac2 (fun _ _ => 1, fun _ _ => 1) L = .ok (T', R')
      ∧ Matches vac2 (metal2 s) T R ∧ Matches (metal2 s) vac2 T' R' := by
  rintro ⟨T, R, T', R', g, g', m, m'⟩
  set a : Fin 2 → ℂ := ![1, 0] with ha
  have p := (C55_passive _ _ _ L hL g).1 a
  have p' := (C55_passive _ _ _ L hL g').1 a
  have e := ((metal_joins hs a _ _).1 (matches_iff.1 m a)).2
  have j0 := matches_iff.1 m' a 0 (by decide) fun _ => 0
  have j1 := matches_iff.1 m' a 1 (by decide) fun _ => 0
  simp [Fin.sum_univ_two, vac2, metal2, cell] at j0 j1
  have k : (1 - 3 / 4 * I) * (T' *ᵥ a) 0 = -(3 / 2) * I * s * a 0 := by linear_combination (3 / 4) * I * j0.1 - j1.2
  have n1 := congrArg (fun z : ℂ => normSq z) k
  have n2 := congrArg (fun z : ℂ => normSq z) (congrFun e 0)
  have hns : 0 < normSq s := normSq_pos.2 hs
  have hpa : power a = 1 := by simp [power, ha]
  have q1 : normSq ((T' *ᵥ a) 0) ≤ 1 := by
    rw [← hpa]; refine le_trans ?_ p'
    simp only [power, Fin.sum_univ_two, normSq_eq_norm_sq]
    have : 0 ≤ ‖(T' *ᵥ a) 1‖ ^ 2 := by positivity
    linarith
  have q2 : normSq ((T *ᵥ a) 0) ≤ 1 := by
    rw [← hpa]; refine le_trans ?_ p
    simp only [power, Fin.sum_univ_two, normSq_eq_norm_sq]
    have : 0 ≤ ‖(T *ᵥ a) 1‖ ^ 2 := by positivity
    linarith
  have a0 : a 0 = 1 := rfl
  simp only [Pi.smul_apply, smul_eq_mul, map_mul, map_div₀, a0, mul_one] at n1 n2
  have v1 : normSq (1 - 3 / 4 * I) = 25 / 16 := by rw [normSq_apply]; norm_num
  have v2 : normSq (-(3 / 2)) = 9 / 4 := by rw [normSq_apply]; norm_num
  have v3 : normSq (4 + 3 * I) = 25 := by rw [normSq_apply]; norm_num
  have v4 : normSq 8 = 64 := by rw [normSq_apply]; norm_num
  have v5 : normSq 25 = 625 := by rw [normSq_apply]; norm_num
  rw [v1, v2, normSq_I, mul_one] at n1
  rw [v3, v4, v5] at n2
  rw [n2, div_le_one (by positivity)] at q2
  linarith

theorem metal_joins_back (s : ℂ) : Joins (metal2 s) vac2 ![1, 0] ![(-7 - 24 * I) / 25, 0] ![s * (18 - 24 * I) / 25, 0] := by
  intro c hc x
  fin_cases c
  · simp [Fin.sum_univ_two, vac2, metal2, cell]; ring
  · simp [Fin.sum_univ_two, vac2, metal2, cell]
    linear_combination (-(18 / 25)) * s * (I_sq : I ^ 2 = -1)
  · exact absurd rfl hc

/-- C185 fails for `get_abcd` whatever the scale: at the metal its transfer matrix is wrong for every scale of the modes. -/
theorem C185_abcd_any_scale_partial (L : Lib) (hL : LibOk L) (s : ℂ) (hs : s ≠ 0) :
    ∃ M, getAbcd vac2 (metal2 s) (fun _ _ => 1, fun _ _ => 1) L = .ok M ∧ ¬ ∀ a r t d, JoinsBoth vac2 (metal2 s) a r t d ↔ M *ᵥ Sum.elim a r = Sum.elim t d := by
  obtain ⟨-, -, -, -, hw, hq⟩ := C185_metal_hypotheses s hs
  obtain ⟨M, hM, h⟩ := C185_transfer (ehL := vac2) (ehR := metal2 s) (b := fun _ => 1 / 2) (b' := fun _ => 1 / 2 * (s * (-(3 / 4) * I * s))) (by norm_num) vac2_overlap vac2_complete
    (fun _ => by simp [hs]) (fun i j => by fin_cases i <;> fin_cases j <;> simp [metal2, ip_cell])
    (fun F => ⟨![F (0, fun _ => 0) / s, F (1, fun _ => 0) / s], fun c hc x => by
      have hx : x = fun _ => 0 := funext fun _ => Subsingleton.elim _ _
      subst hx
      fin_cases c
      · simp [Fin.sum_univ_two, metal2, cell, hs]
      · simp [Fin.sum_univ_two, metal2, cell, hs]
      · exact absurd rfl hc⟩) hw hq L hL
  refine ⟨M, hM, fun hall => ?_⟩
  obtain ⟨hp, hp'⟩ := h.1 hall
  have p := hp ![1, 0] _ _ ((metal_joins hs _ _ _).2 ⟨rfl, rfl⟩)
  have p' := hp' _ _ _ (metal_joins_back s)
  have v1 : normSq (8 * (4 + 3 * I) / (25 * s)) = 64 / (25 * normSq s) := by
    rw [map_div₀, map_mul, map_mul, show normSq 8 = 64 by rw [normSq_apply]; norm_num, show normSq (4 + 3 * I) = 25 by rw [normSq_apply]; norm_num,
      show normSq 25 = 625 by rw [normSq_apply]; norm_num]
    have := normSq_pos.2 hs
    field_simp; norm_num
  have v2 : normSq (s * (18 - 24 * I) / 25) = 36 / 25 * normSq s := by
    rw [map_div₀, map_mul, show normSq (18 - 24 * I) = 900 by rw [normSq_apply]; norm_num, show normSq 25 = 625 by rw [normSq_apply]; norm_num]
    ring
  have hns := normSq_pos.2 hs
  simp only [power, Fin.sum_univ_two, ← normSq_eq_norm_sq, Pi.smul_apply, smul_eq_mul, Matrix.cons_val_zero, Matrix.cons_val_one, mul_one, mul_zero, map_zero, map_one, add_zero, v1, v2] at p p'
  rw [div_le_one (by positivity)] at p
  linarith

end Meanas.Props
