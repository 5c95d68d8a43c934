/-
C130: the dispersion of waveguide modes of meanas/fdfd/waveguide_2d.py:151-296 (`operator_e`, `operator_h`) converges with second order to that of Maxwell's equations.
-/
import Verif.Props.ModeExistence
import Verif.Props.ResonanceConvergence
import Verif.Lemmas.Residual
import Verif.Spec.Guided

namespace Meanas.Props

open Matrix Complex Spec Wg2

variable {sh : Fin 2 → ℕ}

theorem slice_update (r : Fin 2 → ℝ) (a : Fin 2) (s : ℝ) : slice (Function.update r a s) = Function.update (slice r) a.castSucc s := by
  funext b; fin_cases a <;> fin_cases b <;> simp [slice, Function.update]

theorem slice_castSucc (r : Fin 2 → ℝ) (a : Fin 2) : slice r a.castSucc = r a := by fin_cases a <;> simp [slice]

theorem slice_two (r : Fin 2 → ℝ) : Function.update (slice r) 2 0 = slice r := by
  funext b; fin_cases b <;> simp [slice, Function.update]

theorem cross_periodic {L : Fin 2 → ℝ} {f : Pt → ℂ} (hf : ∀ (a : Fin 2) r, f (Function.update r a.castSucc (r a.castSucc + L a)) = f r) (a : Fin 2) (k : ℤ) (r : Fin 2 → ℝ) :
    f (slice (Function.update r a (r a + k * L a))) = f (slice r) := by
  have h : Function.Periodic (line f a.castSucc (slice r)) (L a) := fun s => by
    have := hf a (Function.update (slice r) a.castSucc s)
    rwa [Function.update_self, Function.update_idem] at this
  have := h.int_mul k (r a)
  rw [line, line, ← slice_update, ← slice_update, Function.update_eq_self] at this
  exact this

theorem cross_shift {L h : Fin 2 → ℝ} (hL : ∀ a, L a = sh a * h a) (o : Fin 2 → ℝ) {f : Pt → ℂ}
    (hf : ∀ (a : Fin 2) r, f (Function.update r a.castSucc (r a.castSucc + L a)) = f r) (a : Fin 2) (s : ℤ) (x : Idx sh) :
    f (slice (crossPt h o (shiftIdx a s x))) = f (slice (Function.update (crossPt h o x) a (crossPt h o x a + s * h a))) := by
  have hp : (0 : ℤ) < sh a := by have := (x a).2; omega
  have hv : (((wrap (x a) s : Fin (sh a)) : ℕ) : ℤ) = (((x a : ℕ) : ℤ) + s) % (sh a : ℤ) := by
    have := Int.emod_nonneg (((x a : ℕ) : ℤ) + s) hp.ne'
    simp only [wrap]
    rw [Int.toNat_of_nonneg this]
  have hq := Int.emod_add_mul_ediv (((x a : ℕ) : ℤ) + s) (sh a : ℤ)
  rw [← hv] at hq
  have hq' : (((wrap (x a) s : Fin (sh a)) : ℕ) : ℝ) + sh a * (((((x a : ℕ) : ℤ) + s) / (sh a : ℤ) : ℤ) : ℝ) = (x a : ℕ) + s := by exact_mod_cast hq
  rw [← cross_periodic hf a ((((x a : ℕ) : ℤ) + s) / (sh a : ℤ)) (crossPt h o (shiftIdx a s x))]
  congr 2
  funext b
  by_cases hb : b = a
  · subst hb
    simp only [crossPt, shiftIdx, Function.update_self, hL]
    linear_combination h b * hq'
  · simp only [crossPt, shiftIdx, Function.update_of_ne hb]

/-- Widths of a uniform cross-section. -/
def crossGrid (sh : Fin 2 → ℕ) (h : Fin 2 → ℝ) : DxList sh ℝ := fun a _ => h a

/-- C130: on a uniform cross-section the differences of the samples of a smooth periodic function differ from its derivatives halfway between the samples by at most
`M h² / 24`. -/
theorem C130_differences {L h : Fin 2 → ℝ} (hL : ∀ a, L a = sh a * h a) (o : Fin 2 → ℝ) {f : Pt → ℂ}
    (hf : ∀ (a : Fin 2) r, f (Function.update r a.castSucc (r a.castSucc + L a)) = f r) (a : Fin 2) (hh : 0 < h a) {M : ℝ}
    (hM : ∀ r, Smooth3 M (line f a.castSucc r)) (x : Idx sh) :
    ‖gradForward (some (cw (crossGrid sh h))) (fun y => f (slice (crossPt h o y))) a x
      - pd f a.castSucc (slice (crossPt h (Function.update o a (o a + 1 / 2)) x))‖ ≤ M * h a ^ 2 / 24 ∧
    ‖gradBack (some (cw (crossGrid sh h))) (fun y => f (slice (crossPt h o y))) a x
      - pd f a.castSucc (slice (crossPt h (Function.update o a (o a - 1 / 2)) x))‖ ≤ M * h a ^ 2 / 24 := by
  obtain ⟨r, hr⟩ : ∃ r, r = crossPt h o x := ⟨_, rfl⟩
  have hpt : ∀ t : ℝ, crossPt h (Function.update o a (o a + t)) x = Function.update r a (r a + t * h a) := fun t => by
    funext b
    by_cases hb : b = a
    · subst hb; simp only [hr, crossPt, Function.update_self]; ring
    · simp only [hr, crossPt, Function.update_of_ne hb]
  have hpd : ∀ t : ℝ, pd f a.castSucc (slice (Function.update r a t)) = deriv (line f a.castSucc (slice r)) t := fun t => by
    rw [pd, slice_castSucc, Function.update_self]
    congr 1
    funext s; simp only [line, slice_update, Function.update_idem]
  have hl : ∀ t : ℝ, line f a.castSucc (slice r) t = f (slice (Function.update r a t)) := fun t => by rw [line, slice_update]
  have hk : (h a : ℂ) ≠ 0 := by exact_mod_cast hh.ne'
  have fin : ∀ (y D : ℂ), ‖y - (2 * (h a / 2)) • D‖ ≤ M * (h a / 2) ^ 3 / 3 → ‖y / (h a : ℂ) - D‖ ≤ M * h a ^ 2 / 24 := by
    intro y D key
    rw [show y / (h a : ℂ) - D = (y - (2 * (h a / 2)) • D) / (h a : ℂ) by
        rw [real_smul, show 2 * (h a / 2) = h a by ring]; field_simp,
      norm_div, norm_real, Real.norm_eq_abs, abs_of_pos hh, div_le_iff₀ hh]
    calc _ ≤ _ := key
      _ = _ := by ring
  constructor
  · have key := central_diff (hM (slice r)) (r a + h a / 2) (h a / 2) (by positivity)
    rw [hpt, hpd, show r a + 1 / 2 * h a = r a + h a / 2 by ring]
    simp only [gradForward, wOf_some, cw, crossGrid]
    rw [cross_shift hL o hf, ← hr]
    refine fin _ _ ?_
    rw [hl, hl, add_sub_cancel_right, Function.update_eq_self, show r a + h a / 2 + h a / 2 = r a + (1 : ℤ) * h a by push_cast; ring] at key
    exact key
  · have key := central_diff (hM (slice r)) (r a - h a / 2) (h a / 2) (by positivity)
    rw [show o a - 1 / 2 = o a + (-(1 / 2)) by ring, hpt, hpd, show r a + -(1 / 2) * h a = r a - h a / 2 by ring]
    simp only [gradBack, wOf_some, cw, crossGrid]
    rw [cross_shift hL o hf, ← hr]
    refine fin _ _ ?_
    rw [hl, hl, sub_add_cancel, Function.update_eq_self, show r a - h a / 2 - h a / 2 = r a + (-1 : ℤ) * h a by push_cast; ring] at key
    exact key

theorem pd_travel {β : ℝ} {f : Pt → ℂ} (hf : ∀ r z, f (Function.update r 2 z) = exp (-I * β * z) * f (Function.update r 2 0)) (r : Fin 2 → ℝ) :
    pd f 2 (slice r) = -I * β * f (slice r) := by
  have e : line f 2 (slice r) = fun z : ℝ => exp (-I * β * z) * f (slice r) := by
    funext z; rw [line, hf, slice_two]
  have h0 : slice r 2 = 0 := rfl
  have d : HasDerivAt (fun z : ℝ => exp (-I * β * z)) (exp (-I * β * (0 : ℝ)) * (-I * β)) 0 := by
    have h1 : HasDerivAt (fun z : ℝ => -I * β * (z : ℂ)) (-I * β) 0 := by
      simpa using (ofRealCLM.hasDerivAt (x := (0 : ℝ))).const_mul (-I * β)
    exact h1.cexp
  rw [pd, e, h0, (d.mul_const _).deriv]
  simp

/-- Samples of the electric field on the cross-section, as `vec` of the library. -/
noncomputable def crossSampleE (sh : Fin 2 → ℕ) (h : Fin 2 → ℝ) (F : Fin 3 → Pt → ℂ) : V 3 sh := fun p => F p.1 (posE h p.1 p.2)
/-- Samples of the magnetic field. -/
noncomputable def crossSampleH (sh : Fin 2 → ℕ) (h : Fin 2 → ℝ) (F : Fin 3 → Pt → ℂ) : V 3 sh := fun p => F p.1 (posH h p.1 p.2)

theorem crossE_shift : Function.update (crossE 2) 1 (crossE 2 1 + 1 / 2) = crossH 0 ∧ Function.update (crossE 2) 0 (crossE 2 0 + 1 / 2) = crossH 1 ∧
    Function.update (crossE 1) 0 (crossE 1 0 + 1 / 2) = crossH 2 ∧ Function.update (crossE 0) 1 (crossE 0 1 + 1 / 2) = crossH 2 ∧
    crossE 1 = crossH 0 ∧ crossE 0 = crossH 1 := by
  refine ⟨?_, ?_, ?_, ?_, ?_, ?_⟩ <;> funext b <;> fin_cases b <;> simp [Function.update, crossE, crossH, offE, offH]

theorem crossH_shift : Function.update (crossH 2) 1 (crossH 2 1 - 1 / 2) = crossE 0 ∧ Function.update (crossH 2) 0 (crossH 2 0 - 1 / 2) = crossE 1 ∧
    Function.update (crossH 1) 0 (crossH 1 0 - 1 / 2) = crossE 2 ∧ Function.update (crossH 0) 1 (crossH 0 1 - 1 / 2) = crossE 2 := by
  refine ⟨?_, ?_, ?_, ?_⟩ <;> funext b <;> fin_cases b <;> simp [Function.update, crossE, crossH, offE, offH]

/-- C130: consistency. The samples of a smooth guided wave satisfy the discrete curl equations of `waveguide_2d` up to `M (h_x² + h_y²) / 24`. -/
theorem C130_consistent {L h : Fin 2 → ℝ} (hL : ∀ a, L a = sh a * h a) (hh : ∀ a, 0 < h a) {β ω : ℝ} {ε μ : Fin 3 → Pt → ℝ} {E H : Fin 3 → Pt → ℂ} {M : ℝ}
    (hw : GuidedWave L β ω ε μ E H M) (c : Fin 3) (x : Idx sh) :
    ‖(curlE β (cw (crossGrid sh h), cw (crossGrid sh h)) *ᵥ crossSampleE sh h E) (c, x) - -I * ω * (μ c (posH h c x) * H c (posH h c x))‖ ≤ M * (∑ a, h a ^ 2) / 24 ∧
    ‖(curlH β (cw (crossGrid sh h), cw (crossGrid sh h)) *ᵥ crossSampleH sh h H) (c, x) - I * ω * (ε c (posE h c x) * E c (posE h c x))‖ ≤ M * (∑ a, h a ^ 2) / 24 := by
  have M0 : 0 ≤ M := (norm_nonneg _).trans ((hw.spaceE 0 0 0).2 0)
  have dE := fun (c : Fin 3) (a : Fin 2) => (C130_differences (sh := sh) hL (crossE c) (hw.periodicE c) a (hh a) (hw.spaceE c a) x).1
  have dH := fun (c : Fin 3) (a : Fin 2) => (C130_differences (sh := sh) hL (crossH c) (hw.periodicH c) a (hh a) (hw.spaceH c a) x).2
  have hz0 : 0 ≤ M * h 0 ^ 2 / 24 := by positivity
  have hz1 : 0 ≤ M * h 1 ^ 2 / 24 := by positivity
  have hsum : M * (∑ a, h a ^ 2) / 24 = M * h 0 ^ 2 / 24 + M * h 1 ^ 2 / 24 := by rw [Fin.sum_univ_two]; ring
  obtain ⟨s1, s2, s3, s4, s5, s6⟩ := crossE_shift
  obtain ⟨t1, t2, t3, t4⟩ := crossH_shift
  rw [hsum]
  revert c
  refine Fin.forall_fin_succ.2 ⟨?_, Fin.forall_fin_succ.2 ⟨?_, Fin.forall_fin_succ.2 ⟨?_, fun i => i.elim0⟩⟩⟩
  · constructor
    · have k := dE 2 1
      rw [s1] at k
      have f := hw.faraday 0 (posH h 0 x)
      rw [← f, curlE_0, ← gradForward_fw]
      have e : curl E 0 (posH h 0 x) = pd (E 2) 1 (slice (crossPt h (crossH 0) x)) - -I * β * E 1 (slice (crossPt h (crossE 1) x)) := by
        rw [s5, ← pd_travel (hw.travelE 1)]; rfl
      rw [e]
      refine le_trans (le_of_eq_of_le ?_ k) (by linarith)
      congr 1
      simp only [crossSampleE, posE]
      rw [sub_sub_sub_cancel_right]; rfl
    · have k := dH 2 1
      rw [t1] at k
      have f := hw.ampere 0 (posE h 0 x)
      rw [← f, curlH_0, ← gradBack_bw]
      have e : curl H 0 (posE h 0 x) = pd (H 2) 1 (slice (crossPt h (crossE 0) x)) - -I * β * H 1 (slice (crossPt h (crossH 1) x)) := by
        rw [← s6, ← pd_travel (hw.travelH 1)]; rfl
      rw [e]
      refine le_trans (le_of_eq_of_le ?_ k) (by linarith)
      congr 1
      simp only [crossSampleH, posH]
      rw [sub_sub_sub_cancel_right]; rfl
  · show _ ∧ _
    constructor
    · have k := dE 2 0
      rw [s2] at k
      have f := hw.faraday 1 (posH h 1 x)
      have e : curl E 1 (posH h 1 x) = -I * β * E 0 (slice (crossPt h (crossE 0) x)) - pd (E 2) 0 (slice (crossPt h (crossH 1) x)) := by
        rw [s6, ← pd_travel (hw.travelE 0)]; rfl
      show ‖(curlE β (cw (crossGrid sh h), cw (crossGrid sh h)) *ᵥ crossSampleE sh h E) (1, x) - -I * ω * (μ 1 (posH h 1 x) * H 1 (posH h 1 x))‖ ≤ _
      rw [← f, curlE_1, ← gradForward_fw, e]
      refine le_trans (le_of_eq_of_le ?_ k) (by linarith)
      rw [norm_sub_rev]
      congr 1
      simp only [crossSampleE, posE]
      rw [sub_sub_sub_cancel_left]; rfl
    · have k := dH 2 0
      rw [t2] at k
      have f := hw.ampere 1 (posE h 1 x)
      have e : curl H 1 (posE h 1 x) = -I * β * H 0 (slice (crossPt h (crossH 0) x)) - pd (H 2) 0 (slice (crossPt h (crossE 1) x)) := by
        rw [← s5, ← pd_travel (hw.travelH 0)]; rfl
      show ‖(curlH β (cw (crossGrid sh h), cw (crossGrid sh h)) *ᵥ crossSampleH sh h H) (1, x) - I * ω * (ε 1 (posE h 1 x) * E 1 (posE h 1 x))‖ ≤ _
      rw [← f, curlH_1, ← gradBack_bw, e]
      refine le_trans (le_of_eq_of_le ?_ k) (by linarith)
      rw [norm_sub_rev]
      congr 1
      simp only [crossSampleH, posH]
      rw [sub_sub_sub_cancel_left]; rfl
  · constructor
    · have k1 := dE 1 0
      have k2 := dE 0 1
      rw [s3] at k1
      rw [s4] at k2
      have f := hw.faraday 2 (posH h 2 x)
      show ‖(curlE β (cw (crossGrid sh h), cw (crossGrid sh h)) *ᵥ crossSampleE sh h E) (2, x) - -I * ω * (μ 2 (posH h 2 x) * H 2 (posH h 2 x))‖ ≤ _
      rw [← f, curlE_2, ← gradForward_fw, ← gradForward_fw]
      show ‖_ - (pd (E 1) 0 (slice (crossPt h (crossH 2) x)) - pd (E 0) 1 (slice (crossPt h (crossH 2) x)))‖ ≤ _
      rw [sub_sub_sub_comm]
      exact (norm_sub_le _ _).trans (add_le_add k1 k2)
    · have k1 := dH 1 0
      have k2 := dH 0 1
      rw [t3] at k1
      rw [t4] at k2
      have f := hw.ampere 2 (posE h 2 x)
      show ‖(curlH β (cw (crossGrid sh h), cw (crossGrid sh h)) *ᵥ crossSampleH sh h H) (2, x) - I * ω * (ε 2 (posE h 2 x) * E 2 (posE h 2 x))‖ ≤ _
      rw [← f, curlH_2, ← gradBack_bw, ← gradBack_bw]
      show ‖_ - (pd (H 1) 0 (slice (crossPt h (crossE 2) x)) - pd (H 0) 1 (slice (crossPt h (crossE 2) x)))‖ ≤ _
      rw [sub_sub_sub_comm]
      exact (norm_sub_le _ _).trans (add_le_add k1 k2)

theorem curlE_scurl {β : ℝ} (hβ : β ≠ 0) (dE dH : DxList sh ℝ) (e : V 3 sh) (c : Fin 3) (x : Idx sh) :
    (curlE β (cw dE, cw dH) *ᵥ e) (c, x) = β * scurlF dE β⁻¹ (fld e) c x := by
  have hb : (β : ℂ) ≠ 0 := ofReal_ne_zero.2 hβ
  revert c
  refine Fin.forall_fin_succ.2 ⟨?_, Fin.forall_fin_succ.2 ⟨?_, Fin.forall_fin_succ.2 ⟨?_, fun i => i.elim0⟩⟩⟩
  · rw [curlE_0, ← gradForward_fw]
    simp only [scurlF, Matrix.cons_val_zero, ofReal_inv, fld]
    show gradForward (some (cw dE)) (fld e 2) 1 x - _ = _
    field_simp; ring
  · show (curlE β (cw dE, cw dH) *ᵥ e) (1, x) = β * scurlF dE β⁻¹ (fld e) 1 x
    rw [curlE_1, ← gradForward_fw]
    simp only [scurlF, Matrix.cons_val_one, ofReal_inv, fld, Matrix.cons_val]
    show _ - gradForward (some (cw dE)) (fld e 2) 0 x = _
    field_simp
  · show (curlE β (cw dE, cw dH) *ᵥ e) (2, x) = β * scurlF dE β⁻¹ (fld e) 2 x
    rw [curlE_2, ← gradForward_fw, ← gradForward_fw]
    simp only [scurlF, ofReal_inv, fld, Matrix.cons_val]
    show gradForward (some (cw dE)) (fld e 1) 0 x - gradForward (some (cw dE)) (fld e 0) 1 x = _
    field_simp

/-- The two curls of `waveguide_2d` are adjoint for the cell areas. -/
theorem curl_adjoint {β : ℝ} (hβ : β ≠ 0) {dE dH : DxList sh ℝ} (hE : ∀ a i, 0 < dE a i) (hH : ∀ a i, 0 < dH a i) (u v : V 3 sh) :
    ∑ p : Fin 3 × Idx sh, ((areaE dE dH p.1 p.2 : ℝ) : ℂ) * ((starRingEnd ℂ) (u p) * (curlH β (cw dE, cw dH) *ᵥ v) p)
      = ∑ p : Fin 3 × Idx sh, ((areaH dE dH p.1 p.2 : ℝ) : ℂ) * ((starRingEnd ℂ) ((curlE β (cw dE, cw dH) *ᵥ u) p) * v p) := by
  have h := congrArg (fun z => (β : ℂ) * (starRingEnd ℂ) z) (scurl_adjoint hE hH β⁻¹ (fld v) (fld u))
  simp only [map_sum, Finset.mul_sum, map_mul, conj_ofReal, Complex.conj_conj] at h
  rw [Fintype.sum_prod_type, Fintype.sum_prod_type]
  refine Eq.trans (Finset.sum_congr rfl fun c _ => Finset.sum_congr rfl fun x _ => ?_) (h.trans (Finset.sum_congr rfl fun c _ => Finset.sum_congr rfl fun x _ => ?_))
  · rw [curlH_scurl hβ]; simp only [fld]; ring
  · rw [curlE_scurl hβ, map_mul, conj_ofReal]; simp only [fld]; ring

theorem isMode_of_curls {β w : ℝ} (hw : w ≠ 0) (dxes : Dx2 sh) {eps mu e : V 3 sh} (hmu : ∀ p, mu p ≠ 0)
    (h : ∀ p, (curlH β dxes *ᵥ fun q => (curlE β dxes *ᵥ e) q / mu q) p = w ^ 2 * (eps p * e p)) :
    IsMode β w dxes.1 dxes.2 (fld eps) (fld mu) (fld e) (fun c x => (curlE β dxes *ᵥ e) (c, x) / (-I * w * mu (c, x))) := by
  have hwc : (w : ℂ) ≠ 0 := ofReal_ne_zero.2 hw
  have hI := I_ne_zero
  set g : V 3 sh := fun p => (curlE β dxes *ᵥ e) p / (-I * w * mu p) with hg
  have far : ∀ p, (curlE β dxes *ᵥ e) p = -I * w * mu p * g p := fun p => by
    have := hmu p
    rw [hg]; field_simp
  have hgs : g = (-I * w)⁻¹ • fun q => (curlE β dxes *ᵥ e) q / mu q := by
    funext q
    have := hmu q
    rw [hg, Pi.smul_apply, smul_eq_mul]; field_simp
  have amp : ∀ p, (curlH β dxes *ᵥ g) p = I * w * eps p * e p := fun p => by
    rw [hgs, mulVec_smul, Pi.smul_apply, h, smul_eq_mul]
    field_simp
    linear_combination (-eps p * e p) * I_sq
  refine ⟨fun x => ?_, fun x => ?_, fun x => ?_, fun x => ?_, fun x => ?_, fun x => ?_⟩
  · have := far (0, x); rw [curlE_0, ← gradForward_fw] at this; exact this
  · have := far (1, x); rw [curlE_1, ← gradForward_fw] at this; exact this
  · have := far (2, x); rw [curlE_2, ← gradForward_fw, ← gradForward_fw] at this; exact this
  · have := amp (0, x); rw [curlH_0, ← gradBack_bw] at this; exact this
  · have := amp (1, x); rw [curlH_1, ← gradBack_bw] at this; exact this
  · have := amp (2, x); rw [curlH_2, ← gradBack_bw, ← gradBack_bw] at this; exact this

/-- The electric fields spanned by the modes with wavenumber `β` and a frequency within `η` of `ω`. -/
def modeSpan (dE dH : DxList sh ℝ) (eps mu : V 3 sh) (β ω η : ℝ) : Submodule ℂ (V 3 sh) :=
  Submodule.span ℂ {e | ∃ w : ℝ, 0 < w ∧ |w - ω| < η ∧ ∃ H, IsMode β w (cw dE) (cw dH) (fld eps) (fld mu) (fld e) H}

/-- C130: fields that satisfy the discrete curl equations with `exp(-iβz)` up to residuals are close to modes: outside the modes with the same wavenumber and a
frequency within `η` they have a part of size at most `‖residual‖ / η`. -/
theorem C130_residual {dE dH : DxList sh ℝ} (hE : ∀ a i, 0 < dE a i) (hH : ∀ a i, 0 < dH a i) {eps mu : V 3 sh} (heps : Lossless eps) (hmu : Lossless mu)
    {β ω : ℝ} (hβ : β ≠ 0) (hω : 0 < ω) (e h r₁ r₂ : V 3 sh) (h₁ : ∀ p, (curlE β (cw dE, cw dH) *ᵥ e) p = -I * ω * (mu p * h p) + r₁ p)
    (h₂ : ∀ p, (curlH β (cw dE, cw dH) *ᵥ h) p = I * ω * (eps p * e p) + r₂ p) {η : ℝ} (hη : 0 < η) (hηω : η ≤ ω) :
    ∃ G ∈ modeSpan dE dH eps mu β ω η,
      η ^ 2 * ∑ p : Fin 3 × Idx sh, areaE dE dH p.1 p.2 * (eps p).re * ‖e p - G p‖ ^ 2
        ≤ ∑ p : Fin 3 × Idx sh, areaE dE dH p.1 p.2 / (eps p).re * ‖r₂ p‖ ^ 2 + ∑ p : Fin 3 × Idx sh, areaH dE dH p.1 p.2 / (mu p).re * ‖r₁ p‖ ^ 2 := by
  have aE : ∀ p : Fin 3 × Idx sh, 0 < areaE dE dH p.1 p.2 := fun p => Finset.prod_pos fun a _ => by split <;> simp [hE, hH]
  have aH : ∀ p : Fin 3 × Idx sh, 0 < areaH dE dH p.1 p.2 := fun p => Finset.prod_pos fun a _ => by split <;> simp [hE, hH]
  obtain ⟨G, hG, hle⟩ := Residual.residual (curlE β (cw dE, cw dH)) (curlH β (cw dE, cw dH)) (fun p => areaE dE dH p.1 p.2) (fun p => (eps p).re)
    (fun p => areaH dE dH p.1 p.2) (fun p => (mu p).re) aE (fun p => (heps p).2) aH (fun p => (hmu p).2) (curl_adjoint hβ hE hH) ω hω e h r₁ r₂
    (fun p => by rw [h₁, hmu.eq]) (fun p => by rw [h₂, heps.eq]) η hη
  refine ⟨G, ?_, hle⟩
  refine Submodule.span_mono ?_ hG
  rintro F ⟨w, -, hw1, hF⟩
  have hw0 : 0 < w := by have := abs_lt.1 (hw1.trans_le hηω); linarith [this.1]
  refine ⟨w, hw0, hw1, _, isMode_of_curls hw0.ne' (cw dE, cw dH) hmu.ne fun p => ?_⟩
  have := hF p
  simp only [hmu.eq, heps.eq] at this
  exact this

theorem cross_lower {M : ℝ} {L : Fin 2 → ℝ} (hL : ∀ a, 0 < L a) {f : Pt → ℂ} (hf : ∀ (a : Fin 2) r, Smooth3 M (line f a.castSucc r))
    (hp : ∀ (a : Fin 2) r, f (Function.update r a.castSucc (r a.castSucc + L a)) = f r) {r₀ : Fin 2 → ℝ} (h0 : f (slice r₀) ≠ 0) :
    ∃ m > 0, ∃ h₀ > 0, ∀ (sh : Fin 2 → ℕ) (h o : Fin 2 → ℝ), (∀ a, L a = sh a * h a) → (∀ a, 0 < h a) → (∀ a, h a ≤ h₀) →
      m ≤ ∑ x : Idx sh, (∏ a, h a) * ‖f (slice (crossPt h o x))‖ ^ 2 := by
  have M0 : 0 ≤ M := (norm_nonneg _).trans ((hf 0 0).2 0)
  refine Sampling.lower (d := 1) (f := fun r => f (slice r)) hL (fun k r => ?_) (D := ∑ a, M * L a ^ 2 / 6) (fun r r' ρ h => ?_) h0
  · have e : (fun a => r a + k a * L a) = Function.update (Function.update r 0 (r 0 + k 0 * L 0)) 1 ((Function.update r 0 (r 0 + k 0 * L 0)) 1 + k 1 * L 1) := by
      funext a; fin_cases a <;> simp
    rw [e, cross_periodic hp, cross_periodic hp]
  · have one : ∀ (a : Fin 2) (r : Fin 2 → ℝ) (s : ℝ), ‖f (slice r) - f (slice (Function.update r a s))‖ ≤ M * L a ^ 2 / 6 * |r a - s| := by
      intro a r s
      have per : Function.Periodic (line f a.castSucc (slice r)) (L a) := fun s => by
        have := hp a (Function.update (slice r) a.castSucc s)
        rwa [Function.update_self, Function.update_idem] at this
      have := lipschitz_line (hL a) (hf a (slice r)) per (r a) s
      rwa [line, line, ← slice_update, ← slice_update, Function.update_eq_self] at this
    have e : r' = Function.update (Function.update r 0 (r' 0)) 1 (r' 1) := by funext a; fin_cases a <;> simp
    have k0 := one 0 r (r' 0)
    have k1 := one 1 (Function.update r 0 (r' 0)) (r' 1)
    rw [← e, show Function.update r 0 (r' 0) 1 = r 1 by simp] at k1
    have g0 := mul_le_mul_of_nonneg_left (h 0) (show 0 ≤ M * L 0 ^ 2 / 6 by positivity)
    have g1 := mul_le_mul_of_nonneg_left (h 1) (show 0 ≤ M * L 1 ^ 2 / 6 by positivity)
    rw [Fin.sum_univ_two, add_mul]
    calc ‖f (slice r) - f (slice r')‖ = ‖(f (slice r) - f (slice (Function.update r 0 (r' 0)))) + (f (slice (Function.update r 0 (r' 0))) - f (slice r'))‖ := by congr 1; ring
      _ ≤ _ := norm_add_le _ _
      _ ≤ _ := by linarith

/-- C130: second order. A smooth guided wave with wavenumber `β ≠ 0` and frequency `ω > 0` of a waveguide with a lossless (periodic) cross-section has a `C` such that
on every fine enough uniform grid there is a frequency `w` with `|w - ω| ≤ C Σ h²` at which `β²` is exactly an eigenvalue of `operator_e` and `operator_h`, and the samples of
the wave are within `C Σ h² / η` of the modes with this wavenumber and a frequency within `η` of `ω`, for every `η ≤ ω`. -/
theorem C130_second_order {L : Fin 2 → ℝ} (hLp : ∀ a, 0 < L a) {β ω : ℝ} (hβ : β ≠ 0) (hω : 0 < ω) {ε μ : Fin 3 → Pt → ℝ} {κ : ℝ} (hκ : 0 < κ)
    (hε : ∀ c r, κ ≤ ε c r) (hμ : ∀ c r, κ ≤ μ c r) {E H : Fin 3 → Pt → ℂ} {M : ℝ} (hw : GuidedWave L β ω ε μ E H M) (hE : ∃ c r, E c r ≠ 0) :
    ∃ C : ℝ, ∃ h₀ > 0, ∀ (sh : Fin 2 → ℕ) (h : Fin 2 → ℝ), (∀ a, L a = sh a * h a) → (∀ a, 0 < h a) → (∀ a, h a ≤ h₀) →
      let dx := crossGrid sh h
      let eps := crossSampleE sh h fun c r => (ε c r : ℂ)
      let mu := crossSampleH sh h fun c r => (μ c r : ℂ)
      (∃ w : ℝ, 0 < w ∧ |w - ω| ≤ C * ∑ a, h a ^ 2 ∧ IsEigenvalue (operatorE w (cw dx, cw dx) eps (some mu)) ((β : ℂ) ^ 2) ∧
        IsEigenvalue (operatorH w (cw dx, cw dx) eps (some mu)) ((β : ℂ) ^ 2)) ∧
      ∀ η, 0 < η → η ≤ ω → ∃ G ∈ modeSpan dx dx eps mu β ω η,
        √(∑ p : Fin 3 × Idx sh, (∏ a, h a) * ε p.1 (posE h p.1 p.2) * ‖crossSampleE sh h E p - G p‖ ^ 2) ≤ C / η * ∑ a, h a ^ 2 := by
  obtain ⟨c₀, r₀, hE⟩ := hE
  have hE' : E c₀ (slice fun a => r₀ a.castSucc) ≠ 0 := by
    intro h0
    apply hE
    have e0 : Function.update r₀ 2 0 = slice fun a => r₀ a.castSucc := by funext b; fin_cases b <;> simp [slice, Function.update]
    have := hw.travelE c₀ r₀ (r₀ 2)
    rw [Function.update_eq_self, e0, h0, mul_zero] at this
    exact this
  obtain ⟨m, m0, h₁, h₁0, hm⟩ := cross_lower hLp (hw.spaceE c₀) (hw.periodicE c₀) hE'
  have M0 : 0 ≤ M := (norm_nonneg _).trans ((hw.spaceE 0 0 0).2 0)
  have V0 : 0 < ∏ a, L a := Finset.prod_pos fun a _ => hLp a
  obtain ⟨A, hA⟩ : ∃ A, A = √(6 * (∏ a, L a) / κ) * (M / 24) := ⟨_, rfl⟩
  have A0 : 0 ≤ A := by rw [hA]; positivity
  have hA2 : A ^ 2 = 6 * (∏ a, L a) / κ * (M / 24) ^ 2 := by rw [hA, mul_pow, Real.sq_sqrt (by positivity)]
  have hs : 0 < √(κ * m) := Real.sqrt_pos.2 (mul_pos hκ m0)
  obtain ⟨C, hC⟩ : ∃ C, C = A + (A + 1) / √(κ * m) := ⟨_, rfl⟩
  have hC1 : A ≤ C := by rw [hC]; exact le_add_of_nonneg_right (by positivity)
  have hC2 : (A + 1) / √(κ * m) ≤ C := by rw [hC]; exact le_add_of_nonneg_left A0
  have C0 : 0 < C := lt_of_lt_of_le (by positivity) hC2
  refine ⟨C, min h₁ (min 1 (ω / (2 * C))), lt_min h₁0 (lt_min one_pos (by positivity)), ?_⟩
  intro sh h hL hh hle dx eps mu
  obtain ⟨s2, hs2⟩ : ∃ s, s = ∑ a, h a ^ 2 := ⟨_, rfl⟩
  have s20 : 0 < s2 := by rw [hs2]; exact Finset.sum_pos (fun a _ => pow_pos (hh a) 2) Finset.univ_nonempty
  have hP : 0 < ∏ a, h a := Finset.prod_pos fun a _ => hh a
  have heps : Lossless eps := fun p => ⟨ofReal_im _, by simpa [eps, crossSampleE] using hκ.trans_le (hε _ _)⟩
  have hmu : Lossless mu := fun p => ⟨ofReal_im _, by simpa [mu, crossSampleH] using hκ.trans_le (hμ _ _)⟩
  have vE : ∀ c x, areaE dx dx c x = ∏ a, h a := fun c x => by simp only [areaE, dx, crossGrid, ite_self]
  have vH : ∀ c x, areaH dx dx c x = ∏ a, h a := fun c x => by simp only [areaH, dx, crossGrid, ite_self]
  have cells : (∑ _p : Fin 3 × Idx sh, ∏ a, h a) = 3 * ∏ a, L a := by
    rw [Finset.sum_const, Finset.card_univ, Fintype.card_prod, Fintype.card_fin, Fintype.card_pi, nsmul_eq_mul]
    push_cast
    simp only [Fintype.card_fin, hL, Finset.prod_mul_distrib]
    ring
  have q : ∀ (k : Fin 3 × Idx sh → ℝ) (r : V 3 sh), (∀ p, κ ≤ k p) → (∀ p, ‖r p‖ ≤ M * s2 / 24) →
      ∑ p : Fin 3 × Idx sh, (∏ a, h a) / k p * ‖r p‖ ^ 2 ≤ 3 * (∏ a, L a) / κ * (M * s2 / 24) ^ 2 := by
    intro k r hk hr
    rw [← cells, Finset.sum_div, Finset.sum_mul]
    exact Finset.sum_le_sum fun p _ => mul_le_mul (div_le_div_of_nonneg_left hP.le hκ (hk p)) (pow_le_pow_left₀ (norm_nonneg _) (hr p) 2) (sq_nonneg _) (by positivity)
  have key : ∀ η, 0 < η → η ≤ ω → ∃ G ∈ modeSpan dx dx eps mu β ω η,
      η ^ 2 * ∑ p : Fin 3 × Idx sh, (∏ a, h a) * ε p.1 (posE h p.1 p.2) * ‖crossSampleE sh h E p - G p‖ ^ 2 ≤ (A * s2) ^ 2 := by
    intro η hη hηω
    set r1 : V 3 sh := fun p => (curlE β (cw dx, cw dx) *ᵥ crossSampleE sh h E) p - -I * ω * (mu p * crossSampleH sh h H p) with hr1
    set r2 : V 3 sh := fun p => (curlH β (cw dx, cw dx) *ᵥ crossSampleH sh h H) p - I * ω * (eps p * crossSampleE sh h E p) with hr2
    have b1 : ∀ p, ‖r1 p‖ ≤ M * s2 / 24 := fun p => by rw [hs2]; exact (C130_consistent hL hh hw p.1 p.2).1
    have b2 : ∀ p, ‖r2 p‖ ≤ M * s2 / 24 := fun p => by rw [hs2]; exact (C130_consistent hL hh hw p.1 p.2).2
    obtain ⟨G, hG, hle⟩ := C130_residual (dE := dx) (dH := dx) (fun a _ => hh a) (fun a _ => hh a) heps hmu hβ hω (crossSampleE sh h E) (crossSampleH sh h H) r1 r2
      (fun p => by rw [hr1]; ring) (fun p => by rw [hr2]; ring) hη hηω
    refine ⟨G, hG, ?_⟩
    simp only [vE, vH] at hle
    have k1 := q (fun p => (mu p).re) r1 (fun p => hμ _ _) b1
    have k2 := q (fun p => (eps p).re) r2 (fun p => hε _ _) b2
    have e1 : ∀ p, (eps p).re = ε p.1 (posE h p.1 p.2) := fun p => ofReal_re _
    have e2 : 3 * (∏ a, L a) / κ * (M * s2 / 24) ^ 2 + 3 * (∏ a, L a) / κ * (M * s2 / 24) ^ 2 = (A * s2) ^ 2 := by rw [mul_pow, hA2]; ring
    rw [← e2]
    refine le_trans (le_of_eq ?_) (hle.trans (add_le_add k2 k1))
    simp only [e1]
  rw [← hs2]
  refine ⟨?_, ?_⟩
  · have small : C * s2 ≤ ω := by
      have h1 : ∀ a, h a ^ 2 ≤ ω / (2 * C) := fun a => by
        have k1 : h a ≤ 1 := (hle a).trans ((min_le_right _ _).trans (min_le_left _ _))
        have k2 : h a ≤ ω / (2 * C) := (hle a).trans ((min_le_right _ _).trans (min_le_right _ _))
        have := hh a
        nlinarith
      have h2 : s2 ≤ 2 * (ω / (2 * C)) := by
        rw [hs2, Fin.sum_univ_two]; have := h1 0; have := h1 1; linarith
      calc C * s2 ≤ C * (2 * (ω / (2 * C))) := mul_le_mul_of_nonneg_left h2 C0.le
        _ = ω := by field_simp
    obtain ⟨G, hG, hG2⟩ := key (C * s2) (mul_pos C0 s20) small
    have low : κ * m ≤ ∑ p : Fin 3 × Idx sh, (∏ a, h a) * ε p.1 (posE h p.1 p.2) * ‖crossSampleE sh h E p‖ ^ 2 := by
      have h1 := hm sh h (crossE c₀) hL hh fun a => (hle a).trans (min_le_left _ _)
      rw [Fintype.sum_prod_type]
      refine (mul_le_mul_of_nonneg_left h1 hκ.le).trans ?_
      refine le_trans ?_ (Finset.single_le_sum (f := fun c => ∑ x : Idx sh, (∏ a, h a) * ε c (posE h c x) * ‖crossSampleE sh h E (c, x)‖ ^ 2) (fun c _ => Finset.sum_nonneg fun x _ =>
        mul_nonneg (mul_nonneg hP.le (hκ.le.trans (hε _ _))) (sq_nonneg _)) (Finset.mem_univ c₀))
      rw [Finset.mul_sum]
      refine Finset.sum_le_sum fun x _ => ?_
      have k1 : κ ≤ ε c₀ (posE h c₀ x) := hε _ _
      have k2 : 0 ≤ (∏ a, h a) * ‖E c₀ (posE h c₀ x)‖ ^ 2 := mul_nonneg hP.le (sq_nonneg _)
      have := mul_le_mul_of_nonneg_right k1 k2
      calc _ ≤ _ := this
        _ = _ := by simp only [crossSampleE]; ring
    have hne : G ≠ 0 := by
      rintro rfl
      simp only [Pi.zero_apply, sub_zero] at hG2
      have h1 : (C * s2) ^ 2 * (κ * m) ≤ (A * s2) ^ 2 := (mul_le_mul_of_nonneg_left low (sq_nonneg _)).trans hG2
      have h2 : A + 1 ≤ C * √(κ * m) := by rwa [div_le_iff₀ hs] at hC2
      have h3 : ((A + 1) * s2) ^ 2 ≤ (C * s2) ^ 2 * (κ * m) := by
        calc ((A + 1) * s2) ^ 2 ≤ (C * √(κ * m) * s2) ^ 2 := pow_le_pow_left₀ (by positivity) (mul_le_mul_of_nonneg_right h2 s20.le) 2
          _ = _ := by rw [mul_pow, mul_pow, Real.sq_sqrt (mul_pos hκ m0).le]; ring
      have h4 := h3.trans h1
      rw [mul_pow, mul_pow] at h4
      have := le_of_mul_le_mul_right h4 (pow_pos s20 2)
      nlinarith
    obtain ⟨F, ⟨w, hw0, hw1, H', hF⟩, hF0⟩ : ∃ e ∈ {e : V 3 sh | ∃ w : ℝ, 0 < w ∧ |w - ω| < C * s2 ∧ ∃ H, IsMode β w (cw dx) (cw dx) (fld eps) (fld mu) (fld e) H}, e ≠ 0 := by
      by_contra hcon
      push Not at hcon
      have : modeSpan dx dx eps mu β ω (C * s2) = ⊥ := Submodule.span_eq_bot.2 hcon
      rw [this] at hG
      exact hne ((Submodule.mem_bot ℂ).1 hG)
    refine ⟨w, hw0, hw1.le, eigenvalues_of_mode hβ hw0.ne' dx dx eps (some mu) heps.ne hmu.ne (H := H') ?_ hF⟩
    rintro rfl
    apply hF0
    have hwc : (w : ℂ) ≠ 0 := ofReal_ne_zero.2 hw0.ne'
    have hI := I_ne_zero
    funext p
    obtain ⟨c, x⟩ := p
    have hx := hF.ampereX x
    have hy := hF.ampereY x
    have hz := hF.ampereZ x
    simp only [gradBack, Pi.zero_apply, sub_zero, zero_div, mul_zero] at hx hy hz
    have n := fun c => heps.ne (c, x)
    have fin : ∀ c, 0 = I * (w : ℂ) * fld eps c x * fld F c x → F (c, x) = 0 := fun c h => by
      have := mul_eq_zero.1 h.symm
      exact this.resolve_left (mul_ne_zero (mul_ne_zero hI hwc) (n c))
    revert c
    exact Fin.forall_fin_succ.2 ⟨fin 0 hx, Fin.forall_fin_succ.2 ⟨fin 1 hy, Fin.forall_fin_succ.2 ⟨fin 2 hz, fun i => i.elim0⟩⟩⟩
  · intro η hη hηω
    obtain ⟨G, hG, hG2⟩ := key η hη hηω
    refine ⟨G, hG, ?_⟩
    rw [Real.sqrt_le_iff]
    refine ⟨by positivity, ?_⟩
    have h1 : (A * s2) ^ 2 ≤ (C * s2) ^ 2 := pow_le_pow_left₀ (by positivity) (mul_le_mul_of_nonneg_right hC1 s20.le) 2
    rw [div_mul_eq_mul_div, div_pow, le_div_iff₀ (by positivity), mul_comm]
    exact hG2.trans h1

/-! ### An example -/

theorem trig_deriv (A B : ℂ) : deriv (fun s : ℝ => A * (Real.cos s : ℂ) + B * (Real.sin s : ℂ)) = fun s => B * (Real.cos s : ℂ) + (-A) * (Real.sin s : ℂ) := by
  funext s
  have := ((Real.hasDerivAt_cos s).ofReal_comp.const_mul A).add ((Real.hasDerivAt_sin s).ofReal_comp.const_mul B)
  refine this.deriv.trans ?_
  push_cast; ring

theorem trig_smooth {A B : ℂ} {M : ℝ} (h : ‖A‖ + ‖B‖ ≤ M) : Smooth3 M (fun s : ℝ => A * (Real.cos s : ℂ) + B * (Real.sin s : ℂ)) := by
  refine ⟨(contDiff_const.mul (ofRealCLM.contDiff.comp Real.contDiff_cos)).add (contDiff_const.mul (ofRealCLM.contDiff.comp Real.contDiff_sin)), fun s => ?_⟩
  rw [iteratedDeriv_succ', iteratedDeriv_succ', iteratedDeriv_succ', iteratedDeriv_zero, trig_deriv, trig_deriv, trig_deriv]
  refine (norm_add_le _ _).trans ?_
  rw [norm_mul, norm_mul, norm_neg, norm_neg, norm_neg, norm_real, norm_real, Real.norm_eq_abs, Real.norm_eq_abs]
  have := mul_le_of_le_one_right (norm_nonneg B) (Real.abs_cos_le_one s)
  have := mul_le_of_le_one_right (norm_nonneg A) (Real.abs_sin_le_one s)
  linarith

/-- Fields of plane waves in y and z: `(A_c cos y + B_c sin y) exp(-iβz)`. -/
noncomputable def planar (β : ℝ) (A B : Fin 3 → ℂ) : Fin 3 → Pt → ℂ := fun c r => exp (-I * β * (r 2 : ℝ)) * (A c * (Real.cos (r 1) : ℂ) + B c * (Real.sin (r 1) : ℂ))

theorem planar_pd (β : ℝ) (A B : Fin 3 → ℂ) (c : Fin 3) (r : Pt) : pd (planar β A B c) 0 r = 0 ∧
    pd (planar β A B c) 1 r = exp (-I * β * (r 2 : ℝ)) * (B c * (Real.cos (r 1) : ℂ) + (-A c) * (Real.sin (r 1) : ℂ)) ∧ pd (planar β A B c) 2 r = -I * β * planar β A B c r := by
  refine ⟨?_, ?_, ?_⟩
  · have : line (planar β A B c) 0 r = fun _ => planar β A B c r := by funext s; simp [line, planar, Function.update]
    rw [pd, this, deriv_const]
  · have : line (planar β A B c) 1 r = fun s => exp (-I * β * (r 2 : ℝ)) * (A c * (Real.cos s : ℂ) + B c * (Real.sin s : ℂ)) := by
      funext s; simp only [line, planar, Function.update_self, Function.update_of_ne (show (2 : Fin 3) ≠ 1 by decide)]
    rw [pd, this, deriv_const_mul_field, trig_deriv]
  · have e : line (planar β A B c) 2 r = fun z : ℝ => exp (-I * β * z) * (A c * (Real.cos (r 1) : ℂ) + B c * (Real.sin (r 1) : ℂ)) := by
      funext s; simp only [line, planar, Function.update_self, Function.update_of_ne (show (1 : Fin 3) ≠ 2 by decide)]
    have h1 : HasDerivAt (fun z : ℝ => -I * β * (z : ℂ)) (-I * β) (r 2) := by
      simpa using (ofRealCLM.hasDerivAt (x := r 2)).const_mul (-I * β)
    rw [pd, e, (h1.cexp.mul_const _).deriv, planar]; ring

theorem planar_guided : GuidedWave (fun _ => 2 * Real.pi) (3 / 4) (5 / 4) (fun _ _ => 1) (fun _ _ => 1) (planar (3 / 4) ![1, 0, 0] 0)
    (planar (3 / 4) ![0, 3 / 5, 0] ![0, 0, 4 / 5 * I]) 1 := by
  have per : ∀ (A B : Fin 3 → ℂ) c (a : Fin 2) r, planar (3 / 4) A B c (Function.update r a.castSucc (r a.castSucc + 2 * Real.pi)) = planar (3 / 4) A B c r := by
    intro A B c a r
    fin_cases a <;> simp [planar, Function.update]
  have lines : ∀ (A B : Fin 3 → ℂ) c (a : Fin 2) r, ‖A c‖ + ‖B c‖ ≤ 1 → Smooth3 1 (line (planar (3 / 4) A B c) a.castSucc r) := by
    intro A B c a r h
    revert a
    refine Fin.forall_fin_two.2 ⟨?_, ?_⟩
    · have : line (planar (3 / 4) A B c) (Fin.castSucc 0) r = fun _ => planar (3 / 4) A B c r := by funext s; simp [line, planar, Function.update]
      rw [this]
      refine ⟨contDiff_const, fun s => ?_⟩
      rw [iteratedDeriv_succ', iteratedDeriv_succ', iteratedDeriv_succ', iteratedDeriv_zero]; simp
    · have hn : ‖exp (-I * ((3 / 4 : ℝ) : ℂ) * (r 2 : ℝ))‖ = 1 := by
        rw [show -I * ((3 / 4 : ℝ) : ℂ) * (r 2 : ℝ) = ((-(3 / 4) * r 2 : ℝ) : ℂ) * I by push_cast; ring, norm_exp_ofReal_mul_I]
      have : line (planar (3 / 4) A B c) (Fin.castSucc 1) r = fun s : ℝ => (exp (-I * ((3 / 4 : ℝ) : ℂ) * (r 2 : ℝ)) * A c) * (Real.cos s : ℂ)
          + (exp (-I * ((3 / 4 : ℝ) : ℂ) * (r 2 : ℝ)) * B c) * (Real.sin s : ℂ) := by
        funext s
        simp only [line, planar, show (Fin.castSucc 1 : Fin 3) = 1 from rfl, Function.update_self, Function.update_of_ne (show (2 : Fin 3) ≠ 1 by decide)]
        ring
      rw [this]
      refine trig_smooth ?_
      rwa [norm_mul, norm_mul, hn, one_mul, one_mul]
  have travel : ∀ (A B : Fin 3 → ℂ) c r (z : ℝ), planar (3 / 4) A B c (Function.update r 2 z) = exp (-I * ((3 / 4 : ℝ) : ℂ) * z) * planar (3 / 4) A B c (Function.update r 2 0) := by
    intro A B c r z
    simp only [planar, Function.update_self, Function.update_of_ne (show (1 : Fin 3) ≠ 2 by decide)]
    simp
  refine ⟨fun c r => ?_, fun c r => ?_, travel _ _, travel _ _, per _ _, per _ _, fun c a r => lines _ _ c a r ?_, fun c a r => lines _ _ c a r ?_⟩
  · have p := fun c => planar_pd (3 / 4) ![1, 0, 0] 0 c r
    generalize hx : exp (-I * ((3 / 4 : ℝ) : ℂ) * (r 2 : ℝ)) = x at p
    fin_cases c
    · show pd (planar (3 / 4) ![1, 0, 0] 0 2) 1 r - pd (planar (3 / 4) ![1, 0, 0] 0 1) 2 r = -I * ((5 / 4 : ℝ) : ℂ) * (((1 : ℝ) : ℂ) * planar (3 / 4) ![0, 3 / 5, 0] ![0, 0, 4 / 5 * I] 0 r)
      rw [(p 2).2.1, (p 1).2.2]; simp [planar]
    · show pd (planar (3 / 4) ![1, 0, 0] 0 0) 2 r - pd (planar (3 / 4) ![1, 0, 0] 0 2) 0 r = -I * ((5 / 4 : ℝ) : ℂ) * (((1 : ℝ) : ℂ) * planar (3 / 4) ![0, 3 / 5, 0] ![0, 0, 4 / 5 * I] 1 r)
      rw [(p 2).1, (p 0).2.2]; simp [planar]; ring
    · show pd (planar (3 / 4) ![1, 0, 0] 0 1) 0 r - pd (planar (3 / 4) ![1, 0, 0] 0 0) 1 r = -I * ((5 / 4 : ℝ) : ℂ) * (((1 : ℝ) : ℂ) * planar (3 / 4) ![0, 3 / 5, 0] ![0, 0, 4 / 5 * I] 2 r)
      rw [(p 1).1, (p 0).2.1]
      simp only [planar, hx]
      simp
      linear_combination (x * sin (r 1 : ℂ)) * I_sq
  · have p := fun c => planar_pd (3 / 4) ![0, 3 / 5, 0] ![0, 0, 4 / 5 * I] c r
    generalize hx : exp (-I * ((3 / 4 : ℝ) : ℂ) * (r 2 : ℝ)) = x at p
    fin_cases c
    · show pd (planar (3 / 4) ![0, 3 / 5, 0] ![0, 0, 4 / 5 * I] 2) 1 r - pd (planar (3 / 4) ![0, 3 / 5, 0] ![0, 0, 4 / 5 * I] 1) 2 r = I * ((5 / 4 : ℝ) : ℂ) * (((1 : ℝ) : ℂ) * planar (3 / 4) ![1, 0, 0] 0 0 r)
      rw [(p 2).2.1, (p 1).2.2]
      simp only [planar, hx]
      simp
      ring
    · show pd (planar (3 / 4) ![0, 3 / 5, 0] ![0, 0, 4 / 5 * I] 0) 2 r - pd (planar (3 / 4) ![0, 3 / 5, 0] ![0, 0, 4 / 5 * I] 2) 0 r = I * ((5 / 4 : ℝ) : ℂ) * (((1 : ℝ) : ℂ) * planar (3 / 4) ![1, 0, 0] 0 1 r)
      rw [(p 2).1, (p 0).2.2]; simp [planar]
    · show pd (planar (3 / 4) ![0, 3 / 5, 0] ![0, 0, 4 / 5 * I] 1) 0 r - pd (planar (3 / 4) ![0, 3 / 5, 0] ![0, 0, 4 / 5 * I] 0) 1 r = I * ((5 / 4 : ℝ) : ℂ) * (((1 : ℝ) : ℂ) * planar (3 / 4) ![1, 0, 0] 0 2 r)
      rw [(p 1).1, (p 0).2.1]; simp [planar]
  · fin_cases c <;> simp
  · fin_cases c <;> simp <;> norm_num

-- Non-vacuous: a wave crossing a homogeneous medium at an angle has β = 3/4 at frequency 5/4, so fine grids have this wavenumber at a frequency near 5/4.
example : ∃ C : ℝ, ∃ h₀ > 0, ∀ (sh : Fin 2 → ℕ) (h : Fin 2 → ℝ), (∀ a, 2 * Real.pi = sh a * h a) → (∀ a, 0 < h a) → (∀ a, h a ≤ h₀) →
    ∃ w : ℝ, |w - 5 / 4| ≤ C * ∑ a, h a ^ 2 ∧
      IsEigenvalue (operatorE w (cw (crossGrid sh h), cw (crossGrid sh h)) (crossSampleE sh h fun _ _ => ((1 : ℝ) : ℂ)) (some (crossSampleH sh h fun _ _ => ((1 : ℝ) : ℂ))))
        (((3 / 4 : ℝ) : ℂ) ^ 2) := by
  obtain ⟨C, h₀, h0, hm⟩ := C130_second_order (fun _ => by positivity) (by norm_num) (by norm_num) one_pos (fun _ _ => le_refl _) (fun _ _ => le_refl _) planar_guided
    ⟨0, 0, by simp [planar]⟩
  refine ⟨C, h₀, h0, fun sh h hL hh hle => ?_⟩
  obtain ⟨⟨w, -, hw, hr, -⟩, -⟩ := hm sh h hL hh hle
  exact ⟨w, hw, hr⟩

end Meanas.Props
