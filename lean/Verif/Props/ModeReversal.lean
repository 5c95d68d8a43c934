/-
C102: backward waveguide modes and time reversal of lossless ones (meanas/fdfd/waveguide_2d.py).
-/
import Verif.Props.Waveguide2dPower
import Mathlib.Analysis.Complex.Polynomial.Basic

namespace Meanas.Props

open Matrix Complex OperatorsS Spec Wg2

variable {sh : Fin 2 → ℕ}

/-- Reversal of the longitudinal component of a slice. -/
def flipZ (v : V 3 sh) : V 3 sh := fun p => if p.1 = 2 then -v p else v p

/-- C102: reconstructing with the opposite wavenumber reverses `E_z`, `H_x`, `H_y` and nothing else. -/
theorem C102_reversed_fields {β : ℂ} (_hβ : β ≠ 0) (ω : ℂ) (dxes : Dx2 sh) (eps : V 3 sh) (mu : Option (V 3 sh)) (v : V 2 sh) :
    exy2e (-β) dxes eps *ᵥ v = flipZ (exy2e β dxes eps *ᵥ v) ∧
    exy2h (-β) ω dxes eps mu *ᵥ v = -flipZ (exy2h β ω dxes eps mu *ᵥ v) := by
  have he : exy2e (-β) dxes eps *ᵥ v = flipZ (exy2e β dxes eps *ᵥ v) := by
    funext ⟨c, x⟩
    match c with
    | 0 => simp [flipZ, exy2e_0]
    | 1 => simp [flipZ, exy2e_1]
    | 2 =>
      simp only [flipZ, exy2e_2, if_true]
      rw [show I * -β * eps (2, x) = -(I * β * eps (2, x)) by ring, div_neg]
  refine ⟨he, ?_⟩
  simp only [exy2h, ← mulVec_mulVec, he]
  obtain ⟨e, hee⟩ : ∃ e, e = exy2e β dxes eps *ᵥ v := ⟨_, rfl⟩
  rw [← hee]
  have hp2 : part (flipZ e) 2 = -part e 2 := by funext y; simp [part, flipZ]
  have hp0 : part (flipZ e) 0 = part e 0 := by funext y; simp [part, flipZ]
  have hp1 : part (flipZ e) 1 = part e 1 := by funext y; simp [part, flipZ]
  have hfw : ∀ a (f : Idx sh → ℂ) x, fw dxes a (-f) x = -fw dxes a f x := by
    intro a f x; rw [← fwL_apply, ← fwL_apply, map_neg]; rfl
  funext ⟨c, x⟩
  match c with
  | 0 =>
    simp only [e2h_mulVec, curlE_0, hp2, hfw, flipZ, Pi.neg_apply, show ((0 : Fin 3) = 2) = False by simp, show ((1 : Fin 3) = 2) = False by simp, if_false]
    ring
  | 1 =>
    simp only [e2h_mulVec, curlE_1, hp2, hfw, flipZ, Pi.neg_apply, show ((0 : Fin 3) = 2) = False by simp, show ((1 : Fin 3) = 2) = False by simp, if_false]
    ring
  | 2 => simp only [e2h_mulVec, curlE_2, hp0, hp1, flipZ, Pi.neg_apply, if_true, neg_neg]

/-- C102: both are modes, one for each direction. -/
theorem C102_backward_mode {β ω : ℂ} (hβ : β ≠ 0) (hω : ω ≠ 0) (dxes : Dx2 sh) (eps : V 3 sh) (mu : Option (V 3 sh))
    (heps : ∀ p, eps p ≠ 0) (hmu : ∀ p, mu.getD 1 p ≠ 0) (v : V 2 sh) (heig : operatorE ω dxes eps mu *ᵥ v = β ^ 2 • v) :
    let e := exy2e β dxes eps *ᵥ v
    let h := exy2h β ω dxes eps mu *ᵥ v
    IsMode β ω dxes.1 dxes.2 (fld eps) (fld (mu.getD 1)) (fld e) (fld h) ∧
    IsMode (-β) ω dxes.1 dxes.2 (fld eps) (fld (mu.getD 1)) (fld (flipZ e)) (fld (-flipZ h)) := by
  refine ⟨C39_is_mode β ω hβ hω dxes eps mu heps hmu v heig, ?_⟩
  have := C39_is_mode (-β) ω (neg_ne_zero.2 hβ) hω dxes eps mu heps hmu v (by rw [neg_sq]; exact heig)
  rwa [(C102_reversed_fields hβ ω dxes eps mu v).1, (C102_reversed_fields hβ ω dxes eps mu v).2] at this

theorem ip_flip (e h : V 3 sh) (dxes : Dx2 sh) (φ : ℂ) (conjH : Bool) {s : ℂ} (hs : innerProduct e h dxes φ conjH false = .ok s) :
    innerProduct (flipZ e) (-flipZ h) dxes φ conjH false = .ok (-s) := by
  rw [C43_inner_product_value] at hs ⊢
  rw [← Except.ok.inj hs]
  refine congrArg Except.ok ?_
  rw [overlapSum, overlapSum, ← mul_neg, ← Finset.sum_neg_distrib]
  refine congrArg _ (Finset.sum_congr rfl fun x _ => ?_)
  cases conjH <;> simp [fld, flipZ] <;> ring

/-- C102: the power of the reversed mode is the opposite, so `normalized_fields_e` accepts a transverse field with at most one of `±β`: if the
forward mode is normalised, the call with `-β` raises. -/
theorem C102_wrong_direction {β : ℂ} (hβ : β ≠ 0) (ω : ℂ) (dxes : Dx2 sh) (eps : V 3 sh) (mu : Option (V 3 sh)) (v : V 2 sh) (φ : ℂ) {r : V 3 sh × V 3 sh}
    (hr : normalizedFieldsE v β ω dxes eps mu φ = .ok r) :
    normalizedFieldsE v (-β) ω dxes eps mu φ = .error "AssertionError: Found a mode propagating in the wrong direction!" := by
  obtain ⟨-, -, s, hs, hpos⟩ := C42_unit_power _ _ dxes eps φ (e' := r.1) (h' := r.2) hr
  rw [normalizedFieldsE, (C102_reversed_fields hβ ω dxes eps mu v).1, (C102_reversed_fields hβ ω dxes eps mu v).2]
  exact C42_rejects _ _ _ _ _ (ip_flip _ _ _ _ _ hs) (by simp [hpos.le])

/-- Complex conjugate of a slice. -/
noncomputable def conjV {m : ℕ} (v : V m sh) : V m sh := fun p => (starRingEnd ℂ) (v p)

theorem conjV_fw (dE dH : DxList sh ℝ) (a : Fin 2) (f : Idx sh → ℂ) (x : Idx sh) :
    fw (cw dE, cw dH) a (fun y => (starRingEnd ℂ) (f y)) x = (starRingEnd ℂ) (fw (cw dE, cw dH) a f x) := by
  rw [← gradForward_fw, ← gradForward_fw]; exact conj_gradForward dE f a x

theorem conjV_bw (dE dH : DxList sh ℝ) (a : Fin 2) (f : Idx sh → ℂ) (x : Idx sh) :
    bw (cw dE, cw dH) a (fun y => (starRingEnd ℂ) (f y)) x = (starRingEnd ℂ) (bw (cw dE, cw dH) a f x) := by
  rw [← gradBack_bw, ← gradBack_bw]; exact conj_gradBack dH f a x

/-- C102: time reversal. In a lossless medium on a real grid at a real frequency, the conjugate of an eigenvector belongs to the conjugate
wavenumber, and its full fields are the conjugate fields with the longitudinal components reversed. -/
theorem C102_time_reversal {β : ℂ} {ω : ℝ} (hβ : β ≠ 0) (hω : ω ≠ 0) (dE dH : DxList sh ℝ) (eps : V 3 sh) (mu : Option (V 3 sh))
    (heps : ∀ p, eps p ≠ 0) (hepsr : ∀ p, (eps p).im = 0) (hmu : ∀ p, mu.getD 1 p ≠ 0) (hmur : ∀ p, (mu.getD 1 p).im = 0) (v : V 2 sh)
    (heig : operatorE ω (cw dE, cw dH) eps mu *ᵥ v = β ^ 2 • v) :
    operatorE ω (cw dE, cw dH) eps mu *ᵥ conjV v = (starRingEnd ℂ) β ^ 2 • conjV v ∧
    exy2e ((starRingEnd ℂ) β) (cw dE, cw dH) eps *ᵥ conjV v = flipZ (conjV (exy2e β (cw dE, cw dH) eps *ᵥ v)) ∧
    exy2h ((starRingEnd ℂ) β) ω (cw dE, cw dH) eps mu *ᵥ conjV v = flipZ (conjV (exy2h β ω (cw dE, cw dH) eps mu *ᵥ v)) := by
  have hβ' : (starRingEnd ℂ) β ≠ 0 := (map_ne_zero _).2 hβ
  have hω' : (ω : ℂ) ≠ 0 := ofReal_ne_zero.2 hω
  have hce : ∀ p, (starRingEnd ℂ) (eps p) = eps p := fun p => conj_eq_iff_im.2 (hepsr p)
  have hcm : ∀ p, (starRingEnd ℂ) (mu.getD 1 p) = mu.getD 1 p := fun p => conj_eq_iff_im.2 (hmur p)
  obtain ⟨e, hee⟩ : ∃ e, e = exy2e β (cw dE, cw dH) eps *ᵥ v := ⟨_, rfl⟩
  obtain ⟨h, hhh⟩ : ∃ h, h = exy2h β ω (cw dE, cw dH) eps mu *ᵥ v := ⟨_, rfl⟩
  have m := conj_isMode (C39_is_mode β ω hβ hω' (cw dE, cw dH) eps mu heps hmu v heig)
  rw [← hee, ← hhh, conj_ofReal] at m
  have m2 : IsMode (-(starRingEnd ℂ) β) ω (cw dE) (cw dH) (fld eps) (fld (mu.getD 1)) (fld (conjV e)) (fld (-conjV h)) := by
    simp only [fld, hce, hcm] at m
    exact m
  obtain ⟨k1, -, k3, k4, -, -⟩ := C41_mode_gives_eigenvectors _ _ (neg_ne_zero.2 hβ') hω' (cw dE, cw dH) eps mu heps hmu _ _ m2
  have hxy : xy (conjV e) = conjV v := by
    funext ⟨c, x⟩
    match c with
    | 0 => rw [hee]; exact congrArg (starRingEnd ℂ) (exy2e_0 β _ eps v x)
    | 1 => rw [hee]; exact congrArg (starRingEnd ℂ) (exy2e_1 β _ eps v x)
  rw [hxy] at k1 k3 k4
  rw [neg_sq] at k1
  have r := C102_reversed_fields (neg_ne_zero.2 hβ') ω (cw dE, cw dH) eps mu (conjV v)
  rw [neg_neg, k3, k4] at r
  refine ⟨k1, by rw [r.1, hee], ?_⟩
  rw [r.2, ← hhh]
  funext p
  simp only [flipZ, Pi.neg_apply]
  split_ifs <;> simp

/-- C102: a lossless mode with a real wavenumber that is not degenerate has, up to one overall phase, real transverse and imaginary longitudinal
field components. -/
theorem C102_real_fields {β ω : ℝ} (hβ : β ≠ 0) (hω : ω ≠ 0) (dE dH : DxList sh ℝ) (eps : V 3 sh) (mu : Option (V 3 sh))
    (heps : ∀ p, eps p ≠ 0) (hepsr : ∀ p, (eps p).im = 0) (hmu : ∀ p, mu.getD 1 p ≠ 0) (hmur : ∀ p, (mu.getD 1 p).im = 0) (v : V 2 sh) (hv : v ≠ 0)
    (heig : operatorE ω (cw dE, cw dH) eps mu *ᵥ v = (β : ℂ) ^ 2 • v)
    (hsimple : ∀ u, operatorE ω (cw dE, cw dH) eps mu *ᵥ u = (β : ℂ) ^ 2 • u → ∃ c : ℂ, u = c • v) :
    ∃ c : ℂ, ‖c‖ = 1 ∧ ∀ x,
      let e := c • (exy2e β (cw dE, cw dH) eps *ᵥ v)
      let h := c • (exy2h β ω (cw dE, cw dH) eps mu *ᵥ v)
      (e (0, x)).im = 0 ∧ (e (1, x)).im = 0 ∧ (e (2, x)).re = 0 ∧ (h (0, x)).im = 0 ∧ (h (1, x)).im = 0 ∧ (h (2, x)).re = 0 := by
  obtain ⟨k1, k2, k3⟩ := C102_time_reversal (β := β) (ofReal_ne_zero.2 hβ) hω dE dH eps mu heps hepsr hmu hmur v heig
  rw [conj_ofReal] at k1 k2 k3
  obtain ⟨l, hl⟩ := hsimple _ k1
  have hvn : ∃ p, v p ≠ 0 := by by_contra hc; push Not at hc; exact hv (funext hc)
  obtain ⟨p, hp⟩ := hvn
  have hl1 : ‖l‖ = 1 := by
    have := congrArg norm (congrFun hl p)
    simp only [conjV, Pi.smul_apply, smul_eq_mul, norm_mul, RCLike.norm_conj] at this
    exact (mul_right_cancel₀ (norm_ne_zero_iff.2 hp) (by rw [one_mul]; exact this)).symm
  obtain ⟨c, hc⟩ := IsAlgClosed.exists_pow_nat_eq l (n := 2) (by norm_num)
  have hc1 : ‖c‖ = 1 := by
    have : ‖c‖ ^ 2 = 1 := by rw [← norm_pow, hc, hl1]
    exact (pow_eq_one_iff_of_nonneg (norm_nonneg _) two_ne_zero).1 this
  have hcc : c * (starRingEnd ℂ) c = 1 := by rw [mul_conj, normSq_eq_norm_sq, hc1]; simp
  -- conj (c w) = conj c * conj w
  have key : ∀ (A : M 3 2 sh), A *ᵥ conjV v = flipZ (conjV (A *ᵥ v)) → ∀ q, (starRingEnd ℂ) ((c • (A *ᵥ v)) q) = if q.1 = 2 then -(c • (A *ᵥ v)) q else (c • (A *ᵥ v)) q := by
    intro A hA q
    rw [hl, mulVec_smul] at hA
    have := congrFun hA q
    simp only [flipZ, conjV, Pi.smul_apply, smul_eq_mul, ← hc] at this ⊢
    rw [map_mul]
    split_ifs at this ⊢ with h2
    · linear_combination ((starRingEnd ℂ) c) * this - (c * (A *ᵥ v) q) * hcc
    · linear_combination (-(starRingEnd ℂ) c) * this + (c * (A *ᵥ v) q) * hcc
  have ke := key _ k2
  have kh := key _ k3
  refine ⟨c, hc1, fun x => ?_⟩
  have im0 : ∀ z : ℂ, (starRingEnd ℂ) z = z → z.im = 0 := fun z hz => conj_eq_iff_im.1 hz
  have re0 : ∀ z : ℂ, (starRingEnd ℂ) z = -z → z.re = 0 := fun z hz => by
    have := congrArg Complex.re hz; simp only [conj_re, neg_re] at this; linarith
  exact ⟨im0 _ (by simpa using ke (0, x)), im0 _ (by simpa using ke (1, x)), re0 _ (by simpa using ke (2, x)),
    im0 _ (by simpa using kh (0, x)), im0 _ (by simpa using kh (1, x)), re0 _ (by simpa using kh (2, x))⟩

/-- The hypotheses of `C102_real_fields`: a birefringent medium, polarised along x. Those of `C102_wrong_direction` are met by the plane wave
beside `C96_normalized_fields`, whose wavenumber is real. -/
example : ∃ (v : V 2 (fun _ => 1)) (eps : V 3 fun _ => 1), v ≠ 0 ∧ (∀ p, eps p ≠ 0 ∧ (eps p).im = 0) ∧
    operatorE ((1 : ℝ) : ℂ) (cw fun _ _ => 1, cw fun _ _ => 1) eps none *ᵥ v = ((2 : ℝ) : ℂ) ^ 2 • v ∧
    ∀ u, operatorE ((1 : ℝ) : ℂ) (cw fun _ _ => 1, cw fun _ _ => 1) eps none *ᵥ u = ((2 : ℝ) : ℂ) ^ 2 • u → ∃ c : ℂ, u = c • v := by
  have hs : ∀ (a : Fin 2) (s : ℤ) (x : Idx (fun _ : Fin 2 => 1)), shiftIdx a s x = x := fun a s x => by
    funext b; exact Subsingleton.elim (α := Fin 1) _ _
  have hz : ∀ (dxes : Dx2 fun _ => 1) (a : Fin 2) (f : Idx (fun _ : Fin 2 => 1) → ℂ) x, fw dxes a f x = 0 ∧ bw dxes a f x = 0 := by
    intro dxes a f x
    rw [← gradForward_fw, ← gradBack_bw]
    simp [gradForward, gradBack, hs]
  have hx : ∀ x y : Idx (fun _ : Fin 2 => 1), x = y := fun x y => by funext b; exact Subsingleton.elim (α := Fin 1) _ _
  refine ⟨fun p => if p.1 = 0 then 1 else 0, fun p => if p.1 = 0 then 4 else 1, fun h => ?_, fun p => ?_, ?_, fun u hu => ⟨u (0, fun _ => 0), ?_⟩⟩
  · have := congrFun h (0, fun _ => 0); simp at this
  · dsimp only; split_ifs <;> simp
  · funext ⟨c, x⟩
    match c with
    | 0 => rw [operatorE_0]; simp [hz]; norm_num
    | 1 => rw [operatorE_1]; simp [hz]
  · funext ⟨c, x⟩
    match c with
    | 0 => simp [hx x fun _ => 0]
    | 1 =>
      have := congrFun hu (1, x)
      rw [operatorE_1] at this
      simp [hz] at this
      have h3 : (3 : ℂ) * u (1, x) = 0 := by linear_combination -this
      simpa using h3

end Meanas.Props
