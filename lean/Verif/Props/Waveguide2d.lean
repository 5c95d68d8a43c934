/-
C39, C40, C41: the mode operators of meanas/fdfd/waveguide_2d.py.
-/
import Verif.Lemmas.Waveguide2d

namespace Meanas.Props

open Matrix Complex OperatorsS Spec Wg2

variable {sh : Fin 2 → ℕ}

/-- The components of a vectorised slice as a field. -/
def fld (v : V 3 sh) : Fin 3 → Arr sh ℂ := fun c x => v (c, x)

/-- Core of C39/C40, with the two families of difference operators abstract (they exchange their roles for H). -/
theorem ampere_of_eig (F B : Fin 2 → (Idx sh → ℂ) →ₗ[ℂ] (Idx sh → ℂ)) (hB : ∀ f, B 0 (B 1 f) = B 1 (B 0 f)) {β ω : ℂ} (hβ : β ≠ 0) (hω : ω ≠ 0)
    (eps mu E H : Fin 3 → Idx sh → ℂ) (hmu : ∀ c x, mu c x ≠ 0)
    (hdiv : ∀ x, B 0 (eps 0 * E 0) x + B 1 (eps 1 * E 1) x = I * β * eps 2 x * E 2 x)
    (farX : ∀ x, F 1 (E 2) x - (-I * β) * E 1 x = -I * ω * mu 0 x * H 0 x)
    (farY : ∀ x, (-I * β) * E 0 x - F 0 (E 2) x = -I * ω * mu 1 x * H 1 x)
    (eig0 : ∀ x, ω ^ 2 * (mu 1 x * (eps 0 x * E 0 x)) - mu 1 x * B 1 ((-I * ω) • H 2) x + F 0 ((I * β) • E 2) x = β ^ 2 * E 0 x)
    (eig1 : ∀ x, ω ^ 2 * (mu 0 x * (eps 1 x * E 1 x)) + mu 0 x * B 0 ((-I * ω) • H 2) x + F 1 ((I * β) • E 2) x = β ^ 2 * E 1 x) :
    (∀ x, B 1 (H 2) x - (-I * β) * H 1 x = I * ω * eps 0 x * E 0 x) ∧
    (∀ x, (-I * β) * H 0 x - B 0 (H 2) x = I * ω * eps 1 x * E 1 x) ∧
    (∀ x, B 0 (H 1) x - B 1 (H 0) x = I * ω * eps 2 x * E 2 x) := by
  have aX : ∀ x, B 1 (H 2) x - (-I * β) * H 1 x = I * ω * eps 0 x * E 0 x := by
    intro x
    have h1 := eig0 x
    have h2 := farY x
    simp only [map_smul, Pi.smul_apply, smul_eq_mul] at h1
    refine mul_left_cancel₀ (mul_ne_zero hω (hmu 1 x)) ?_
    linear_combination (-I) * h1 + β * h2 + (ω * mu 1 x * B 1 (H 2) x + β * F 0 (E 2) x) * I_sq
  have aY : ∀ x, (-I * β) * H 0 x - B 0 (H 2) x = I * ω * eps 1 x * E 1 x := by
    intro x
    have h1 := eig1 x
    have h2 := farX x
    simp only [map_smul, Pi.smul_apply, smul_eq_mul] at h1
    refine mul_left_cancel₀ (mul_ne_zero hω (hmu 0 x)) ?_
    linear_combination (-I) * h1 - β * h2 + (-ω * mu 0 x * B 0 (H 2) x + β * F 1 (E 2) x) * I_sq
  refine ⟨aX, aY, fun x => ?_⟩
  have fX : (I * β) • H 1 = (I * ω) • (eps 0 * E 0) - B 1 (H 2) := by
    funext y
    have := aX y
    simp only [Pi.smul_apply, smul_eq_mul, Pi.sub_apply, Pi.mul_apply]
    linear_combination this
  have fY : (I * β) • H 0 = -((I * ω) • (eps 1 * E 1)) - B 0 (H 2) := by
    funext y
    have := aY y
    simp only [Pi.smul_apply, smul_eq_mul, Pi.sub_apply, Pi.mul_apply, Pi.neg_apply]
    linear_combination -this
  have g1 := congrFun (congrArg (B 0) fX) x
  have g2 := congrFun (congrArg (B 1) fY) x
  simp only [map_smul, map_sub, map_neg, hB, Pi.smul_apply, smul_eq_mul, Pi.sub_apply, Pi.neg_apply] at g1 g2
  refine mul_left_cancel₀ (mul_ne_zero I_ne_zero hβ) ?_
  linear_combination g1 - g2 + I * ω * hdiv x

/-- Core of C41: the transverse part of a mode is an eigenvector, and determines the mode. -/
theorem eig_of_mode (F B : Fin 2 → (Idx sh → ℂ) →ₗ[ℂ] (Idx sh → ℂ)) (hB : ∀ f, B 0 (B 1 f) = B 1 (B 0 f)) {β ω : ℂ} (hω : ω ≠ 0)
    (eps mu E H : Fin 3 → Idx sh → ℂ)
    (farX : ∀ x, F 1 (E 2) x - (-I * β) * E 1 x = -I * ω * mu 0 x * H 0 x)
    (farY : ∀ x, (-I * β) * E 0 x - F 0 (E 2) x = -I * ω * mu 1 x * H 1 x)
    (aX : ∀ x, B 1 (H 2) x - (-I * β) * H 1 x = I * ω * eps 0 x * E 0 x)
    (aY : ∀ x, (-I * β) * H 0 x - B 0 (H 2) x = I * ω * eps 1 x * E 1 x)
    (aZ : ∀ x, B 0 (H 1) x - B 1 (H 0) x = I * ω * eps 2 x * E 2 x) :
    (∀ x, B 0 (eps 0 * E 0) x + B 1 (eps 1 * E 1) x = I * β * eps 2 x * E 2 x) ∧
    (∀ x, ω ^ 2 * (mu 1 x * (eps 0 x * E 0 x)) - mu 1 x * B 1 ((-I * ω) • H 2) x + F 0 ((I * β) • E 2) x = β ^ 2 * E 0 x) ∧
    (∀ x, ω ^ 2 * (mu 0 x * (eps 1 x * E 1 x)) + mu 0 x * B 0 ((-I * ω) • H 2) x + F 1 ((I * β) • E 2) x = β ^ 2 * E 1 x) := by
  refine ⟨fun x => ?_, fun x => ?_, fun x => ?_⟩
  · have fX : (I * ω) • (eps 0 * E 0) = B 1 (H 2) + (I * β) • H 1 := by
      funext y
      have := aX y
      simp only [Pi.smul_apply, smul_eq_mul, Pi.add_apply, Pi.mul_apply]
      linear_combination -this
    have fY : (I * ω) • (eps 1 * E 1) = -((I * β) • H 0) - B 0 (H 2) := by
      funext y
      have := aY y
      simp only [Pi.smul_apply, smul_eq_mul, Pi.sub_apply, Pi.mul_apply, Pi.neg_apply]
      linear_combination -this
    have g1 := congrFun (congrArg (B 0) fX) x
    have g2 := congrFun (congrArg (B 1) fY) x
    simp only [map_smul, map_sub, map_add, map_neg, hB, Pi.smul_apply, smul_eq_mul, Pi.sub_apply, Pi.add_apply, Pi.neg_apply] at g1 g2
    refine mul_left_cancel₀ (mul_ne_zero I_ne_zero hω) ?_
    linear_combination g1 + g2 + I * β * aZ x
  · simp only [map_smul, Pi.smul_apply, smul_eq_mul]
    linear_combination I * ω * mu 1 x * aX x - I * β * farY x + (ω ^ 2 * mu 1 x * eps 0 x * E 0 x - β ^ 2 * E 0 x) * I_sq
  · simp only [map_smul, Pi.smul_apply, smul_eq_mul]
    linear_combination I * ω * mu 0 x * aY x + I * β * farX x + (ω ^ 2 * mu 0 x * eps 1 x * E 1 x - β ^ 2 * E 1 x) * I_sq

/-- The difference operators as linear maps. -/
noncomputable def fwL (dxes : Dx2 sh) (a : Fin 2) : (Idx sh → ℂ) →ₗ[ℂ] (Idx sh → ℂ) := (derivForward dxes.1 a).mulVecLin
noncomputable def bwL (dxes : Dx2 sh) (a : Fin 2) : (Idx sh → ℂ) →ₗ[ℂ] (Idx sh → ℂ) := (derivBack dxes.2 a).mulVecLin

theorem fwL_apply (dxes : Dx2 sh) (a : Fin 2) (f : Idx sh → ℂ) : fwL dxes a f = fw dxes a f := derivForward_mulVec _ _ _
theorem bwL_apply (dxes : Dx2 sh) (a : Fin 2) (f : Idx sh → ℂ) : bwL dxes a f = bw dxes a f := derivBack_mulVec _ _ _

theorem bwL_comm (dxes : Dx2 sh) (f : Idx sh → ℂ) : bwL dxes 0 (bwL dxes 1 f) = bwL dxes 1 (bwL dxes 0 f) := by
  simp only [bwL_apply]
  funext x
  exact derivBack_comm _ _ (by decide) f x
theorem fwL_comm (dxes : Dx2 sh) (f : Idx sh → ℂ) : fwL dxes 0 (fwL dxes 1 f) = fwL dxes 1 (fwL dxes 0 f) := by
  simp only [fwL_apply]
  funext x
  exact derivForward_comm _ _ (by decide) f x

/-- Transverse part of a slice. -/
def xy (v : V 3 sh) : V 2 sh := fun p => v (p.1.castSucc, p.2)

theorem isMode_iff (β ω : ℂ) (dxes : Dx2 sh) (eps mu : V 3 sh) (e h : V 3 sh) :
    IsMode β ω dxes.1 dxes.2 (fld eps) (fld mu) (fld e) (fld h) ↔
      (∀ p, (curlE β dxes *ᵥ e) p = -I * ω * mu p * h p) ∧ ∀ p, (curlH β dxes *ᵥ h) p = I * ω * eps p * e p := by
  constructor
  · intro m
    constructor
    · rintro ⟨c, x⟩
      revert c; apply forall_fin3
      · have := m.faradayX x; rw [gradForward_fw] at this; rw [curlE_0]; exact this
      · have := m.faradayY x; rw [gradForward_fw] at this; rw [curlE_1]; exact this
      · have := m.faradayZ x; rw [gradForward_fw, gradForward_fw] at this; rw [curlE_2]; exact this
    · rintro ⟨c, x⟩
      revert c; apply forall_fin3
      · have := m.ampereX x; rw [gradBack_bw] at this; rw [curlH_0]; exact this
      · have := m.ampereY x; rw [gradBack_bw] at this; rw [curlH_1]; exact this
      · have := m.ampereZ x; rw [gradBack_bw, gradBack_bw] at this; rw [curlH_2]; exact this
  · rintro ⟨h1, h2⟩
    refine ⟨fun x => ?_, fun x => ?_, fun x => ?_, fun x => ?_, fun x => ?_, fun x => ?_⟩
    · have := h1 (0, x); rw [curlE_0] at this; rw [gradForward_fw]; exact this
    · have := h1 (1, x); rw [curlE_1] at this; rw [gradForward_fw]; exact this
    · have := h1 (2, x); rw [curlE_2] at this; rw [gradForward_fw, gradForward_fw]; exact this
    · have := h2 (0, x); rw [curlH_0] at this; rw [gradBack_bw]; exact this
    · have := h2 (1, x); rw [curlH_1] at this; rw [gradBack_bw]; exact this
    · have := h2 (2, x); rw [curlH_2] at this; rw [gradBack_bw, gradBack_bw]; exact this

theorem negIw_ne {ω : ℂ} (hω : ω ≠ 0) : -I * ω ≠ 0 := mul_ne_zero (neg_ne_zero.2 I_ne_zero) hω
theorem Iw_ne {ω : ℂ} (hω : ω ≠ 0) : I * ω ≠ 0 := mul_ne_zero I_ne_zero hω

/-- C39: an eigenvector of `operator_e` gives, through `exy2e` and `exy2h`, fields that satisfy the discrete curl equations. -/
theorem C39_is_mode (β ω : ℂ) (hβ : β ≠ 0) (hω : ω ≠ 0) (dxes : Dx2 sh) (eps : V 3 sh) (mu : Option (V 3 sh))
    (heps : ∀ p, eps p ≠ 0) (hmu : ∀ p, mu.getD 1 p ≠ 0) (v : V 2 sh) (heig : operatorE ω dxes eps mu *ᵥ v = β ^ 2 • v) :
    IsMode β ω dxes.1 dxes.2 (fld eps) (fld (mu.getD 1)) (fld (exy2e β dxes eps *ᵥ v)) (fld (exy2h β ω dxes eps mu *ᵥ v)) := by
  set e := exy2e β dxes eps *ᵥ v with he
  have hh : exy2h β ω dxes eps mu *ᵥ v = e2h β ω dxes mu *ᵥ e := by rw [exy2h, ← mulVec_mulVec]
  rw [hh]
  set h := e2h β ω dxes mu *ᵥ e with hhd
  set m := mu.getD 1 with hm
  have far : ∀ p, (curlE β dxes *ᵥ e) p = -I * ω * m p * h p := by
    intro p
    rw [hhd, e2h_mulVec, mul_div_cancel₀ _ (mul_ne_zero (negIw_ne hω) (hmu p))]
  have he0 : part v 0 = fld e 0 := by funext x; exact (exy2e_0 β dxes eps v x).symm
  have he1 : part v 1 = fld e 1 := by funext x; exact (exy2e_1 β dxes eps v x).symm
  have hdiv : ∀ x, bwL dxes 0 (fld eps 0 * fld e 0) x + bwL dxes 1 (fld eps 1 * fld e 1) x = I * β * fld eps 2 x * fld e 2 x := by
    intro x
    have := exy2e_2 β dxes eps v x
    rw [← he, eq_div_iff (mul_ne_zero (Iw_ne hβ) (heps _))] at this
    simp only [bwL_apply, ← he0, ← he1]
    exact (this.symm.trans (by simp only [fld]; ring))
  have hz : (fun y => (fw dxes 0 (part v 1) y - fw dxes 1 (part v 0) y) / m (2, y)) = (-I * ω) • fld h 2 := by
    funext y
    have := far (2, y)
    rw [curlE_2] at this
    rw [he0, he1, div_eq_iff (hmu _)]
    exact this.trans (by simp only [Pi.smul_apply, smul_eq_mul, fld]; ring)
  have hd : (fun y => (bw dxes 0 (fun z => eps (0, z) * v (0, z)) y + bw dxes 1 (fun z => eps (1, z) * v (1, z)) y) / eps (2, y))
      = (I * β) • fld e 2 := by
    funext y
    rw [div_eq_iff (heps _)]
    have := hdiv y
    simp only [bwL_apply, ← he0, ← he1] at this
    exact this.trans (by simp only [Pi.smul_apply, smul_eq_mul, fld]; ring)
  have key := ampere_of_eig (fwL dxes) (bwL dxes) (bwL_comm dxes) hβ hω (fld eps) (fld m) (fld e) (fld h) (fun c x => hmu (c, x)) hdiv
    (fun x => by have := far (0, x); rw [curlE_0] at this; rw [fwL_apply]; exact this)
    (fun x => by have := far (1, x); rw [curlE_1] at this; rw [fwL_apply]; exact this)
    (fun x => by
      have := congrFun heig (0, x)
      rw [operatorE_0, hz, hd] at this
      rw [bwL_apply, fwL_apply, ← he0]; exact this)
    (fun x => by
      have := congrFun heig (1, x)
      rw [operatorE_1, hz, hd] at this
      rw [bwL_apply, fwL_apply, ← he1]; exact this)
  obtain ⟨k0, k1, k2⟩ := key
  rw [isMode_iff]
  refine ⟨far, ?_⟩
  rintro ⟨c, x⟩
  revert c; apply forall_fin3
  · rw [curlH_0]; have := k0 x; rw [bwL_apply] at this; exact this
  · rw [curlH_1]; have := k1 x; rw [bwL_apply] at this; exact this
  · rw [curlH_2]; have := k2 x; rw [bwL_apply, bwL_apply] at this; exact this

/-- C39/C41: for any mode the operators `e2h`, `h2e` map its fields to each other. -/
theorem C39_e2h_h2e (β ω : ℂ) (hω : ω ≠ 0) (dxes : Dx2 sh) (eps : V 3 sh) (mu : Option (V 3 sh))
    (heps : ∀ p, eps p ≠ 0) (hmu : ∀ p, mu.getD 1 p ≠ 0) (e h : V 3 sh)
    (m : IsMode β ω dxes.1 dxes.2 (fld eps) (fld (mu.getD 1)) (fld e) (fld h)) :
    e2h β ω dxes mu *ᵥ e = h ∧ h2e β ω dxes eps *ᵥ h = e := by
  obtain ⟨h1, h2⟩ := (isMode_iff β ω dxes eps (mu.getD 1) e h).1 m
  constructor
  · funext p
    rw [e2h_mulVec, h1, mul_div_cancel_left₀ _ (mul_ne_zero (negIw_ne hω) (hmu p))]
  · funext p
    rw [h2e_mulVec, h2, mul_div_cancel_left₀ _ (mul_ne_zero (Iw_ne hω) (heps p))]

theorem norm2_eq_zero {ι : Type*} [Fintype ι] (v : ι → ℂ) : norm2 v = 0 ↔ v = 0 := by
  rw [norm2, Real.sqrt_eq_zero (Finset.sum_nonneg fun i _ => by positivity), Finset.sum_eq_zero_iff_of_nonneg (fun i _ => by positivity)]
  constructor
  · intro h; funext i; simpa using h i (Finset.mem_univ _)
  · rintro rfl; simp

/-- C39/C40: both error measures are zero for every nonzero mode. -/
theorem C39_errors_zero (β ω : ℂ) (dxes : Dx2 sh) (eps : V 3 sh) (mu : Option (V 3 sh))
    (heps : ∀ p, eps p ≠ 0) (hmu : ∀ p, mu.getD 1 p ≠ 0) (e h : V 3 sh)
    (m : IsMode β ω dxes.1 dxes.2 (fld eps) (fld (mu.getD 1)) (fld e) (fld h)) :
    (e ≠ 0 → eErr e β ω dxes eps mu = some 0) ∧ (h ≠ 0 → hErr h β ω dxes eps mu = some 0) := by
  obtain ⟨h1, h2⟩ := (isMode_iff β ω dxes eps (mu.getD 1) e h).1 m
  have hop1 : (curlH β dxes *ᵥ fun p => (curlE β dxes *ᵥ e) p / mu.getD 1 p) = ω ^ 2 • (eps * e) := by
    have : (fun p => (curlE β dxes *ᵥ e) p / mu.getD 1 p) = (-I * ω) • h := by
      funext p
      rw [h1, div_eq_iff (hmu p)]; simp only [Pi.smul_apply, smul_eq_mul]; ring
    rw [this, mulVec_smul]
    funext p
    simp only [Pi.smul_apply, smul_eq_mul, h2, Pi.mul_apply]
    linear_combination (-ω ^ 2 * eps p * e p) * I_sq
  have hop2 : (curlE β dxes *ᵥ fun p => (curlH β dxes *ᵥ h) p / eps p) = ω ^ 2 • (mu.getD 1 * h) := by
    have : (fun p => (curlH β dxes *ᵥ h) p / eps p) = (I * ω) • e := by
      funext p
      rw [h2, div_eq_iff (heps p)]; simp only [Pi.smul_apply, smul_eq_mul]; ring
    rw [this, mulVec_smul]
    funext p
    simp only [Pi.smul_apply, smul_eq_mul, h1, Pi.mul_apply]
    linear_combination (-ω ^ 2 * mu.getD 1 p * h p) * I_sq
  constructor
  · intro hne
    have h0 : norm2 e ≠ 0 := fun hh => hne ((norm2_eq_zero e).1 hh)
    unfold eErr
    cases mu with
    | none =>
      have e1 : curlH β dxes *ᵥ (curlE β dxes *ᵥ e) - ω ^ 2 • (eps * e) = 0 := by
        rw [sub_eq_zero, ← hop1]; simp
      simp only [h0, if_false, e1, (norm2_eq_zero _).2 rfl, zero_div]
    | some m' =>
      have e1 : curlH β dxes *ᵥ ((diagonal fun p => 1 / m' p) *ᵥ (curlE β dxes *ᵥ e)) - ω ^ 2 • (eps * e) = 0 := by
        rw [sub_eq_zero, ← hop1]; congr 1; funext p; rw [mulVec_diagonal, one_div, inv_mul_eq_div]; rfl
      simp only [h0, if_false, e1, (norm2_eq_zero _).2 rfl, zero_div]
  · intro hne
    have h0 : norm2 h ≠ 0 := fun hh => hne ((norm2_eq_zero h).1 hh)
    have hdiag : (diagonal fun p => 1 / eps p) *ᵥ (curlH β dxes *ᵥ h) = fun p => (curlH β dxes *ᵥ h) p / eps p := by
      funext p; rw [mulVec_diagonal, one_div, inv_mul_eq_div]
    unfold hErr
    cases mu with
    | none =>
      have e1 : curlE β dxes *ᵥ ((diagonal fun p => 1 / eps p) *ᵥ (curlH β dxes *ᵥ h)) - ω ^ 2 • h = 0 := by
        rw [sub_eq_zero, hdiag, hop2]; simp
      simp only [h0, if_false, e1, (norm2_eq_zero _).2 rfl, zero_div]
    | some m' =>
      have e1 : curlE β dxes *ᵥ ((diagonal fun p => 1 / eps p) *ᵥ (curlH β dxes *ᵥ h)) - ω ^ 2 • (m' * h) = 0 := by
        rw [sub_eq_zero, hdiag, hop2]; rfl
      simp only [h0, if_false, e1, (norm2_eq_zero _).2 rfl, zero_div]

/-- C39/C40: the error measures decide: zero exactly for the fields of modes with these `beta` and `omega`, NaN exactly for the zero field. -/
theorem C39_errors_decide (β ω : ℂ) (hω : ω ≠ 0) (dxes : Dx2 sh) (eps : V 3 sh) (mu : Option (V 3 sh)) (heps : ∀ p, eps p ≠ 0) (hmu : ∀ p, mu.getD 1 p ≠ 0) (f : V 3 sh) :
    (eErr f β ω dxes eps mu = none ↔ f = 0) ∧ (hErr f β ω dxes eps mu = none ↔ f = 0) ∧
    (eErr f β ω dxes eps mu = some 0 ↔ f ≠ 0 ∧ ∃ h, IsMode β ω dxes.1 dxes.2 (fld eps) (fld (mu.getD 1)) (fld f) (fld h)) ∧
    (hErr f β ω dxes eps mu = some 0 ↔ f ≠ 0 ∧ ∃ e, IsMode β ω dxes.1 dxes.2 (fld eps) (fld (mu.getD 1)) (fld e) (fld f)) := by
  have he : eErr f β ω dxes eps mu = open Classical in if norm2 f = 0 then none
      else some (norm2 ((curlH β dxes *ᵥ fun p => (curlE β dxes *ᵥ f) p / mu.getD 1 p) - ω ^ 2 • (eps * f)) / norm2 f) := by
    unfold eErr
    cases mu with
    | none =>
      have : (fun p => (curlE β dxes *ᵥ f) p / (none : Option (V 3 sh)).getD 1 p) = curlE β dxes *ᵥ f := by funext p; simp
      rw [this]
    | some m =>
      have : (fun p => (curlE β dxes *ᵥ f) p / (some m).getD 1 p) = (diagonal fun p => 1 / m p) *ᵥ (curlE β dxes *ᵥ f) := by
        funext p; rw [mulVec_diagonal, one_div, inv_mul_eq_div]; rfl
      rw [this]
  have hh : hErr f β ω dxes eps mu = open Classical in if norm2 f = 0 then none
      else some (norm2 ((curlE β dxes *ᵥ fun p => (curlH β dxes *ᵥ f) p / eps p) - ω ^ 2 • (mu.getD 1 * f)) / norm2 f) := by
    have : (fun p => (curlH β dxes *ᵥ f) p / eps p) = (diagonal fun p => 1 / eps p) *ᵥ (curlH β dxes *ᵥ f) := by
      funext p; rw [mulVec_diagonal, one_div, inv_mul_eq_div]
    unfold hErr
    rw [this]
    cases mu with
    | none => simp
    | some m => rfl
  have k1 : eErr f β ω dxes eps mu = none ↔ f = 0 := by
    rw [he, ← norm2_eq_zero f]; split_ifs with h <;> simp [h]
  have k2 : hErr f β ω dxes eps mu = none ↔ f = 0 := by
    rw [hh, ← norm2_eq_zero f]; split_ifs with h <;> simp [h]
  refine ⟨k1, k2, ⟨fun h0 => ?_, fun ⟨h0, h, m⟩ => (C39_errors_zero β ω dxes eps mu heps hmu f h m).1 h0⟩, ⟨fun h0 => ?_, fun ⟨h0, e, m⟩ => (C39_errors_zero β ω dxes eps mu heps hmu e f m).2 h0⟩⟩
  · have hf : f ≠ 0 := fun h => by rw [k1.2 h] at h0; simp at h0
    have hn : norm2 f ≠ 0 := fun h => hf ((norm2_eq_zero f).1 h)
    rw [he, if_neg hn, Option.some.injEq, div_eq_zero_iff, or_iff_left hn, norm2_eq_zero, sub_eq_zero] at h0
    refine ⟨hf, fun p => (curlE β dxes *ᵥ f) p / (-I * ω * mu.getD 1 p), (isMode_iff β ω dxes eps (mu.getD 1) f _).2 ⟨fun p => ?_, fun p => ?_⟩⟩
    · rw [mul_div_cancel₀ _ (mul_ne_zero (negIw_ne hω) (hmu p))]
    · have : (fun p => (curlE β dxes *ᵥ f) p / (-I * ω * mu.getD 1 p)) = (-I * ω)⁻¹ • fun p => (curlE β dxes *ᵥ f) p / mu.getD 1 p := by
        funext p; simp only [Pi.smul_apply, smul_eq_mul]; rw [← div_div, div_right_comm, div_eq_inv_mul]
      rw [this, mulVec_smul, h0]
      simp only [Pi.smul_apply, smul_eq_mul, Pi.mul_apply]
      rw [inv_mul_eq_iff_eq_mul₀ (negIw_ne hω)]
      linear_combination (ω ^ 2 * eps p * f p) * I_sq
  · have hf : f ≠ 0 := fun h => by rw [k2.2 h] at h0; simp at h0
    have hn : norm2 f ≠ 0 := fun h => hf ((norm2_eq_zero f).1 h)
    rw [hh, if_neg hn, Option.some.injEq, div_eq_zero_iff, or_iff_left hn, norm2_eq_zero, sub_eq_zero] at h0
    refine ⟨hf, fun p => (curlH β dxes *ᵥ f) p / (I * ω * eps p), (isMode_iff β ω dxes eps (mu.getD 1) _ f).2 ⟨fun p => ?_, fun p => ?_⟩⟩
    · have : (fun p => (curlH β dxes *ᵥ f) p / (I * ω * eps p)) = (I * ω)⁻¹ • fun p => (curlH β dxes *ᵥ f) p / eps p := by
        funext p; simp only [Pi.smul_apply, smul_eq_mul]; rw [← div_div, div_right_comm, div_eq_inv_mul]
      rw [this, mulVec_smul, h0]
      simp only [Pi.smul_apply, smul_eq_mul, Pi.mul_apply]
      rw [inv_mul_eq_iff_eq_mul₀ (Iw_ne hω)]
      linear_combination (ω ^ 2 * mu.getD 1 p * f p) * I_sq
    · rw [mul_div_cancel₀ _ (mul_ne_zero (Iw_ne hω) (heps p))]

/-- C40: an eigenvector of `operator_h` gives, through `hxy2h` and `hxy2e`, fields that satisfy the discrete curl equations. -/
theorem C40_is_mode (β ω : ℂ) (hβ : β ≠ 0) (hω : ω ≠ 0) (dxes : Dx2 sh) (eps : V 3 sh) (mu : Option (V 3 sh))
    (heps : ∀ p, eps p ≠ 0) (hmu : ∀ p, mu.getD 1 p ≠ 0) (v : V 2 sh) (heig : operatorH ω dxes eps mu *ᵥ v = β ^ 2 • v) :
    IsMode β ω dxes.1 dxes.2 (fld eps) (fld (mu.getD 1)) (fld (hxy2e β ω dxes eps mu *ᵥ v)) (fld (hxy2h β dxes mu *ᵥ v)) := by
  set h := hxy2h β dxes mu *ᵥ v with hh
  have hee : hxy2e β ω dxes eps mu *ᵥ v = h2e β ω dxes eps *ᵥ h := by rw [hxy2e, ← mulVec_mulVec]
  rw [hee]
  set e := h2e β ω dxes eps *ᵥ h with hed
  set m := mu.getD 1 with hm
  have amp : ∀ p, (curlH β dxes *ᵥ h) p = I * ω * eps p * e p := by
    intro p
    rw [hed, h2e_mulVec, mul_div_cancel₀ _ (mul_ne_zero (Iw_ne hω) (heps p))]
  have hh0 : part v 0 = fld h 0 := by funext x; exact (hxy2h_0 β dxes mu v x).symm
  have hh1 : part v 1 = fld h 1 := by funext x; exact (hxy2h_1 β dxes mu v x).symm
  have hdiv : ∀ x, fwL dxes 0 (fld m 0 * fld h 0) x + fwL dxes 1 (fld m 1 * fld h 1) x = I * β * fld m 2 x * fld h 2 x := by
    intro x
    have := hxy2h_2 β dxes mu v x
    rw [← hh, ← hm, eq_div_iff (mul_ne_zero (Iw_ne hβ) (hmu _))] at this
    simp only [fwL_apply, ← hh0, ← hh1]
    exact (this.symm.trans (by simp only [fld]; ring))
  have hz : (fun y => (bw dxes 0 (part v 1) y - bw dxes 1 (part v 0) y) / eps (2, y)) = (-I * -ω) • fld e 2 := by
    funext y
    have := amp (2, y)
    rw [curlH_2] at this
    rw [hh0, hh1, div_eq_iff (heps _)]
    exact this.trans (by simp only [Pi.smul_apply, smul_eq_mul, fld]; ring)
  have hd : (fun y => (fw dxes 0 (fun z => m (0, z) * v (0, z)) y + fw dxes 1 (fun z => m (1, z) * v (1, z)) y) / m (2, y))
      = (I * β) • fld h 2 := by
    funext y
    rw [div_eq_iff (hmu _)]
    have := hdiv y
    simp only [fwL_apply, ← hh0, ← hh1] at this
    exact this.trans (by simp only [Pi.smul_apply, smul_eq_mul, fld]; ring)
  have key := ampere_of_eig (bwL dxes) (fwL dxes) (fwL_comm dxes) hβ (neg_ne_zero.2 hω) (fld m) (fld eps) (fld h) (fld e) (fun c x => heps (c, x)) hdiv
    (fun x => by have := amp (0, x); rw [curlH_0] at this; rw [bwL_apply]; exact this.trans (by simp only [fld]; ring))
    (fun x => by have := amp (1, x); rw [curlH_1] at this; rw [bwL_apply]; exact this.trans (by simp only [fld]; ring))
    (fun x => by
      have := congrFun heig (0, x)
      rw [operatorH_0, hz, hd] at this
      rw [bwL_apply, fwL_apply, ← hh0, neg_sq]; exact this)
    (fun x => by
      have := congrFun heig (1, x)
      rw [operatorH_1, hz, hd] at this
      rw [bwL_apply, fwL_apply, ← hh1, neg_sq]; exact this)
  obtain ⟨k0, k1, k2⟩ := key
  rw [isMode_iff]
  refine ⟨?_, amp⟩
  rintro ⟨c, x⟩
  revert c; apply forall_fin3
  · rw [curlE_0]; have := k0 x; rw [fwL_apply] at this; exact this.trans (by simp only [fld]; ring)
  · rw [curlE_1]; have := k1 x; rw [fwL_apply] at this; exact this.trans (by simp only [fld]; ring)
  · rw [curlE_2]; have := k2 x; rw [fwL_apply, fwL_apply] at this; exact this.trans (by simp only [fld]; ring)

/-- C41: a mode's transverse fields are eigenvectors of both operators, and the full fields are what the code reconstructs from them. -/
theorem C41_mode_gives_eigenvectors (β ω : ℂ) (hβ : β ≠ 0) (hω : ω ≠ 0) (dxes : Dx2 sh) (eps : V 3 sh) (mu : Option (V 3 sh))
    (heps : ∀ p, eps p ≠ 0) (hmu : ∀ p, mu.getD 1 p ≠ 0) (e h : V 3 sh)
    (m : IsMode β ω dxes.1 dxes.2 (fld eps) (fld (mu.getD 1)) (fld e) (fld h)) :
    operatorE ω dxes eps mu *ᵥ xy e = β ^ 2 • xy e ∧ operatorH ω dxes eps mu *ᵥ xy h = β ^ 2 • xy h ∧
    exy2e β dxes eps *ᵥ xy e = e ∧ exy2h β ω dxes eps mu *ᵥ xy e = h ∧
    hxy2h β dxes mu *ᵥ xy h = h ∧ hxy2e β ω dxes eps mu *ᵥ xy h = e := by
  have hinv := C39_e2h_h2e β ω hω dxes eps mu heps hmu e h m
  set mm := mu.getD 1 with hmm
  obtain ⟨h1, h2⟩ := (isMode_iff β ω dxes eps mm e h).1 m
  obtain ⟨d1, k1, k2⟩ := eig_of_mode (fwL dxes) (bwL dxes) (bwL_comm dxes) (β := β) hω (fld eps) (fld mm) (fld e) (fld h)
    (fun x => by have := h1 (0, x); rw [curlE_0] at this; rw [fwL_apply]; exact this)
    (fun x => by have := h1 (1, x); rw [curlE_1] at this; rw [fwL_apply]; exact this)
    (fun x => by have := h2 (0, x); rw [curlH_0] at this; rw [bwL_apply]; exact this)
    (fun x => by have := h2 (1, x); rw [curlH_1] at this; rw [bwL_apply]; exact this)
    (fun x => by have := h2 (2, x); rw [curlH_2] at this; rw [bwL_apply, bwL_apply]; exact this)
  obtain ⟨d2, k3, k4⟩ := eig_of_mode (bwL dxes) (fwL dxes) (fwL_comm dxes) (β := β) (neg_ne_zero.2 hω) (fld mm) (fld eps) (fld h) (fld e)
    (fun x => by have := h2 (0, x); rw [curlH_0] at this; rw [bwL_apply]; exact this.trans (by simp only [fld]; ring))
    (fun x => by have := h2 (1, x); rw [curlH_1] at this; rw [bwL_apply]; exact this.trans (by simp only [fld]; ring))
    (fun x => by have := h1 (0, x); rw [curlE_0] at this; rw [fwL_apply]; exact this.trans (by simp only [fld]; ring))
    (fun x => by have := h1 (1, x); rw [curlE_1] at this; rw [fwL_apply]; exact this.trans (by simp only [fld]; ring))
    (fun x => by have := h1 (2, x); rw [curlE_2] at this; rw [fwL_apply, fwL_apply]; exact this.trans (by simp only [fld]; ring))
  simp only [fwL_apply, bwL_apply] at d1 k1 k2 d2 k3 k4
  have hzE : (fun y => (fw dxes 0 (part (xy e) 1) y - fw dxes 1 (part (xy e) 0) y) / mm (2, y)) = (-I * ω) • fld h 2 := by
    funext y
    have := h1 (2, y)
    rw [curlE_2] at this
    rw [div_eq_iff (hmu _)]
    exact this.trans (by simp only [Pi.smul_apply, smul_eq_mul, fld]; ring)
  have hdE : (fun y => (bw dxes 0 (fun z => eps (0, z) * xy e (0, z)) y + bw dxes 1 (fun z => eps (1, z) * xy e (1, z)) y) / eps (2, y))
      = (I * β) • fld e 2 := by
    funext y
    rw [div_eq_iff (heps _)]
    exact (d1 y).trans (by simp only [Pi.smul_apply, smul_eq_mul, fld]; ring)
  have hzH : (fun y => (bw dxes 0 (part (xy h) 1) y - bw dxes 1 (part (xy h) 0) y) / eps (2, y)) = (-I * -ω) • fld e 2 := by
    funext y
    have := h2 (2, y)
    rw [curlH_2] at this
    rw [div_eq_iff (heps _)]
    exact this.trans (by simp only [Pi.smul_apply, smul_eq_mul, fld]; ring)
  have hdH : (fun y => (fw dxes 0 (fun z => mm (0, z) * xy h (0, z)) y + fw dxes 1 (fun z => mm (1, z) * xy h (1, z)) y) / mm (2, y))
      = (I * β) • fld h 2 := by
    funext y
    rw [div_eq_iff (hmu _)]
    exact (d2 y).trans (by simp only [Pi.smul_apply, smul_eq_mul, fld]; ring)
  have rE : exy2e β dxes eps *ᵥ xy e = e := by
    funext p
    obtain ⟨c, x⟩ := p
    revert c; apply forall_fin3
    · rw [exy2e_0]; rfl
    · rw [exy2e_1]; rfl
    · rw [exy2e_2, div_eq_iff (mul_ne_zero (Iw_ne hβ) (heps _))]
      exact (d1 x).trans (by simp only [fld]; ring)
  have rH : hxy2h β dxes mu *ᵥ xy h = h := by
    funext p
    obtain ⟨c, x⟩ := p
    revert c; apply forall_fin3
    · rw [hxy2h_0]; rfl
    · rw [hxy2h_1]; rfl
    · rw [hxy2h_2, div_eq_iff (mul_ne_zero (Iw_ne hβ) (hmu _))]
      exact (d2 x).trans (by simp only [fld]; ring)
  refine ⟨?_, ?_, rE, ?_, rH, ?_⟩
  · funext p
    obtain ⟨c, x⟩ := p
    fin_cases c
    · exact (operatorE_0 ω dxes eps mu (xy e) x).trans (by rw [← hmm, hzE, hdE]; exact k1 x)
    · exact (operatorE_1 ω dxes eps mu (xy e) x).trans (by rw [← hmm, hzE, hdE]; exact k2 x)
  · funext p
    obtain ⟨c, x⟩ := p
    rw [neg_sq] at k3 k4
    fin_cases c
    · exact (operatorH_0 ω dxes eps mu (xy h) x).trans (by rw [← hmm, hzH, hdH]; exact k3 x)
    · exact (operatorH_1 ω dxes eps mu (xy h) x).trans (by rw [← hmm, hzH, hdH]; exact k4 x)
  · rw [exy2h, ← mulVec_mulVec, rE, hinv.1]
  · rw [hxy2e, ← mulVec_mulVec, rH, hinv.2]

/-- `lam` is an eigenvalue of a matrix. -/
def IsEigenvalue {ι : Type*} [Fintype ι] (A : Matrix ι ι ℂ) (lam : ℂ) : Prop := ∃ v, v ≠ 0 ∧ A *ᵥ v = lam • v

/-- C41: the two mode problems have the same nonzero eigenvalues. -/
theorem C41_same_spectrum (β ω : ℂ) (hβ : β ≠ 0) (hω : ω ≠ 0) (dxes : Dx2 sh) (eps : V 3 sh) (mu : Option (V 3 sh))
    (heps : ∀ p, eps p ≠ 0) (hmu : ∀ p, mu.getD 1 p ≠ 0) :
    IsEigenvalue (operatorE ω dxes eps mu) (β ^ 2) ↔ IsEigenvalue (operatorH ω dxes eps mu) (β ^ 2) := by
  constructor
  · rintro ⟨v, hv, he⟩
    have m := C39_is_mode β ω hβ hω dxes eps mu heps hmu v he
    obtain ⟨-, k2, -, -, -, k6⟩ := C41_mode_gives_eigenvectors β ω hβ hω dxes eps mu heps hmu _ _ m
    refine ⟨_, fun h0 => hv ?_, k2⟩
    rw [h0, mulVec_zero] at k6
    funext p
    obtain ⟨c, x⟩ := p
    fin_cases c
    · exact (exy2e_0 β dxes eps v x).symm.trans (congrFun k6.symm (0, x))
    · exact (exy2e_1 β dxes eps v x).symm.trans (congrFun k6.symm (1, x))
  · rintro ⟨v, hv, he⟩
    have m := C40_is_mode β ω hβ hω dxes eps mu heps hmu v he
    obtain ⟨k1, -, -, k4, -, -⟩ := C41_mode_gives_eigenvectors β ω hβ hω dxes eps mu heps hmu _ _ m
    refine ⟨_, fun h0 => hv ?_, k1⟩
    rw [h0, mulVec_zero] at k4
    funext p
    obtain ⟨c, x⟩ := p
    fin_cases c
    · exact (hxy2h_0 β dxes mu v x).symm.trans (congrFun k4.symm (0, x))
    · exact (hxy2h_1 β dxes mu v x).symm.trans (congrFun k4.symm (1, x))

/-- A mode with a nonzero transverse field has nonzero E and H. -/
theorem mode_ne_zero (β ω : ℂ) (hω : ω ≠ 0) (dxes : Dx2 sh) (eps : V 3 sh) (mu : Option (V 3 sh))
    (heps : ∀ p, eps p ≠ 0) (hmu : ∀ p, mu.getD 1 p ≠ 0) (e h : V 3 sh)
    (m : IsMode β ω dxes.1 dxes.2 (fld eps) (fld (mu.getD 1)) (fld e) (fld h)) (hne : e ≠ 0 ∨ h ≠ 0) : e ≠ 0 ∧ h ≠ 0 := by
  obtain ⟨h1, h2⟩ := C39_e2h_h2e β ω hω dxes eps mu heps hmu e h m
  constructor
  · rintro rfl
    rw [mulVec_zero] at h1
    rcases hne with h' | h'
    · exact h' rfl
    · exact h' h1.symm
  · rintro rfl
    rw [mulVec_zero] at h2
    rcases hne with h' | h'
    · exact h' h2.symm
    · exact h' rfl

/-- C39, all clauses: Maxwell's curl equations, the mappings between the fields, zero errors. -/
theorem C39_operator_e_modes (β ω : ℂ) (hβ : β ≠ 0) (hω : ω ≠ 0) (dxes : Dx2 sh) (eps : V 3 sh) (mu : Option (V 3 sh))
    (heps : ∀ p, eps p ≠ 0) (hmu : ∀ p, mu.getD 1 p ≠ 0) (v : V 2 sh) (hv : v ≠ 0) (heig : operatorE ω dxes eps mu *ᵥ v = β ^ 2 • v) :
    let e := exy2e β dxes eps *ᵥ v
    let h := exy2h β ω dxes eps mu *ᵥ v
    xy e = v ∧ IsMode β ω dxes.1 dxes.2 (fld eps) (fld (mu.getD 1)) (fld e) (fld h) ∧
    e2h β ω dxes mu *ᵥ e = h ∧ h2e β ω dxes eps *ᵥ h = e ∧
    eErr e β ω dxes eps mu = some 0 ∧ hErr h β ω dxes eps mu = some 0 := by
  intro e h
  have m := C39_is_mode β ω hβ hω dxes eps mu heps hmu v heig
  have hxy : xy e = v := by
    funext p
    obtain ⟨c, x⟩ := p
    fin_cases c
    · exact exy2e_0 β dxes eps v x
    · exact exy2e_1 β dxes eps v x
  have he : e ≠ 0 := fun h0 => hv (by rw [← hxy, h0]; rfl)
  obtain ⟨i1, i2⟩ := C39_e2h_h2e β ω hω dxes eps mu heps hmu _ _ m
  obtain ⟨-, n2⟩ := mode_ne_zero β ω hω dxes eps mu heps hmu _ _ m (Or.inl he)
  obtain ⟨r1, r2⟩ := C39_errors_zero β ω dxes eps mu heps hmu _ _ m
  exact ⟨hxy, m, i1, i2, r1 he, r2 n2⟩

/-- C40, all clauses. -/
theorem C40_operator_h_modes (β ω : ℂ) (hβ : β ≠ 0) (hω : ω ≠ 0) (dxes : Dx2 sh) (eps : V 3 sh) (mu : Option (V 3 sh))
    (heps : ∀ p, eps p ≠ 0) (hmu : ∀ p, mu.getD 1 p ≠ 0) (v : V 2 sh) (hv : v ≠ 0) (heig : operatorH ω dxes eps mu *ᵥ v = β ^ 2 • v) :
    let h := hxy2h β dxes mu *ᵥ v
    let e := hxy2e β ω dxes eps mu *ᵥ v
    xy h = v ∧ IsMode β ω dxes.1 dxes.2 (fld eps) (fld (mu.getD 1)) (fld e) (fld h) ∧
    e2h β ω dxes mu *ᵥ e = h ∧ h2e β ω dxes eps *ᵥ h = e ∧
    eErr e β ω dxes eps mu = some 0 ∧ hErr h β ω dxes eps mu = some 0 := by
  intro h e
  have m := C40_is_mode β ω hβ hω dxes eps mu heps hmu v heig
  have hxy : xy h = v := by
    funext p
    obtain ⟨c, x⟩ := p
    fin_cases c
    · exact hxy2h_0 β dxes mu v x
    · exact hxy2h_1 β dxes mu v x
  have hh : h ≠ 0 := fun h0 => hv (by rw [← hxy, h0]; rfl)
  obtain ⟨i1, i2⟩ := C39_e2h_h2e β ω hω dxes eps mu heps hmu _ _ m
  obtain ⟨n1, -⟩ := mode_ne_zero β ω hω dxes eps mu heps hmu _ _ m (Or.inr hh)
  obtain ⟨r1, r2⟩ := C39_errors_zero β ω dxes eps mu heps hmu _ _ m
  exact ⟨hxy, m, i1, i2, r1 n1, r2 hh⟩

/-! ### The hypotheses are met -/

/-- A two-column cross-section (independent of y) with widths `dx_e = (1, 4)`, `dx_h = (5/2, 5/2)`, `dy = 1`. -/
noncomputable def exDx : Dx2 (fun _ => 2) :=
  (fun a i => if a = 0 then (if i = 0 then 1 else 4) else 1, fun a _ => if a = 0 then 5 / 2 else 1)
/-- `E_y = (1, 1 + s)` on the two columns. -/
noncomputable def exV (s : ℂ) : V 2 (fun _ => 2) := fun p => if p.1 = 0 then 0 else if p.2 0 = 0 then 1 else 1 + s
/-- `epsilon = (c, 1)` on the two columns for the y component, 1 for the others. -/
noncomputable def exEps (c : ℂ) : V 3 (fun _ => 2) := fun p => if p.1 = 1 ∧ p.2 0 = 0 then c else 1

theorem exEps_ne {c : ℂ} (hc : c ≠ 0) (p : Fin 3 × Idx (fun _ : Fin 2 => 2)) : exEps c p ≠ 0 := by
  unfold exEps; split_ifs
  · exact hc
  · exact one_ne_zero

theorem ex_shift (s : ℤ) (hs : s = 1 ∨ s = -1) (x : Idx (fun _ : Fin 2 => 2)) :
    (shiftIdx 0 s x 0 = 0 ↔ x 0 ≠ 0) ∧ shiftIdx 1 s x 0 = x 0 := by
  refine ⟨?_, shiftIdx_of_ne (by decide) s x⟩
  rw [shiftIdx, Function.update_self]
  generalize x 0 = i
  revert i
  rcases hs with rfl | rfl <;> decide

/-- A mode on a non-uniform grid with a non-uniform medium. -/
theorem exMode (s c ω lam : ℂ) (h1 : ω ^ 2 * c + s / 2 = lam) (h2 : ω ^ 2 * (1 + s) - s / 2 = lam * (1 + s)) :
    operatorE ω exDx (exEps c) none *ᵥ exV s = lam • exV s := by
  have hy : ∀ f : Idx (fun _ : Fin 2 => 2) → ℂ, (∀ x y, x 0 = y 0 → f x = f y) → ∀ x, fw exDx 1 f x = 0 ∧ bw exDx 1 f x = 0 := by
    intro f hf x
    rw [fw, bw, derivForward_eq, derivBack_eq, hf _ x (ex_shift 1 (Or.inl rfl) x).2, hf _ x (ex_shift (-1) (Or.inr rfl) x).2]
    simp
  have e0 : ∀ x, fw exDx 0 (part (exV s) 1) x = if x 0 = 0 then s else -s / 4 := by
    intro x
    rw [fw, derivForward_eq]
    have := (ex_shift 1 (Or.inl rfl) x).1
    generalize shiftIdx 0 1 x = y at this ⊢
    by_cases hx : x 0 = 0
    · have h' : ¬ y 0 = 0 := fun h => (this.1 h) hx
      simp [part, exV, exDx, hx, h']
    · simp [part, exV, exDx, hx, this.2 hx]
  have e1 : ∀ x, fw exDx 1 (part (exV s) 0) x = 0 := fun x => (hy _ (fun _ _ _ => by simp [part, exV]) x).1
  have e2 : ∀ x, bw exDx 1 (fun z => exEps c (1, z) * exV s (1, z)) x = 0 :=
    fun x => (hy _ (fun x y h => by simp [exEps, exV, h]) x).2
  have e3 : ∀ x, bw exDx 0 (fun z => exEps c (0, z) * exV s (0, z)) x = 0 := by
    intro x; rw [bw, derivBack_eq]; simp [exV]
  have e4 : (fun y => (fw exDx 0 (part (exV s) 1) y - fw exDx 1 (part (exV s) 0) y) / (Option.getD none 1 : V 3 (fun _ => 2)) (2, y))
      = fun y => if y 0 = 0 then s else -s / 4 := by
    funext y; rw [e0, e1]; simp
  have e5 : (fun y => (bw exDx 0 (fun z => exEps c (0, z) * exV s (0, z)) y + bw exDx 1 (fun z => exEps c (1, z) * exV s (1, z)) y) / exEps c (2, y))
      = fun y => (0 : ℂ) := by
    funext y; rw [e2, e3]; simp
  funext p
  obtain ⟨k, x⟩ := p
  fin_cases k
  · refine (operatorE_0 ω exDx (exEps c) none (exV s) x).trans ?_
    rw [e4, e5, (hy _ (fun x y h => by simp only [h]) x).2, fw, derivForward_eq]
    simp [exV]
  · refine (operatorE_1 ω exDx (exEps c) none (exV s) x).trans ?_
    rw [e4, e5, fw, bw, derivForward_eq, derivBack_eq]
    have := (ex_shift (-1) (Or.inr rfl) x).1
    generalize shiftIdx 0 (-1) x = y at this ⊢
    by_cases hx : x 0 = 0
    · have h' : ¬ y 0 = 0 := fun h => (this.1 h) hx
      simp [exV, exDx, exEps, hx, h']
      linear_combination h1
    · simp [exV, exDx, exEps, hx, this.2 hx]
      linear_combination h2

theorem exV_ne (s : ℂ) : exV s ≠ 0 := fun h => by
  have := congrFun h (1, fun _ => 0)
  simp [exV] at this

/-- A guided mode on a non-uniform grid in a non-uniform medium: `s = -3`, `c = 7/4`, `ω² = 1`, `β² = 1/4`. -/
example : ∃ (β ω : ℂ) (v : V 2 (fun _ => 2)), β ≠ 0 ∧ ω ≠ 0 ∧ v ≠ 0 ∧ (∀ p, exEps (7 / 4) p ≠ 0) ∧
    operatorE ω exDx (exEps (7 / 4)) none *ᵥ v = β ^ 2 • v :=
  ⟨1 / 2, 1, exV (-3), by norm_num, by norm_num, exV_ne _, exEps_ne (by norm_num), exMode _ _ _ _ (by norm_num) (by norm_num)⟩

end Meanas.Props
