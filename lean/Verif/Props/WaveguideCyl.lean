/-
C47, C48, C49, C72: bent waveguides, meanas/fdfd/waveguide_cyl.py.
-/
import Verif.Lemmas.WaveguideCyl
import Verif.Props.Waveguide2d
import Mathlib.Topology.Instances.Matrix
import Mathlib.Analysis.SpecificLimits.Basic

namespace Meanas.Props

open Matrix Complex OperatorsS Spec Wg2

variable {sh : Fin 2 → ℕ}

/-- Core of C47: curl equations from the eigenvalue equation, with abstract difference operators and scale factors. -/
theorem bent_ampere_of_eig (F B : Fin 2 → (Idx sh → ℂ) →ₗ[ℂ] (Idx sh → ℂ)) (hB : ∀ f, B 0 (B 1 f) = B 1 (B 0 f)) {β ω : ℂ} (hβ : β ≠ 0) (hω : ω ≠ 0)
    (ta tb : Idx sh → ℂ) (ha : ∀ x, ta x ≠ 0) (hb : ∀ x, tb x ≠ 0)
    (hFa : ∀ f, F 1 (ta * f) = ta * F 1 f) (hBb : ∀ f, B 1 (tb * f) = tb * B 1 f)
    (eps E H : Fin 3 → Idx sh → ℂ)
    (hdiv : ∀ x, B 0 (tb * (eps 0 * E 0)) x + B 1 (ta * (eps 1 * E 1)) x = I * β * eps 2 x * E 2 x)
    (farX : ∀ x, F 1 (E 2) x - (-I * β / ta x) * E 1 x = -I * ω * H 0 x)
    (farY : ∀ x, (-I * β / tb x) * E 0 x - F 0 (ta * E 2) x / tb x = -I * ω * H 1 x)
    (eig0 : ∀ x, ω ^ 2 * (tb x * tb x * eps 0 x * E 0 x) - tb x * B 1 (tb * ((-I * ω) • H 2)) x + F 0 (ta * ((I * β) • E 2)) x = β ^ 2 * E 0 x)
    (eig1 : ∀ x, ω ^ 2 * (ta x * ta x * eps 1 x * E 1 x) + ta x * B 0 (tb * ((-I * ω) • H 2)) x + F 1 (ta * ((I * β) • E 2)) x = β ^ 2 * E 1 x) :
    (∀ x, B 1 (H 2) x - (-I * β / tb x) * H 1 x = I * ω * eps 0 x * E 0 x) ∧
    (∀ x, (-I * β / ta x) * H 0 x - B 0 (tb * H 2) x / ta x = I * ω * eps 1 x * E 1 x) ∧
    (∀ x, B 0 (H 1) x - B 1 (H 0) x = I * ω * eps 2 x * E 2 x) := by
  have aX : ∀ x, tb x * B 1 (H 2) x + I * β * H 1 x = tb x * (I * ω * eps 0 x * E 0 x) := by
    intro x
    have h1 := eig0 x
    have h2 := farY x
    have h2' : (-I * β) * E 0 x - F 0 (ta * E 2) x = -I * ω * (tb x * H 1 x) := by
      have := hb x; field_simp at h2; linear_combination h2
    rw [hBb, mul_smul_comm, map_smul, map_smul] at h1
    simp only [Pi.smul_apply, smul_eq_mul, Pi.mul_apply] at h1
    refine mul_left_cancel₀ (mul_ne_zero hω (hb x)) ?_
    linear_combination (-I) * h1 + β * h2' + (ω * tb x * tb x * B 1 (H 2) x + β * F 0 (ta * E 2) x) * I_sq
  have aY : ∀ x, -I * β * H 0 x - B 0 (tb * H 2) x = ta x * (I * ω * eps 1 x * E 1 x) := by
    intro x
    have h1 := eig1 x
    have h2 := farX x
    have h2' : ta x * F 1 (E 2) x - (-I * β) * E 1 x = -I * ω * (ta x * H 0 x) := by
      have := ha x; field_simp at h2; linear_combination h2
    rw [hFa, mul_smul_comm, map_smul, map_smul] at h1
    simp only [Pi.smul_apply, smul_eq_mul, Pi.mul_apply] at h1
    refine mul_left_cancel₀ (mul_ne_zero hω (ha x)) ?_
    linear_combination (-I) * h1 - β * h2' + (-ω * ta x * B 0 (tb * H 2) x + β * ta x * F 1 (E 2) x) * I_sq
  refine ⟨fun x => ?_, fun x => ?_, fun x => ?_⟩
  · have := aX x; have := hb x; field_simp; linear_combination aX x
  · have := aY x; have := ha x; field_simp; linear_combination aY x
  have fX : (I * β) • H 1 = (I * ω) • (tb * (eps 0 * E 0)) - B 1 (tb * H 2) := by
    funext y
    have := aX y
    rw [hBb]
    simp only [Pi.smul_apply, smul_eq_mul, Pi.sub_apply, Pi.mul_apply]
    linear_combination this
  have fY : (I * β) • H 0 = -((I * ω) • (ta * (eps 1 * E 1))) - B 0 (tb * H 2) := by
    funext y
    have := aY y
    simp only [Pi.smul_apply, smul_eq_mul, Pi.sub_apply, Pi.mul_apply, Pi.neg_apply]
    linear_combination -this
  have g1 := congrFun (congrArg (B 0) fX) x
  have g2 := congrFun (congrArg (B 1) fY) x
  simp only [map_smul, map_sub, map_neg, hB, Pi.smul_apply, smul_eq_mul, Pi.sub_apply, Pi.neg_apply] at g1 g2
  refine mul_left_cancel₀ (mul_ne_zero I_ne_zero hβ) ?_
  linear_combination g1 - g2 + I * ω * hdiv x

/-- Core of the converse. -/
theorem bent_eig_of_mode (F B : Fin 2 → (Idx sh → ℂ) →ₗ[ℂ] (Idx sh → ℂ)) (hB : ∀ f, B 0 (B 1 f) = B 1 (B 0 f)) {β ω : ℂ} (hω : ω ≠ 0)
    (ta tb : Idx sh → ℂ) (ha : ∀ x, ta x ≠ 0) (hb : ∀ x, tb x ≠ 0)
    (hFa : ∀ f, F 1 (ta * f) = ta * F 1 f) (hBb : ∀ f, B 1 (tb * f) = tb * B 1 f)
    (eps E H : Fin 3 → Idx sh → ℂ)
    (farX : ∀ x, F 1 (E 2) x - (-I * β / ta x) * E 1 x = -I * ω * H 0 x)
    (farY : ∀ x, (-I * β / tb x) * E 0 x - F 0 (ta * E 2) x / tb x = -I * ω * H 1 x)
    (ampX : ∀ x, B 1 (H 2) x - (-I * β / tb x) * H 1 x = I * ω * eps 0 x * E 0 x)
    (ampY : ∀ x, (-I * β / ta x) * H 0 x - B 0 (tb * H 2) x / ta x = I * ω * eps 1 x * E 1 x)
    (ampZ : ∀ x, B 0 (H 1) x - B 1 (H 0) x = I * ω * eps 2 x * E 2 x) :
    (∀ x, B 0 (tb * (eps 0 * E 0)) x + B 1 (ta * (eps 1 * E 1)) x = I * β * eps 2 x * E 2 x) ∧
    (∀ x, ω ^ 2 * (tb x * tb x * eps 0 x * E 0 x) - tb x * B 1 (tb * ((-I * ω) • H 2)) x + F 0 (ta * ((I * β) • E 2)) x = β ^ 2 * E 0 x) ∧
    (∀ x, ω ^ 2 * (ta x * ta x * eps 1 x * E 1 x) + ta x * B 0 (tb * ((-I * ω) • H 2)) x + F 1 (ta * ((I * β) • E 2)) x = β ^ 2 * E 1 x) := by
  have aX : ∀ x, tb x * B 1 (H 2) x + I * β * H 1 x = tb x * (I * ω * eps 0 x * E 0 x) := by
    intro x; have h := ampX x; have := hb x; field_simp at h; linear_combination h
  have aY : ∀ x, -I * β * H 0 x - B 0 (tb * H 2) x = ta x * (I * ω * eps 1 x * E 1 x) := by
    intro x; have h := ampY x; have := ha x; field_simp at h; linear_combination h
  refine ⟨fun x => ?_, fun x => ?_, fun x => ?_⟩
  · have fX : (I * ω) • (tb * (eps 0 * E 0)) = B 1 (tb * H 2) + (I * β) • H 1 := by
      funext y
      have := aX y
      rw [hBb]
      simp only [Pi.smul_apply, smul_eq_mul, Pi.add_apply, Pi.mul_apply]
      linear_combination -this
    have fY : (I * ω) • (ta * (eps 1 * E 1)) = -((I * β) • H 0) - B 0 (tb * H 2) := by
      funext y
      have := aY y
      simp only [Pi.smul_apply, smul_eq_mul, Pi.sub_apply, Pi.mul_apply, Pi.neg_apply]
      linear_combination -this
    have g1 := congrFun (congrArg (B 0) fX) x
    have g2 := congrFun (congrArg (B 1) fY) x
    simp only [map_smul, map_sub, map_add, map_neg, hB, Pi.smul_apply, smul_eq_mul, Pi.sub_apply, Pi.add_apply, Pi.neg_apply] at g1 g2
    refine mul_left_cancel₀ (mul_ne_zero I_ne_zero hω) ?_
    linear_combination g1 + g2 + I * β * ampZ x
  · have h2 := farY x
    have h2' : (-I * β) * E 0 x - F 0 (ta * E 2) x = -I * ω * (tb x * H 1 x) := by
      have := hb x; field_simp at h2; linear_combination h2
    rw [hBb, mul_smul_comm, map_smul, map_smul]
    simp only [Pi.smul_apply, smul_eq_mul, Pi.mul_apply]
    linear_combination I * ω * tb x * aX x - I * β * h2' + (ω ^ 2 * tb x * tb x * eps 0 x * E 0 x - β ^ 2 * E 0 x) * I_sq
  · have h2 := farX x
    have h2' : ta x * F 1 (E 2) x - (-I * β) * E 1 x = -I * ω * (ta x * H 0 x) := by
      have := ha x; field_simp at h2; linear_combination h2
    rw [hFa, mul_smul_comm, map_smul, map_smul]
    simp only [Pi.smul_apply, smul_eq_mul, Pi.mul_apply]
    linear_combination I * ω * ta x * aY x + I * β * h2' + (ω ^ 2 * ta x * ta x * eps 1 x * E 1 x - β ^ 2 * E 1 x) * I_sq

/-- Scaling the angular wavenumber and the radii together changes nothing. -/
theorem isBentMode_scale (m ω : ℂ) (dxes : Dx2 sh) (ra rb : Fin (sh 0) → ℂ) (eps mu E H : Fin 3 → Arr sh ℂ) {s : ℂ} (hs : s ≠ 0) :
    IsBentMode (m / s) ω dxes.1 dxes.2 (fun i => ra i / s) (fun i => rb i / s) eps mu E H ↔ IsBentMode m ω dxes.1 dxes.2 ra rb eps mu E H := by
  have e1 : ∀ r : ℂ, -I * (m / s) / (r / s) = -I * m / r := by
    intro r; rw [mul_div_assoc', div_div_div_cancel_right₀ hs]
  have e2 : ∀ x, gradForward (some dxes.1) (fun y => ra (y 0) / s * E 2 y) 0 x / (rb (x 0) / s)
      = gradForward (some dxes.1) (fun y => ra (y 0) * E 2 y) 0 x / rb (x 0) := by
    intro x
    rw [gradForward_fw, gradForward_fw, fw, fw, derivForward_eq, derivForward_eq]
    field_simp
  have e3 : ∀ x, gradBack (some dxes.2) (fun y => rb (y 0) / s * H 2 y) 0 x / (ra (x 0) / s)
      = gradBack (some dxes.2) (fun y => rb (y 0) * H 2 y) 0 x / ra (x 0) := by
    intro x
    rw [gradBack_bw, gradBack_bw, bw, bw, derivBack_eq, derivBack_eq]
    field_simp
  constructor
  · intro h
    refine ⟨fun x => ?_, fun x => ?_, h.faradayZ, fun x => ?_, fun x => ?_, h.ampereZ⟩
    · have := h.faradayX x; rwa [e1] at this
    · have := h.faradayY x; rwa [e1, e2] at this
    · have := h.ampereX x; rwa [e1] at this
    · have := h.ampereY x; rwa [e1, e3] at this
  · intro h
    refine ⟨fun x => ?_, fun x => ?_, h.faradayZ, fun x => ?_, fun x => ?_, h.ampereZ⟩
    · rw [e1]; exact h.faradayX x
    · rw [e1, e2]; exact h.faradayY x
    · rw [e1]; exact h.ampereX x
    · rw [e1, e3]; exact h.ampereY x

/-- The longitudinal field that the divergence condition assigns to a transverse one in a bend. -/
noncomputable def bentEz (m : ℂ) (dxes : Dx2 sh) (ra rb : Fin (sh 0) → ℂ) (eps : V 3 sh) (v : V 2 sh) (x : Idx sh) : ℂ :=
  (bw dxes 0 (fun y => rb (y 0) * (eps (0, y) * v (0, y))) x + bw dxes 1 (fun y => ra (y 0) * (eps (1, y) * v (1, y))) x) / (I * m * eps (2, x))

/-- A transverse field completed by a longitudinal one. -/
def complete (v : V 2 sh) (ez : Idx sh → ℂ) : V 3 sh := fun p => if h : (p.1 : ℕ) < 2 then v (⟨p.1, h⟩, p.2) else ez p.2

@[simp] theorem complete_0 (v : V 2 sh) (ez : Idx sh → ℂ) (x : Idx sh) : complete v ez (0, x) = v (0, x) := rfl
@[simp] theorem complete_1 (v : V 2 sh) (ez : Idx sh → ℂ) (x : Idx sh) : complete v ez (1, x) = v (1, x) := rfl
@[simp] theorem complete_2 (v : V 2 sh) (ez : Idx sh → ℂ) (x : Idx sh) : complete v ez (2, x) = ez x := rfl

/-- The scale factors as functions of position. -/
noncomputable abbrev tA (dxes : Dx2 sh) (rmin : ℂ) (x : Idx sh) : ℂ := WgCyl.ra dxes rmin (x 0) / rmin
noncomputable abbrev tB (dxes : Dx2 sh) (rmin : ℂ) (x : Idx sh) : ℂ := WgCyl.rb dxes rmin (x 0) / rmin

theorem bw_smul_div (dxes : Dx2 sh) (a : Fin 2) (r f : Idx sh → ℂ) (s : ℂ) (x : Idx sh) :
    bw dxes a (fun y => r y / s * f y) x = bw dxes a (fun y => r y * f y) x / s := by
  rw [bw, bw, derivBack_eq, derivBack_eq]; ring
theorem bw_div (dxes : Dx2 sh) (a : Fin 2) (f : Idx sh → ℂ) (s : ℂ) (x : Idx sh) :
    bw dxes a (fun y => f y / s) x = bw dxes a f x / s := by
  rw [bw, bw, derivBack_eq, derivBack_eq]; ring

section
variable {m ω rmin : ℂ} (hm : m ≠ 0) (hω : ω ≠ 0) (hr : rmin ≠ 0) (dxes : Dx2 sh) (eps : V 3 sh) (heps : ∀ p, eps p ≠ 0)
  (ha : ∀ i, WgCyl.ra dxes rmin i ≠ 0) (hb : ∀ i, WgCyl.rb dxes rmin i ≠ 0)

theorem fwL_tA (dxes : Dx2 sh) (rmin : ℂ) (f : Idx sh → ℂ) : fwL dxes 1 (tA dxes rmin * f) = tA dxes rmin * fwL dxes 1 f := by
  funext x
  rw [fwL_apply, fwL_apply]
  exact WgCyl.fw_one_mul dxes (fun i => WgCyl.ra dxes rmin i / rmin) f x
theorem bwL_tB (dxes : Dx2 sh) (rmin : ℂ) (f : Idx sh → ℂ) : bwL dxes 1 (tB dxes rmin * f) = tB dxes rmin * bwL dxes 1 f := by
  funext x
  rw [bwL_apply, bwL_apply]
  exact WgCyl.bw_one_mul dxes (fun i => WgCyl.rb dxes rmin i / rmin) f x

include hr hm heps in
theorem bentEz_div (v : V 2 sh) (x : Idx sh) :
    bw dxes 0 (fun y => tB dxes rmin y * (eps (0, y) * v (0, y))) x + bw dxes 1 (fun y => tA dxes rmin y * (eps (1, y) * v (1, y))) x
      = I * (m / rmin) * eps (2, x) * bentEz m dxes (WgCyl.ra dxes rmin) (WgCyl.rb dxes rmin) eps v x := by
  rw [bw_smul_div dxes 0 (fun y => WgCyl.rb dxes rmin (y 0)), bw_smul_div dxes 1 (fun y => WgCyl.ra dxes rmin (y 0)), bentEz]
  have := heps (2, x)
  field_simp [I_ne_zero]

include hm hω hr heps ha hb

/-- C47 (part): an eigenvector of `cylindrical_operator`, completed with the longitudinal field of the divergence condition, and with H the negative of `e2h`, is a mode of the
bend. What is missing: `exy2e` computes another longitudinal field, see `C47_exy2e_wrong_partial`. -/
theorem C47_operator_modes_partial (v : V 2 sh) (heig : WgCyl.cylindricalOperator ω dxes eps rmin *ᵥ v = (m / rmin) ^ 2 • v) :
    let e := complete v (bentEz m dxes (WgCyl.ra dxes rmin) (WgCyl.rb dxes rmin) eps v)
    IsBentMode m ω dxes.1 dxes.2 (WgCyl.ra dxes rmin) (WgCyl.rb dxes rmin) (fld eps) (fun _ _ => 1) (fld e) (fld (-(WgCyl.e2h m ω dxes rmin none *ᵥ e))) := by
  intro e
  set h : V 3 sh := -(WgCyl.e2h m ω dxes rmin none *ᵥ e) with hh
  rw [← isBentMode_scale _ _ _ _ _ _ _ _ _ hr]
  have hβ : m / rmin ≠ 0 := div_ne_zero hm hr
  have ta0 : ∀ x, tA dxes rmin x ≠ 0 := fun x => div_ne_zero (ha _) hr
  have tb0 : ∀ x, tB dxes rmin x ≠ 0 := fun x => div_ne_zero (hb _) hr
  have hdiv := bentEz_div (rmin := rmin) hm hr dxes eps heps v
  have farX : ∀ x, fwL dxes 1 (fld e 2) x - (-I * (m / rmin) / tA dxes rmin x) * fld e 1 x = -I * ω * fld h 0 x := by
    intro x
    have : h (0, x) = (fw dxes 1 (part e 2) x + I * (m / rmin) * (1 / tA dxes rmin x) * e (1, x)) / (-I * ω) := by
      rw [hh, Pi.neg_apply, WgCyl.e2h, WgCyl.e2hT_0, Option.getD_none, Pi.one_apply, mul_one, neg_div, neg_neg]; rfl
    rw [show fld h 0 x = h (0, x) from rfl, this, mul_div_cancel₀ _ (negIw_ne hω), fwL_apply]
    show fw dxes 1 (part e 2) x - _ * e (1, x) = _
    ring
  have farY : ∀ x, (-I * (m / rmin) / tB dxes rmin x) * fld e 0 x - fwL dxes 0 (tA dxes rmin * fld e 2) x / tB dxes rmin x = -I * ω * fld h 1 x := by
    intro x
    have : h (1, x) = -(I * (m / rmin) * (1 / tB dxes rmin x) * e (0, x) + 1 / tB dxes rmin x * fw dxes 0 (fun y => tA dxes rmin y * e (2, y)) x) / (-I * ω) := by
      rw [hh, Pi.neg_apply, WgCyl.e2h, WgCyl.e2hT_1, Option.getD_none, Pi.one_apply, mul_one, neg_div]; rfl
    rw [fld, fld, this, mul_div_cancel₀ _ (negIw_ne hω), fwL_apply]
    show _ - fw dxes 0 (fun y => tA dxes rmin y * e (2, y)) x / _ = _
    ring
  have farZ : ∀ x, fw dxes 0 (part v 1) x - fw dxes 1 (part v 0) x = -I * ω * h (2, x) := by
    intro x
    have : h (2, x) = (fw dxes 0 (part e 1) x - fw dxes 1 (part e 0) x) / (-I * ω) := by
      rw [hh, Pi.neg_apply, WgCyl.e2h, WgCyl.e2hT_2, Option.getD_none, Pi.one_apply, mul_one, neg_div, neg_neg]
    rw [this, mul_div_cancel₀ _ (negIw_ne hω)]; rfl
  have c1 : ∀ f : Idx sh → ℂ, (fun y => f y * (fw dxes 0 (part v 1) y - fw dxes 1 (part v 0) y)) = f * ((-I * ω) • fld h 2) := by
    intro f; funext y; rw [farZ]; rfl
  have c2 : (fun y => tA dxes rmin y * ((bw dxes 0 (fun z => tB dxes rmin z * (eps (0, z) * v (0, z))) y
        + bw dxes 1 (fun z => tA dxes rmin z * (eps (1, z) * v (1, z))) y) / eps (2, y))) = tA dxes rmin * ((I * (m / rmin)) • fld e 2) := by
    funext y; rw [hdiv]
    have := heps (2, y)
    show _ = tA dxes rmin y * (I * (m / rmin) * bentEz m dxes (WgCyl.ra dxes rmin) (WgCyl.rb dxes rmin) eps v y)
    field_simp
  obtain ⟨aX, aY, aZ⟩ := bent_ampere_of_eig (fwL dxes) (bwL dxes) (bwL_comm dxes) hβ hω (tA dxes rmin) (tB dxes rmin) ta0 tb0 (fwL_tA dxes rmin)
    (bwL_tB dxes rmin) (fld eps) (fld e) (fld h) (fun x => by rw [bwL_apply, bwL_apply]; exact hdiv x) farX farY
    (fun x => by
      have := congrFun heig (0, x)
      rw [WgCyl.cylindricalOperator, WgCyl.cylOpT_0] at this
      change _ - _ * bw dxes 1 (fun y => tB dxes rmin y * _) x + fw dxes 0 (fun y => tA dxes rmin y * _) x = _ at this
      rw [c1] at this
      rw [bwL_apply, fwL_apply, ← c2]
      exact this)
    (fun x => by
      have := congrFun heig (1, x)
      rw [WgCyl.cylindricalOperator, WgCyl.cylOpT_1] at this
      change _ + _ * bw dxes 0 (fun y => tB dxes rmin y * _) x + fw dxes 1 (fun y => tA dxes rmin y * _) x = _ at this
      rw [c1] at this
      rw [bwL_apply, fwL_apply, ← c2]
      exact this)
  simp only [fwL_apply, bwL_apply] at farX farY aX aY aZ
  refine ⟨fun x => ?_, fun x => ?_, fun x => ?_, fun x => ?_, fun x => ?_, fun x => ?_⟩
  · rw [gradForward_fw, mul_one]; exact farX x
  · rw [gradForward_fw, mul_one]; exact farY x
  · rw [gradForward_fw, gradForward_fw, mul_one]; exact farZ x
  · rw [gradBack_bw]; exact aX x
  · rw [gradBack_bw]; exact aY x
  · rw [gradBack_bw, gradBack_bw]; exact aZ x

/-- C47 (part): conversely, the transverse part of a mode of the bend is an eigenvector of `cylindrical_operator`, its longitudinal part is the one of the divergence condition, and `e2h`
returns the negative of its H field. -/
theorem C47_mode_gives_eigenvector_partial (e h : V 3 sh)
    (hmode : IsBentMode m ω dxes.1 dxes.2 (WgCyl.ra dxes rmin) (WgCyl.rb dxes rmin) (fld eps) (fun _ _ => 1) (fld e) (fld h)) :
    WgCyl.cylindricalOperator ω dxes eps rmin *ᵥ xy e = (m / rmin) ^ 2 • xy e ∧
      e = complete (xy e) (bentEz m dxes (WgCyl.ra dxes rmin) (WgCyl.rb dxes rmin) eps (xy e)) ∧
      WgCyl.e2h m ω dxes rmin none *ᵥ e = -h := by
  rw [← isBentMode_scale _ _ _ _ _ _ _ _ _ hr] at hmode
  have hβ : m / rmin ≠ 0 := div_ne_zero hm hr
  have ta0 : ∀ x, tA dxes rmin x ≠ 0 := fun x => div_ne_zero (ha _) hr
  have tb0 : ∀ x, tB dxes rmin x ≠ 0 := fun x => div_ne_zero (hb _) hr
  have farX : ∀ x, fw dxes 1 (fld e 2) x - (-I * (m / rmin) / tA dxes rmin x) * fld e 1 x = -I * ω * fld h 0 x := by
    intro x; have := hmode.faradayX x; rwa [gradForward_fw, mul_one] at this
  have farY : ∀ x, (-I * (m / rmin) / tB dxes rmin x) * fld e 0 x - fw dxes 0 (tA dxes rmin * fld e 2) x / tB dxes rmin x = -I * ω * fld h 1 x := by
    intro x; have := hmode.faradayY x; rwa [gradForward_fw, mul_one] at this
  have farZ : ∀ x, fw dxes 0 (part (xy e) 1) x - fw dxes 1 (part (xy e) 0) x = -I * ω * h (2, x) := by
    intro x; have := hmode.faradayZ x; rwa [gradForward_fw, gradForward_fw, mul_one] at this
  obtain ⟨hdiv, e0, e1⟩ := bent_eig_of_mode (fwL dxes) (bwL dxes) (bwL_comm dxes) hω (tA dxes rmin) (tB dxes rmin) ta0 tb0 (fwL_tA dxes rmin)
    (bwL_tB dxes rmin) (fld eps) (fld e) (fld h) (fun x => by rw [fwL_apply]; exact farX x) (fun x => by rw [fwL_apply]; exact farY x)
    (fun x => by have := hmode.ampereX x; rw [gradBack_bw] at this; rw [bwL_apply]; exact this)
    (fun x => by have := hmode.ampereY x; rw [gradBack_bw] at this; rw [bwL_apply]; exact this)
    (fun x => by have := hmode.ampereZ x; rw [gradBack_bw, gradBack_bw] at this; rw [bwL_apply, bwL_apply]; exact this)
  have hz : ∀ x, bentEz m dxes (WgCyl.ra dxes rmin) (WgCyl.rb dxes rmin) eps (xy e) x = e (2, x) := by
    intro x
    have h1 := bentEz_div (rmin := rmin) hm hr dxes eps heps (xy e) x
    have h2 := hdiv x
    rw [bwL_apply, bwL_apply] at h2
    exact (mul_left_cancel₀ (mul_ne_zero (mul_ne_zero I_ne_zero hβ) (heps (2, x))) (h2.symm.trans h1)).symm
  have c1 : ∀ f : Idx sh → ℂ, (fun y => f y * (fw dxes 0 (part (xy e) 1) y - fw dxes 1 (part (xy e) 0) y)) = f * ((-I * ω) • fld h 2) := by
    intro f; funext y; rw [farZ]; rfl
  have c2 : (fun y => tA dxes rmin y * ((bw dxes 0 (fun z => tB dxes rmin z * (eps (0, z) * xy e (0, z))) y
        + bw dxes 1 (fun z => tA dxes rmin z * (eps (1, z) * xy e (1, z))) y) / eps (2, y))) = tA dxes rmin * ((I * (m / rmin)) • fld e 2) := by
    funext y; rw [bentEz_div (rmin := rmin) hm hr dxes eps heps (xy e) y, hz]
    have := heps (2, y)
    show _ = tA dxes rmin y * (I * (m / rmin) * e (2, y))
    field_simp
  refine ⟨?_, ?_, ?_⟩
  · funext ⟨c, x⟩
    match c with
    | 0 =>
      rw [WgCyl.cylindricalOperator, WgCyl.cylOpT_0]
      change _ - _ * bw dxes 1 (fun y => tB dxes rmin y * _) x + fw dxes 0 (fun y => tA dxes rmin y * _) x = _
      have := e0 x
      rw [bwL_apply, fwL_apply, ← c2, ← c1] at this
      exact this
    | 1 =>
      rw [WgCyl.cylindricalOperator, WgCyl.cylOpT_1]
      change _ + _ * bw dxes 0 (fun y => tB dxes rmin y * _) x + fw dxes 1 (fun y => tA dxes rmin y * _) x = _
      have := e1 x
      rw [bwL_apply, fwL_apply, ← c2, ← c1] at this
      exact this
  · funext ⟨c, x⟩
    revert c; apply forall_fin3
    · rfl
    · rfl
    · rw [complete_2, hz]
  · funext ⟨c, x⟩
    revert c; apply forall_fin3
    · rw [WgCyl.e2h, WgCyl.e2hT_0, Option.getD_none, Pi.one_apply, mul_one, Pi.neg_apply, neg_div]
      congr 1
      rw [div_eq_iff (negIw_ne hω)]
      have := farX x
      change fw dxes 1 (part e 2) x - _ * e (1, x) = -I * ω * h (0, x) at this
      change fw dxes 1 (part e 2) x + I * (m / rmin) * (1 / tA dxes rmin x) * e (1, x) = _
      linear_combination this
    · rw [WgCyl.e2h, WgCyl.e2hT_1, Option.getD_none, Pi.one_apply, mul_one, Pi.neg_apply, div_eq_iff (negIw_ne hω)]
      have := farY x
      change _ * e (0, x) - fw dxes 0 (fun y => tA dxes rmin y * e (2, y)) x / _ = -I * ω * h (1, x) at this
      change I * (m / rmin) * (1 / tB dxes rmin x) * e (0, x) + (1 / tB dxes rmin x) * fw dxes 0 (fun y => tA dxes rmin y * e (2, y)) x = _
      linear_combination -this
    · rw [WgCyl.e2h, WgCyl.e2hT_2, Option.getD_none, Pi.one_apply, mul_one, Pi.neg_apply, neg_div]
      congr 1
      rw [div_eq_iff (negIw_ne hω)]
      have := farZ x
      change fw dxes 0 (part e 1) x - fw dxes 1 (part e 0) x = _ at this
      linear_combination this

/-- C47 (part): the longitudinal field `exy2e` computes for a mode of the bend differs from that of the mode by the term with the wrong radius (waveguide_cyl.py:340 has Tb where Ta belongs). -/
theorem C47_exy2e_error_partial (e h : V 3 sh)
    (hmode : IsBentMode m ω dxes.1 dxes.2 (WgCyl.ra dxes rmin) (WgCyl.rb dxes rmin) (fld eps) (fun _ _ => 1) (fld e) (fld h)) (x : Idx sh) :
    (WgCyl.exy2e m ω dxes rmin eps *ᵥ xy e) (2, x) = e (2, x)
      + (1 - WgCyl.rb dxes rmin (x 0) / WgCyl.ra dxes rmin (x 0)) * gradBack (some dxes.2) (fld h 0) 1 x / (I * ω * eps (2, x)) := by
  have hm1 := hmode
  rw [← isBentMode_scale _ _ _ _ _ _ _ _ _ hr] at hmode
  have hβ : m / rmin ≠ 0 := div_ne_zero hm hr
  have ta0 : ∀ x, tA dxes rmin x ≠ 0 := fun x => div_ne_zero (ha _) hr
  have tb0 : ∀ x, tB dxes rmin x ≠ 0 := fun x => div_ne_zero (hb _) hr
  rw [WgCyl.exy2e, WgCyl.exy2eT_2 _ _ _ _ _ _ _ (fun y => -h (2, y))]
  · have s1 : ∀ y, tB dxes rmin y * (I * ω * (eps (1, y) * xy e (1, y)) - 1 / tA dxes rmin y * bw dxes 0 (fun z => tB dxes rmin z * -h (2, z)) y) / (I * (m / rmin))
        = (fun i => -(WgCyl.rb dxes rmin i / WgCyl.ra dxes rmin i)) (y 0) * h (0, y) := by
      intro y
      have h1 := hmode.ampereY y
      rw [gradBack_bw] at h1
      change -I * (m / rmin) / tA dxes rmin y * h (0, y) - bw dxes 0 (fun z => tB dxes rmin z * h (2, z)) y / tA dxes rmin y = I * ω * eps (1, y) * e (1, y) at h1
      have h2 : bw dxes 0 (fun z => tB dxes rmin z * -h (2, z)) y = -bw dxes 0 (fun z => tB dxes rmin z * h (2, z)) y := by
        rw [← bw_neg]; simp only [mul_neg]
      rw [h2, show xy e (1, y) = e (1, y) from rfl, div_eq_iff (mul_ne_zero I_ne_zero hβ)]
      have h3 : tB dxes rmin y * (1 / tA dxes rmin y) = WgCyl.rb dxes rmin (y 0) / WgCyl.ra dxes rmin (y 0) := by
        rw [mul_one_div, div_div_div_cancel_right₀ hr]
      linear_combination -tB dxes rmin y * h1 - I * (m / rmin) * h (0, y) * h3
    have s2 : ∀ y, tB dxes rmin y * (-I * ω * (eps (0, y) * xy e (0, y)) - bw dxes 1 (fun z => -h (2, z)) y) / (I * (m / rmin)) = -h (1, y) := by
      intro y
      have h1 := hmode.ampereX y
      rw [gradBack_bw] at h1
      change bw dxes 1 (fun z => h (2, z)) y - -I * (m / rmin) / tB dxes rmin y * h (1, y) = I * ω * eps (0, y) * e (0, y) at h1
      rw [bw_neg, show xy e (0, y) = e (0, y) from rfl, div_eq_iff (mul_ne_zero I_ne_zero hβ)]
      have := tb0 y
      have h4 : tB dxes rmin y * (-I * (m / rmin) / tB dxes rmin y) = -I * (m / rmin) := mul_div_cancel₀ _ this
      linear_combination tB dxes rmin y * h1 + h (1, y) * h4
    change (bw dxes 1 (fun y => tB dxes rmin y * (I * ω * (eps (1, y) * xy e (1, y)) - 1 / tA dxes rmin y * bw dxes 0 (fun z => tB dxes rmin z * -h (2, z)) y) / (I * (m / rmin))) x
      - bw dxes 0 (fun y => tB dxes rmin y * (-I * ω * (eps (0, y) * xy e (0, y)) - bw dxes 1 (fun z => -h (2, z)) y) / (I * (m / rmin))) x) / _ = _
    simp only [s1, s2]
    rw [WgCyl.bw_one_mul dxes (fun i => -(WgCyl.rb dxes rmin i / WgCyl.ra dxes rmin i)) (fun y => h (0, y)), bw_neg, gradBack_bw]
    have h5 := hm1.ampereZ x
    rw [gradBack_bw, gradBack_bw] at h5
    have hne : I * ω * eps (2, x) ≠ 0 := mul_ne_zero (Iw_ne hω) (heps _)
    have h6 : e (2, x) = (bw dxes 0 (fld h 1) x - bw dxes 1 (fld h 0) x) / (I * ω * eps (2, x)) := by
      rw [h5]; exact (mul_div_cancel_left₀ _ hne).symm
    rw [h6, ← add_div]
    congr 1
    change _ * bw dxes 1 (fld h 0) x - -bw dxes 0 (fld h 1) x = _
    ring
  · intro y
    have := hmode.faradayZ y
    rw [gradForward_fw, gradForward_fw, mul_one] at this
    rw [eq_div_iff (Iw_ne hω)]
    change fw dxes 0 (part (xy e) 1) y - fw dxes 1 (part (xy e) 0) y = -I * ω * h (2, y) at this
    linear_combination -this

end

/-! ### The witness that `exy2e` is wrong -/

/-- A cross-section with one cell along x and two along y. -/
abbrev bentSh : Fin 2 → ℕ := fun a => if a = 0 then 1 else 2

theorem bent_shift0 (s : ℤ) (x : Idx bentSh) : shiftIdx 0 s x = x := by
  funext a
  match a with
  | 0 => exact Subsingleton.elim (α := Fin 1) _ _
  | 1 => exact shiftIdx_of_ne (by decide) s x

/-- Unit widths. -/
def bentDx : Dx2 bentSh := (fun _ _ => 1, fun _ _ => 1)
/-- A field alternating along y. -/
def alt (x : Idx bentSh) : ℂ := if (x 1 : ℕ) = 0 then 1 else -1

theorem alt_ne (x : Idx bentSh) : alt x ≠ 0 := by unfold alt; split_ifs <;> norm_num
theorem alt_shift (x : Idx bentSh) {s : ℤ} (hs : s = 1 ∨ s = -1) : alt (shiftIdx 1 s x) = -alt x := by
  have key : ∀ j : Fin 2, ((wrap j s : Fin 2) : ℕ) = 1 - (j : ℕ) := by
    rcases hs with rfl | rfl <;> decide
  have h1 : ((shiftIdx 1 s x 1 : Fin (bentSh 1)) : ℕ) = 1 - (x 1 : ℕ) := by
    rw [shiftIdx, Function.update_self]; exact key (x 1)
  have h2 : (x 1 : ℕ) < 2 := (x 1).isLt
  unfold alt
  rw [h1]
  generalize (x 1 : ℕ) = j at h2
  have : j = 0 ∨ j = 1 := by omega
  rcases this with rfl | rfl <;> simp

theorem fw0_zero (f : Idx bentSh → ℂ) (x : Idx bentSh) : fw bentDx 0 f x = 0 := by
  rw [fw, derivForward_eq, bent_shift0, sub_self, zero_div]
theorem bw0_zero (f : Idx bentSh → ℂ) (x : Idx bentSh) : bw bentDx 0 f x = 0 := by
  rw [bw, derivBack_eq, bent_shift0, sub_self, zero_div]
theorem fw1_alt (c : ℂ) (x : Idx bentSh) : fw bentDx 1 (fun y => c * alt y) x = -2 * c * alt x := by
  rw [fw, derivForward_eq, alt_shift x (Or.inl rfl), show wOf (some bentDx.1) 1 (x 1) = 1 from rfl]; ring
theorem bw1_alt (c : ℂ) (x : Idx bentSh) : bw bentDx 1 (fun y => c * alt y) x = 2 * c * alt x := by
  rw [bw, derivBack_eq, alt_shift x (Or.inr rfl), show wOf (some bentDx.2) 1 (x 1) = 1 from rfl]; ring

/-- The first cell. -/
def cell0 : Idx bentSh := fun a => ⟨0, by fin_cases a <;> decide⟩

/-- Ex = 0, Ey alternating. -/
def altV : V 2 bentSh := fun p => if p.1 = 0 then 0 else alt p.2

theorem bent_cumsum (i : Fin 1) : WgCyl.cumsumC (fun _ : Fin 1 => (1 : ℂ)) i = 1 := by
  rw [WgCyl.cumsumC, Fin.sum_univ_one]; simp
theorem bent_ra (i : Fin (bentSh 0)) : WgCyl.ra bentDx 1 i = 2 := by
  have : WgCyl.ra bentDx 1 i = 1 + WgCyl.cumsumC (fun _ : Fin 1 => (1 : ℂ)) i := rfl
  rw [this, bent_cumsum]; norm_num
theorem bent_rb (i : Fin (bentSh 0)) : WgCyl.rb bentDx 1 i = 5 / 2 := by
  have : WgCyl.rb bentDx 1 i = 1 + 1 / 2 + WgCyl.cumsumC (fun _ : Fin 1 => (1 : ℂ)) i := rfl
  rw [this, bent_cumsum]; norm_num

theorem altV_eigen : WgCyl.cylindricalOperator (5 / 2) bentDx 1 1 *ᵥ altV = ((3 : ℂ) / 1) ^ 2 • altV := by
  have hta : ∀ x, (WgCyl.dxes2T bentDx 1).1 x = 2 := fun x => by
    rw [show (WgCyl.dxes2T bentDx 1).1 x = WgCyl.ra bentDx 1 (x 0) / 1 from rfl, bent_ra, div_one]
  have htb : ∀ x, (WgCyl.dxes2T bentDx 1).2 x = 5 / 2 := fun x => by
    rw [show (WgCyl.dxes2T bentDx 1).2 x = WgCyl.rb bentDx 1 (x 0) / 1 from rfl, bent_rb, div_one]
  have p0 : part altV 0 = fun y => 0 * alt y := by funext y; rw [zero_mul]; rfl
  have v0 : ∀ y, altV (0, y) = 0 := fun _ => rfl
  have v1 : ∀ y, altV (1, y) = alt y := fun _ => rfl
  funext ⟨c, x⟩
  match c with
  | 0 =>
    rw [WgCyl.cylindricalOperator, WgCyl.cylOpT_0]
    have h1 : ∀ y, fw bentDx 1 (part altV 0) y = 0 := fun y => by rw [p0, fw1_alt]; ring
    have h0 : bw bentDx 1 (fun _ => 0) x = 0 := by
      have := bw1_alt 0 x; simpa using this
    simp only [fw0_zero, h1, v0, mul_zero, sub_zero, add_zero, Pi.smul_apply, smul_eq_mul, h0]
  | 1 =>
    rw [WgCyl.cylindricalOperator, WgCyl.cylOpT_1]
    simp only [bw0_zero, fw0_zero, hta, htb, Pi.one_apply, one_mul, v1, bw1_alt, zero_add, div_one, mul_zero, add_zero, Pi.smul_apply, smul_eq_mul]
    rw [show (fun y => 2 * (2 * 2 * alt y)) = fun y => 8 * alt y from by funext y; ring, fw1_alt]
    ring

/-- C47 is false of `exy2e`: an eigenvector of `cylindrical_operator` for which no H field whatever turns the electric field of `exy2e` into a mode of the bend (one cell along
x, two along y, unit widths, rmin = 1, vacuum, ω = 5/2, angular wavenumber 3). -/
theorem C47_exy2e_wrong_partial : ∃ (sh : Fin 2 → ℕ) (dxes : Dx2 sh) (eps : V 3 sh) (m ω rmin : ℂ) (v : V 2 sh), v ≠ 0 ∧ m ≠ 0 ∧ ω ≠ 0 ∧ rmin ≠ 0 ∧ (∀ p, eps p = 1) ∧
    WgCyl.cylindricalOperator ω dxes eps rmin *ᵥ v = (m / rmin) ^ 2 • v ∧
    ∀ h : V 3 sh, ¬ IsBentMode m ω dxes.1 dxes.2 (WgCyl.ra dxes rmin) (WgCyl.rb dxes rmin) (fld eps) (fun _ _ => 1) (fld (WgCyl.exy2e m ω dxes rmin eps *ᵥ v)) (fld h) := by
  have h3 : (3 : ℂ) ≠ 0 := by norm_num
  have hω : (5 / 2 : ℂ) ≠ 0 := by norm_num
  have heps : ∀ p, (1 : V 3 bentSh) p ≠ 0 := fun _ => one_ne_zero
  have ha : ∀ i, WgCyl.ra bentDx 1 i ≠ 0 := fun i => by rw [bent_ra]; norm_num
  have hb : ∀ i, WgCyl.rb bentDx 1 i ≠ 0 := fun i => by rw [bent_rb]; norm_num
  refine ⟨bentSh, bentDx, 1, 3, 5 / 2, 1, altV, ?_, h3, hω, one_ne_zero, fun _ => rfl, altV_eigen, fun h hmode => ?_⟩
  · intro h0
    exact alt_ne cell0 (congrFun h0 (1, cell0))
  set e' := WgCyl.exy2e 3 (5 / 2) bentDx 1 1 *ᵥ altV with he'
  have hxy : xy e' = altV := by
    funext ⟨c, x⟩
    match c with
    | 0 => exact WgCyl.exy2eT_0 _ _ _ _ _ _ _ _
    | 1 => exact WgCyl.exy2eT_1 _ _ _ _ _ _ _ _
  have herr := C47_exy2e_error_partial h3 hω one_ne_zero bentDx 1 heps ha hb e' h hmode cell0
  obtain ⟨-, hez, hH⟩ := C47_mode_gives_eigenvector_partial h3 hω one_ne_zero bentDx 1 heps ha hb e' h hmode
  rw [hxy] at herr hez
  rw [← he', bent_ra, bent_rb] at herr
  have hz : ∀ y, e' (2, y) = 4 / (3 * I) * alt y := by
    intro y
    rw [hez, complete_2, bentEz]
    simp only [bw0_zero, zero_add, bent_ra, Pi.one_apply, one_mul, mul_one, show ∀ y, altV (1, y) = alt y from fun _ => rfl, bw1_alt]
    ring
  have hx : ∀ y, fld h 0 y = -(5 / 3) * alt y := by
    intro y
    have := hmode.faradayX y
    rw [gradForward_fw, show fld e' 2 = fun y => 4 / (3 * I) * alt y from funext hz, fw1_alt, bent_ra, mul_one,
      show fld e' 1 y = alt y from congrFun hxy (1, y)] at this
    have hI : (1 : ℂ) / I = -I := by simp
    have h4 : (4 : ℂ) / (3 * I) = -(4 / 3) * I := by rw [div_mul_eq_div_div, div_eq_mul_one_div, hI]; ring
    rw [h4] at this
    refine mul_left_cancel₀ (negIw_ne hω) ?_
    rw [← this]; ring
  rw [gradBack_bw, show fld h 0 = fun y => -(5 / 3) * alt y from funext hx, bw1_alt] at herr
  have := alt_ne cell0
  have hne : (1 - 5 / 2 / 2) * (2 * -(5 / 3) * alt cell0) / (I * (5 / 2) * (1 : V 3 bentSh) (2, cell0)) ≠ 0 := by
    refine div_ne_zero (mul_ne_zero (by norm_num) (mul_ne_zero (by norm_num) this)) (mul_ne_zero (Iw_ne hω) (heps _))
  exact hne (add_eq_left.1 herr.symm)

/-- The hypotheses of `C47_operator_modes_partial` are met by the same eigenvector. -/
example : WgCyl.cylindricalOperator (5 / 2) bentDx 1 1 *ᵥ altV = ((3 : ℂ) / 1) ^ 2 • altV ∧ (∀ i, WgCyl.ra bentDx 1 i ≠ 0) ∧ ∀ i, WgCyl.rb bentDx 1 i ≠ 0 :=
  ⟨altV_eigen, fun i => by rw [bent_ra]; norm_num, fun i => by rw [bent_rb]; norm_num⟩

/-! ### C48: the straight limit -/

/-- With unit scale factors the operators are those of the straight waveguide (`e2h` with the opposite sign). -/
theorem C48_unit_factors (β ω : ℂ) (hω : ω ≠ 0) (dxes : Dx2 sh) (eps : V 3 sh) (mu : Option (V 3 sh)) :
    WgCyl.cylOpT ω dxes eps 1 1 = operatorE ω dxes eps none ∧ WgCyl.exy2eT β ω dxes eps 1 1 = exy2e β dxes eps ∧
      WgCyl.e2hT β ω dxes mu 1 1 1 = -e2h β ω dxes mu := by
  refine ⟨mulVec_injective ?_, mulVec_injective ?_, mulVec_injective ?_⟩
  · funext v ⟨c, x⟩
    match c with
    | 0 => rw [WgCyl.cylOpT_0, operatorE_0]; simp
    | 1 => rw [WgCyl.cylOpT_1, operatorE_1]; simp
  · funext v ⟨c, x⟩
    revert c; apply forall_fin3
    · rw [WgCyl.exy2eT_0, exy2e_0]
    · rw [WgCyl.exy2eT_1, exy2e_1]
    · obtain ⟨hz, hhz⟩ : ∃ hz : Idx sh → ℂ, ∀ y, hz y = (fw dxes 0 (part v 1) y - fw dxes 1 (part v 0) y) / (I * ω) := ⟨_, fun _ => rfl⟩
      rw [WgCyl.exy2eT_2 _ _ _ _ _ _ _ hz hhz, exy2e_2]
      have hc := derivBack_comm (some dxes.2) (some dxes.2) (show (0 : Fin 2) ≠ 1 by decide) hz x
      have lin : ∀ (a : Fin 2) (c : ℂ) (f g : Idx sh → ℂ), bw dxes a (fun y => c * f y - g y) x = c * bw dxes a f x - bw dxes a g x := by
        intro a c f g; simp only [derivBack_eq]; ring
      simp only [Pi.one_apply, one_mul, bw_div, lin]
      change bw dxes 0 (bw dxes 1 hz) x = bw dxes 1 (bw dxes 0 hz) x at hc
      rw [hc, ← sub_div, div_div, ← mul_div_mul_left (bw dxes 0 _ x + _) _ (Iw_ne hω)]
      congr 1 <;> ring
  · funext v ⟨c, x⟩
    rw [neg_mulVec, Pi.neg_apply, e2h_mulVec]
    revert c; apply forall_fin3
    · rw [WgCyl.e2hT_0, curlE_0, ← neg_div]; congr 1; rw [Pi.one_apply]; ring
    · rw [WgCyl.e2hT_1, curlE_1, ← neg_div]; simp only [Pi.one_apply, one_mul]; congr 1; rw [show (fun y => v (2, y)) = part v 2 from rfl]; ring
    · rw [WgCyl.e2hT_2, curlE_2, ← neg_div]

open Filter Topology

/-- The scale factors tend to 1 as the bend straightens. -/
theorem C48_scale_factors (dxes : Dx2 sh) :
    Tendsto (fun r : ℝ => (WgCyl.dxes2T dxes r).1) atTop (𝓝 1) ∧ Tendsto (fun r : ℝ => (WgCyl.dxes2T dxes r).2) atTop (𝓝 1) := by
  have key : ∀ c : ℂ, Tendsto (fun r : ℝ => ((r : ℂ) + c) / (r : ℂ)) atTop (𝓝 1) := by
    intro c
    have h0 : Tendsto (fun r : ℝ => ((r⁻¹ : ℝ) : ℂ)) atTop (𝓝 ((0 : ℝ) : ℂ)) := (continuous_ofReal.tendsto 0).comp tendsto_inv_atTop_zero
    have h1 : Tendsto (fun r : ℝ => 1 + c * ((r⁻¹ : ℝ) : ℂ)) atTop (𝓝 (1 + c * ((0 : ℝ) : ℂ))) := (h0.const_mul c).const_add 1
    rw [ofReal_zero, mul_zero, add_zero] at h1
    refine h1.congr' ?_
    filter_upwards [eventually_gt_atTop 0] with r hr
    have : (r : ℂ) ≠ 0 := by exact_mod_cast hr.ne'
    rw [ofReal_inv]; field_simp
  constructor
  · refine tendsto_pi_nhds.2 fun x => ?_
    exact key _
  · refine tendsto_pi_nhds.2 fun x => ?_
    have := key (dxes.1 0 (x 0) / 2 + WgCyl.cumsumC (dxes.2 0) (x 0))
    simp only [← add_assoc] at this
    exact this

theorem csmul {X ι κ : Type*} [TopologicalSpace X] (c : ℂ) {f : X → Matrix ι κ ℂ} (h : Continuous f) : Continuous fun t => c • f t := h.const_smul c
theorem cadd {X ι κ : Type*} [TopologicalSpace X] {f g : X → Matrix ι κ ℂ} (h : Continuous f) (h' : Continuous g) : Continuous fun t => f t + g t := h.add h'
theorem csub {X ι κ : Type*} [TopologicalSpace X] {f g : X → Matrix ι κ ℂ} (h : Continuous f) (h' : Continuous g) : Continuous fun t => f t - g t := h.sub h'

theorem vstack_cont {X : Type*} [TopologicalSpace X] {P Q : X → B sh} (hP : Continuous P) (hQ : Continuous Q) : Continuous fun t => vstack (P t) (Q t) := by
  refine continuous_matrix fun i j => ?_
  by_cases h : i.1 = 0
  · simpa [vstack, h] using hP.matrix_elem i.2 j
  · simpa [vstack, h] using hQ.matrix_elem i.2 j
theorem hstack_cont {X : Type*} [TopologicalSpace X] {P Q : X → B sh} (hP : Continuous P) (hQ : Continuous Q) : Continuous fun t => hstack (P t) (Q t) := by
  refine continuous_matrix fun i j => ?_
  by_cases h : j.1 = 0
  · simpa [hstack, h] using hP.matrix_elem i j.2
  · simpa [hstack, h] using hQ.matrix_elem i j.2

/-- C48: as the bend radius grows, `cylindrical_operator`, `exy2e` and `e2h` (at the angular wavenumber `β rmin`) tend to the operators of the straight waveguide. -/
theorem C48_limit (β ω : ℂ) (hω : ω ≠ 0) (dxes : Dx2 sh) (eps : V 3 sh) (mu : Option (V 3 sh)) :
    Tendsto (fun r : ℝ => WgCyl.cylindricalOperator ω dxes eps r) atTop (𝓝 (operatorE ω dxes eps none)) ∧
    Tendsto (fun r : ℝ => WgCyl.exy2e (β * r) ω dxes r eps) atTop (𝓝 (exy2e β dxes eps)) ∧
    Tendsto (fun r : ℝ => WgCyl.e2h (β * r) ω dxes r mu) atTop (𝓝 (-e2h β ω dxes mu)) := by
  obtain ⟨ha, hb⟩ := C48_scale_factors dxes
  obtain ⟨u1, u2, u3⟩ := C48_unit_factors β ω hω dxes eps mu
  have inv : ∀ {f : ℝ → Idx sh → ℂ}, Tendsto f atTop (𝓝 1) → Tendsto (fun r x => 1 / f r x) atTop (𝓝 1) := by
    intro f hf
    refine tendsto_pi_nhds.2 fun x => ?_
    have := (tendsto_pi_nhds.1 hf x).inv₀ (by simp)
    simpa [one_div] using this
  have eβ : ∀ᶠ r : ℝ in atTop, β * (r : ℂ) / (r : ℂ) = β := by
    filter_upwards [eventually_gt_atTop 0] with r hr
    exact mul_div_cancel_right₀ _ (by exact_mod_cast hr.ne')
  refine ⟨?_, ?_, ?_⟩
  · rw [← u1]
    have hc : Continuous fun t : (Idx sh → ℂ) × (Idx sh → ℂ) => WgCyl.cylOpT ω dxes eps t.1 t.2 := by
      have d1 : Continuous fun t : (Idx sh → ℂ) × (Idx sh → ℂ) => (diagonal t.1 : B sh) := continuous_fst.matrix_diagonal
      have d2 : Continuous fun t : (Idx sh → ℂ) × (Idx sh → ℂ) => (diagonal t.2 : B sh) := continuous_snd.matrix_diagonal
      refine cadd (cadd (csmul _ ?_) ?_) ?_
      · refine Continuous.matrix_diagonal (continuous_pi fun p => ?_)
        by_cases h : p.1 = 0
        · simp only [h, if_true]; fun_prop
        · simp only [h, if_false]; fun_prop
      · exact ((vstack_cont (d2.neg.matrix_mul continuous_const) (d1.matrix_mul continuous_const)).matrix_mul d2).matrix_mul continuous_const
      · exact ((continuous_const.matrix_mul d1).matrix_mul continuous_const).matrix_mul
          (hstack_cont ((continuous_const.matrix_mul d2).matrix_mul continuous_const) ((continuous_const.matrix_mul d1).matrix_mul continuous_const))
    exact (hc.tendsto (1, 1)).comp (ha.prodMk_nhds hb)
  · rw [← u2]
    have hc : Continuous fun t : (Idx sh → ℂ) × (Idx sh → ℂ) => WgCyl.exy2eT β ω dxes eps t.1 t.2 := by
      have d1 : Continuous fun t : (Idx sh → ℂ) × (Idx sh → ℂ) => (diagonal t.1 : B sh) := continuous_fst.matrix_diagonal
      have d2 : Continuous fun t : (Idx sh → ℂ) × (Idx sh → ℂ) => (diagonal t.2 : B sh) := continuous_snd.matrix_diagonal
      refine continuous_matrix fun i j => ?_
      by_cases h0 : i.1 = 0
      · simp only [WgCyl.exy2eT, eyeOver, Matrix.of_apply, h0, if_true]; exact continuous_const
      by_cases h1 : i.1 = 1
      · simp only [WgCyl.exy2eT, eyeOver, Matrix.of_apply, h1, if_true]; exact continuous_const
      · simp only [WgCyl.exy2eT, eyeOver, Matrix.of_apply, h0, h1, if_false]
        refine (Continuous.matrix_mul continuous_const (continuous_matrix fun k l => ?_)).matrix_elem _ _
        by_cases h' : k.1 = 0
        · simp only [h', if_true, Matrix.of_apply]
          refine Continuous.matrix_elem (csmul _ (d1.matrix_mul (csub continuous_const ?_))) _ _
          exact ((d2.matrix_mul continuous_const).matrix_mul d1).matrix_mul continuous_const
        · simp only [h', if_false, Matrix.of_apply]
          exact Continuous.matrix_elem (csmul _ (d1.matrix_mul continuous_const)) _ _
    have := (hc.tendsto (1, 1)).comp (hb.prodMk_nhds (inv ha))
    refine this.congr' ?_
    filter_upwards [eβ] with r hr
    rw [WgCyl.exy2e, hr]; rfl
  · rw [← u3]
    have hc : Continuous fun t : (Idx sh → ℂ) × (Idx sh → ℂ) × (Idx sh → ℂ) => WgCyl.e2hT β ω dxes mu t.1 t.2.1 t.2.2 := by
      have d1 : Continuous fun t : (Idx sh → ℂ) × (Idx sh → ℂ) × (Idx sh → ℂ) => (diagonal t.1 : B sh) := continuous_fst.matrix_diagonal
      have d2 : Continuous fun t : (Idx sh → ℂ) × (Idx sh → ℂ) × (Idx sh → ℂ) => (diagonal t.2.1 : B sh) := (continuous_fst.comp continuous_snd).matrix_diagonal
      have d3 : Continuous fun t : (Idx sh → ℂ) × (Idx sh → ℂ) × (Idx sh → ℂ) => (diagonal t.2.2 : B sh) := (continuous_snd.comp continuous_snd).matrix_diagonal
      have hop : Continuous fun t : (Idx sh → ℂ) × (Idx sh → ℂ) × (Idx sh → ℂ) => (1 / (-I * ω)) • (blockArray
          ![![0, (-(I * β)) • (diagonal t.2.1 : B sh), -derivForward dxes.1 1],
            ![(I * β) • diagonal t.2.2, 0, diagonal t.2.2 * derivForward dxes.1 0 * diagonal t.1],
            ![derivForward dxes.1 1, -derivForward dxes.1 0, 0]] : M 3 3 sh) := by
        refine csmul _ (continuous_matrix fun i j => ?_)
        obtain ⟨a, x⟩ := i
        obtain ⟨b, y⟩ := j
        fin_cases a <;> fin_cases b
        · exact continuous_const
        · exact (csmul _ d2).matrix_elem x y
        · exact continuous_const
        · exact (csmul _ d3).matrix_elem x y
        · exact continuous_const
        · exact ((d3.matrix_mul continuous_const).matrix_mul d1).matrix_elem x y
        · exact continuous_const
        · exact continuous_const
        · exact continuous_const
      cases mu with
      | none => exact hop
      | some mu => exact continuous_const.matrix_mul hop
    have := (hc.tendsto (1, 1, 1)).comp (ha.prodMk_nhds ((inv ha).prodMk_nhds (inv hb)))
    refine this.congr' ?_
    filter_upwards [eβ] with r hr
    rw [WgCyl.e2h, hr]; rfl

/-! ### C49: the mode radius -/

/-- Electric energy density of a transverse field at a cell. -/
noncomputable def energyDensity (exy : V 2 sh) (eps : V 3 sh) (x : Idx sh) : ℝ := ‖exy (0, x)‖ ^ 2 * (eps (0, x)).re + ‖exy (1, x)‖ ^ 2 * (eps (1, x)).re

/-- Radius assigned to a column of cells: inner radius plus the widths up to and including that column. -/
noncomputable def columnRadius (dxE : (a : Fin 2) → Fin (sh a) → ℝ) (rmin : ℝ) (i : Fin (sh 0)) : ℝ := rmin + ∑ j ∈ Finset.univ.filter (· ≤ i), dxE 0 j

theorem modeRadius_eq (exy : V 2 sh) (eps : V 3 sh) (dxE : (a : Fin 2) → Fin (sh a) → ℝ) (rmin : ℝ) :
    WgCyl.modeRadius exy eps dxE rmin = if (∑ x, energyDensity exy eps x) = 0 then none
      else some ((∑ x : Idx sh, columnRadius dxE rmin (x 0) * energyDensity exy eps x) / ∑ x, energyDensity exy eps x) := by
  classical
  have e1 : ∀ (c : Fin 2) (x : Idx sh), (exy (c, x) * (starRingEnd ℂ) (exy (c, x)) * eps (c.castSucc, x)).re = ‖exy (c, x)‖ ^ 2 * (eps (c.castSucc, x)).re := by
    intro c x
    rw [mul_conj, normSq_eq_norm_sq, re_ofReal_mul]
  have e2 : ∀ w : Fin (sh 0) → ℝ, (∑ i, w i * ∑ c : Fin 2, ∑ x : Idx sh, if x 0 = i then (exy (c, x) * (starRingEnd ℂ) (exy (c, x)) * eps (c.castSucc, x)).re else 0)
      = ∑ x : Idx sh, w (x 0) * energyDensity exy eps x := by
    intro w
    simp only [Fin.sum_univ_two, mul_add, Finset.mul_sum, mul_ite, mul_zero, ← Finset.sum_add_distrib]
    rw [Finset.sum_comm]
    refine Finset.sum_congr rfl fun x _ => ?_
    rw [Finset.sum_add_distrib, Finset.sum_ite_eq, Finset.sum_ite_eq]
    simp only [Finset.mem_univ, if_true, e1]
    rw [energyDensity, mul_add]; rfl
  have e3 : (∑ i, ∑ c : Fin 2, ∑ x : Idx sh, if x 0 = i then (exy (c, x) * (starRingEnd ℂ) (exy (c, x)) * eps (c.castSucc, x)).re else 0)
      = ∑ x : Idx sh, energyDensity exy eps x := by
    have := e2 fun _ => 1
    simpa using this
  have e4 : ∀ i, rmin + cumsum (dxE 0) i = columnRadius dxE rmin i := by
    intro i
    rw [columnRadius, cumsum, Finset.sum_filter]; rfl
  unfold WgCyl.modeRadius
  simp only [e4]
  rw [e2, e3]

/-- C49: the radius is the mean of the column radii weighted with the electric energy; it exists exactly when the energy does not vanish; it lies between any two bounds of the
column radii, in particular inside the cross-section. -/
theorem C49_mode_radius (exy : V 2 sh) (eps : V 3 sh) (dxE : (a : Fin 2) → Fin (sh a) → ℝ) (rmin : ℝ) (hdx : ∀ i, 0 < dxE 0 i)
    (heps : ∀ p, 0 ≤ (eps p).re) :
    ((∃ r, WgCyl.modeRadius exy eps dxE rmin = some r) ↔ ∃ (c : Fin 2) (x : Idx sh), exy (c, x) ≠ 0 ∧ 0 < (eps (c.castSucc, x)).re) ∧
    ∀ r, WgCyl.modeRadius exy eps dxE rmin = some r →
      r * ∑ x, energyDensity exy eps x = ∑ x : Idx sh, columnRadius dxE rmin (x 0) * energyDensity exy eps x ∧
      (∀ lo hi, (∀ i, lo ≤ columnRadius dxE rmin i ∧ columnRadius dxE rmin i ≤ hi) → lo ≤ r ∧ r ≤ hi) ∧
      rmin < r ∧ r ≤ rmin + ∑ i, dxE 0 i := by
  have hu : ∀ x, 0 ≤ energyDensity exy eps x := fun x =>
    add_nonneg (mul_nonneg (sq_nonneg _) (heps _)) (mul_nonneg (sq_nonneg _) (heps _))
  rw [modeRadius_eq]
  constructor
  · constructor
    · rintro ⟨r, hr⟩
      split_ifs at hr with h0
      by_contra hno
      push Not at hno
      refine h0 (Finset.sum_eq_zero fun x _ => ?_)
      have key : ∀ c : Fin 2, ‖exy (c, x)‖ ^ 2 * (eps (c.castSucc, x)).re = 0 := by
        intro c
        by_cases hc : exy (c, x) = 0
        · rw [hc]; simp
        · rw [le_antisymm (hno c x hc) (heps _), mul_zero]
      have k0 := key 0
      have k1 := key 1
      rw [energyDensity]
      exact (congrArg₂ (· + ·) k0 k1).trans (add_zero 0)
    · rintro ⟨c, x, hc, hp⟩
      have hpos : 0 < energyDensity exy eps x := by
        have hc2 : 0 < ‖exy (c, x)‖ ^ 2 * (eps (c.castSucc, x)).re := mul_pos (pow_pos (norm_pos_iff.2 hc) 2) hp
        match c, hc2 with
        | 0, hc2 => exact add_pos_of_pos_of_nonneg hc2 (mul_nonneg (sq_nonneg _) (heps _))
        | 1, hc2 => exact add_pos_of_nonneg_of_pos (mul_nonneg (sq_nonneg _) (heps _)) hc2
      have : 0 < ∑ x, energyDensity exy eps x := Finset.sum_pos' (fun x _ => hu x) ⟨x, Finset.mem_univ _, hpos⟩
      exact ⟨_, if_neg this.ne'⟩
  · intro r hr
    split_ifs at hr with h0
    have hpos : 0 < ∑ x, energyDensity exy eps x := lt_of_le_of_ne (Finset.sum_nonneg fun x _ => hu x) (Ne.symm h0)
    have hr' := Option.some.inj hr
    have hmean : r * ∑ x, energyDensity exy eps x = ∑ x : Idx sh, columnRadius dxE rmin (x 0) * energyDensity exy eps x := by
      rw [← hr', div_mul_cancel₀ _ h0]
    have hb : ∀ lo hi, (∀ i, lo ≤ columnRadius dxE rmin i ∧ columnRadius dxE rmin i ≤ hi) → lo ≤ r ∧ r ≤ hi := by
      intro lo hi hlh
      constructor
      · refine le_of_mul_le_mul_right ?_ hpos
        rw [hmean, Finset.mul_sum]
        exact Finset.sum_le_sum fun x _ => mul_le_mul_of_nonneg_right (hlh _).1 (hu x)
      · refine le_of_mul_le_mul_right ?_ hpos
        rw [hmean, Finset.mul_sum]
        exact Finset.sum_le_sum fun x _ => mul_le_mul_of_nonneg_right (hlh _).2 (hu x)
    have hne : Nonempty (Idx sh) := by
      by_contra hemp
      rw [not_nonempty_iff] at hemp
      exact h0 (Finset.sum_eq_zero fun x _ => hemp.elim x)
    obtain ⟨x0⟩ := hne
    have h00 : 0 < sh 0 := (x0 0).pos
    refine ⟨hmean, hb, ?_, ?_⟩
    · have h1 : ∀ i, rmin + dxE 0 ⟨0, h00⟩ ≤ columnRadius dxE rmin i := by
        intro i
        refine add_le_add_right ?_ rmin
        exact Finset.single_le_sum (f := fun j => dxE 0 j) (fun j _ => (hdx j).le) (Finset.mem_filter.2 ⟨Finset.mem_univ _, Fin.mk_le_of_le_val (Nat.zero_le _)⟩)
      have := (hb (rmin + dxE 0 ⟨0, h00⟩) (rmin + ∑ i, dxE 0 i) fun i => ⟨h1 i, add_le_add_right
        (Finset.sum_le_sum_of_subset_of_nonneg (Finset.filter_subset _ _) fun j _ _ => (hdx j).le) rmin⟩).1
      linarith [hdx ⟨0, h00⟩]
    · exact (hb rmin (rmin + ∑ i, dxE 0 i) fun i => ⟨le_add_of_nonneg_right (Finset.sum_nonneg fun j _ => (hdx j).le), add_le_add_right
        (Finset.sum_le_sum_of_subset_of_nonneg (Finset.filter_subset _ _) fun j _ _ => (hdx j).le) rmin⟩).2

/-- C49: `linear_wavenumbers` returns the angular wavenumber divided by a radius inside the cross-section. -/
theorem C49_linear_wavenumber (exy : V 2 sh) (m : ℂ) (eps : V 3 sh) (dxE : (a : Fin 2) → Fin (sh a) → ℝ) (rmin : ℝ) (hr0 : 0 ≤ rmin) (hdx : ∀ i, 0 < dxE 0 i)
    (heps : ∀ p, 0 ≤ (eps p).re) (k : ℂ) (hk : WgCyl.linearWavenumber exy m eps dxE rmin = some k) :
    ∃ r : ℝ, rmin < r ∧ r ≤ rmin + ∑ i, dxE 0 i ∧ k * r = m := by
  rw [WgCyl.linearWavenumber, Option.map_eq_some_iff] at hk
  obtain ⟨r, hr, rfl⟩ := hk
  obtain ⟨-, -, h1, h2⟩ := (C49_mode_radius exy eps dxE rmin hdx heps).2 r hr
  refine ⟨r, h1, h2, div_mul_cancel₀ _ ?_⟩
  exact_mod_cast (lt_of_le_of_lt hr0 h1).ne'

/-- Non-vacuity of C49: unit field and medium on a 2 × 2 cross-section has a radius. -/
example : ∃ r, WgCyl.modeRadius (1 : V 2 (fun _ => 2)) 1 (fun _ _ => 1) 3 = some r :=
  (C49_mode_radius 1 1 (fun _ _ => 1) 3 (fun _ => one_pos) (fun _ => by simp)).1.2 ⟨0, fun _ => 0, by simp, by simp⟩

/-! ### C72: the radii against the grid -/

theorem cumsumC_step {n : ℕ} (w : Fin n → ℂ) (i j : Fin n) (hij : (j : ℕ) = i + 1) : WgCyl.cumsumC w j = WgCyl.cumsumC w i + w j := by
  rw [WgCyl.cumsumC, WgCyl.cumsumC, ← Finset.sum_filter, ← Finset.sum_filter]
  have : (Finset.univ.filter fun k : Fin n => (k : ℕ) ≤ j) = insert j (Finset.univ.filter fun k : Fin n => (k : ℕ) ≤ i) := by
    ext k
    simp only [Finset.mem_filter, Finset.mem_univ, true_and, Finset.mem_insert, Fin.ext_iff]
    omega
  rw [this, Finset.sum_insert (by simp; omega), add_comm]

/-- C72 (what holds): on a grid uniform along x the radii of `dxes2T` step by the cell width, so that the difference operators see `∂r r = 1`, and those of the two kinds of points are half a cell
apart. -/
theorem C72_uniform_partial (dxes : Dx2 sh) (rmin d : ℂ) (hd : ∀ i, dxes.1 0 i = d) (hd' : ∀ i, dxes.2 0 i = d) (i j : Fin (sh 0)) (hij : (j : ℕ) = i + 1) :
    WgCyl.ra dxes rmin j - WgCyl.ra dxes rmin i = dxes.1 0 i ∧ WgCyl.rb dxes rmin j - WgCyl.rb dxes rmin i = dxes.2 0 j ∧
    WgCyl.rb dxes rmin i = WgCyl.ra dxes rmin i + d / 2 := by
  rw [WgCyl.ra, WgCyl.ra, WgCyl.rb, WgCyl.rb, cumsumC_step _ i j hij, cumsumC_step _ i j hij]
  simp only [hd, hd']
  have : dxes.1 0 = dxes.2 0 := by funext k; rw [hd, hd']
  rw [this]
  refine ⟨by ring, by ring, by ring⟩

/-- C72 (in general): the radius at the Ey points steps by the width of the *next* cell, not by the width the forward difference divides by; the radius at the Ex points steps by the dual width plus
half the difference of the widths. -/
theorem C72_steps_partial (dxes : Dx2 sh) (rmin : ℂ) (i j : Fin (sh 0)) (hij : (j : ℕ) = i + 1) :
    WgCyl.ra dxes rmin j - WgCyl.ra dxes rmin i = dxes.1 0 j ∧
    WgCyl.rb dxes rmin j - WgCyl.rb dxes rmin i = dxes.2 0 j + (dxes.1 0 j - dxes.1 0 i) / 2 := by
  rw [WgCyl.ra, WgCyl.ra, WgCyl.rb, WgCyl.rb, cumsumC_step _ i j hij, cumsumC_step _ i j hij]
  exact ⟨by ring, by ring⟩

/-- C72 is false on non-uniform grids: whenever two neighbouring widths differ, both steps disagree with the widths used by the difference operators. -/
theorem C72_nonuniform_partial (dxes : Dx2 sh) (rmin : ℂ) (i j : Fin (sh 0)) (hij : (j : ℕ) = i + 1) (hne : dxes.1 0 i ≠ dxes.1 0 j) :
    WgCyl.ra dxes rmin j - WgCyl.ra dxes rmin i ≠ dxes.1 0 i ∧ WgCyl.rb dxes rmin j - WgCyl.rb dxes rmin i ≠ dxes.2 0 j := by
  obtain ⟨h1, h2⟩ := C72_steps_partial dxes rmin i j hij
  rw [h1, h2]
  refine ⟨hne.symm, fun h => hne ?_⟩
  have : (dxes.1 0 j - dxes.1 0 i) / 2 = 0 := by linear_combination h
  have h3 : dxes.1 0 j - dxes.1 0 i = 0 := by linear_combination 2 * this
  exact (sub_eq_zero.1 h3).symm

/-- A grid with two different widths. -/
example : ∃ (dxes : Dx2 (fun _ => 2)) (i j : Fin 2), (j : ℕ) = i + 1 ∧ dxes.1 0 i ≠ dxes.1 0 j :=
  ⟨(fun _ i => if i = (0 : Fin 2) then 1 else 2, fun _ _ => 1), 0, 1, rfl, by simp⟩

end Meanas.Props
