/-
C140: a bent waveguide is a straight waveguide with a graded medium.
-/
import Verif.Props.WaveguideCyl
import Verif.Props.GroupVelocityBound
import Verif.Props.ModeExistence

namespace Meanas.Props

open Matrix Complex OperatorsS Spec Wg2

variable {sh : Fin 2 → ℕ}

/-- The permittivity of the straight waveguide that is equivalent to a bend: transverse components grow with the radius, the longitudinal one falls. -/
noncomputable def bendEps (dxes : Dx2 sh) (rmin : ℂ) (eps : V 3 sh) : V 3 sh := fun p =>
  (if p.1 = 0 then tB dxes rmin p.2 else if p.1 = 1 then tA dxes rmin p.2 else 1 / tA dxes rmin p.2) * eps p
/-- Its permeability, with the radii of the H components. -/
noncomputable def bendMu (dxes : Dx2 sh) (rmin : ℂ) (mu : V 3 sh) : V 3 sh := fun p =>
  (if p.1 = 0 then tA dxes rmin p.2 else if p.1 = 1 then tB dxes rmin p.2 else 1 / tB dxes rmin p.2) * mu p
/-- The electric field of the equivalent straight waveguide. -/
noncomputable def bendE (dxes : Dx2 sh) (rmin : ℂ) (e : V 3 sh) : V 3 sh := fun p => (if p.1 = 2 then tA dxes rmin p.2 else 1) * e p
/-- The magnetic field of the equivalent straight waveguide. -/
noncomputable def bendH (dxes : Dx2 sh) (rmin : ℂ) (h : V 3 sh) : V 3 sh := fun p => (if p.1 = 2 then tB dxes rmin p.2 else 1) * h p

section
variable (dxes : Dx2 sh) (rmin : ℂ) (u : V 3 sh) (x : Idx sh)
theorem bendEps_0 : bendEps dxes rmin u (0, x) = tB dxes rmin x * u (0, x) := by simp [bendEps]
theorem bendEps_1 : bendEps dxes rmin u (1, x) = tA dxes rmin x * u (1, x) := by simp [bendEps]
theorem bendEps_2 : bendEps dxes rmin u (2, x) = 1 / tA dxes rmin x * u (2, x) := by simp [bendEps]
theorem bendMu_0 : bendMu dxes rmin u (0, x) = tA dxes rmin x * u (0, x) := by simp [bendMu]
theorem bendMu_1 : bendMu dxes rmin u (1, x) = tB dxes rmin x * u (1, x) := by simp [bendMu]
theorem bendMu_2 : bendMu dxes rmin u (2, x) = 1 / tB dxes rmin x * u (2, x) := by simp [bendMu]
theorem bendE_0 : bendE dxes rmin u (0, x) = u (0, x) := by simp [bendE]
theorem bendE_1 : bendE dxes rmin u (1, x) = u (1, x) := by simp [bendE]
theorem bendE_2 : bendE dxes rmin u (2, x) = tA dxes rmin x * u (2, x) := by simp [bendE]
theorem bendH_0 : bendH dxes rmin u (0, x) = u (0, x) := by simp [bendH]
theorem bendH_1 : bendH dxes rmin u (1, x) = u (1, x) := by simp [bendH]
theorem bendH_2 : bendH dxes rmin u (2, x) = tB dxes rmin x * u (2, x) := by simp [bendH]
end

/-- **C140.** `cylindrical_operator` is `waveguide_2d.operator_e` of the straight waveguide with the graded media. -/
theorem C140_operator (ω : ℂ) (dxes : Dx2 sh) (eps : V 3 sh) {rmin : ℂ} (hr : rmin ≠ 0) (heps : ∀ p, eps p ≠ 0)
    (ha : ∀ i, WgCyl.ra dxes rmin i ≠ 0) (hb : ∀ i, WgCyl.rb dxes rmin i ≠ 0) :
    WgCyl.cylindricalOperator ω dxes eps rmin = operatorE ω dxes (bendEps dxes rmin eps) (some (bendMu dxes rmin 1)) := by
  have ta0 : ∀ x, tA dxes rmin x ≠ 0 := fun x => div_ne_zero (ha _) hr
  have tb0 : ∀ x, tB dxes rmin x ≠ 0 := fun x => div_ne_zero (hb _) hr
  refine Matrix.mulVec_injective (funext fun v => funext fun p => ?_)
  have c1 : ∀ y, (fw dxes 0 (part v 1) y - fw dxes 1 (part v 0) y) / bendMu dxes rmin 1 (2, y)
      = tB dxes rmin y * (fw dxes 0 (part v 1) y - fw dxes 1 (part v 0) y) := fun y => by
    have := tb0 y
    rw [bendMu_2]; simp only [Pi.one_apply]; field_simp
  have c2 : ∀ (f : ℂ) y, f / bendEps dxes rmin eps (2, y) = tA dxes rmin y * (f / eps (2, y)) := fun f y => by
    have := ta0 y; have := heps (2, y)
    rw [bendEps_2]; field_simp
  obtain ⟨c, x⟩ := p
  match c with
  | 0 =>
    rw [operatorE_0, WgCyl.cylindricalOperator, WgCyl.cylOpT_0]
    simp only [Option.getD_some, c1, c2, bendEps_0, bendEps_1, bendMu_1, WgCyl.dxes2T, Pi.one_apply, mul_one, mul_assoc]
  | 1 =>
    rw [operatorE_1, WgCyl.cylindricalOperator, WgCyl.cylOpT_1]
    simp only [Option.getD_some, c1, c2, bendEps_0, bendEps_1, bendMu_0, WgCyl.dxes2T, Pi.one_apply, mul_one, mul_assoc]

/-- **C140.** The modes of a bend are the modes of the straight waveguide with the graded media, with the longitudinal components multiplied by the
relative radius. -/
theorem C140_modes (m ω : ℂ) (dxes : Dx2 sh) {rmin : ℂ} (hr : rmin ≠ 0) (ha : ∀ i, WgCyl.ra dxes rmin i ≠ 0) (hb : ∀ i, WgCyl.rb dxes rmin i ≠ 0)
    (eps mu e h : V 3 sh) :
    IsBentMode m ω dxes.1 dxes.2 (WgCyl.ra dxes rmin) (WgCyl.rb dxes rmin) (fld eps) (fld mu) (fld e) (fld h)
      ↔ IsMode (m / rmin) ω dxes.1 dxes.2 (fld (bendEps dxes rmin eps)) (fld (bendMu dxes rmin mu)) (fld (bendE dxes rmin e)) (fld (bendH dxes rmin h)) := by
  have ta0 : ∀ x, tA dxes rmin x ≠ 0 := fun x => div_ne_zero (ha _) hr
  have tb0 : ∀ x, tB dxes rmin x ≠ 0 := fun x => div_ne_zero (hb _) hr
  rw [← isBentMode_scale _ _ _ _ _ _ _ _ _ hr]
  have fe0 : fld (bendE dxes rmin e) 0 = fld e 0 := funext fun x => bendE_0 _ _ _ _
  have fe1 : fld (bendE dxes rmin e) 1 = fld e 1 := funext fun x => bendE_1 _ _ _ _
  have fe2 : fld (bendE dxes rmin e) 2 = fun y => tA dxes rmin y * fld e 2 y := funext fun x => bendE_2 _ _ _ _
  have fh0 : fld (bendH dxes rmin h) 0 = fld h 0 := funext fun x => bendH_0 _ _ _ _
  have fh1 : fld (bendH dxes rmin h) 1 = fld h 1 := funext fun x => bendH_1 _ _ _ _
  have fh2 : fld (bendH dxes rmin h) 2 = fun y => tB dxes rmin y * fld h 2 y := funext fun x => bendH_2 _ _ _ _
  have y1 : ∀ x, gradForward (some dxes.1) (fun y => tA dxes rmin y * fld e 2 y) 1 x = tA dxes rmin x * gradForward (some dxes.1) (fld e 2) 1 x := by
    intro x
    rw [gradForward_fw, gradForward_fw]
    exact WgCyl.fw_one_mul dxes (fun i => WgCyl.ra dxes rmin i / rmin) _ x
  have y2 : ∀ x, gradBack (some dxes.2) (fun y => tB dxes rmin y * fld h 2 y) 1 x = tB dxes rmin x * gradBack (some dxes.2) (fld h 2) 1 x := by
    intro x
    rw [gradBack_bw, gradBack_bw]
    exact WgCyl.bw_one_mul dxes (fun i => WgCyl.rb dxes rmin i / rmin) _ x
  have ee0 : ∀ x, fld (bendEps dxes rmin eps) 0 x = tB dxes rmin x * fld eps 0 x := bendEps_0 _ _ _
  have ee1 : ∀ x, fld (bendEps dxes rmin eps) 1 x = tA dxes rmin x * fld eps 1 x := bendEps_1 _ _ _
  have ee2 : ∀ x, fld (bendEps dxes rmin eps) 2 x = 1 / tA dxes rmin x * fld eps 2 x := bendEps_2 _ _ _
  have mm0 : ∀ x, fld (bendMu dxes rmin mu) 0 x = tA dxes rmin x * fld mu 0 x := bendMu_0 _ _ _
  have mm1 : ∀ x, fld (bendMu dxes rmin mu) 1 x = tB dxes rmin x * fld mu 1 x := bendMu_1 _ _ _
  have mm2 : ∀ x, fld (bendMu dxes rmin mu) 2 x = 1 / tB dxes rmin x * fld mu 2 x := bendMu_2 _ _ _
  constructor
  · intro M
    refine ⟨fun x => ?_, fun x => ?_, fun x => ?_, fun x => ?_, fun x => ?_, fun x => ?_⟩
    · rw [fe1, fe2, fh0, y1, mm0]
      have := M.faradayX x; have := ta0 x
      have h1 : -I * (m / rmin) / (WgCyl.ra dxes rmin (x 0) / rmin) * tA dxes rmin x = -I * (m / rmin) := div_mul_cancel₀ _ (ta0 x)
      linear_combination tA dxes rmin x * M.faradayX x + fld e 1 x * h1
    · rw [fe0, fe2, fh1, mm1]
      have h1 : -I * (m / rmin) / (WgCyl.rb dxes rmin (x 0) / rmin) * tB dxes rmin x = -I * (m / rmin) := div_mul_cancel₀ _ (tb0 x)
      have h2 : gradForward (some dxes.1) (fun y => tA dxes rmin y * fld e 2 y) 0 x / (WgCyl.rb dxes rmin (x 0) / rmin) * tB dxes rmin x
        = gradForward (some dxes.1) (fun y => tA dxes rmin y * fld e 2 y) 0 x := div_mul_cancel₀ _ (tb0 x)
      linear_combination tB dxes rmin x * M.faradayY x - fld e 0 x * h1 + h2
    · rw [fe0, fe1, fh2, mm2]
      have h1 : 1 / tB dxes rmin x * tB dxes rmin x = 1 := div_mul_cancel₀ _ (tb0 x)
      linear_combination M.faradayZ x + I * ω * fld mu 2 x * fld h 2 x * h1
    · rw [fe0, fh1, fh2, y2, ee0]
      have h1 : -I * (m / rmin) / (WgCyl.rb dxes rmin (x 0) / rmin) * tB dxes rmin x = -I * (m / rmin) := div_mul_cancel₀ _ (tb0 x)
      linear_combination tB dxes rmin x * M.ampereX x + fld h 1 x * h1
    · rw [fe1, fh0, fh2, ee1]
      have h1 : -I * (m / rmin) / (WgCyl.ra dxes rmin (x 0) / rmin) * tA dxes rmin x = -I * (m / rmin) := div_mul_cancel₀ _ (ta0 x)
      have h2 : gradBack (some dxes.2) (fun y => tB dxes rmin y * fld h 2 y) 0 x / (WgCyl.ra dxes rmin (x 0) / rmin) * tA dxes rmin x
        = gradBack (some dxes.2) (fun y => tB dxes rmin y * fld h 2 y) 0 x := div_mul_cancel₀ _ (ta0 x)
      linear_combination tA dxes rmin x * M.ampereY x - fld h 0 x * h1 + h2
    · rw [fe2, fh0, fh1, ee2]
      have h1 : 1 / tA dxes rmin x * tA dxes rmin x = 1 := div_mul_cancel₀ _ (ta0 x)
      linear_combination M.ampereZ x - I * ω * fld eps 2 x * fld e 2 x * h1
  · intro M
    refine ⟨fun x => ?_, fun x => ?_, fun x => ?_, fun x => ?_, fun x => ?_, fun x => ?_⟩
    · have k := M.faradayX x
      rw [fe1, fe2, fh0, y1, mm0] at k
      have h1 : -I * (m / rmin) / (WgCyl.ra dxes rmin (x 0) / rmin) * tA dxes rmin x = -I * (m / rmin) := div_mul_cancel₀ _ (ta0 x)
      refine mul_left_cancel₀ (ta0 x) ?_
      linear_combination k - fld e 1 x * h1
    · have k := M.faradayY x
      rw [fe0, fe2, fh1, mm1] at k
      have h1 : -I * (m / rmin) / (WgCyl.rb dxes rmin (x 0) / rmin) * tB dxes rmin x = -I * (m / rmin) := div_mul_cancel₀ _ (tb0 x)
      have h2 : gradForward (some dxes.1) (fun y => tA dxes rmin y * fld e 2 y) 0 x / (WgCyl.rb dxes rmin (x 0) / rmin) * tB dxes rmin x
        = gradForward (some dxes.1) (fun y => tA dxes rmin y * fld e 2 y) 0 x := div_mul_cancel₀ _ (tb0 x)
      refine mul_left_cancel₀ (tb0 x) ?_
      linear_combination k + fld e 0 x * h1 - h2
    · have k := M.faradayZ x
      rw [fe0, fe1, fh2, mm2] at k
      have h1 : 1 / tB dxes rmin x * tB dxes rmin x = 1 := div_mul_cancel₀ _ (tb0 x)
      linear_combination k - I * ω * fld mu 2 x * fld h 2 x * h1
    · have k := M.ampereX x
      rw [fe0, fh1, fh2, y2, ee0] at k
      have h1 : -I * (m / rmin) / (WgCyl.rb dxes rmin (x 0) / rmin) * tB dxes rmin x = -I * (m / rmin) := div_mul_cancel₀ _ (tb0 x)
      refine mul_left_cancel₀ (tb0 x) ?_
      linear_combination k - fld h 1 x * h1
    · have k := M.ampereY x
      rw [fe1, fh0, fh2, ee1] at k
      have h1 : -I * (m / rmin) / (WgCyl.ra dxes rmin (x 0) / rmin) * tA dxes rmin x = -I * (m / rmin) := div_mul_cancel₀ _ (ta0 x)
      have h2 : gradBack (some dxes.2) (fun y => tB dxes rmin y * fld h 2 y) 0 x / (WgCyl.ra dxes rmin (x 0) / rmin) * tA dxes rmin x
        = gradBack (some dxes.2) (fun y => tB dxes rmin y * fld h 2 y) 0 x := div_mul_cancel₀ _ (ta0 x)
      refine mul_left_cancel₀ (ta0 x) ?_
      linear_combination k + fld h 0 x * h1 - h2
    · have k := M.ampereZ x
      rw [fe2, fh0, fh1, ee2] at k
      have h1 : 1 / tA dxes rmin x * tA dxes rmin x = 1 := div_mul_cancel₀ _ (ta0 x)
      linear_combination k + I * ω * fld eps 2 x * fld e 2 x * h1

/-- The fields of the bend from those of the equivalent straight waveguide: longitudinal components divided by the relative radius. -/
noncomputable def unbendE (dxes : Dx2 sh) (rmin : ℂ) (e : V 3 sh) : V 3 sh := fun p => (if p.1 = 2 then 1 / tA dxes rmin p.2 else 1) * e p
noncomputable def unbendH (dxes : Dx2 sh) (rmin : ℂ) (h : V 3 sh) : V 3 sh := fun p => (if p.1 = 2 then 1 / tB dxes rmin p.2 else 1) * h p

theorem bendE_unbendE (dxes : Dx2 sh) {rmin : ℂ} (ha : ∀ x, tA dxes rmin x ≠ 0) (e : V 3 sh) : bendE dxes rmin (unbendE dxes rmin e) = e := by
  funext p
  have h1 : tA dxes rmin p.2 * (1 / tA dxes rmin p.2) = 1 := mul_one_div_cancel (ha p.2)
  simp only [bendE, unbendE]
  split_ifs
  · rw [← mul_assoc, h1, one_mul]
  · rw [one_mul, one_mul]

theorem bendH_unbendH (dxes : Dx2 sh) {rmin : ℂ} (hb : ∀ x, tB dxes rmin x ≠ 0) (h : V 3 sh) : bendH dxes rmin (unbendH dxes rmin h) = h := by
  funext p
  have h1 : tB dxes rmin p.2 * (1 / tB dxes rmin p.2) = 1 := mul_one_div_cancel (hb p.2)
  simp only [bendH, unbendH]
  split_ifs
  · rw [← mul_assoc, h1, one_mul]
  · rw [one_mul, one_mul]

theorem bendEps_ne (dxes : Dx2 sh) {rmin : ℂ} {eps : V 3 sh} (heps : ∀ p, eps p ≠ 0) (ha : ∀ x, tA dxes rmin x ≠ 0) (hb : ∀ x, tB dxes rmin x ≠ 0)
    (p : Fin 3 × Idx sh) : bendEps dxes rmin eps p ≠ 0 := by
  refine mul_ne_zero ?_ (heps p)
  split_ifs
  · exact hb _
  · exact ha _
  · exact one_div_ne_zero (ha _)

theorem bendMu_ne (dxes : Dx2 sh) {rmin : ℂ} {mu : V 3 sh} (hmu : ∀ p, mu p ≠ 0) (ha : ∀ x, tA dxes rmin x ≠ 0) (hb : ∀ x, tB dxes rmin x ≠ 0)
    (p : Fin 3 × Idx sh) : bendMu dxes rmin mu p ≠ 0 := by
  refine mul_ne_zero ?_ (hmu p)
  split_ifs
  · exact ha _
  · exact hb _
  · exact one_div_ne_zero (hb _)

/-- **C140.** The fields of a bent mode from an eigenvector of `cylindrical_operator`: `waveguide_2d.exy2e` and `exy2h` of the graded media, with the
longitudinal components divided by the relative radii, satisfy Maxwell's equations in the bend (`waveguide_cyl.exy2e` does not, see C47). -/
theorem C140_fields {m ω rmin : ℂ} (hm : m ≠ 0) (hω : ω ≠ 0) (hr : rmin ≠ 0) (dxes : Dx2 sh) (eps : V 3 sh) (heps : ∀ p, eps p ≠ 0)
    (ha : ∀ i, WgCyl.ra dxes rmin i ≠ 0) (hb : ∀ i, WgCyl.rb dxes rmin i ≠ 0) (v : V 2 sh)
    (heig : WgCyl.cylindricalOperator ω dxes eps rmin *ᵥ v = (m / rmin) ^ 2 • v) :
    let e := unbendE dxes rmin (exy2e (m / rmin) dxes (bendEps dxes rmin eps) *ᵥ v)
    let h := unbendH dxes rmin (exy2h (m / rmin) ω dxes (bendEps dxes rmin eps) (some (bendMu dxes rmin 1)) *ᵥ v)
    xy e = v ∧ IsBentMode m ω dxes.1 dxes.2 (WgCyl.ra dxes rmin) (WgCyl.rb dxes rmin) (fld eps) (fun _ _ => 1) (fld e) (fld h) := by
  intro e h
  have ta0 : ∀ x, tA dxes rmin x ≠ 0 := fun x => div_ne_zero (ha _) hr
  have tb0 : ∀ x, tB dxes rmin x ≠ 0 := fun x => div_ne_zero (hb _) hr
  rw [C140_operator ω dxes eps hr heps ha hb] at heig
  have M := C39_is_mode (m / rmin) ω (div_ne_zero hm hr) hω dxes _ (some (bendMu dxes rmin 1)) (bendEps_ne dxes heps ta0 tb0)
    (bendMu_ne dxes (fun _ => one_ne_zero) ta0 tb0) v heig
  constructor
  · funext ⟨c, x⟩
    match c with
    | 0 => show unbendE dxes rmin _ (0, x) = _; simp only [unbendE]; rw [if_neg (by decide), one_mul, exy2e_0]
    | 1 => show unbendE dxes rmin _ (1, x) = _; simp only [unbendE]; rw [if_neg (by decide), one_mul, exy2e_1]
  · refine (C140_modes m ω dxes hr ha hb eps 1 e h).2 ?_
    rw [bendE_unbendE dxes ta0, bendH_unbendH dxes tb0]
    exact M

/-- **C140.** Two modes of the same bend with different `m²` are orthogonal under the transverse overlap of E and H over the cross-section: the
weights are the plain cell areas, without the radius. -/
theorem C140_orthogonal {m₁ m₂ ω : ℂ} (dxes : Dx2 sh) (hE : Nonzero dxes.1) (hH : Nonzero dxes.2) {rmin : ℂ} (hr : rmin ≠ 0)
    (ha : ∀ i, WgCyl.ra dxes rmin i ≠ 0) (hb : ∀ i, WgCyl.rb dxes rmin i ≠ 0) {eps mu e₁ h₁ e₂ h₂ : V 3 sh}
    (M₁ : IsBentMode m₁ ω dxes.1 dxes.2 (WgCyl.ra dxes rmin) (WgCyl.rb dxes rmin) (fld eps) (fld mu) (fld e₁) (fld h₁))
    (M₂ : IsBentMode m₂ ω dxes.1 dxes.2 (WgCyl.ra dxes rmin) (WgCyl.rb dxes rmin) (fld eps) (fld mu) (fld e₂) (fld h₂)) (hne : m₁ ^ 2 ≠ m₂ ^ 2) :
    areaOverlap dxes.1 dxes.2 (fld e₁) (fld h₂) = 0 := by
  have h := C44_orthogonal hE hH ((C140_modes m₁ ω dxes hr ha hb eps mu e₁ h₁).1 M₁) ((C140_modes m₂ ω dxes hr ha hb eps mu e₂ h₂).1 M₂) (by
    rw [div_pow, div_pow]
    exact fun h => hne ((div_left_inj' (pow_ne_zero 2 hr)).1 h))
  rw [← h]
  simp only [areaOverlap, fld, bendE_0, bendE_1, bendH_0, bendH_1]

/-! ### Real grids -/

/-- Radius of the E_y, E_θ and H_r points. -/
noncomputable def radA (dE : DxList sh ℝ) (r : ℝ) (i : Fin (sh 0)) : ℝ := r + ∑ j : Fin (sh 0), if (j : ℕ) ≤ i then dE 0 j else 0
/-- Radius of the E_r, H_y and H_θ points. -/
noncomputable def radB (dE dH : DxList sh ℝ) (r : ℝ) (i : Fin (sh 0)) : ℝ := r + dE 0 i / 2 + ∑ j : Fin (sh 0), if (j : ℕ) ≤ i then dH 0 j else 0
/-- Radius at an E component. -/
noncomputable def radE (dE dH : DxList sh ℝ) (r : ℝ) (c : Fin 3) (x : Idx sh) : ℝ := if c = 0 then radB dE dH r (x 0) else radA dE r (x 0)
/-- Radius at an H component. -/
noncomputable def radH (dE dH : DxList sh ℝ) (r : ℝ) (c : Fin 3) (x : Idx sh) : ℝ := if c = 0 then radA dE r (x 0) else radB dE dH r (x 0)

theorem ra_cw (dE dH : DxList sh ℝ) (r : ℝ) (i : Fin (sh 0)) : WgCyl.ra (cw dE, cw dH) (r : ℂ) i = (radA dE r i : ℂ) := by
  simp only [WgCyl.ra, WgCyl.cumsumC, radA, cw]
  push_cast
  congr 1
  exact Finset.sum_congr rfl fun j _ => by split_ifs <;> simp
theorem rb_cw (dE dH : DxList sh ℝ) (r : ℝ) (i : Fin (sh 0)) : WgCyl.rb (cw dE, cw dH) (r : ℂ) i = (radB dE dH r i : ℂ) := by
  simp only [WgCyl.rb, WgCyl.cumsumC, radB, cw]
  push_cast
  congr 1
  exact Finset.sum_congr rfl fun j _ => by split_ifs <;> simp
theorem tA_cw (dE dH : DxList sh ℝ) (r : ℝ) (x : Idx sh) : tA (cw dE, cw dH) (r : ℂ) x = ((radA dE r (x 0) / r : ℝ) : ℂ) := by
  rw [tA, ra_cw]; push_cast; rfl
theorem tB_cw (dE dH : DxList sh ℝ) (r : ℝ) (x : Idx sh) : tB (cw dE, cw dH) (r : ℂ) x = ((radB dE dH r (x 0) / r : ℝ) : ℂ) := by
  rw [tB, rb_cw]; push_cast; rfl

theorem radA_pos {dE : DxList sh ℝ} (hE : ∀ a i, 0 < dE a i) {r : ℝ} (hr : 0 < r) (i : Fin (sh 0)) : 0 < radA dE r i :=
  add_pos_of_pos_of_nonneg hr (Finset.sum_nonneg fun j _ => by split_ifs; exacts [(hE 0 j).le, le_rfl])
theorem radB_pos {dE dH : DxList sh ℝ} (hE : ∀ a i, 0 < dE a i) (hH : ∀ a i, 0 < dH a i) {r : ℝ} (hr : 0 < r) (i : Fin (sh 0)) : 0 < radB dE dH r i :=
  add_pos_of_pos_of_nonneg (add_pos hr (half_pos (hE 0 i))) (Finset.sum_nonneg fun j _ => by split_ifs; exacts [(hH 0 j).le, le_rfl])

/-- The energy density of the equivalent fields is that of the bend per unit angle. -/
theorem bend_densityE (dE dH : DxList sh ℝ) {r : ℝ} (hr : r ≠ 0) (ha : ∀ i, radA dE r i ≠ 0) (eps e : V 3 sh) (c : Fin 3) (x : Idx sh) :
    ((normSq (fld (bendE (cw dE, cw dH) r e) c x) : ℝ) : ℂ) * fld (bendEps (cw dE, cw dH) r eps) c x
      = ((radE dE dH r c x * normSq (e (c, x)) : ℝ) : ℂ) * eps (c, x) / r := by
  have h0 := ha (x 0)
  revert c
  refine forall_fin3 ?_ ?_ ?_
  · rw [fld, fld, bendE_0, bendEps_0, tB_cw, radE, if_pos rfl]; push_cast; ring
  · rw [fld, fld, bendE_1, bendEps_1, tA_cw, radE, if_neg (by decide)]; push_cast; ring
  · rw [fld, fld, bendE_2, bendEps_2, tA_cw, radE, if_neg (by decide), normSq_mul, normSq_ofReal]
    have h0' : (radA dE r (x 0) : ℂ) ≠ 0 := ofReal_ne_zero.2 h0
    have hr' : (r : ℂ) ≠ 0 := ofReal_ne_zero.2 hr
    push_cast; field_simp
theorem bend_densityH (dE dH : DxList sh ℝ) {r : ℝ} (hr : r ≠ 0) (hb : ∀ i, radB dE dH r i ≠ 0) (mu h : V 3 sh) (c : Fin 3) (x : Idx sh) :
    ((normSq (fld (bendH (cw dE, cw dH) r h) c x) : ℝ) : ℂ) * fld (bendMu (cw dE, cw dH) r mu) c x
      = ((radH dE dH r c x * normSq (h (c, x)) : ℝ) : ℂ) * mu (c, x) / r := by
  have h0 := hb (x 0)
  revert c
  refine forall_fin3 ?_ ?_ ?_
  · rw [fld, fld, bendH_0, bendMu_0, tA_cw, radH, if_pos rfl]; push_cast; ring
  · rw [fld, fld, bendH_1, bendMu_1, tB_cw, radH, if_neg (by decide)]; push_cast; ring
  · rw [fld, fld, bendH_2, bendMu_2, tB_cw, radH, if_neg (by decide), normSq_mul, normSq_ofReal]
    have h0' : (radB dE dH r (x 0) : ℂ) ≠ 0 := ofReal_ne_zero.2 h0
    have hr' : (r : ℂ) ≠ 0 := ofReal_ne_zero.2 hr
    push_cast; field_simp

theorem bend_power (dE dH : DxList sh ℝ) (r : ℂ) (e h : V 3 sh) :
    modePower dE dH (fld (bendE (cw dE, cw dH) r e)) (fld (bendH (cw dE, cw dH) r h)) = modePower dE dH (fld e) (fld h) := by
  simp only [modePower, fld, bendE_0, bendE_1, bendH_0, bendH_1]

/-- **C140.** Attenuation of a bent mode per unit angle equals absorption: `2 Im m · Re P = ω ∫ (Im ε |E|² + Im μ |H|²) r dA`, the integral being taken
with the radius of each component of the field. -/
theorem C140_attenuation {m : ℂ} {ω r : ℝ} (hr : r ≠ 0) {dE dH : DxList sh ℝ} (hE : Nonzero dE) (hH : Nonzero dH) (ha : ∀ i, radA dE r i ≠ 0)
    (hb : ∀ i, radB dE dH r i ≠ 0) {eps mu e h : V 3 sh}
    (M : IsBentMode m ω (cw dE) (cw dH) (fun i => (radA dE r i : ℂ)) (fun i => (radB dE dH r i : ℂ)) (fld eps) (fld mu) (fld e) (fld h)) :
    2 * m.im * (modePower dE dH (fld e) (fld h)).re
      = ω * ∑ c, ∑ x, (areaE dE dH c x * radE dE dH r c x * normSq (e (c, x)) * (eps (c, x)).im
          + areaH dE dH c x * radH dE dH r c x * normSq (h (c, x)) * (mu (c, x)).im) := by
  have hr' : (r : ℂ) ≠ 0 := ofReal_ne_zero.2 hr
  have k := C96_attenuation hE hH ((C140_modes m ω (cw dE, cw dH) hr' (fun i => by rw [ra_cw]; exact ofReal_ne_zero.2 (ha i))
    (fun i => by rw [rb_cw]; exact ofReal_ne_zero.2 (hb i)) eps mu e h).1 (by
      rw [show WgCyl.ra (cw dE, cw dH) (r : ℂ) = fun i => (radA dE r i : ℂ) from funext (ra_cw dE dH r),
        show WgCyl.rb (cw dE, cw dH) (r : ℂ) = fun i => (radB dE dH r i : ℂ) from funext (rb_cw dE dH r)]
      exact M))
  rw [bend_power] at k
  have e1 : (m / (r : ℂ)).im = m.im / r := by rw [div_ofReal_im]
  have e2 : ∀ c x, normSq (fld (bendE (cw dE, cw dH) r e) c x) * (fld (bendEps (cw dE, cw dH) r eps) c x).im
      = radE dE dH r c x * normSq (e (c, x)) * (eps (c, x)).im / r := fun c x => by
    have := congrArg Complex.im (bend_densityE dE dH hr ha eps e c x)
    rwa [im_ofReal_mul, div_ofReal_im, im_ofReal_mul] at this
  have e3 : ∀ c x, normSq (fld (bendH (cw dE, cw dH) r h) c x) * (fld (bendMu (cw dE, cw dH) r mu) c x).im
      = radH dE dH r c x * normSq (h (c, x)) * (mu (c, x)).im / r := fun c x => by
    have := congrArg Complex.im (bend_densityH dE dH hr hb mu h c x)
    rwa [im_ofReal_mul, div_ofReal_im, im_ofReal_mul] at this
  simp only [mul_assoc, e2, e3] at k
  rw [e1] at k
  have e4 : ∑ c, ∑ x, (areaE dE dH c x * (radE dE dH r c x * (normSq (e (c, x)) * (eps (c, x)).im / r))
        + areaH dE dH c x * (radH dE dH r c x * (normSq (h (c, x)) * (mu (c, x)).im / r)))
      = (∑ c, ∑ x, (areaE dE dH c x * radE dE dH r c x * normSq (e (c, x)) * (eps (c, x)).im
          + areaH dE dH c x * radH dE dH r c x * normSq (h (c, x)) * (mu (c, x)).im)) / r := by
    simp only [Finset.sum_div]
    exact Finset.sum_congr rfl fun c _ => Finset.sum_congr rfl fun x _ => by ring
  have k' : 2 * (m.im / r * (modePower dE dH (fld e) (fld h)).re)
      = ω * ((∑ c, ∑ x, (areaE dE dH c x * radE dE dH r c x * normSq (e (c, x)) * (eps (c, x)).im
          + areaH dE dH c x * radH dE dH r c x * normSq (h (c, x)) * (mu (c, x)).im)) / r) := by
    rw [← e4, k]
    congr 1
    exact Finset.sum_congr rfl fun c _ => Finset.sum_congr rfl fun x _ => by ring
  field_simp at k'
  linear_combination k'

/-- **C140.** A bent mode of a lossless bend that carries power has a real angular wavenumber: with the periodic boundaries of the cross-section
there is no radiation loss. -/
theorem C140_lossless {m : ℂ} {ω r : ℝ} (hr : r ≠ 0) {dE dH : DxList sh ℝ} (hE : Nonzero dE) (hH : Nonzero dH) (ha : ∀ i, radA dE r i ≠ 0)
    (hb : ∀ i, radB dE dH r i ≠ 0) {eps mu e h : V 3 sh}
    (M : IsBentMode m ω (cw dE) (cw dH) (fun i => (radA dE r i : ℂ)) (fun i => (radB dE dH r i : ℂ)) (fld eps) (fld mu) (fld e) (fld h))
    (heps : ∀ p, (eps p).im = 0) (hmu : ∀ p, (mu p).im = 0) (hP : (modePower dE dH (fld e) (fld h)).re ≠ 0) : m.im = 0 := by
  have k := C140_attenuation hr hE hH ha hb M
  simp only [heps, hmu, mul_zero, add_zero, Finset.sum_const_zero, mul_eq_zero] at k
  rcases k with (h | h) | h
  · norm_num at h
  · exact h
  · exact absurd h hP

theorem bendEps_lossless {dE dH : DxList sh ℝ} (hE : ∀ a i, 0 < dE a i) (hH : ∀ a i, 0 < dH a i) {r : ℝ} (hr : 0 < r) {eps : V 3 sh} (heps : Lossless eps) :
    Lossless (bendEps (cw dE, cw dH) (r : ℂ) eps) ∧ Lossless (bendMu (cw dE, cw dH) (r : ℂ) eps) := by
  have pa : ∀ x : Idx sh, 0 < radA dE r (x 0) / r := fun x => div_pos (radA_pos hE hr _) hr
  have pb : ∀ x : Idx sh, 0 < radB dE dH r (x 0) / r := fun x => div_pos (radB_pos hE hH hr _) hr
  have key : ∀ (t : ℝ) (z : ℂ), 0 < t → z.im = 0 ∧ 0 < z.re → ((t : ℂ) * z).im = 0 ∧ 0 < ((t : ℂ) * z).re := fun t z ht hz => by
    rw [im_ofReal_mul, re_ofReal_mul, hz.1, mul_zero]
    exact ⟨rfl, mul_pos ht hz.2⟩
  constructor
  · rintro ⟨c, x⟩
    revert c
    refine forall_fin3 ?_ ?_ ?_
    · rw [bendEps_0, tB_cw]; exact key _ _ (pb x) (heps _)
    · rw [bendEps_1, tA_cw]; exact key _ _ (pa x) (heps _)
    · rw [bendEps_2, tA_cw, ← ofReal_one, ← ofReal_div]; exact key _ _ (one_div_pos.2 (pa x)) (heps _)
  · rintro ⟨c, x⟩
    revert c
    refine forall_fin3 ?_ ?_ ?_
    · rw [bendMu_0, tA_cw]; exact key _ _ (pa x) (heps _)
    · rw [bendMu_1, tB_cw]; exact key _ _ (pb x) (heps _)
    · rw [bendMu_2, tB_cw, ← ofReal_one, ← ofReal_div]; exact key _ _ (one_div_pos.2 (pb x)) (heps _)

theorem one_lossless : Lossless (1 : V 3 sh) := fun p => by simp

/-- `cylindrical_operator` of a lossless bend on a real grid. -/
theorem cyl_operatorE {dE dH : DxList sh ℝ} (hE : ∀ a i, 0 < dE a i) (hH : ∀ a i, 0 < dH a i) {r : ℝ} (hr : 0 < r) (ω : ℂ) {eps : V 3 sh} (heps : ∀ p, eps p ≠ 0) :
    WgCyl.cylindricalOperator ω (cw dE, cw dH) eps (r : ℂ)
      = operatorE ω (cw dE, cw dH) (bendEps (cw dE, cw dH) (r : ℂ) eps) (some (bendMu (cw dE, cw dH) (r : ℂ) 1)) :=
  C140_operator ω _ eps (ofReal_ne_zero.2 hr.ne') heps (fun i => by rw [ra_cw]; exact ofReal_ne_zero.2 (radA_pos hE hr i).ne')
    (fun i => by rw [rb_cw]; exact ofReal_ne_zero.2 (radB_pos hE hH hr i).ne')

/-- **C140.** Adding dielectric to a bend never lowers its largest angular wavenumber. -/
theorem C140_monotone {m₀ ω r : ℝ} (hm₀ : 0 < m₀) (hω : ω ≠ 0) (hr : 0 < r) {dE dH : DxList sh ℝ} (hE : ∀ a i, 0 < dE a i) (hH : ∀ a i, 0 < dH a i)
    (eps eps' : V 3 sh) (heps : Lossless eps) (heps' : Lossless eps') (hle : ∀ p, (eps p).re ≤ (eps' p).re)
    (h : IsEigenvalue (WgCyl.cylindricalOperator ω (cw dE, cw dH) eps r) (((m₀ / r : ℝ) : ℂ) ^ 2)) :
    ∃ m : ℝ, m₀ ≤ m ∧ IsEigenvalue (WgCyl.cylindricalOperator ω (cw dE, cw dH) eps' r) (((m / r : ℝ) : ℂ) ^ 2) := by
  rw [cyl_operatorE hE hH hr ω heps.ne] at h
  have hmono : ∀ p, (bendEps (cw dE, cw dH) (r : ℂ) eps p).re ≤ (bendEps (cw dE, cw dH) (r : ℂ) eps' p).re := by
    have pa : ∀ x : Idx sh, 0 < radA dE r (x 0) / r := fun x => div_pos (radA_pos hE hr _) hr
    have pb : ∀ x : Idx sh, 0 < radB dE dH r (x 0) / r := fun x => div_pos (radB_pos hE hH hr _) hr
    rintro ⟨c, x⟩
    revert c
    refine forall_fin3 ?_ ?_ ?_
    · rw [bendEps_0, bendEps_0, tB_cw, re_ofReal_mul, re_ofReal_mul]; exact mul_le_mul_of_nonneg_left (hle _) (pb x).le
    · rw [bendEps_1, bendEps_1, tA_cw, re_ofReal_mul, re_ofReal_mul]; exact mul_le_mul_of_nonneg_left (hle _) (pa x).le
    · rw [bendEps_2, bendEps_2, tA_cw, ← ofReal_one, ← ofReal_div, re_ofReal_mul, re_ofReal_mul]
      exact mul_le_mul_of_nonneg_left (hle _) (one_div_pos.2 (pa x)).le
  obtain ⟨β, h1, h2, -⟩ := C121_monotone (div_pos hm₀ hr) hω hE hH _ _ (some (bendMu (cw dE, cw dH) (r : ℂ) 1)) (bendEps_lossless hE hH hr heps).1
    (bendEps_lossless hE hH hr heps').1 hmono (bendEps_lossless hE hH hr one_lossless).2 h
  refine ⟨β * r, (div_le_iff₀ hr).1 h1, ?_⟩
  rw [cyl_operatorE hE hH hr ω heps'.ne, mul_div_cancel_right₀ _ hr.ne']
  exact h2

/-- The magnetic trial field along y that does not vary over the cross-section. -/
theorem bend_trial {β ω r : ℝ} (hω : ω ≠ 0) (hr : 0 < r) {dE dH : DxList sh ℝ} (hE : ∀ a i, 0 < dE a i) (hH : ∀ a i, 0 < dH a i) (eps : V 3 sh) (heps : Lossless eps) :
    elecEnergy dE dH (bendEps (cw dE, cw dH) (r : ℂ) eps)
        (hxy2e β ω (cw dE, cw dH) (bendEps (cw dE, cw dH) (r : ℂ) eps) (some (bendMu (cw dE, cw dH) (r : ℂ) 1)) *ᵥ uniformField 1)
      = β ^ 2 / ω ^ 2 * (r * ∑ x, areaE dE dH 0 x / (radB dE dH r (x 0) * (eps (0, x)).re)) ∧
    magEnergy dE dH (bendMu (cw dE, cw dH) (r : ℂ) 1) (hxy2h β (cw dE, cw dH) (some (bendMu (cw dE, cw dH) (r : ℂ) 1)) *ᵥ uniformField 1)
      = (∑ x, areaE dE dH 0 x * radB dE dH r (x 0)) / r := by
  set mu := bendMu (cw dE, cw dH) (r : ℂ) 1 with hmu
  set ep := bendEps (cw dE, cw dH) (r : ℂ) eps with hep
  have lE : Lossless ep := (bendEps_lossless hE hH hr heps).1
  have pb : ∀ x : Idx sh, 0 < radB dE dH r (x 0) := fun x => radB_pos hE hH hr _
  have z0 : ∀ x, (hxy2h (β : ℂ) (cw dE, cw dH) (some mu) *ᵥ uniformField 1) (0, x) = 0 := fun x => by
    rw [hxy2h_0]; simp [uniformField]
  have z1 : ∀ x, (hxy2h (β : ℂ) (cw dE, cw dH) (some mu) *ᵥ uniformField 1) (1, x) = 1 := fun x => by
    rw [hxy2h_1]; simp [uniformField]
  have z2 : ∀ x, (hxy2h (β : ℂ) (cw dE, cw dH) (some mu) *ᵥ uniformField 1) (2, x) = 0 := fun x => by
    rw [hxy2h_2, ← gradForward_fw, ← gradForward_fw]
    simp only [Option.getD_some, uniformField, hmu, bendMu_0, bendMu_1, Pi.one_apply, mul_one, zero_ne_one, if_false, mul_zero, if_true, gradForward]
    rw [tB, tB, shiftIdx_of_ne (show (0 : Fin 2) ≠ 1 by decide)]
    simp
  constructor
  · rw [hxy2e, ← mulVec_mulVec]
    have hc0 : ∀ x, (curlH (β : ℂ) (cw dE, cw dH) *ᵥ hxy2h β (cw dE, cw dH) (some mu) *ᵥ uniformField 1) (0, x) = I * β := fun x => by
      rw [curlH_0, ← gradBack_bw]
      simp only [gradBack, part, z2, z1]
      simp
    have hc1 : ∀ x, (curlH (β : ℂ) (cw dE, cw dH) *ᵥ hxy2h β (cw dE, cw dH) (some mu) *ᵥ uniformField 1) (1, x) = 0 := fun x => by
      rw [curlH_1, ← gradBack_bw]
      simp only [gradBack, part, z2, z0]
      simp
    have hc2 : ∀ x, (curlH (β : ℂ) (cw dE, cw dH) *ᵥ hxy2h β (cw dE, cw dH) (some mu) *ᵥ uniformField 1) (2, x) = 0 := fun x => by
      rw [curlH_2, ← gradBack_bw, ← gradBack_bw]
      simp only [gradBack, part, z1, z0]
      simp
    rw [elecEnergy, Fin.sum_univ_three]
    simp only [h2e_mulVec, normSq_div, hc0, hc1, hc2, normSq_zero, zero_div, mul_zero, Finset.sum_const_zero, add_zero]
    rw [Finset.mul_sum, Finset.mul_sum]
    refine Finset.sum_congr rfl fun x _ => ?_
    have h1 : ep (0, x) = ((radB dE dH r (x 0) / r * (eps (0, x)).re : ℝ) : ℂ) := by
      rw [hep, bendEps_0, tB_cw, ← heps.eq (0, x)]; push_cast; simp
    rw [h1]
    simp only [normSq_mul, normSq_I, normSq_ofReal, ofReal_re]
    have := pb x
    have := (heps (0, x)).2
    field_simp
  · rw [magEnergy, Fin.sum_univ_three]
    simp only [z0, z1, z2, normSq_zero, normSq_one, mul_zero, mul_one, Finset.sum_const_zero, zero_add, add_zero]
    rw [Finset.sum_div]
    refine Finset.sum_congr rfl fun x _ => ?_
    have h1 : mu (1, x) = ((radB dE dH r (x 0) / r : ℝ) : ℂ) := by
      rw [hmu, bendMu_1, tB_cw, Pi.one_apply, mul_one]
    rw [h1, ofReal_re, areaH_1, areaE_0]; ring

/-- **C140.** Every lossless bend guides a mode: some real angular wavenumber satisfies `m² ∫ dA/(ε_r r) ≥ ω² ∫ r dA`. -/
theorem C140_guided (hsh : ∀ a, 0 < sh a) {ω r : ℝ} (hω : ω ≠ 0) (hr : 0 < r) {dE dH : DxList sh ℝ} (hE : ∀ a i, 0 < dE a i) (hH : ∀ a i, 0 < dH a i) (eps : V 3 sh)
    (heps : Lossless eps) :
    ∃ m : ℝ, 0 < m ∧ ω ^ 2 * ∑ x, areaE dE dH 0 x * radB dE dH r (x 0) ≤ m ^ 2 * ∑ x, areaE dE dH 0 x / (radB dE dH r (x 0) * (eps (0, x)).re) ∧
      IsEigenvalue (WgCyl.cylindricalOperator ω (cw dE, cw dH) eps r) (((m / r : ℝ) : ℂ) ^ 2) := by
  have aE : ∀ c x, 0 < areaE dE dH c x := fun c x => Finset.prod_pos fun a _ => by split <;> simp [hE, hH]
  have pb : ∀ x : Idx sh, 0 < radB dE dH r (x 0) := fun x => radB_pos hE hH hr _
  let x₀ : Idx sh := fun a => ⟨0, hsh a⟩
  have hne : (Finset.univ : Finset (Idx sh)).Nonempty := ⟨x₀, Finset.mem_univ _⟩
  set A := ∑ x, areaE dE dH 0 x * radB dE dH r (x 0) with hA
  set R := ∑ x, areaE dE dH 0 x / (radB dE dH r (x 0) * (eps (0, x)).re) with hR
  have hA0 : 0 < A := Finset.sum_pos (fun x _ => mul_pos (aE _ x) (pb x)) hne
  have hR0 : 0 < R := Finset.sum_pos (fun x _ => div_pos (aE _ x) (mul_pos (pb x) (heps _).2)) hne
  have hw2 : 0 < ω ^ 2 := by positivity
  set β₀ := √(ω ^ 2 * A / (r ^ 2 * R)) with hb
  have hb0 : 0 < β₀ := Real.sqrt_pos.2 (by positivity)
  have hb2 : β₀ ^ 2 = ω ^ 2 * A / (r ^ 2 * R) := Real.sq_sqrt (by positivity)
  obtain ⟨e1, e2⟩ := bend_trial (β := β₀) hω hr hE hH eps heps
  obtain ⟨β, h1, h2, -⟩ := C121_trial hb0 hω hE hH _ (some (bendMu (cw dE, cw dH) (r : ℂ) 1)) (bendEps_lossless hE hH hr heps).1
    (bendEps_lossless hE hH hr one_lossless).2 (uniformField 1) (fun h0 => by
      have := congrFun h0 (1, x₀)
      simp [uniformField] at this) (by
    rw [Option.getD_some, e1, e2, hb2, ← hA, ← hR]
    exact le_of_eq (by field_simp))
  refine ⟨β * r, mul_pos (hb0.trans_le h1) hr, ?_, ?_⟩
  · have h3 : β₀ ^ 2 ≤ β ^ 2 := pow_le_pow_left₀ hb0.le h1 2
    rw [hb2, div_le_iff₀ (by positivity)] at h3
    linarith
  · rw [cyl_operatorE hE hH hr ω heps.ne, mul_div_cancel_right₀ _ hr.ne']
    exact h2

/-- **C140.** The first mode of every lossless bend is a propagating one: with `ε ≥ emin` and all radii at least `ρ`, some angular wavenumber is at
least `ω √emin ρ`, and so is the largest eigenvalue from which `solve_modes` starts. -/
theorem C140_fundamental (hsh : ∀ a, 0 < sh a) {ω r : ℝ} (hω : ω ≠ 0) (hr : 0 < r) {dE dH : DxList sh ℝ} (hE : ∀ a i, 0 < dE a i) (hH : ∀ a i, 0 < dH a i) (eps : V 3 sh)
    {emin ρ : ℝ} (hmin : 0 < emin) (hρ : 0 < ρ) (heps : ∀ p, (eps p).im = 0 ∧ emin ≤ (eps p).re) (hrad : ∀ i, ρ ≤ radB dE dH r i) :
    ω ^ 2 * emin * ρ ^ 2 ≤ r ^ 2 * nthEig (WgCyl.cylindricalOperator ω (cw dE, cw dH) eps r) 0 ∧
    ∃ m : ℝ, 0 < m ∧ ω ^ 2 * emin * ρ ^ 2 ≤ m ^ 2 ∧ IsEigenvalue (WgCyl.cylindricalOperator ω (cw dE, cw dH) eps r) (((m / r : ℝ) : ℂ) ^ 2) := by
  have hL : Lossless eps := fun p => ⟨(heps p).1, hmin.trans_le (heps p).2⟩
  have aE : ∀ c x, 0 < areaE dE dH c x := fun c x => Finset.prod_pos fun a _ => by split <;> simp [hE, hH]
  obtain ⟨m, hm, h1, h2⟩ := C140_guided hsh hω hr hE hH eps hL
  set A := ∑ x, areaE dE dH 0 x * radB dE dH r (x 0) with hA
  have hA0 : 0 < A := Finset.sum_pos (fun x _ => mul_pos (aE _ x) (radB_pos hE hH hr _)) ⟨fun a => ⟨0, hsh a⟩, Finset.mem_univ _⟩
  have hR : ∑ x, areaE dE dH 0 x / (radB dE dH r (x 0) * (eps (0, x)).re) ≤ A / (emin * ρ ^ 2) := by
    rw [hA, Finset.sum_div]
    refine Finset.sum_le_sum fun x _ => ?_
    have hb := radB_pos hE hH hr (x 0)
    have he := hmin.trans_le (heps (0, x)).2
    rw [div_le_div_iff₀ (mul_pos hb he) (by positivity)]
    have h3 : ρ ^ 2 ≤ radB dE dH r (x 0) ^ 2 := pow_le_pow_left₀ hρ.le (hrad _) 2
    have h4 : emin * ρ ^ 2 ≤ (eps (0, x)).re * radB dE dH r (x 0) ^ 2 := mul_le_mul (heps _).2 h3 (by positivity) he.le
    have := mul_le_mul_of_nonneg_left h4 (aE 0 x).le
    linarith
  have hlow : ω ^ 2 * emin * ρ ^ 2 ≤ m ^ 2 := by
    have h3 := h1.trans (mul_le_mul_of_nonneg_left hR (sq_nonneg m))
    rw [mul_div_assoc', le_div_iff₀ (by positivity)] at h3
    refine le_of_mul_le_mul_right ?_ hA0
    linarith
  refine ⟨hlow.trans ?_, m, hm, hlow, h2⟩
  have := le_nthEig h2
  rw [← ofReal_pow, ofReal_re, div_pow, div_le_iff₀ (by positivity)] at this
  linarith

/-- **C140.** Angular group velocity: along every continuous branch of eigenpairs of `cylindrical_operator` of a lossless bend, `dm/dω` is the energy of
the mode per unit angle over twice its power. It has the sign of the power, and its magnitude is at least `n ρ` for every `n² ≤ ε` and every
`ρ` below all radii of the grid: the energy does not go round the bend faster than light with index `n` at the innermost radius. -/
theorem C140_group {ω₀ r : ℝ} (hω₀ : ω₀ ≠ 0) (hr : 0 < r) {dE dH : DxList sh ℝ} (hE : ∀ a i, 0 < dE a i) (hH : ∀ a i, 0 < dH a i) (eps : V 3 sh)
    (heps : Lossless eps) {n ρ : ℝ} (hn : 0 < n) (hρ : 0 < ρ) (hne : ∀ p, n ^ 2 ≤ (eps p).re) (hρa : ∀ i, ρ ≤ radA dE r i) (hρb : ∀ i, ρ ≤ radB dE dH r i)
    (m : ℝ → ℂ) (v : ℝ → V 2 sh) (hv : ContinuousAt v ω₀) (hmc : ContinuousAt m ω₀) (hm : m ω₀ ≠ 0)
    (hmode : ∀ᶠ ω : ℝ in nhds ω₀, WgCyl.cylindricalOperator ω (cw dE, cw dH) eps r *ᵥ v ω = (m ω / r) ^ 2 • v ω)
    (e h : V 3 sh) (he : xy e = v ω₀)
    (M : IsBentMode (m ω₀) ω₀ (cw dE) (cw dH) (fun i => (radA dE r i : ℂ)) (fun i => (radB dE dH r i : ℂ)) (fld eps) (fun _ _ => 1) (fld e) (fld h))
    (hP : (modePower dE dH (fld e) (fld h)).re ≠ 0) :
    ∃ g : ℝ, HasDerivAt m (g : ℂ) ω₀ ∧
      g = (∑ c, ∑ x, (areaE dE dH c x * radE dE dH r c x * normSq (e (c, x)) * (eps (c, x)).re + areaH dE dH c x * radH dE dH r c x * normSq (h (c, x))))
        / (2 * (modePower dE dH (fld e) (fld h)).re) ∧
      n * ρ ≤ |g| ∧ (0 < g ↔ 0 < (modePower dE dH (fld e) (fld h)).re) := by
  have hr' : (r : ℂ) ≠ 0 := ofReal_ne_zero.2 hr.ne'
  have hA : ∀ i, WgCyl.ra (cw dE, cw dH) (r : ℂ) i ≠ 0 := fun i => by rw [ra_cw]; exact ofReal_ne_zero.2 (radA_pos hE hr i).ne'
  have hB : ∀ i, WgCyl.rb (cw dE, cw dH) (r : ℂ) i ≠ 0 := fun i => by rw [rb_cw]; exact ofReal_ne_zero.2 (radB_pos hE hH hr i).ne'
  set ep := bendEps (cw dE, cw dH) (r : ℂ) eps with hep
  set mu := bendMu (cw dE, cw dH) (r : ℂ) 1 with hmu
  have lE : Lossless ep := (bendEps_lossless hE hH hr heps).1
  have lM : Lossless mu := (bendEps_lossless hE hH hr one_lossless).2
  have M' := (C140_modes (m ω₀) ω₀ (cw dE, cw dH) hr' hA hB eps 1 e h).1 (by
      rw [show WgCyl.ra (cw dE, cw dH) (r : ℂ) = fun i => (radA dE r i : ℂ) from funext (ra_cw dE dH r),
        show WgCyl.rb (cw dE, cw dH) (r : ℂ) = fun i => (radB dE dH r i : ℂ) from funext (rb_cw dE dH r)]
      exact M)
  have hβ0 : m ω₀ / r ≠ 0 := div_ne_zero hm hr'
  have hw0 : (ω₀ : ℂ) ≠ 0 := ofReal_ne_zero.2 hω₀
  obtain ⟨-, -, q1, q2, -, -⟩ := C41_mode_gives_eigenvectors (m ω₀ / r) ω₀ hβ0 hw0 (cw dE, cw dH) ep (some mu) lE.ne lM.ne _ _ M'
  have hxy : xy (bendE (cw dE, cw dH) (r : ℂ) e) = v ω₀ := by
    rw [← he]
    funext ⟨c, x⟩
    match c with
    | 0 => exact bendE_0 _ _ _ _
    | 1 => exact bendE_1 _ _ _ _
  rw [hxy] at q1 q2
  have hmode' : ∀ᶠ ω : ℝ in nhds ω₀, operatorE ω (cw dE, cw dH) ep (some mu) *ᵥ v ω = (m ω / r) ^ 2 • v ω := by
    filter_upwards [hmode] with ω h1
    rw [← h1, cyl_operatorE hE hH hr ω heps.ne]
  have hcont : ContinuousAt (fun ω => m ω / (r : ℂ)) ω₀ := hmc.div_const _
  have hP' : (modePower dE dH (fld (exy2e (m ω₀ / r) (cw dE, cw dH) ep *ᵥ v ω₀)) (fld (exy2h (m ω₀ / r) ω₀ (cw dE, cw dH) ep (some mu) *ᵥ v ω₀))).re ≠ 0 := by
    rw [q1, q2, bend_power]; exact hP
  have g1 := C97_group_velocity hω₀ (fun a i => (hE a i).ne') (fun a i => (hH a i).ne') ep (some mu) lE.ne (fun p => (lE p).1) lM.ne (fun p => (lM p).1)
    (fun ω => m ω / (r : ℂ)) v hv hcont hβ0 hmode' hP'
  have hra : ∀ x : Idx sh, ρ ^ 2 ≤ radA dE r (x 0) ^ 2 := fun x => pow_le_pow_left₀ hρ.le (hρa _) 2
  have hrb : ∀ x : Idx sh, ρ ^ 2 ≤ radB dE dH r (x 0) ^ 2 := fun x => pow_le_pow_left₀ hρ.le (hρb _) 2
  have h01 : ∀ x, (n * ρ / r) ^ 2 ≤ (ep (0, x)).re * ((some mu).getD 1 (1, x)).re := fun x => by
    rw [Option.getD_some, hep, hmu, bendEps_0, bendMu_1, tB_cw, re_ofReal_mul, re_ofReal_mul, Pi.one_apply, one_re]
    have := mul_le_mul (hne (0, x)) (hrb x) (by positivity) (heps (0, x)).2.le
    rw [div_pow, mul_pow, div_le_iff₀ (by positivity)]
    refine this.trans (le_of_eq ?_)
    field_simp
  have h10 : ∀ x, (n * ρ / r) ^ 2 ≤ (ep (1, x)).re * ((some mu).getD 1 (0, x)).re := fun x => by
    rw [Option.getD_some, hep, hmu, bendEps_1, bendMu_0, tA_cw, re_ofReal_mul, re_ofReal_mul, Pi.one_apply, one_re]
    have := mul_le_mul (hne (1, x)) (hra x) (by positivity) (heps (1, x)).2.le
    rw [div_pow, mul_pow, div_le_iff₀ (by positivity)]
    refine this.trans (le_of_eq ?_)
    field_simp
  obtain ⟨g, g2, g3, g4⟩ := C122_group_index hω₀ hE hH ep (some mu) (fun p => (lE p).1) (fun p => (lE p).2) (fun p => (lM p).1) (fun p => (lM p).2)
    (n := n * ρ / r) (by positivity) h01 h10 (fun ω => m ω / (r : ℂ)) v hv hcont hβ0 hmode' hP'
  have g5 := g2.unique g1
  rw [q1, q2, bend_power] at g5
  rw [q1, q2, bend_power] at g4
  have g6 := ofReal_injective g5
  have e2 : ∀ c x, normSq (fld (bendE (cw dE, cw dH) r e) c x) * (ep (c, x)).re
      = radE dE dH r c x * normSq (e (c, x)) * (eps (c, x)).re / r := fun c x => by
    have := congrArg Complex.re (bend_densityE dE dH hr.ne' (fun i => (radA_pos hE hr i).ne') eps e c x)
    rwa [re_ofReal_mul, div_ofReal_re, re_ofReal_mul] at this
  have e3 : ∀ c x, normSq (fld (bendH (cw dE, cw dH) r h) c x) * (mu (c, x)).re
      = radH dE dH r c x * normSq (h (c, x)) / r := fun c x => by
    have := congrArg Complex.re (bend_densityH dE dH hr.ne' (fun i => (radB_pos hE hH hr i).ne') 1 h c x)
    rwa [re_ofReal_mul, div_ofReal_re, re_ofReal_mul, Pi.one_apply, one_re, mul_one] at this
  have e4 : ∑ c, ∑ x, (areaE dE dH c x * normSq (fld (bendE (cw dE, cw dH) r e) c x) * (ep (c, x)).re
        + areaH dE dH c x * normSq (fld (bendH (cw dE, cw dH) r h) c x) * (mu (c, x)).re)
      = (∑ c, ∑ x, (areaE dE dH c x * radE dE dH r c x * normSq (e (c, x)) * (eps (c, x)).re + areaH dE dH c x * radH dE dH r c x * normSq (h (c, x)))) / r := by
    simp only [mul_assoc (areaE dE dH _ _), mul_assoc (areaH dE dH _ _), e2, e3, Finset.sum_div]
    exact Finset.sum_congr rfl fun c _ => Finset.sum_congr rfl fun x _ => by ring
  rw [Option.getD_some, e4] at g6
  refine ⟨g * r, ?_, ?_, ?_, ?_⟩
  · have := g2.mul_const (r : ℂ)
    simp only [div_mul_cancel₀ _ hr'] at this
    rwa [ofReal_mul]
  · rw [g6]
    field_simp
  · rw [abs_mul, abs_of_pos hr, ← div_le_iff₀ hr]; exact g3
  · rw [← g4]; exact mul_pos_iff_of_pos_right hr

/-! The hypotheses: a bend one cell wide and three cells high, unit widths, inner radius 2 (radii 3 and 7/2), vacuum. -/

/-- The mode polarised along r of the ring. -/
theorem ring_mode_r (ω : ℂ) : IsBentMode (ω * (7 / 2)) ω (cw (fun _ _ => 1)) (cw (fun _ _ => 1))
    (fun i => (radA (sh := ![1, 3]) (fun _ _ => 1) 2 i : ℂ)) (fun i => (radB (sh := ![1, 3]) (fun _ _ => 1) (fun _ _ => 1) 2 i : ℂ)) (fld 1) (fld 1)
    (fld fun p => if p.1 = 0 then 1 else 0) (fld fun p => if p.1 = 1 then 1 else 0) := by
  have hb : ∀ x : Idx ![1, 3], radB (sh := ![1, 3]) (fun _ _ => 1) (fun _ _ => 1) 2 (x 0) = 7 / 2 := fun x => by
    have h1 : ∀ j : Fin (![1, 3] 0), (j : ℕ) = 0 := fun j => by have := j.isLt; simp at this; omega
    rw [radB, Finset.sum_congr rfl (fun j _ => if_pos (by rw [h1 j]; exact Nat.zero_le _))]
    norm_num
  refine ⟨fun x => ?_, fun x => ?_, fun x => ?_, fun x => ?_, fun x => ?_, fun x => ?_⟩ <;> simp [fld, gradForward, gradBack, hb] <;> ring

/-- The mode polarised along y of the ring. -/
theorem ring_mode_y (ω : ℂ) : IsBentMode (ω * 3) ω (cw (fun _ _ => 1)) (cw (fun _ _ => 1))
    (fun i => (radA (sh := ![1, 3]) (fun _ _ => 1) 2 i : ℂ)) (fun i => (radB (sh := ![1, 3]) (fun _ _ => 1) (fun _ _ => 1) 2 i : ℂ)) (fld 1) (fld 1)
    (fld fun p => if p.1 = 1 then 1 else 0) (fld fun p => if p.1 = 0 then -1 else 0) := by
  have ha : ∀ x : Idx ![1, 3], radA (sh := ![1, 3]) (fun _ _ => 1) 2 (x 0) = 3 := fun x => by
    have h1 : ∀ j : Fin (![1, 3] 0), (j : ℕ) = 0 := fun j => by have := j.isLt; simp at this; omega
    rw [radA, Finset.sum_congr rfl (fun j _ => if_pos (by rw [h1 j]; exact Nat.zero_le _))]
    norm_num
  refine ⟨fun x => ?_, fun x => ?_, fun x => ?_, fun x => ?_, fun x => ?_, fun x => ?_⟩ <;> simp [fld, gradForward, gradBack, ha] <;> ring

/-- Both carry power, their wavenumbers differ, and the first one has a continuous branch with group index 7/2. -/
example : (modePower (sh := ![1, 3]) (fun _ _ => 1) (fun _ _ => 1) (fld fun p => if p.1 = 0 then 1 else 0) (fld fun p => if p.1 = 1 then 1 else 0)).re = 3 ∧
    (modePower (sh := ![1, 3]) (fun _ _ => 1) (fun _ _ => 1) (fld fun p => if p.1 = 1 then 1 else 0) (fld fun p => if p.1 = 0 then -1 else 0)).re = 3 ∧
    (5 * (7 / 2) : ℂ) ^ 2 ≠ (5 * 3) ^ 2 := by
  have hcard : Fintype.card (Idx ![1, 3]) = 3 := by decide
  refine ⟨?_, ?_, by norm_num⟩
  · simp [modePower, fld, areaE_0, Finset.card_univ, hcard]
  · simp [modePower, fld, areaE_1, Finset.card_univ, hcard]

/-- A lossless bend four cells wide with a graded core: it has a guided mode, whose fields satisfy Maxwell's equations in the bend. -/
example : ∃ m : ℝ, (2 : ℝ) ^ 2 * 1 * 10 ^ 2 ≤ m ^ 2 ∧ ∃ e h : V 3 (fun _ : Fin 2 => 4), e ≠ 0 ∧
    IsBentMode m (2 : ℝ) (cw fun _ _ => 1) (cw fun _ _ => 1) (WgCyl.ra (cw fun _ _ => 1, cw fun _ _ => 1) (10 : ℝ)) (WgCyl.rb (cw fun _ _ => 1, cw fun _ _ => 1) (10 : ℝ))
      (fld fun p => 1 + (p.2 0 : ℕ)) (fun _ _ => 1) (fld e) (fld h) := by
  have h1 : ∀ (a : Fin 2) (i : Fin 4), (0 : ℝ) < (fun _ _ => 1 : DxList (fun _ => 4) ℝ) a i := fun _ _ => one_pos
  have hl : ∀ p : Fin 3 × Idx (fun _ : Fin 2 => 4), ((1 : ℂ) + ((p.2 0 : ℕ) : ℂ)).im = 0 ∧ (1 : ℝ) ≤ ((1 : ℂ) + ((p.2 0 : ℕ) : ℂ)).re := fun p => by
    rw [← ofReal_natCast, ← ofReal_one, ← ofReal_add]
    exact ⟨ofReal_im _, by rw [ofReal_re]; linarith [Nat.cast_nonneg (α := ℝ) (p.2 0 : ℕ)]⟩
  obtain ⟨-, m, hm, h2, v, hv, he⟩ := C140_fundamental (sh := fun _ => 4) (fun _ => by norm_num) (ω := 2) (r := 10) two_ne_zero (by norm_num)
    (dE := fun _ _ => 1) (dH := fun _ _ => 1) h1 h1 (fun p => 1 + (p.2 0 : ℕ)) (emin := 1) (ρ := 10) one_pos (by norm_num) hl (fun i => by
      have : (0 : ℝ) ≤ ∑ j : Fin 4, if (j : ℕ) ≤ i then (1 : ℝ) else 0 := Finset.sum_nonneg fun j _ => by split_ifs <;> norm_num
      have e : radB (sh := fun _ => 4) (fun _ _ => 1) (fun _ _ => 1) 10 i = 10 + 1 / 2 + ∑ j : Fin 4, if (j : ℕ) ≤ i then (1 : ℝ) else 0 := rfl
      linarith)
  have hm' : (m : ℂ) ≠ 0 := ofReal_ne_zero.2 hm.ne'
  rw [ofReal_div] at he
  obtain ⟨k1, k2⟩ := C140_fields hm' (ω := (2 : ℝ)) (by norm_num) (rmin := (10 : ℝ)) (by norm_num) _ _
    (fun p h0 => by have h3 := (hl p).2; rw [show (1 : ℂ) + ((p.2 0 : ℕ) : ℂ) = 0 from h0] at h3; norm_num at h3)
    (fun i => by rw [ra_cw]; exact ofReal_ne_zero.2 (radA_pos h1 (by norm_num) i).ne') (fun i => by rw [rb_cw]; exact ofReal_ne_zero.2 (radB_pos h1 h1 (by norm_num) i).ne') v he
  exact ⟨m, h2, _, _, fun h0 => hv (by rw [← k1, h0]; rfl), k2⟩

end Meanas.Props

