/-
C134 (Lorentz reciprocity through any closed surface; overlap integrals do not depend on the plane).
-/
import Verif.Props.FdfdPoynting
import Verif.Props.FdfdSystem
import Verif.Props.Waveguide3dModes

namespace Meanas.Props

open Matrix Complex Fdfd Spec Fdtd

variable {sh : Fin 3 → ℕ}

/-- Maxwell's equations in a cell from the second-order equation there, with H from `e2h`. -/
theorem maxwell_of_eFull {ω : ℂ} (hω : ω ≠ 0) {dxes : Dx sh} {eps : VField sh ℂ} {mu : Option (VField sh ℂ)}
    (hmu : ∀ m, mu = some m → ∀ c x, m c x ≠ 0) {E H : VField sh ℂ} (hH : vecS H = Fdfd.e2h ω dxes (mu.map vecS) none *ᵥ vecS E) (c : Fin 3) (x : Idx sh) :
    Functional.curlForward (some dxes.1) E c x = -I * ω * (mu.getD 1 c x * H c x) ∧
    ∀ j : ℂ, (eFull ω dxes (vecS eps) (mu.map vecS) none none *ᵥ vecS E) (c, x) = -I * ω * j →
      Functional.curlBack (some dxes.2) H c x = j + I * ω * (eps c x * E c x) := by
  have hI : (I : ℂ) ≠ 0 := I_ne_zero
  have hmuv : ∀ c y, muV (mu.map vecS) (c, y) = mu.getD 1 c y := by
    intro c y; cases mu <;> rfl
  have hne : ∀ c y, mu.getD 1 c y ≠ 0 := by
    intro c y
    cases hm : mu with
    | none => exact one_ne_zero
    | some m => exact hmu m hm c y
  have hcE : ∀ c y, Functional.curlForward (some dxes.1) E c y = -I * ω * (mu.getD 1 c y * H c y) := by
    intro c y
    have := congrFun hH (c, y)
    rw [vecS_apply, e2h_mulVec, hmuv] at this
    rw [this]; have := hne c y
    have h5 : cE dxes (vecS E) (c, y) = Functional.curlForward (some dxes.1) E c y := rfl
    rw [h5]; field_simp
  refine ⟨hcE c x, fun j h1 => ?_⟩
  rw [eFull_mulVec, vecS_apply, vecS_apply] at h1
  have h2 : (unS fun q => cE dxes (vecS E) q / muV (mu.map vecS) q) = fun c y => (-I * ω) * H c y := by
    funext c y
    show Functional.curlForward (some dxes.1) (unS (vecS E)) c y / muV (mu.map vecS) (c, y) = _
    rw [unS_vecS, hcE, hmuv]; have := hne c y; field_simp
  have h3 : cH dxes (fun q => cE dxes (vecS E) q / muV (mu.map vecS) q) (c, x) = -I * ω * Functional.curlBack (some dxes.2) H c x := by
    show Functional.curlBack (some dxes.2) (unS fun q => cE dxes (vecS E) q / muV (mu.map vecS) q) c x = _
    rw [h2, Meanas.curlBack_smul]
  rw [h3] at h1
  have hII : (I : ℂ) ^ 2 = -1 := I_sq
  rw [← mul_right_inj' (mul_ne_zero (neg_ne_zero.2 hI) hω)]
  linear_combination h1 + ω ^ 2 * eps c x * E c x * hII

/-- `E₁ × H₂ - E₂ × H₁` with the library's cross product. -/
noncomputable def lorentzCross (dxes : Dx sh) (E₁ H₁ E₂ H₂ : VField sh ℂ) : VField sh ℂ :=
  fun a x => FdfdF.poyntingECrossH dxes E₁ H₂ a x - FdfdF.poyntingECrossH dxes E₂ H₁ a x

theorem flux_cross (dxes : Dx sh) (hd : Nonzero dxes.1 ∧ Nonzero dxes.2) (E H : VField sh ℂ) (x : Idx sh) :
    flux (FdfdF.poyntingECrossH dxes E H) x = ∑ c, volH dxes.1 dxes.2 c x * (H c x * Functional.curlForward (some dxes.1) E c x)
      - ∑ c, volE dxes.1 dxes.2 c x * (E c x * Functional.curlBack (some dxes.2) H c x) := by
  have key := poynting_local (some dxes) hd.1 hd.2 E H x
  have hflux : flux (FdfdF.poyntingECrossH dxes E H) x = divS (poynting E H (some dxes)) x := rfl
  rw [hflux, ← neg_inj, ← key]
  simp only [dxesOrOnes, Option.map_some]
  ring

/-- **C134.** Lorentz reciprocity for any closed surface. Two fields of the same medium (lossy or not, also magnetic, also with complex-stretched widths)
that are driven by `J₁`, `J₂` in the cells of a set: what `E₁ × H₂ - E₂ × H₁` carries out of the set through its surface is the difference of the reactions of
the currents inside. -/
theorem C134_surface (ω : ℂ) (hω : ω ≠ 0) (dxes : Dx sh) (hd : Nonzero dxes.1 ∧ Nonzero dxes.2) (eps : VField sh ℂ) (mu : Option (VField sh ℂ))
    (hmu : ∀ m, mu = some m → ∀ c x, m c x ≠ 0) (E₁ H₁ J₁ E₂ H₂ J₂ : VField sh ℂ) (R : Finset (Idx sh))
    (h₁ : ∀ c, ∀ x ∈ R, (eFull ω dxes (vecS eps) (mu.map vecS) none none *ᵥ vecS E₁) (c, x) = -I * ω * J₁ c x)
    (h₂ : ∀ c, ∀ x ∈ R, (eFull ω dxes (vecS eps) (mu.map vecS) none none *ᵥ vecS E₂) (c, x) = -I * ω * J₂ c x)
    (hH₁ : vecS H₁ = Fdfd.e2h ω dxes (mu.map vecS) none *ᵥ vecS E₁) (hH₂ : vecS H₂ = Fdfd.e2h ω dxes (mu.map vecS) none *ᵥ vecS E₂) :
    surfaceFlux (lorentzCross dxes E₁ H₁ E₂ H₂) R = ∑ x ∈ R, ∑ c, volE dxes.1 dxes.2 c x * (E₂ c x * J₁ c x - E₁ c x * J₂ c x) := by
  rw [← sum_flux]
  refine Finset.sum_congr rfl fun x hx => ?_
  have hf : flux (lorentzCross dxes E₁ H₁ E₂ H₂) x = flux (FdfdF.poyntingECrossH dxes E₁ H₂) x - flux (FdfdF.poyntingECrossH dxes E₂ H₁) x := by
    simp only [flux, lorentzCross, ← Finset.sum_sub_distrib]
    exact Finset.sum_congr rfl fun a _ => by ring
  rw [hf, flux_cross dxes hd, flux_cross dxes hd]
  have a1 := fun c => maxwell_of_eFull hω (eps := eps) hmu hH₁ c x
  have a2 := fun c => maxwell_of_eFull hω (eps := eps) hmu hH₂ c x
  rw [← Finset.sum_sub_distrib, ← Finset.sum_sub_distrib, ← Finset.sum_sub_distrib]
  refine Finset.sum_congr rfl fun c _ => ?_
  rw [(a1 c).1, (a2 c).1, (a1 c).2 _ (h₁ c x hx), (a2 c).2 _ (h₂ c x hx)]
  ring

/-- Cross fluxes through the plane of faces after layer `i` along an axis. -/
noncomputable def planeFlux (S : VField sh ℂ) (a : Fin 3) (i : ℕ) : ℂ := ∑ x with (x a : ℕ) = i, S a x

/-- The surface of the layers `i + 1, …, j` are the planes after `i` and after `j`. -/
theorem surfaceFlux_layers (S : VField sh ℂ) (a : Fin 3) {i j : ℕ} (hij : i ≤ j) (hj : j < sh a) :
    surfaceFlux S {x | i < (x a : ℕ) ∧ (x a : ℕ) ≤ j} = planeFlux S a j - planeFlux S a i := by
  rcases hij.eq_or_lt with rfl | hlt
  · rw [sub_self, surfaceFlux]
    refine Finset.sum_eq_zero fun b _ => ?_
    have : (Finset.univ.filter fun x : Idx sh => i < (x a : ℕ) ∧ (x a : ℕ) ≤ i) = ∅ := by
      ext x; simp
    rw [this]; simp
  have hother : ∀ b, b ≠ a → ∀ x : Idx sh, shiftIdx b 1 x a = x a := fun b hb x => shiftIdx_of_ne hb.symm 1 x
  have hself : ∀ x : Idx sh, ((shiftIdx a 1 x a : Fin (sh a)) : ℕ) = if (x a : ℕ) + 1 < sh a then (x a : ℕ) + 1 else 0 := by
    intro x
    have h1 := wrap_val (x a) 1
    rw [shiftIdx, Function.update_self]
    have := (x a).isLt
    split_ifs with h
    · rw [Int.emod_eq_of_lt (by omega) (by omega)] at h1; omega
    · rw [show ((x a : ℕ) : ℤ) + 1 = (sh a : ℤ) by omega, Int.emod_self] at h1; omega
  rw [surfaceFlux, Finset.sum_eq_single a]
  · rw [planeFlux, planeFlux]
    congr 1
    · refine Finset.sum_congr ?_ fun _ _ => rfl
      ext x
      simp only [Finset.mem_filter, Finset.mem_univ, true_and, hself]
      have := (x a).isLt
      split_ifs <;> omega
    · refine Finset.sum_congr ?_ fun _ _ => rfl
      ext x
      simp only [Finset.mem_filter, Finset.mem_univ, true_and, hself]
      have := (x a).isLt
      split_ifs <;> omega
  · intro b _ hb
    simp only [Finset.mem_filter, Finset.mem_univ, true_and, hother b hb, and_not_self, not_and_self, Finset.filter_false, Finset.sum_empty, sub_self]
  · simp

/-- **C134.** The reciprocity integral does not depend on the plane: between two planes without currents of either field,
`Σ (E₁ × H₂ - E₂ × H₁)` over the faces of a plane is the same for both. -/
theorem C134_planes (ω : ℂ) (hω : ω ≠ 0) (dxes : Dx sh) (hd : Nonzero dxes.1 ∧ Nonzero dxes.2) (eps : VField sh ℂ) (mu : Option (VField sh ℂ))
    (hmu : ∀ m, mu = some m → ∀ c x, m c x ≠ 0) (E₁ H₁ E₂ H₂ : VField sh ℂ) (a : Fin 3) {i j : ℕ} (hij : i ≤ j) (hj : j < sh a)
    (h₁ : ∀ c (x : Idx sh), i < (x a : ℕ) → (x a : ℕ) ≤ j → (eFull ω dxes (vecS eps) (mu.map vecS) none none *ᵥ vecS E₁) (c, x) = 0)
    (h₂ : ∀ c (x : Idx sh), i < (x a : ℕ) → (x a : ℕ) ≤ j → (eFull ω dxes (vecS eps) (mu.map vecS) none none *ᵥ vecS E₂) (c, x) = 0)
    (hH₁ : vecS H₁ = Fdfd.e2h ω dxes (mu.map vecS) none *ᵥ vecS E₁) (hH₂ : vecS H₂ = Fdfd.e2h ω dxes (mu.map vecS) none *ᵥ vecS E₂) :
    planeFlux (lorentzCross dxes E₁ H₁ E₂ H₂) a j = planeFlux (lorentzCross dxes E₁ H₁ E₂ H₂) a i := by
  have := C134_surface ω hω dxes hd eps mu hmu E₁ H₁ 0 E₂ H₂ 0 {x | i < (x a : ℕ) ∧ (x a : ℕ) ≤ j}
    (fun c x hx => by have := (Finset.mem_filter.1 hx).2; simp [h₁ c x this.1 this.2])
    (fun c x hx => by have := (Finset.mem_filter.1 hx).2; simp [h₂ c x this.1 this.2]) hH₁ hH₂
  rw [surfaceFlux_layers _ a hij hj] at this
  simp only [Pi.zero_apply, mul_zero, sub_self, Finset.sum_const_zero] at this
  exact sub_eq_zero.1 this

/-- **C134.** The overlap integral of any field with a mode of a waveguide: wherever the field has no sources and the waveguide is uniform, the integral with the
mode returned by `solve_mode` and continued by `expand_e` is the same at every plane (polarity +1; for -1 the expanded field is no solution, C51). -/
theorem C134_mode_overlap {axis : Fin 3} {S : Wg3.Slices sh axis} {ω : ℂ} {dxes : Dx sh} {d : ℝ} {eps : VField sh ℂ} {mu : Option (VField sh ℂ)}
    {exy : Wg2.V 2 (Wg3.sh2 S)} {k2d : ℂ} (U : UniformGuide S ω dxes d eps mu exy k2d) (hd : Nonzero dxes.1 ∧ Nonzero dxes.2) {m : Wg3.Mode sh}
    (hm : Wg3.solveMode S ω dxes 1 eps mu exy k2d = .ok m) (E H Em Hm : VField sh ℂ) (hEm : Em = Wg3.expandE m.E m.k dxes 1 S)
    (hHm : vecS Hm = Fdfd.e2h ω dxes (mu.map vecS) none *ᵥ vecS Em) (hH : vecS H = Fdfd.e2h ω dxes (mu.map vecS) none *ᵥ vecS E)
    {i j : ℕ} (hij : i ≤ j) (hj : j + 1 < sh axis)
    (hE : ∀ c (x : Idx sh), i < (x axis : ℕ) → (x axis : ℕ) ≤ j → (eFull ω dxes (vecS eps) (mu.map vecS) none none *ᵥ vecS E) (c, x) = 0) :
    planeFlux (lorentzCross dxes E H Em Hm) axis j = planeFlux (lorentzCross dxes E H Em Hm) axis i := by
  subst hEm
  refine C134_planes ω U.hω dxes hd eps mu (fun m' hm' c x => by have := U.hmu c x; rw [hm'] at this; exact this) E H _ Hm axis hij (by omega) hE
    (fun c x h1 h2 => (C51_forward_partial U hm).1 c x (by omega) (by omega)) hH hHm

/-- `E₁ × H₂* + E₂* × H₁` with the library's cross product: the cross term of the power of `E₁ + E₂`. -/
noncomputable def crossPower (dxes : Dx sh) (E₁ H₁ E₂ H₂ : VField sh ℂ) : VField sh ℂ :=
  fun a x => FdfdF.poyntingECrossH dxes E₁ (fun c y => (starRingEnd ℂ) (H₂ c y)) a x
    + FdfdF.poyntingECrossH dxes (fun c y => (starRingEnd ℂ) (E₂ c y)) H₁ a x

/-- **C134.** The same with complex conjugates for lossless media at a real frequency: `E₁ × H₂* + E₂* × H₁` leaving any set of cells is what the currents
inside exchange. -/
theorem C134_conjugate_surface (ω : ℝ) (hω : ω ≠ 0) (d : DxList sh ℝ × DxList sh ℝ) (hd : Nonzero d.1 ∧ Nonzero d.2) (eps : VField sh ℂ)
    (mu : Option (VField sh ℂ)) (hmu : ∀ m, mu = some m → ∀ c x, m c x ≠ 0) (E₁ H₁ J₁ E₂ H₂ J₂ : VField sh ℂ) (R : Finset (Idx sh))
    (hreal : ∀ c, ∀ x ∈ R, (eps c x).im = 0 ∧ (mu.getD 1 c x).im = 0)
    (h₁ : ∀ c, ∀ x ∈ R, (eFull ω (cDx d) (vecS eps) (mu.map vecS) none none *ᵥ vecS E₁) (c, x) = -I * ω * J₁ c x)
    (h₂ : ∀ c, ∀ x ∈ R, (eFull ω (cDx d) (vecS eps) (mu.map vecS) none none *ᵥ vecS E₂) (c, x) = -I * ω * J₂ c x)
    (hH₁ : vecS H₁ = Fdfd.e2h ω (cDx d) (mu.map vecS) none *ᵥ vecS E₁) (hH₂ : vecS H₂ = Fdfd.e2h ω (cDx d) (mu.map vecS) none *ᵥ vecS E₂) :
    surfaceFlux (crossPower (cDx d) E₁ H₁ E₂ H₂) R
      = -∑ x ∈ R, ∑ c, volE d.1 d.2 c x * (E₁ c x * (starRingEnd ℂ) (J₂ c x) + (starRingEnd ℂ) (E₂ c x) * J₁ c x) := by
  have hn : Nonzero (cDx d).1 ∧ Nonzero (cDx d).2 :=
    ⟨fun a i => ofReal_ne_zero.2 (hd.1 a i), fun a i => ofReal_ne_zero.2 (hd.2 a i)⟩
  rw [← sum_flux, ← Finset.sum_neg_distrib]
  refine Finset.sum_congr rfl fun x hx => ?_
  have hf : flux (crossPower (cDx d) E₁ H₁ E₂ H₂) x = flux (FdfdF.poyntingECrossH (cDx d) E₁ (fun c y => (starRingEnd ℂ) (H₂ c y))) x
      + flux (FdfdF.poyntingECrossH (cDx d) (fun c y => (starRingEnd ℂ) (E₂ c y)) H₁) x := by
    simp only [flux, crossPower, ← Finset.sum_add_distrib]
    exact Finset.sum_congr rfl fun a _ => by ring
  rw [hf, flux_cross _ hn, flux_cross _ hn]
  have a1 := fun c => maxwell_of_eFull (ofReal_ne_zero.2 hω) (eps := eps) hmu hH₁ c x
  have a2 := fun c => maxwell_of_eFull (ofReal_ne_zero.2 hω) (eps := eps) hmu hH₂ c x
  have c2 : ∀ c, Functional.curlForward (some (cDx d).1) (fun c y => (starRingEnd ℂ) (E₂ c y)) c x
      = (starRingEnd ℂ) (Functional.curlForward (some (cDx d).1) E₂ c x) := fun c => conj_curlForward d.1 E₂ c x
  have c3 : ∀ c, Functional.curlBack (some (cDx d).2) (fun c y => (starRingEnd ℂ) (H₂ c y)) c x
      = (starRingEnd ℂ) (Functional.curlBack (some (cDx d).2) H₂ c x) := fun c => conj_curlBack d.2 H₂ c x
  rw [← Finset.sum_sub_distrib, ← Finset.sum_sub_distrib, ← Finset.sum_add_distrib, ← Finset.sum_neg_distrib]
  refine Finset.sum_congr rfl fun c _ => ?_
  have r1 : (starRingEnd ℂ) (eps c x) = eps c x := conj_eq_iff_im.2 (hreal c x hx).1
  have r2 : (starRingEnd ℂ) (mu.getD 1 c x) = mu.getD 1 c x := conj_eq_iff_im.2 (hreal c x hx).2
  rw [c2, c3, (a1 c).1, (a2 c).1, (a1 c).2 _ (h₁ c x hx), (a2 c).2 _ (h₂ c x hx)]
  simp only [map_add, map_mul, map_neg, conj_I, conj_ofReal, r1, r2, volE_cDx, volH_cDx]
  ring

/-- **C134.** So in a lossless region without currents the cross term of the power is the same through every plane: the powers of two fields (for example of two
modes) add up at one plane if they do at another. -/
theorem C134_power_planes (ω : ℝ) (hω : ω ≠ 0) (d : DxList sh ℝ × DxList sh ℝ) (hd : Nonzero d.1 ∧ Nonzero d.2) (eps : VField sh ℂ)
    (mu : Option (VField sh ℂ)) (hmu : ∀ m, mu = some m → ∀ c x, m c x ≠ 0) (E₁ H₁ E₂ H₂ : VField sh ℂ) (a : Fin 3) {i j : ℕ} (hij : i ≤ j) (hj : j < sh a)
    (hreal : ∀ c (x : Idx sh), i < (x a : ℕ) → (x a : ℕ) ≤ j → (eps c x).im = 0 ∧ (mu.getD 1 c x).im = 0)
    (h₁ : ∀ c (x : Idx sh), i < (x a : ℕ) → (x a : ℕ) ≤ j → (eFull ω (cDx d) (vecS eps) (mu.map vecS) none none *ᵥ vecS E₁) (c, x) = 0)
    (h₂ : ∀ c (x : Idx sh), i < (x a : ℕ) → (x a : ℕ) ≤ j → (eFull ω (cDx d) (vecS eps) (mu.map vecS) none none *ᵥ vecS E₂) (c, x) = 0)
    (hH₁ : vecS H₁ = Fdfd.e2h ω (cDx d) (mu.map vecS) none *ᵥ vecS E₁) (hH₂ : vecS H₂ = Fdfd.e2h ω (cDx d) (mu.map vecS) none *ᵥ vecS E₂) :
    planeFlux (crossPower (cDx d) E₁ H₁ E₂ H₂) a j = planeFlux (crossPower (cDx d) E₁ H₁ E₂ H₂) a i := by
  have := C134_conjugate_surface ω hω d hd eps mu hmu E₁ H₁ 0 E₂ H₂ 0 {x | i < (x a : ℕ) ∧ (x a : ℕ) ≤ j}
    (fun c x hx => by have := (Finset.mem_filter.1 hx).2; exact hreal c x this.1 this.2)
    (fun c x hx => by have := (Finset.mem_filter.1 hx).2; simp [h₁ c x this.1 this.2])
    (fun c x hx => by have := (Finset.mem_filter.1 hx).2; simp [h₂ c x this.1 this.2]) hH₁ hH₂
  rw [surfaceFlux_layers _ a hij hj] at this
  simp only [Pi.zero_apply, map_zero, mul_zero, add_zero, Finset.sum_const_zero, neg_zero] at this
  exact sub_eq_zero.1 this

/-- Fields as in `C134_surface`: any field is driven by some current, and `e2h` gives its H. -/
example (ω : ℂ) (hω : ω ≠ 0) (dxes : Dx sh) (eps E : VField sh ℂ) (mu : Option (VField sh ℂ)) (R : Finset (Idx sh)) :
    ∃ J H : VField sh ℂ, (∀ c, ∀ x ∈ R, (eFull ω dxes (vecS eps) (mu.map vecS) none none *ᵥ vecS E) (c, x) = -I * ω * J c x)
      ∧ vecS H = Fdfd.e2h ω dxes (mu.map vecS) none *ᵥ vecS E := by
  refine ⟨unS ((-I * ω)⁻¹ • (eFull ω dxes (vecS eps) (mu.map vecS) none none *ᵥ vecS E)),
    unS (Fdfd.e2h ω dxes (mu.map vecS) none *ᵥ vecS E), fun c x _ => ?_, vecS_unS _⟩
  have : unS ((-I * ω)⁻¹ • (eFull ω dxes (vecS eps) (mu.map vecS) none none *ᵥ vecS E)) c x
      = (-I * ω)⁻¹ * (eFull ω dxes (vecS eps) (mu.map vecS) none none *ᵥ vecS E) (c, x) := rfl
  rw [this, mul_inv_cancel_left₀ (mul_ne_zero (neg_ne_zero.2 I_ne_zero) hω)]

/-- Fields as in `C134_planes`: the field of any current outside the layers between the planes, wherever the system can be solved. -/
example (ω : ℂ) (dxes : Dx sh) (eps J : VField sh ℂ) (mu : Option (VField sh ℂ)) (a : Fin 3) (i j : ℕ)
    (hu : IsUnit (eFull ω dxes (vecS eps) (mu.map vecS) none none).det) (hJ : ∀ c (x : Idx sh), i < (x a : ℕ) → (x a : ℕ) ≤ j → J c x = 0) :
    ∃ E : VField sh ℂ, eFull ω dxes (vecS eps) (mu.map vecS) none none *ᵥ vecS E = (-I * ω) • vecS J ∧
      ∀ c (x : Idx sh), i < (x a : ℕ) → (x a : ℕ) ≤ j → (eFull ω dxes (vecS eps) (mu.map vecS) none none *ᵥ vecS E) (c, x) = 0 := by
  have h : eFull ω dxes (vecS eps) (mu.map vecS) none none *ᵥ vecS (unS ((eFull ω dxes (vecS eps) (mu.map vecS) none none)⁻¹ *ᵥ ((-I * ω) • vecS J)))
      = (-I * ω) • vecS J := by
    rw [vecS_unS, mulVec_mulVec, mul_nonsing_inv _ hu, one_mulVec]
  refine ⟨_, h, fun c x h1 h2 => ?_⟩
  rw [h]
  have : vecS J (c, x) = 0 := hJ c x h1 h2
  simp [this]

end Meanas.Props
