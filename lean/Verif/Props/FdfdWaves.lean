/-
C31 (Poynting operators and frequency-domain energy balance), C35 (time-harmonic FDTD = FDFD) and C36 (plane waves).
-/
import Verif.Props.FdfdOperators
import Mathlib.Analysis.SpecialFunctions.Trigonometric.Basic
import Mathlib.Analysis.Complex.Trigonometric

namespace Meanas.Props

open Matrix Complex Fdfd Spec Fdtd

variable {sh : Fin 3 → ℕ}

/-! ### C31 -/

theorem poyntingECrossH_eq (dxes : Dx sh) (e h : VField sh ℂ) : FdfdF.poyntingECrossH dxes e h = poynting e h (some dxes) := rfl

/-- C31: the (E×) operator applied to H is the functional cross product. -/
theorem C31_e_cross (dxes : Dx sh) (e h : VField sh ℂ) (c : Fin 3) (x : Idx sh) :
    (poyntingECross (vecS e) dxes *ᵥ vecS h) (c, x) = FdfdF.poyntingECrossH dxes e h c x := by
  rw [poyntingECrossH_eq]
  simp only [poyntingECross]
  rw [← mulVec_mulVec]
  have hd : (diagonal (dxVec dxes.2) : Mat sh) *ᵥ vecS h = vecS fun c y => dxes.2 c (y c) * h c y := by
    funext p; obtain ⟨c, y⟩ := p; rw [mulVec_diagonal]; rfl
  rw [hd, OperatorsS.blockArray_mulVec]
  revert c
  have n01 : (0 : Fin 3) ≠ 1 := by decide
  have n02 : (0 : Fin 3) ≠ 2 := by decide
  have n12 : (1 : Fin 3) ≠ 2 := by decide
  refine forall_fin3 ?_ ?_ ?_
  · rw [poynting_0, Fin.sum_univ_three]
    simp [mulVec_diagonal, mulVec_neg, OperatorsS.shiftCirc_mulVec, dxVec, dxesOrOnes, shiftIdx_of_ne n01.symm, shiftIdx_of_ne n02.symm]
    ring
  · rw [poynting_1, Fin.sum_univ_three]
    simp [mulVec_diagonal, mulVec_neg, OperatorsS.shiftCirc_mulVec, dxVec, dxesOrOnes, shiftIdx_of_ne n01, shiftIdx_of_ne n12.symm]
    ring
  · rw [poynting_2, Fin.sum_univ_three]
    simp [mulVec_diagonal, mulVec_neg, OperatorsS.shiftCirc_mulVec, dxVec, dxesOrOnes, shiftIdx_of_ne n02, shiftIdx_of_ne n12]
    ring

/-- C31: the (H×) operator applied to E is the negative of the functional cross product. -/
theorem C31_h_cross (dxes : Dx sh) (e h : VField sh ℂ) (c : Fin 3) (x : Idx sh) :
    (poyntingHCross (vecS h) dxes *ᵥ vecS e) (c, x) = -FdfdF.poyntingECrossH dxes e h c x := by
  rw [poyntingECrossH_eq]
  simp only [poyntingHCross]
  rw [← mulVec_mulVec]
  have hd : (diagonal (dxVec dxes.1) : Mat sh) *ᵥ vecS e = vecS fun c y => dxes.1 c (y c) * e c y := by
    funext p; obtain ⟨c, y⟩ := p; rw [mulVec_diagonal]; rfl
  rw [hd, OperatorsS.blockArray_mulVec]
  revert c
  have n01 : (0 : Fin 3) ≠ 1 := by decide
  have n02 : (0 : Fin 3) ≠ 2 := by decide
  have n12 : (1 : Fin 3) ≠ 2 := by decide
  refine forall_fin3 ?_ ?_ ?_
  · rw [poynting_0, Fin.sum_univ_three]
    simp [mulVec_diagonal, ← mulVec_mulVec, OperatorsS.shiftCirc_mulVec, dxVec, dxesOrOnes, shiftIdx_of_ne n01.symm,
      shiftIdx_of_ne n02.symm]
    ring
  · rw [poynting_1, Fin.sum_univ_three]
    simp [mulVec_diagonal, ← mulVec_mulVec, OperatorsS.shiftCirc_mulVec, dxVec, dxesOrOnes, shiftIdx_of_ne n01,
      shiftIdx_of_ne n12.symm]
    ring
  · rw [poynting_2, Fin.sum_univ_three]
    simp [mulVec_diagonal, ← mulVec_mulVec, OperatorsS.shiftCirc_mulVec, dxVec, dxesOrOnes, shiftIdx_of_ne n02,
      shiftIdx_of_ne n12]
    ring

theorem conj_curlBack (dx : DxList sh ℝ) (h : VField sh ℂ) (c : Fin 3) (x : Idx sh) :
    Functional.curlBack (some fun a i => (dx a i : ℂ)) (fun c y => (starRingEnd ℂ) (h c y)) c x
      = (starRingEnd ℂ) (Functional.curlBack (some fun a i => (dx a i : ℂ)) h c x) := by
  revert c
  refine forall_fin3 ?_ ?_ ?_ <;>
    simp only [curlBack_0, curlBack_1, curlBack_2, derivBack_eq, wOf_some, map_sub, map_div₀, conj_ofReal]

/-- Complex widths of a real grid. -/
noncomputable def cDx (d : DxList sh ℝ × DxList sh ℝ) : Dx sh := (fun a i => (d.1 a i : ℂ), fun a i => (d.2 a i : ℂ))

theorem volE_cDx (d : DxList sh ℝ × DxList sh ℝ) (c : Fin 3) (x : Idx sh) :
    volE (cDx d).1 (cDx d).2 c x = (volE d.1 d.2 c x : ℝ) := by
  simp only [volE, cDx]; push_cast
  exact Finset.prod_congr rfl fun a _ => by split <;> rfl

theorem volH_cDx (d : DxList sh ℝ × DxList sh ℝ) (c : Fin 3) (x : Idx sh) :
    volH (cDx d).1 (cDx d).2 c x = (volH d.1 d.2 c x : ℝ) := by
  simp only [volH, cDx]; push_cast
  exact Finset.prod_congr rfl fun a _ => by split <;> rfl

/-- Net outward flux of a vector field through the faces of each cell (fluxes stored on the + faces). -/
noncomputable def flux (S : VField sh ℂ) (x : Idx sh) : ℂ := ∑ a, (S a x - S a (shiftIdx a (-1) x))

/-- C31: cell-by-cell energy balance. For real ω, ε, μ and a real grid, any solution of the wave equation driven by J
satisfies `div Re(E×H*) = -Re Σ V E·J*`, with `H = e2h E`, Yee volumes `V`, and the flux of the library's cross product. -/
theorem C31_energy_balance (ω : ℝ) (hω : ω ≠ 0) (d : DxList sh ℝ × DxList sh ℝ) (hd : Nonzero d.1 ∧ Nonzero d.2)
    (eps : VField sh ℝ) (mu : Option (VField sh ℝ)) (hmu : ∀ m, mu = some m → ∀ c x, m c x ≠ 0) (E J H : VField sh ℂ)
    (hE : eFull ω (cDx d) (vecS fun c x => (eps c x : ℂ)) (mu.map fun m => vecS fun c x => (m c x : ℂ)) none none *ᵥ vecS E
      = (-I * ω) • vecS J)
    (hH : vecS H = Fdfd.e2h ω (cDx d) (mu.map fun m => vecS fun c x => (m c x : ℂ)) none *ᵥ vecS E) (x : Idx sh) :
    (flux (FdfdF.poyntingECrossH (cDx d) E fun c y => (starRingEnd ℂ) (H c y)) x).re
      = -(∑ c, volE d.1 d.2 c x * (E c x * (starRingEnd ℂ) (J c x)).re) := by
  have hI : (I : ℂ) ≠ 0 := I_ne_zero
  have hω' : (ω : ℂ) ≠ 0 := ofReal_ne_zero.2 hω
  set muv : Vec sh := muV (mu.map fun m => vecS fun c x => (m c x : ℂ)) with hmuv
  have hreal : ∀ p, (starRingEnd ℂ) (muv p) = muv p := by
    intro p; rw [hmuv]; cases mu
    · simp
    · exact conj_ofReal _
  have hne : ∀ p, muv p ≠ 0 := by
    intro p; rw [hmuv]
    cases hm : mu with
    | none => simp
    | some m => exact ofReal_ne_zero.2 (hmu m hm p.1 p.2)
  have hcE : ∀ c y, Functional.curlForward (some (cDx d).1) E c y = -I * ω * (muv (c, y) * H c y) := by
    intro c y
    have := congrFun hH (c, y)
    rw [vecS_apply, e2h_mulVec, ← hmuv] at this
    rw [this]; have := hne (c, y)
    have h5 : cE (cDx d) (vecS E) (c, y) = Functional.curlForward (some (cDx d).1) E c y := rfl
    rw [h5]; field_simp
  have hcH : ∀ c y, Functional.curlBack (some (cDx d).2) H c y = J c y + I * ω * (eps c y * E c y) := by
    intro c y
    have h1 := congrFun hE (c, y)
    rw [eFull_mulVec, Pi.smul_apply, smul_eq_mul, vecS_apply, vecS_apply, vecS_apply, ← hmuv] at h1
    have h2 : (unS fun q => cE (cDx d) (vecS E) q / muv q) = fun c y => (-I * ω) * H c y := by
      funext c y
      show Functional.curlForward (some (cDx d).1) (unS (vecS E)) c y / muv (c, y) = _
      rw [unS_vecS, hcE]; have := hne (c, y); field_simp
    have h3 : cH (cDx d) (fun q => cE (cDx d) (vecS E) q / muv q) (c, y) = -I * ω * Functional.curlBack (some (cDx d).2) H c y := by
      show Functional.curlBack (some (cDx d).2) (unS fun q => cE (cDx d) (vecS E) q / muv q) c y = _
      rw [h2, Meanas.curlBack_smul]
    rw [h3] at h1
    have hII : (I : ℂ) ^ 2 = -1 := I_sq
    rw [← mul_right_inj' (mul_ne_zero (neg_ne_zero.2 hI) hω')]
    linear_combination h1 + ω ^ 2 * eps c y * E c y * hII
  have hn : Nonzero (cDx d).1 ∧ Nonzero (cDx d).2 :=
    ⟨fun a i => ofReal_ne_zero.2 (hd.1 a i), fun a i => ofReal_ne_zero.2 (hd.2 a i)⟩
  have key := poynting_local (some (cDx d)) hn.1 hn.2 E (fun c y => (starRingEnd ℂ) (H c y)) x
  have hcc : ∀ c y, Functional.curlBack (some (cDx d).2) (fun c y => (starRingEnd ℂ) (H c y)) c y
      = (starRingEnd ℂ) (J c y) - I * ω * (eps c y * (starRingEnd ℂ) (E c y)) := by
    intro c y
    have h1 := conj_curlBack d.2 H c y
    have h2 : Functional.curlBack (some fun a i => (d.2 a i : ℂ)) H c y = J c y + I * ω * (eps c y * E c y) := hcH c y
    rw [h2] at h1
    refine Eq.trans h1 ?_
    simp only [map_add, map_mul, conj_I, conj_ofReal]; ring
  have hflux : flux (FdfdF.poyntingECrossH (cDx d) E fun c y => (starRingEnd ℂ) (H c y)) x
      = divS (poynting E (fun c y => (starRingEnd ℂ) (H c y)) (some (cDx d))) x := rfl
  simp only [dxesOrOnes, Option.map_some, hcc, hcE, volE_cDx, volH_cDx] at key
  rw [hflux, ← neg_inj, neg_neg, ← neg_re, ← key, sub_re, re_sum, re_sum]
  have hz : ∑ c, (((volH d.1 d.2 c x : ℝ) : ℂ) * ((starRingEnd ℂ) (H c x) * (-I * ω * (muv (c, x) * H c x)))).re = 0 := by
    refine Finset.sum_eq_zero fun c _ => ?_
    obtain ⟨m, hm⟩ := conj_eq_iff_real.1 (hreal (c, x))
    rw [hm]
    have : (starRingEnd ℂ) (H c x) * (-I * ω * (m * H c x)) = ((ω * m * normSq (H c x) : ℝ) : ℂ) * -I := by
      push_cast; rw [← mul_conj]; ring
    rw [this, re_ofReal_mul]; simp
  rw [hz, sub_zero]
  refine Finset.sum_congr rfl fun c _ => ?_
  rw [re_ofReal_mul]
  congr 1
  have : E c x * ((starRingEnd ℂ) (J c x) - I * ω * (eps c x * (starRingEnd ℂ) (E c x)))
      = E c x * (starRingEnd ℂ) (J c x) - ((ω * eps c x * normSq (E c x) : ℝ) : ℂ) * I := by
    push_cast; rw [← mul_conj]; ring
  rw [this, sub_re, re_ofReal_mul]; simp

/-- C31: total power. Nothing leaves the periodic domain, so the sources exchange no net power. -/
theorem C31_total_power (ω : ℝ) (hω : ω ≠ 0) (d : DxList sh ℝ × DxList sh ℝ) (hd : Nonzero d.1 ∧ Nonzero d.2)
    (eps : VField sh ℝ) (mu : Option (VField sh ℝ)) (hmu : ∀ m, mu = some m → ∀ c x, m c x ≠ 0) (E J : VField sh ℂ)
    (hE : eFull ω (cDx d) (vecS fun c x => (eps c x : ℂ)) (mu.map fun m => vecS fun c x => (m c x : ℂ)) none none *ᵥ vecS E
      = (-I * ω) • vecS J) :
    ∑ x, ∑ c, volE d.1 d.2 c x * (E c x * (starRingEnd ℂ) (J c x)).re = 0 := by
  have h := fun x => C31_energy_balance ω hω d hd eps mu hmu E J _ hE (vecS_unS _) x
  have h2 : ∑ x, ∑ c, volE d.1 d.2 c x * (E c x * (starRingEnd ℂ) (J c x)).re
      = -∑ x, (flux (FdfdF.poyntingECrossH (cDx d) E fun c y => (starRingEnd ℂ)
          (unS (Fdfd.e2h ω (cDx d) (mu.map fun m => vecS fun c x => (m c x : ℂ)) none *ᵥ vecS E) c y)) x).re := by
    rw [← Finset.sum_neg_distrib]; exact Finset.sum_congr rfl fun x _ => by rw [h x, neg_neg]
  rw [h2, ← re_sum, neg_eq_zero]
  have h3 := C17_sum_zero (FdfdF.poyntingECrossH (cDx d) E fun c y => (starRingEnd ℂ)
          (unS (Fdfd.e2h ω (cDx d) (mu.map fun m => vecS fun c x => (m c x : ℂ)) none *ᵥ vecS E) c y)) none none none _
          (poyntingDivergence_some _ _ _ _)
  have h4 : ∀ S : VField sh ℂ, ∑ x, flux S x = ∑ x, divS S x := fun _ => rfl
  rw [h4, h3, zero_re]

/-! ### C35 -/

/-- The FDTD time dependence of a harmonic field pair: E at whole steps, H half a step earlier, phase factor `q` per half step. -/
noncomputable def harmonic (q : ℂ) (E H : VField sh ℂ) (n : ℤ) : State sh ℂ :=
  ⟨fun c x => q ^ (2 * n) * E c x, fun c x => q ^ (2 * n - 1) * H c x⟩

/-- The documented discrete frequency `Ω = 2 sin(ω dt/2)/dt` (meanas/fdfd/__init__.py:29). -/
noncomputable def Omega (w dt : ℂ) : ℂ := 2 * Complex.sin (w * dt / 2) / dt

theorem half_step (w dt : ℂ) (hdt : dt ≠ 0) (s : ℂ) (hs : s = 1 ∨ s = -1) :
    exp (s * I * w * dt / 2) - (exp (s * I * w * dt / 2))⁻¹ = s * I * Omega w dt * dt := by
  have e1 : exp (s * I * w * dt / 2) = exp ((s * w * dt / 2) * I) := by congr 1; ring
  rw [← exp_neg, e1, show -(s * I * w * dt / 2) = (-(s * w * dt / 2)) * I by ring, exp_mul_I, exp_mul_I, Complex.cos_neg, Complex.sin_neg, Omega]
  have : Complex.sin (s * w * dt / 2) = s * Complex.sin (w * dt / 2) := by
    rcases hs with rfl | rfl
    · simp
    · rw [show (-1 : ℂ) * w * dt / 2 = -(w * dt / 2) by ring, Complex.sin_neg]; ring
  rw [this]; field_simp; ring

theorem run_harmonic (S : Sys sh ℂ) (q : ℂ) (hq : q ≠ 0) (E H J : VField sh ℂ) (n : ℤ) :
    run S (harmonic q E H n) [.stepH, .stepE, .injJ fun c x => -(S.dt * (q ^ (2 * n + 1) * J c x))] = harmonic q E H (n + 1) ↔
      (∀ c x, q ^ (2 * n) * (H c x * (q - q⁻¹) + S.dt * Functional.curlForward (S.dxes.map (·.1)) E c x / muOr S.mu c x) = 0) ∧
      ∀ c x, q ^ (2 * n + 1) * (E c x * (q - q⁻¹)
        - S.dt * (Functional.curlBack (S.dxes.map (·.2)) H c x - J c x) / S.eps c x) = 0 := by
  have p1 : q ^ (2 * n - 1) = q ^ (2 * n) * q⁻¹ := by rw [zpow_sub₀ hq, zpow_one, div_eq_mul_inv]
  have p2 : q ^ (2 * n + 1) = q ^ (2 * n) * q := by rw [zpow_add₀ hq, zpow_one]
  have p3 : q ^ (2 * (n + 1)) = q ^ (2 * n) * q * q := by
    rw [show 2 * (n + 1) = 2 * n + 1 + 1 by ring, zpow_add₀ hq, zpow_add₀ hq, zpow_one]
  have p4 : q ^ (2 * (n + 1) - 1) = q ^ (2 * n) * q := by rw [← p2]; congr 1; ring
  have hh : ∀ c x, maxwellH S.dt S.dxes (harmonic q E H n).e (harmonic q E H n).h S.mu c x
      = q ^ (2 * n) * (H c x * q⁻¹ - S.dt * Functional.curlForward (S.dxes.map (·.1)) E c x / muOr S.mu c x) := by
    intro c x
    rw [maxwellH_eq]
    simp only [harmonic]
    rw [Meanas.curlForward_smul, p1]; ring
  constructor
  · intro h
    have hH : ∀ c x, q ^ (2 * n) * (H c x * q⁻¹ - S.dt * Functional.curlForward (S.dxes.map (·.1)) E c x / muOr S.mu c x)
        = q ^ (2 * n) * q * H c x := by
      intro c x
      have := congrFun (congrFun (congrArg State.h h) c) x
      simp only [run, List.foldl, step] at this
      rw [hh] at this
      rw [this]; simp only [harmonic]; rw [p4]
    have hHf : maxwellH S.dt S.dxes (harmonic q E H n).e (harmonic q E H n).h S.mu = fun c x => q ^ (2 * n) * q * H c x := by
      funext c x; rw [hh, hH]
    refine ⟨fun c x => by linear_combination -(hH c x), fun c x => ?_⟩
    have := congrFun (congrFun (congrArg State.e h) c) x
    simp only [run, List.foldl, step] at this
    rw [maxwellE_eq, hHf, Meanas.curlBack_smul] at this
    simp only [harmonic] at this
    rw [p3, p2] at this
    rw [p2]
    have hqq : q * q⁻¹ = 1 := mul_inv_cancel₀ hq
    linear_combination -this - q ^ (2 * n) * E c x * hqq
  · rintro ⟨h1, h2⟩
    have hHf : maxwellH S.dt S.dxes (harmonic q E H n).e (harmonic q E H n).h S.mu = fun c x => q ^ (2 * n) * q * H c x := by
      funext c x; rw [hh]; linear_combination -(h1 c x)
    refine State.ext' (fun c x => ?_) fun c x => ?_
    · have := h2 c x
      simp only [run, List.foldl, step]
      rw [maxwellE_eq, hHf, Meanas.curlBack_smul]
      simp only [harmonic]
      rw [p3, p2]
      rw [p2] at this
      have hqq : q * q⁻¹ = 1 := mul_inv_cancel₀ hq
      linear_combination -this - q ^ (2 * n) * E c x * hqq
    · simp only [run, List.foldl, step]
      rw [hHf]; simp only [harmonic]; rw [p4]

theorem harmonic_iff (S : Sys sh ℂ) (d : Dx sh) (hS : S.dxes = some d) (heps : ∀ c x, S.eps c x ≠ 0)
    (hmu : ∀ m, S.mu = some m → ∀ c x, m c x ≠ 0) (hdt : S.dt ≠ 0) (w s : ℂ) (hs : s = 1 ∨ s = -1) (hΩ : Omega w S.dt ≠ 0)
    (E H J : VField sh ℂ) :
    (∀ n : ℤ, run S (harmonic (exp (s * I * w * S.dt / 2)) E H n)
        [.stepH, .stepE, .injJ fun c x => -(S.dt * (exp (s * I * w * S.dt / 2) ^ (2 * n + 1) * J c x))]
        = harmonic (exp (s * I * w * S.dt / 2)) E H (n + 1)) ↔
      eFull (Omega w S.dt) d (vecS S.eps) (S.mu.map vecS) none none *ᵥ vecS E = (-s * I * Omega w S.dt) • vecS J ∧
      vecS H = s • (Fdfd.e2h (Omega w S.dt) d (S.mu.map vecS) none *ᵥ vecS E) := by
  have hI : (I : ℂ) ≠ 0 := I_ne_zero
  have hII : (I : ℂ) ^ 2 = -1 := I_sq
  have hs2 : s * s = 1 := by rcases hs with rfl | rfl <;> ring
  have hs0 : s ≠ 0 := by rcases hs with rfl | rfl <;> norm_num
  have hm : ∀ c x, muV (S.mu.map vecS) (c, x) = muOr S.mu c x := by
    intro c x; cases S.mu <;> rfl
  have hmne : ∀ c x, muOr S.mu c x ≠ 0 := by
    intro c x
    cases h : S.mu with
    | none => exact one_ne_zero
    | some m => exact hmu m h c x
  have hstep := half_step w S.dt hdt s hs
  set q := exp (s * I * w * S.dt / 2) with hqd
  have hq : q ≠ 0 := exp_ne_zero _
  set Ω := Omega w S.dt
  have e1 : (∀ n : ℤ, run S (harmonic q E H n) [.stepH, .stepE, .injJ fun c x => -(S.dt * (q ^ (2 * n + 1) * J c x))]
        = harmonic q E H (n + 1)) ↔
      (∀ c x, H c x * (s * I * Ω) + Functional.curlForward (some d.1) E c x / muOr S.mu c x = 0) ∧
      ∀ c x, E c x * (s * I * Ω) * S.eps c x - (Functional.curlBack (some d.2) H c x - J c x) = 0 := by
    simp only [run_harmonic S q hq, hstep, hS, Option.map_some]
    have z : ∀ m : ℤ, q ^ m ≠ 0 := fun m => zpow_ne_zero m hq
    constructor
    · intro h
      obtain ⟨h1, h2⟩ := h 0
      constructor
      · intro c x
        have := (mul_eq_zero.1 (h1 c x)).resolve_left (z _)
        rw [← mul_right_inj' hdt]; linear_combination this
      · intro c x
        have := (mul_eq_zero.1 (h2 c x)).resolve_left (z _)
        have he := heps c x
        rw [← mul_right_inj' hdt]
        field_simp at this
        linear_combination this
    · rintro ⟨h1, h2⟩ n
      constructor
      · intro c x
        have := h1 c x
        rw [show H c x * (s * I * Ω * S.dt) + S.dt * Functional.curlForward (some d.1) E c x / muOr S.mu c x
          = S.dt * (H c x * (s * I * Ω) + Functional.curlForward (some d.1) E c x / muOr S.mu c x) by ring, this]
        ring
      · intro c x
        have := h2 c x
        have he := heps c x
        rw [show E c x * (s * I * Ω * S.dt) - S.dt * (Functional.curlBack (some d.2) H c x - J c x) / S.eps c x
          = S.dt / S.eps c x * (E c x * (s * I * Ω) * S.eps c x - (Functional.curlBack (some d.2) H c x - J c x)) by field_simp, this]
        ring
  rw [e1]
  have eH : (∀ c x, H c x * (s * I * Ω) + Functional.curlForward (some d.1) E c x / muOr S.mu c x = 0) ↔
      vecS H = s • (Fdfd.e2h Ω d (S.mu.map vecS) none *ᵥ vecS E) := by
    rw [funext_iff, Prod.forall]
    refine forall_congr' fun c => forall_congr' fun x => ?_
    rw [Pi.smul_apply, e2h_mulVec, vecS_apply, hm, smul_eq_mul]
    have h5 : cE d (vecS E) (c, x) = Functional.curlForward (some d.1) E c x := rfl
    rw [h5]
    have := hmne c x
    rcases hs with rfl | rfl
    · field_simp
      constructor <;> intro h <;> linear_combination h
    · field_simp
      constructor <;> intro h <;> linear_combination -h
  rw [and_comm, ← eH]
  refine and_congr_left fun hH => ?_
  have hHH : H = fun c x => (-(1 / (s * I * Ω))) * (unS (fun q => cE d (vecS E) q / muV (S.mu.map vecS) q) c x) := by
    funext c x
    have h5 : unS (fun q => cE d (vecS E) q / muV (S.mu.map vecS) q) c x = Functional.curlForward (some d.1) E c x / muOr S.mu c x := by
      rw [← hm]; rfl
    rw [h5]
    have := hH c x
    have h6 := hmne c x
    field_simp
    field_simp at this
    linear_combination this
  have hcH : ∀ c x, Functional.curlBack (some d.2) H c x
      = (-(1 / (s * I * Ω))) * cH d (fun q => cE d (vecS E) q / muV (S.mu.map vecS) q) (c, x) := by
    intro c x
    rw [hHH, Meanas.curlBack_smul]; rfl
  rw [funext_iff, Prod.forall]
  refine forall_congr' fun c => forall_congr' fun x => ?_
  rw [eFull_mulVec, Pi.smul_apply, hcH, smul_eq_mul, vecS_apply, vecS_apply, vecS_apply]
  generalize cH d (fun q => cE d (vecS E) q / muV (S.mu.map vecS) q) (c, x) = a
  field_simp
  constructor <;> intro h
  · linear_combination h - E c x * s ^ 2 * Ω ^ 2 * S.eps c x * hII + Ω ^ 2 * S.eps c x * E c x * hs2
  · linear_combination h + E c x * s ^ 2 * Ω ^ 2 * S.eps c x * hII - Ω ^ 2 * S.eps c x * E c x * hs2

/-- C35: the harmonic field `E e^{-iωn dt}` (H half a step earlier) is a source-free FDTD run, with a suitable H, exactly when
E solves the FDFD wave equation at the discrete frequency `Ω = 2 sin(ω dt/2)/dt`. -/
theorem C35_harmonic (S : Sys sh ℂ) (d : Dx sh) (hS : S.dxes = some d) (heps : ∀ c x, S.eps c x ≠ 0)
    (hmu : ∀ m, S.mu = some m → ∀ c x, m c x ≠ 0) (hdt : S.dt ≠ 0) (w : ℂ) (hΩ : 2 * Complex.sin (w * S.dt / 2) / S.dt ≠ 0)
    (E : VField sh ℂ) :
    (∃ H : VField sh ℂ, ∀ n : ℤ,
      run S ⟨fun c x => exp (-I * w * n * S.dt) * E c x, fun c x => exp (-I * w * (n - 1 / 2) * S.dt) * H c x⟩ [.stepH, .stepE]
        = ⟨fun c x => exp (-I * w * (n + 1) * S.dt) * E c x, fun c x => exp (-I * w * (n + 1 / 2) * S.dt) * H c x⟩) ↔
      eFull (2 * Complex.sin (w * S.dt / 2) / S.dt) d (vecS S.eps) (S.mu.map vecS) none none *ᵥ vecS E = 0 := by
  have key := fun H => harmonic_iff S d hS heps hmu hdt w (-1) (Or.inr rfl) hΩ E H (fun _ _ => 0)
  have hz : (vecS fun _ _ => 0 : Vec sh) = 0 := rfl
  have hexp : ∀ m : ℤ, exp (-1 * I * w * S.dt / 2) ^ m = exp (-I * w * (m / 2) * S.dt) := by
    intro m; rw [← exp_int_mul]; congr 1; ring
  have hrun : ∀ (s : State sh ℂ), run S s [.stepH, .stepE, .injJ fun _ _ => (0 : ℂ)] = run S s [.stepH, .stepE] := by
    intro s
    simp only [run, List.foldl, step, zero_div, add_zero]
  have hh : ∀ (H : VField sh ℂ) (n : ℤ), harmonic (exp (-1 * I * w * S.dt / 2)) E H n
      = ⟨fun c x => exp (-I * w * n * S.dt) * E c x, fun c x => exp (-I * w * (n - 1 / 2) * S.dt) * H c x⟩ := by
    intro H n
    simp only [harmonic, hexp]
    congr 1
    · funext c x; congr 3; push_cast; ring
    · funext c x; congr 3; push_cast; ring
  have hh1 : ∀ (H : VField sh ℂ) (n : ℤ), harmonic (exp (-1 * I * w * S.dt / 2)) E H (n + 1)
      = ⟨fun c x => exp (-I * w * (n + 1) * S.dt) * E c x, fun c x => exp (-I * w * (n + 1 / 2) * S.dt) * H c x⟩ := by
    intro H n
    rw [hh]
    congr 1
    · funext c x; congr 3; push_cast; ring
    · funext c x; congr 3; push_cast; ring
  simp only [mul_zero, neg_zero, hz, smul_zero, hrun, hh1, hh] at key
  constructor
  · rintro ⟨H, hH⟩
    exact ((key H).1 hH).1
  · intro h
    exact ⟨unS ((-1 : ℂ) • (Fdfd.e2h (Omega w S.dt) d (S.mu.map vecS) none *ᵥ vecS E)), (key _).2 ⟨h, rfl⟩⟩

/-- C35 with a current, in the convention the code uses: with time dependence `e^{+iωt}` the driven run (J at half steps, entering as
`∂D/∂t = curl H - J`) is harmonic exactly when E solves `e_full E = -iΩJ` and `H = e2h E`. -/
theorem C35_driven (S : Sys sh ℂ) (d : Dx sh) (hS : S.dxes = some d) (heps : ∀ c x, S.eps c x ≠ 0)
    (hmu : ∀ m, S.mu = some m → ∀ c x, m c x ≠ 0) (hdt : S.dt ≠ 0) (w : ℂ) (hΩ : Omega w S.dt ≠ 0) (E H J : VField sh ℂ) :
    (∀ n : ℤ, run S (harmonic (exp (1 * I * w * S.dt / 2)) E H n)
        [.stepH, .stepE, .injJ fun c x => -(S.dt * (exp (1 * I * w * S.dt / 2) ^ (2 * n + 1) * J c x))]
        = harmonic (exp (1 * I * w * S.dt / 2)) E H (n + 1)) ↔
      eFull (Omega w S.dt) d (vecS S.eps) (S.mu.map vecS) none none *ᵥ vecS E = (-I * Omega w S.dt) • vecS J ∧
      vecS H = Fdfd.e2h (Omega w S.dt) d (S.mu.map vecS) none *ᵥ vecS E := by
  have := harmonic_iff S d hS heps hmu hdt w 1 (Or.inl rfl) hΩ E H J
  rw [this, one_smul, neg_one_mul]

/-- C35, sign of the documented convention: with the documented `e^{-iωt}` the magnetic field of the run is `-e2h E` and the current
enters as `e_full E = +iΩJ`, i.e. `e2h` and the right-hand side used by the solvers belong to `e^{+iωt}`. -/
theorem C35_documented_signs (S : Sys sh ℂ) (d : Dx sh) (hS : S.dxes = some d) (heps : ∀ c x, S.eps c x ≠ 0)
    (hmu : ∀ m, S.mu = some m → ∀ c x, m c x ≠ 0) (hdt : S.dt ≠ 0) (w : ℂ) (hΩ : Omega w S.dt ≠ 0) (E H J : VField sh ℂ) :
    (∀ n : ℤ, run S (harmonic (exp (-1 * I * w * S.dt / 2)) E H n)
        [.stepH, .stepE, .injJ fun c x => -(S.dt * (exp (-1 * I * w * S.dt / 2) ^ (2 * n + 1) * J c x))]
        = harmonic (exp (-1 * I * w * S.dt / 2)) E H (n + 1)) ↔
      eFull (Omega w S.dt) d (vecS S.eps) (S.mu.map vecS) none none *ᵥ vecS E = (I * Omega w S.dt) • vecS J ∧
      vecS H = -(Fdfd.e2h (Omega w S.dt) d (S.mu.map vecS) none *ᵥ vecS E) := by
  have := harmonic_iff S d hS heps hmu hdt w (-1) (Or.inr rfl) hΩ E H J
  rw [this, neg_one_smul, neg_neg, one_mul]

/-! ### C36 -/

/-- The phase of cell `x`: `exp(i Σ k_a d_a x_a)`. -/
noncomputable def phase (k d : Fin 3 → ℂ) (x : Idx sh) : ℂ := exp (I * ∑ a, k a * d a * (x a : ℕ))

/-- The wave vector fits the periodic grid. -/
def Fits (sh : Fin 3 → ℕ) (k d : Fin 3 → ℂ) : Prop := ∀ a, exp (I * (k a * d a * (sh a : ℕ))) = 1

/-- The discrete wave vector `K_a = 2/d_a·sin(k_a d_a/2)` (meanas/fdmath/__init__.py:479). -/
noncomputable def Kd (k d : Fin 3 → ℂ) (a : Fin 3) : ℂ := 2 * Complex.sin (k a * d a / 2) / d a

theorem phase_shift {k d : Fin 3 → ℂ} (hf : Fits sh k d) (a : Fin 3) (s : ℤ) (x : Idx sh) :
    phase k d (shiftIdx a s x) = exp (I * (k a * d a * s)) * phase k d x := by
  have hw : ((shiftIdx a s x a : ℕ) : ℤ) = ((x a : ℕ) + s) % (sh a : ℤ) := by rw [shiftIdx_same, wrap_val]
  have hdiv := Int.emod_add_mul_ediv ((x a : ℕ) + s : ℤ) (sh a)
  rw [← hw] at hdiv
  have h1 : ∑ b, k b * d b * ((shiftIdx a s x b : ℕ) : ℂ)
      = ∑ b, k b * d b * ((x b : ℕ) : ℂ) + k a * d a * s - k a * d a * (sh a : ℕ) * ((((x a : ℕ) + s : ℤ) / (sh a : ℤ) : ℤ) : ℂ) := by
    have h2 : ∀ b, k b * d b * ((shiftIdx a s x b : ℕ) : ℂ) = k b * d b * ((x b : ℕ) : ℂ)
        + (if b = a then k a * d a * s - k a * d a * (sh a : ℕ) * ((((x a : ℕ) + s : ℤ) / (sh a : ℤ) : ℤ) : ℂ) else 0) := by
      intro b
      split
      · rename_i h; subst h
        have : ((shiftIdx b s x b : ℕ) : ℂ) = (x b : ℕ) + s - (sh b : ℕ) * ((((x b : ℕ) + s : ℤ) / (sh b : ℤ) : ℤ) : ℂ) := by
          have := congrArg (Int.cast (R := ℂ)) hdiv
          push_cast at this
          linear_combination this
        rw [this]; ring
      · rename_i h; rw [shiftIdx_of_ne h, add_zero]
    rw [Finset.sum_congr rfl fun b _ => h2 b, Finset.sum_add_distrib, Finset.sum_ite_eq' Finset.univ a]
    simp only [Finset.mem_univ, if_true]; ring
  have h3 : exp (I * (k a * d a * (sh a : ℕ) * ((((x a : ℕ) + s : ℤ) / (sh a : ℤ) : ℤ) : ℂ))) = 1 := by
    rw [show I * (k a * d a * (sh a : ℕ) * ((((x a : ℕ) + s : ℤ) / (sh a : ℤ) : ℤ) : ℂ))
      = ((((x a : ℕ) + s : ℤ) / (sh a : ℤ) : ℤ) : ℂ) * (I * (k a * d a * (sh a : ℕ))) by ring, exp_int_mul, hf a, one_zpow]
  unfold phase
  rw [h1, mul_sub, exp_sub, h3, div_one, mul_add, exp_add, mul_comm]

/-- A uniform grid. -/
def uniDx (d : Fin 3 → ℂ) : Dx sh := (fun a _ => d a, fun a _ => d a)

/-- Plane wave with amplitude `v`, each component sampled at its own Yee position (half a cell along its axis). -/
noncomputable def planeWave (k d v : Fin 3 → ℂ) : VField sh ℂ := fun c x => v c * exp (I * (k c * d c / 2)) * phase k d x

theorem wave_fwd {k d : Fin 3 → ℂ} (hf : Fits sh k d) (hd : ∀ a, d a ≠ 0) (a : Fin 3) (u : ℂ) (x : Idx sh) :
    Functional.derivForward (some fun a _ => d a) a (fun y => u * phase k d y) x
      = I * Kd k d a * exp (I * (k a * d a / 2)) * u * phase k d x := by
  rw [derivForward_eq, wOf_some, phase_shift hf, Kd, Complex.sin, Int.cast_one, mul_one]
  have e1 : exp (I * (k a * d a)) = exp (I * (k a * d a / 2)) * exp (I * (k a * d a / 2)) := by rw [← exp_add]; congr 1; ring
  have e2 : exp (-(k a * d a / 2) * I) * exp (I * (k a * d a / 2)) = 1 := by rw [← exp_add]; simp [mul_comm]
  have e3 : exp (k a * d a / 2 * I) = exp (I * (k a * d a / 2)) := by rw [mul_comm]
  rw [e1, e3]
  generalize exp (I * (k a * d a / 2)) = z at *
  generalize exp (-(k a * d a / 2) * I) = zi at *
  have := hd a
  have hII : (I : ℂ) ^ 2 = -1 := I_sq
  field_simp
  linear_combination u * phase k d x * (e2 - hII * (zi * z - z ^ 2))

theorem wave_back {k d : Fin 3 → ℂ} (hf : Fits sh k d) (hd : ∀ a, d a ≠ 0) (a : Fin 3) (u : ℂ) (x : Idx sh) :
    Functional.derivBack (some fun a _ => d a) a (fun y => u * phase k d y) x
      = I * Kd k d a * exp (-(I * (k a * d a / 2))) * u * phase k d x := by
  rw [derivBack_eq, wOf_some, phase_shift hf, Kd, Complex.sin, Int.cast_neg, Int.cast_one]
  have e1 : exp (I * (k a * d a * -1)) = exp (-(I * (k a * d a / 2))) * exp (-(I * (k a * d a / 2))) := by
    rw [← exp_add]; congr 1; ring
  have e2 : exp (-(I * (k a * d a / 2))) * exp (k a * d a / 2 * I) = 1 := by rw [← exp_add]; simp [mul_comm]
  have e3 : exp (-(k a * d a / 2) * I) = exp (-(I * (k a * d a / 2))) := by congr 1; ring
  rw [e1, e3]
  generalize exp (-(I * (k a * d a / 2))) = z at *
  generalize exp (k a * d a / 2 * I) = zi at *
  have := hd a
  have hII : (I : ℂ) ^ 2 = -1 := I_sq
  field_simp
  linear_combination u * phase k d x * (-e2 - hII * (z ^ 2 - zi * z))

/-- On a transverse plane wave, curl-curl is multiplication by `Σ K_a²`. -/
theorem curlcurl_wave {k d : Fin 3 → ℂ} (hf : Fits sh k d) (hd : ∀ a, d a ≠ 0) (v : Fin 3 → ℂ)
    (htr : ∑ a, Kd k d a * v a = 0) (c : Fin 3) (x : Idx sh) :
    Functional.curlBack (some (uniDx d).2) (Functional.curlForward (some (uniDx d).1) (planeWave (sh := sh) k d v)) c x
      = (∑ a, Kd k d a ^ 2) * planeWave (sh := sh) k d v c x := by
  have hcf : ∀ a u x, Functional.derivForward (some (uniDx d).1) a (fun y : Idx sh => u * phase k d y) x
      = I * Kd k d a * exp (I * (k a * d a / 2)) * u * phase k d x := fun a u x => wave_fwd hf hd a u x
  have hcb : ∀ a u x, Functional.derivBack (some (uniDx d).2) a (fun y : Idx sh => u * phase k d y) x
      = I * Kd k d a * exp (-(I * (k a * d a / 2))) * u * phase k d x := fun a u x => wave_back hf hd a u x
  have hz : ∀ a, exp (-(I * (k a * d a / 2))) * exp (I * (k a * d a / 2)) = 1 := fun a => by rw [← exp_add]; simp
  have hII : (I : ℂ) ^ 2 = -1 := I_sq
  set p : Fin 3 → ℂ := fun a => exp (I * (k a * d a / 2)) with hp
  set m : Fin 3 → ℂ := fun a => exp (-(I * (k a * d a / 2))) with hm
  have hcf' : ∀ a b x, Functional.derivForward (some (uniDx d).1) a (planeWave (sh := sh) k d v b) x
      = I * Kd k d a * p a * (v b * p b) * phase k d x := fun a b x => hcf a (v b * p b) x
  have c0 : Functional.curlForward (some (uniDx d).1) (planeWave (sh := sh) k d v) 0
      = fun y => (I * (Kd k d 1 * p 1 * (v 2 * p 2) - Kd k d 2 * p 2 * (v 1 * p 1))) * phase k d y := by
    funext y; rw [curlForward_0, hcf', hcf']; ring
  have c1 : Functional.curlForward (some (uniDx d).1) (planeWave (sh := sh) k d v) 1
      = fun y => (I * (Kd k d 2 * p 2 * (v 0 * p 0) - Kd k d 0 * p 0 * (v 2 * p 2))) * phase k d y := by
    funext y; rw [curlForward_1, hcf', hcf']; ring
  have c2 : Functional.curlForward (some (uniDx d).1) (planeWave (sh := sh) k d v) 2
      = fun y => (I * (Kd k d 0 * p 0 * (v 1 * p 1) - Kd k d 1 * p 1 * (v 0 * p 0))) * phase k d y := by
    funext y; rw [curlForward_2, hcf', hcf']; ring
  have pw : ∀ c, planeWave (sh := sh) k d v c x = v c * p c * phase k d x := fun c => rfl
  have z0 : m 0 * p 0 = 1 := hz 0
  have z1 : m 1 * p 1 = 1 := hz 1
  have z2 : m 2 * p 2 = 1 := hz 2
  rw [Fin.sum_univ_three] at htr ⊢
  revert c
  refine forall_fin3 ?_ ?_ ?_
  · rw [curlBack_0, c1, c2, hcb, hcb, pw]
    have k1 : exp (-(I * (k 1 * d 1 / 2))) = m 1 := rfl
    have k2 : exp (-(I * (k 2 * d 2 / 2))) = m 2 := rfl
    rw [k1, k2]
    linear_combination phase k d x * (Kd k d 1 * m 1 * (Kd k d 0 * p 0 * (v 1 * p 1) - Kd k d 1 * p 1 * (v 0 * p 0)) - Kd k d 2 * m 2 * (Kd k d 2 * p 2 * (v 0 * p 0) - Kd k d 0 * p 0 * (v 2 * p 2))) * hII
      - phase k d x * (Kd k d 0 * Kd k d 1 * p 0 * v 1 - Kd k d 1 ^ 2 * p 0 * v 0) * z1
      - phase k d x * (Kd k d 0 * Kd k d 2 * p 0 * v 2 - Kd k d 2 ^ 2 * p 0 * v 0) * z2
      - phase k d x * Kd k d 0 * p 0 * htr
  · rw [curlBack_1, c2, c0, hcb, hcb, pw]
    have k1 : exp (-(I * (k 2 * d 2 / 2))) = m 2 := rfl
    have k2 : exp (-(I * (k 0 * d 0 / 2))) = m 0 := rfl
    rw [k1, k2]
    linear_combination phase k d x * (Kd k d 2 * m 2 * (Kd k d 1 * p 1 * (v 2 * p 2) - Kd k d 2 * p 2 * (v 1 * p 1)) - Kd k d 0 * m 0 * (Kd k d 0 * p 0 * (v 1 * p 1) - Kd k d 1 * p 1 * (v 0 * p 0))) * hII
      - phase k d x * (Kd k d 1 * Kd k d 2 * p 1 * v 2 - Kd k d 2 ^ 2 * p 1 * v 1) * z2
      - phase k d x * (Kd k d 1 * Kd k d 0 * p 1 * v 0 - Kd k d 0 ^ 2 * p 1 * v 1) * z0
      - phase k d x * Kd k d 1 * p 1 * htr
  · rw [curlBack_2, c0, c1, hcb, hcb, pw]
    have k1 : exp (-(I * (k 0 * d 0 / 2))) = m 0 := rfl
    have k2 : exp (-(I * (k 1 * d 1 / 2))) = m 1 := rfl
    rw [k1, k2]
    linear_combination phase k d x * (Kd k d 0 * m 0 * (Kd k d 2 * p 2 * (v 0 * p 0) - Kd k d 0 * p 0 * (v 2 * p 2)) - Kd k d 1 * m 1 * (Kd k d 1 * p 1 * (v 2 * p 2) - Kd k d 2 * p 2 * (v 1 * p 1))) * hII
      - phase k d x * (Kd k d 2 * Kd k d 0 * p 2 * v 0 - Kd k d 0 ^ 2 * p 2 * v 2) * z0
      - phase k d x * (Kd k d 2 * Kd k d 1 * p 2 * v 1 - Kd k d 1 ^ 2 * p 2 * v 2) * z1
      - phase k d x * Kd k d 2 * p 2 * htr

/-- C36: on a uniform periodic grid and in a uniform medium, a transverse plane wave solves the wave equation exactly
when `ω²εμ = Σ K_a²`. -/
theorem C36_dispersion (ω ε μ : ℂ) (hμ : μ ≠ 0) (k d v : Fin 3 → ℂ) (hf : Fits sh k d) (hd : ∀ a, d a ≠ 0) (hv : v ≠ 0)
    (htr : ∑ a, Kd k d a * v a = 0) (hne : ∀ a, 0 < sh a) :
    eFull ω (uniDx d) (fun _ : Pos sh => ε) (some fun _ => μ) none none *ᵥ vecS (planeWave k d v) = 0 ↔
      ω ^ 2 * ε * μ = ∑ a, (2 * Complex.sin (k a * d a / 2) / d a) ^ 2 := by
  have hval : ∀ (c : Fin 3) (x : Idx sh), (eFull ω (uniDx d) (fun _ : Pos sh => ε) (some fun _ => μ) none none *ᵥ vecS (planeWave k d v)) (c, x)
      = ((∑ a, Kd k d a ^ 2) / μ - ω ^ 2 * ε) * planeWave (sh := sh) k d v c x := by
    intro c x
    rw [eFull_mulVec]
    have h1 : cH (uniDx d) (fun q => cE (uniDx d) (vecS (planeWave (sh := sh) k d v)) q / muV (some fun _ => μ) q) (c, x)
        = μ⁻¹ * cH (uniDx d) (cE (uniDx d) (vecS (planeWave (sh := sh) k d v))) (c, x) := by
      rw [← cH_smul]
      congr 1; funext q; rw [muV_some, div_eq_inv_mul]
    rw [h1]
    have h2 := curlcurl_wave hf hd v htr c x
    have h3 : cH (uniDx d) (cE (uniDx d) (vecS (planeWave (sh := sh) k d v))) (c, x)
      = Functional.curlBack (some (uniDx d).2) (Functional.curlForward (some (uniDx d).1) (planeWave (sh := sh) k d v)) c x := rfl
    rw [h3, h2, vecS_apply]; ring
  obtain ⟨c0, hc0⟩ : ∃ c, v c ≠ 0 := by
    by_contra h; push Not at h; exact hv (funext h)
  let x0 : Idx sh := fun a => ⟨0, hne a⟩
  have hw0 : planeWave (sh := sh) k d v c0 x0 ≠ 0 := mul_ne_zero (mul_ne_zero hc0 (exp_ne_zero _)) (exp_ne_zero _)
  constructor
  · intro h
    have h1 := congrFun h (c0, x0)
    rw [hval] at h1
    have h2 := (mul_eq_zero.1 h1).resolve_right hw0
    field_simp at h2
    simp only [Kd] at h2
    linear_combination -h2
  · intro h
    funext p
    obtain ⟨c, x⟩ := p
    rw [hval]
    have : ∑ a, Kd k d a ^ 2 = ω ^ 2 * ε * μ := h.symm
    rw [this]; field_simp; simp

/-- C36: the FDTD update multiplies such a wave by the phase of the matching time frequency: if
`(2 sin(w dt/2)/dt)²εμ = Σ K_a²` there is an H field for which every full step multiplies E by `e^{-iw dt}`. -/
theorem C36_fdtd (w dt ε μ : ℂ) (hε : ε ≠ 0) (hμ : μ ≠ 0) (hdt : dt ≠ 0) (k d v : Fin 3 → ℂ) (hf : Fits sh k d)
    (hd : ∀ a, d a ≠ 0) (hv : v ≠ 0) (htr : ∑ a, Kd k d a * v a = 0) (hne : ∀ a, 0 < sh a)
    (hΩ : 2 * Complex.sin (w * dt / 2) / dt ≠ 0) :
    (2 * Complex.sin (w * dt / 2) / dt) ^ 2 * ε * μ = ∑ a, (2 * Complex.sin (k a * d a / 2) / d a) ^ 2 ↔
    ∃ H : VField sh ℂ, ∀ n : ℤ,
      run ⟨dt, some (uniDx d), fun _ _ => ε, some fun _ _ => μ⟩
        ⟨fun c x => exp (-I * w * n * dt) * planeWave k d v c x, fun c x => exp (-I * w * (n - 1 / 2) * dt) * H c x⟩ [.stepH, .stepE]
        = ⟨fun c x => exp (-I * w * (n + 1) * dt) * planeWave k d v c x, fun c x => exp (-I * w * (n + 1 / 2) * dt) * H c x⟩ := by
  have h1 := C35_harmonic (sh := sh) ⟨dt, some (uniDx d), fun _ _ => ε, some fun _ _ => μ⟩ (uniDx d) rfl (fun _ _ => hε)
    (fun m hm => by cases hm; exact fun _ _ => hμ) hdt w hΩ (planeWave k d v)
  have h2 := C36_dispersion (sh := sh) (2 * Complex.sin (w * dt / 2) / dt) ε μ hμ k d v hf hd hv htr hne
  rw [← h2]
  exact h1.symm

/-- C36, hypotheses are met: a wave along x on a 4×4×4 grid of cells of size 1/2, polarised along y. -/
example : Fits (fun _ => 4) ![Real.pi, 0, 0] (fun _ => 1 / 2) ∧ (![0, 1, 0] : Fin 3 → ℂ) ≠ 0 ∧
    ∑ a, Kd ![Real.pi, 0, 0] (fun _ => 1 / 2) a * (![0, 1, 0] : Fin 3 → ℂ) a = 0 := by
  refine ⟨forall_fin3 ?_ ?_ ?_, fun h => ?_, ?_⟩
  · show exp (I * ((Real.pi : ℂ) * (1 / 2) * ((4 : ℕ) : ℂ))) = 1
    rw [show I * ((Real.pi : ℂ) * (1 / 2) * ((4 : ℕ) : ℂ)) = 2 * Real.pi * I by push_cast; ring, exp_two_pi_mul_I]
  · show exp (I * ((0 : ℂ) * (1 / 2) * ((4 : ℕ) : ℂ))) = 1
    simp
  · show exp (I * ((0 : ℂ) * (1 / 2) * ((4 : ℕ) : ℂ))) = 1
    simp
  · exact one_ne_zero (congrFun h 1)
  · simp [Fin.sum_univ_three, Kd]

/-- C35, hypotheses are met: a vacuum system with small real time step and frequency. -/
example : ∃ (S : Sys (fun _ => 3) ℂ) (d : Dx fun _ => 3) (w : ℂ), S.dxes = some d ∧ (∀ c x, S.eps c x ≠ 0) ∧ S.dt ≠ 0 ∧
    2 * Complex.sin (w * S.dt / 2) / S.dt ≠ 0 := by
  refine ⟨⟨1, some (fun _ _ => 1, fun _ _ => 1), fun _ _ => 2, none⟩, _, Real.pi, rfl, fun _ _ => two_ne_zero, one_ne_zero, ?_⟩
  rw [mul_one, div_one, Complex.sin_pi_div_two]; norm_num

end Meanas.Props
