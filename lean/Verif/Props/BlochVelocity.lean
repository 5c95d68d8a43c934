/-
Property C113: the slope of a Bloch band is the energy velocity of its mode.
-/
import Verif.Props.Bloch
import Mathlib.Analysis.Calculus.Deriv.Slope
import Mathlib.Analysis.SpecialFunctions.Sqrt

set_option linter.unusedSectionVars false
set_option linter.unusedSimpArgs false

namespace Meanas.Props

open Complex Matrix Meanas.Bloch Filter Topology

variable {sh : Fin 3 → ℕ}

/-! ### Specification -/

/-- Inner product of two fields over the unit cell. -/
noncomputable def cellProduct (u v : VField sh ℂ) : ℂ := ∑ c, ∑ x, (starRingEnd ℂ) (u c x) * v c x

/-- The flux of `E × conj(H)` along `D`, summed over the unit cell. -/
noncomputable def cellFlux (D : Fin 3 → ℝ) (E H : VField sh ℂ) : ℂ :=
  ∑ x, ((D 0 : ℂ) * (E 1 x * (starRingEnd ℂ) (H 2 x) - E 2 x * (starRingEnd ℂ) (H 1 x))
    + (D 1 : ℂ) * (E 2 x * (starRingEnd ℂ) (H 0 x) - E 0 x * (starRingEnd ℂ) (H 2 x))
    + (D 2 : ℂ) * (E 0 x * (starRingEnd ℂ) (H 1 x) - E 1 x * (starRingEnd ℂ) (H 0 x)))

/-- `h` is an eigenvector of the Maxwell operator at the Bloch vector `k0`, with the fields `E`, `H` returned by `hmn_2_exyz` and `hmn_2_hxyz`. -/
def IsMode (k0 : Fin 3 → ℝ) (G : Matrix (Fin 3) (Fin 3) ℝ) (eps : VField sh ℂ) (lam : ℝ) (h : Hmn sh) (E H : VField sh ℂ) : Prop :=
  maxwellOperator k0 G eps h = some ((lam : ℂ) • h) ∧ hmn2exyz k0 G eps h = some E ∧ hmn2hxyz k0 G h = some H

/-! ### Maxwell's equations of the returned fields -/

theorem ifftn_smul' {d : ℕ} {sh : Fin d → ℕ} (c : ℂ) (f : Arr sh ℂ) : ifftn (fun k => c * f k) = fun x => c * ifftn f x := by
  have := fftn_smul c (ifftn f)
  rw [fftn_ifftn] at this
  rw [← this, ifftn_fftn]

theorem IsMode.curls {k0 : Fin 3 → ℝ} {G : Matrix (Fin 3) (Fin 3) ℝ} {eps : VField sh ℂ} {lam : ℝ} {h : Hmn sh} {E H : VField sh ℂ}
    (hm : IsMode k0 G eps lam h E H) (hg : Good k0 G sh) (he : ∀ c x, eps c x ≠ 0) (c : Fin 3) (l : Idx sh) :
    fftn (fun y => eps c y * E c y) l = cross (fun a => (kxyz k0 G l a : ℂ)) (fun a => fftn (H a) l) c
      ∧ (lam : ℂ) * fftn (H c) l = cross (fun a => (kxyz k0 G l a : ℂ)) (fun a => fftn (E a) l) c := by
  obtain ⟨h1, h2, h3⟩ := hm
  obtain ⟨n, hn, hx⟩ := nAll_regular k0 G (hg.regular k0 G)
  have hE : E = fun c x => ifftn (dXyz k0 G n h c) x / eps c x := by
    unfold hmn2exyz at h2
    rw [if_neg (by push Not; exact he), hn] at h2
    exact (Option.some.inj h2).symm
  have hH : ∀ a l, fftn (H a) l = mVec k0 G l a * h 0 l + n l a * h 1 l := by
    intro a l
    unfold hmn2hxyz at h3
    rw [hn] at h3
    rw [← Option.some.inj h3]
    exact congrFun (fftn_ifftn _) l
  have hin : ∀ l, (fun c => cross (fun a => (kxyz k0 G l a : ℂ)) (fun a => fftn (H a) l) c) = fun c => dXyz k0 G n h c l := by
    intro l; funext c
    have f := fun c => frame_cross k0 G (hx l) (hg l _ (kxyz_isWave k0 G l)) c
    have f1 : ∀ c, ((cross (kxyz k0 G l) (mVec k0 G l) c : ℝ) : ℂ) = kMag k0 G l * n l c := fun c => by rw [(f c).1]; push_cast; rfl
    have f2 : ∀ c, ((cross (kxyz k0 G l) (n l) c : ℝ) : ℂ) = -(kMag k0 G l * mVec k0 G l c) := fun c => by rw [(f c).2]; push_cast; rfl
    have a := f1 c; have b := f2 c
    simp only [hH, dXyz]
    fin_cases c <;> simp only [cross, Fin.zero_eta, Fin.mk_one, Fin.reduceFinMk] at a b ⊢ <;> push_cast at a b <;>
      linear_combination h 0 l * a + h 1 l * b
  have hd : (fun y => eps c y * E c y) = ifftn (dXyz k0 G n h c) := by
    funext y; rw [hE]; exact mul_div_cancel₀ _ (he c y)
  constructor
  · rw [hd, fftn_ifftn]
    exact (congrFun (hin l) c).symm
  · obtain ⟨b, H', B, hb, hH', hB, hq⟩ := C75_curl_curl_partial k0 G hg he h
    rw [h1] at hb
    obtain rfl := Option.some.inj hb
    rw [h3] at hH'
    obtain rfl := Option.some.inj hH'
    have q := hq l (fun y => kxyz k0 G y) (fun y => kxyz_isWave k0 G y) c
    have e1 : fftn (B c) l = lam * fftn (H c) l := by
      unfold hmn2hxyz at hB
      rw [hn] at hB
      rw [← Option.some.inj hB, hH]
      show fftn (ifftn _) l = _
      rw [fftn_ifftn]
      simp only [Pi.smul_apply, smul_eq_mul]
      ring
    rw [← e1, q]
    congr 1
    funext a
    congr 1
    funext y
    rw [hE]
    simp only
    congr 2
    funext l
    exact congrFun (hin l) a

theorem sum_conj_fftn_fftn {d : ℕ} {sh : Fin d → ℕ} (f g : Arr sh ℂ) :
    ∑ k, (starRingEnd ℂ) (fftn f k) * fftn g k = (Fintype.card (Idx sh) : ℂ) * ∑ x, (starRingEnd ℂ) (f x) * g x := by
  rw [sum_conj_fftn, ifftn_fftn]

/-- `k ×` is antihermitian. -/
theorem cross_antihermitian (k : Fin 3 → ℝ) (u v : Fin 3 → ℂ) :
    ∑ c, (starRingEnd ℂ) (u c) * cross (fun a => (k a : ℂ)) v c = -∑ c, (starRingEnd ℂ) (cross (fun a => (k a : ℂ)) u c) * v c := by
  simp only [Fin.sum_univ_three, cross, map_sub, map_mul, conj_ofReal]
  ring

theorem kxyz_add (k0 D : Fin 3 → ℝ) (G : Matrix (Fin 3) (Fin 3) ℝ) (x : Idx sh) : kxyz (k0 + D) G x = kxyz k0 G x + G *ᵥ D := by
  unfold kxyz
  rw [← mulVec_add]
  congr 1; funext a; simp only [Pi.add_apply]; ring

theorem cross_add_left (a b v : Fin 3 → ℂ) (c : Fin 3) : cross (a + b) v c = cross a v c + cross b v c := by
  fin_cases c <;> simp only [cross, Fin.zero_eta, Fin.mk_one, Fin.reduceFinMk, Pi.add_apply] <;> ring

theorem flux_fft (D : Fin 3 → ℝ) (E H : VField sh ℂ) :
    ∑ l, ∑ c, (starRingEnd ℂ) (fftn (E c) l) * cross (fun a => (D a : ℂ)) (fun a => fftn (H a) l) c
      = -((Fintype.card (Idx sh) : ℂ) * (starRingEnd ℂ) (cellFlux D E H)) := by
  have p : ∀ a b, ∑ l, (starRingEnd ℂ) (fftn (E a) l) * fftn (H b) l = (Fintype.card (Idx sh) : ℂ) * ∑ x, (starRingEnd ℂ) (E a x) * H b x :=
    fun a b => sum_conj_fftn_fftn _ _
  have e1 : ∑ l, ∑ c, (starRingEnd ℂ) (fftn (E c) l) * cross (fun a => (D a : ℂ)) (fun a => fftn (H a) l) c
      = (D 1 : ℂ) * (∑ l, (starRingEnd ℂ) (fftn (E 0) l) * fftn (H 2) l) - D 2 * (∑ l, (starRingEnd ℂ) (fftn (E 0) l) * fftn (H 1) l)
        + (D 2 * (∑ l, (starRingEnd ℂ) (fftn (E 1) l) * fftn (H 0) l) - D 0 * (∑ l, (starRingEnd ℂ) (fftn (E 1) l) * fftn (H 2) l))
        + (D 0 * (∑ l, (starRingEnd ℂ) (fftn (E 2) l) * fftn (H 1) l) - D 1 * (∑ l, (starRingEnd ℂ) (fftn (E 2) l) * fftn (H 0) l)) := by
    simp only [Finset.mul_sum, ← Finset.sum_sub_distrib, ← Finset.sum_add_distrib]
    refine Finset.sum_congr rfl fun l _ => ?_
    simp only [Fin.sum_univ_three, cross]
    ring
  have e2 : (starRingEnd ℂ) (cellFlux D E H)
      = -((D 1 : ℂ) * (∑ x, (starRingEnd ℂ) (E 0 x) * H 2 x) - D 2 * (∑ x, (starRingEnd ℂ) (E 0 x) * H 1 x)
        + (D 2 * (∑ x, (starRingEnd ℂ) (E 1 x) * H 0 x) - D 0 * (∑ x, (starRingEnd ℂ) (E 1 x) * H 2 x))
        + (D 0 * (∑ x, (starRingEnd ℂ) (E 2 x) * H 1 x) - D 1 * (∑ x, (starRingEnd ℂ) (E 2 x) * H 0 x))) := by
    unfold cellFlux
    simp only [map_sum, Finset.mul_sum, ← Finset.sum_sub_distrib, ← Finset.sum_add_distrib, ← Finset.sum_neg_distrib]
    refine Finset.sum_congr rfl fun l _ => ?_
    simp only [map_sub, map_add, map_mul, conj_ofReal, conj_conj]
    ring
  rw [e1, e2]
  simp only [p]
  ring

theorem sum_product_fft (u v : VField sh ℂ) :
    ∑ l, ∑ c, (starRingEnd ℂ) (fftn (u c) l) * fftn (v c) l = (Fintype.card (Idx sh) : ℂ) * cellProduct u v := by
  rw [Finset.sum_comm]
  simp only [sum_conj_fftn_fftn, cellProduct, Finset.mul_sum]

/-- **C113.** Two modes of the same structure, at the Bloch vectors `k0` and `k0 + delta`: the difference of their eigenvalues times the product of their magnetic
fields is the flux of the mixed Poynting vectors along the difference of the wave vectors. -/
theorem C113_two_modes_partial {k0 delta : Fin 3 → ℝ} {G : Matrix (Fin 3) (Fin 3) ℝ} {eps : VField sh ℂ} (he : PosReal eps)
    (hg : Good k0 G sh) (hg' : Good (k0 + delta) G sh) {lam lam' : ℝ} {h h' : Hmn sh} {E E' H H' : VField sh ℂ}
    (hm : IsMode k0 G eps lam h E H) (hm' : IsMode (k0 + delta) G eps lam' h' E' H') :
    ((lam' - lam : ℝ) : ℂ) * cellProduct H H' = cellFlux (G *ᵥ delta) E' H + (starRingEnd ℂ) (cellFlux (G *ᵥ delta) E H') := by
  have hne : ∀ c x, eps c x ≠ 0 := fun c x => by
    obtain ⟨r, hr, e⟩ := he c x
    rw [e]; exact_mod_cast hr.ne'
  have hc := hm.curls hg hne
  have hc' := hm'.curls hg' hne
  by_cases hN : (Fintype.card (Idx sh) : ℂ) = 0
  · have : IsEmpty (Idx sh) := by
      rw [← Fintype.card_eq_zero_iff]
      exact_mod_cast hN
    simp [cellProduct, cellFlux]
  refine mul_left_cancel₀ hN ?_
  set D := G *ᵥ delta with hD
  set k : Idx sh → Fin 3 → ℝ := fun l => kxyz k0 G l with hk
  have hk' : ∀ l : Idx sh, (fun a => (kxyz (k0 + delta) G l a : ℂ)) = (fun a => (k l a : ℂ)) + fun a => (D a : ℂ) := by
    intro l; funext a
    rw [kxyz_add]; simp [hk, hD]
  -- the eigenvalue equation of the second mode, tested with the first
  have s1 : (lam' : ℂ) * ((Fintype.card (Idx sh) : ℂ) * cellProduct H H')
      = -(∑ l, ∑ c, (starRingEnd ℂ) (fftn (fun y => eps c y * E c y) l) * fftn (E' c) l)
        - ∑ l, ∑ c, (starRingEnd ℂ) (cross (fun a => (D a : ℂ)) (fun a => fftn (H a) l) c) * fftn (E' c) l := by
    rw [← sum_product_fft, Finset.mul_sum, ← Finset.sum_neg_distrib, ← Finset.sum_sub_distrib]
    refine Finset.sum_congr rfl fun l _ => ?_
    rw [Finset.mul_sum]
    have a1 : ∀ c, (lam' : ℂ) * ((starRingEnd ℂ) (fftn (H c) l) * fftn (H' c) l)
        = (starRingEnd ℂ) (fftn (H c) l) * cross (fun a => (kxyz (k0 + delta) G l a : ℂ)) (fun a => fftn (E' a) l) c := fun c => by
      rw [← (hc' c l).2]; ring
    simp only [a1]
    rw [cross_antihermitian, hk']
    simp only [cross_add_left, (hc _ l).1, map_add, add_mul, Finset.sum_add_distrib, hk]
    ring
  have s2 : (lam : ℂ) * ((Fintype.card (Idx sh) : ℂ) * cellProduct H H')
      = -(∑ l, ∑ c, (starRingEnd ℂ) (fftn (E c) l) * fftn (fun y => eps c y * E' c y) l)
        + ∑ l, ∑ c, (starRingEnd ℂ) (fftn (E c) l) * cross (fun a => (D a : ℂ)) (fun a => fftn (H' a) l) c := by
    rw [← sum_product_fft, Finset.mul_sum, ← Finset.sum_neg_distrib, ← Finset.sum_add_distrib]
    refine Finset.sum_congr rfl fun l _ => ?_
    rw [Finset.mul_sum]
    have a1 : ∀ c, (lam : ℂ) * ((starRingEnd ℂ) (fftn (H c) l) * fftn (H' c) l)
        = (starRingEnd ℂ) (cross (fun a => (k l a : ℂ)) (fun a => fftn (E a) l) c) * fftn (H' c) l := fun c => by
      rw [← (hc c l).2, map_mul, conj_ofReal]; ring
    simp only [a1]
    have a3 := cross_antihermitian (k l) (fun a => fftn (E a) l) (fun a => fftn (H' a) l)
    rw [← neg_eq_iff_eq_neg.2 a3]
    have a2 : ∀ c, cross (fun a => (k l a : ℂ)) (fun a => fftn (H' a) l) c
        = fftn (fun y => eps c y * E' c y) l - cross (fun a => (D a : ℂ)) (fun a => fftn (H' a) l) c := fun c => by
      rw [(hc' c l).1, hk', cross_add_left]; ring
    simp only [a2, mul_sub, Finset.sum_sub_distrib]
    ring
  have s3 : ∑ l, ∑ c, (starRingEnd ℂ) (fftn (fun y => eps c y * E c y) l) * fftn (E' c) l
      = ∑ l, ∑ c, (starRingEnd ℂ) (fftn (E c) l) * fftn (fun y => eps c y * E' c y) l := by
    rw [sum_product_fft (fun c y => eps c y * E c y) E', sum_product_fft E (fun c y => eps c y * E' c y)]
    congr 1
    unfold cellProduct
    refine Finset.sum_congr rfl fun c _ => Finset.sum_congr rfl fun x _ => ?_
    obtain ⟨r, -, e⟩ := he c x
    simp only [e, map_mul, conj_ofReal]; ring
  have s4 := flux_fft D E H'
  have s5 : ∑ l, ∑ c, (starRingEnd ℂ) (cross (fun a => (D a : ℂ)) (fun a => fftn (H a) l) c) * fftn (E' c) l
      = -((Fintype.card (Idx sh) : ℂ) * cellFlux D E' H) := by
    have := congrArg (starRingEnd ℂ) (flux_fft D E' H)
    rw [map_neg, map_mul, conj_conj, map_natCast] at this
    rw [← this]
    simp only [map_sum, map_mul, conj_conj]
    exact Finset.sum_congr rfl fun l _ => Finset.sum_congr rfl fun c _ => mul_comm _ _
  rw [s5] at s1
  rw [s4] at s2
  push_cast
  linear_combination s1 - s2 - s3

/-! ### The slope of a band -/

theorem tendsto_fftn {d : ℕ} {sh : Fin d → ℕ} {f : ℝ → Arr sh ℂ} {g : Arr sh ℂ} {L : Filter ℝ} (h : ∀ x, Tendsto (fun t => f t x) L (𝓝 (g x)))
    (k : Idx sh) : Tendsto (fun t => fftn (f t) k) L (𝓝 (fftn g k)) := by
  unfold fftn
  exact tendsto_finsetSum _ fun x _ => tendsto_const_nhds.mul (h x)

theorem tendsto_ifftn {d : ℕ} {sh : Fin d → ℕ} {f : ℝ → Arr sh ℂ} {g : Arr sh ℂ} {L : Filter ℝ} (h : ∀ x, Tendsto (fun t => f t x) L (𝓝 (g x)))
    (k : Idx sh) : Tendsto (fun t => ifftn (f t) k) L (𝓝 (ifftn g k)) := by
  unfold ifftn
  exact (tendsto_finsetSum _ fun x _ => tendsto_const_nhds.mul (h x)).div_const _

theorem IsMode.e_eq {k0 : Fin 3 → ℝ} {G : Matrix (Fin 3) (Fin 3) ℝ} {eps : VField sh ℂ} {lam : ℝ} {h : Hmn sh} {E H : VField sh ℂ}
    (hm : IsMode k0 G eps lam h E H) (hg : Good k0 G sh) (he : ∀ c x, eps c x ≠ 0) (c : Fin 3) (x : Idx sh) :
    E c x = ifftn (fun l => cross (fun a => (kxyz k0 G l a : ℂ)) (fun a => fftn (H a) l) c) x / eps c x := by
  have : (fun l => cross (fun a => (kxyz k0 G l a : ℂ)) (fun a => fftn (H a) l) c) = fftn fun y => eps c y * E c y :=
    funext fun l => ((hm.curls hg he c l).1).symm
  rw [this, ifftn_fftn, mul_div_cancel_left₀ _ (he c x)]

/-- The fields of a band are continuous if the magnetic field is. -/
theorem IsMode.tendsto_e {k0 delta : Fin 3 → ℝ} {G : Matrix (Fin 3) (Fin 3) ℝ} {eps : VField sh ℂ} (he : ∀ c x, eps c x ≠ 0)
    {lam : ℝ → ℝ} {h : ℝ → Hmn sh} {E H : ℝ → VField sh ℂ} (hg : ∀ᶠ t in 𝓝 (0 : ℝ), Good (k0 + t • delta) G sh)
    (hm : ∀ᶠ t in 𝓝 (0 : ℝ), IsMode (k0 + t • delta) G eps (lam t) (h t) (E t) (H t))
    (hH : ∀ c x, Tendsto (fun t => H t c x) (𝓝 0) (𝓝 (H 0 c x))) (c : Fin 3) (x : Idx sh) :
    Tendsto (fun t => E t c x) (𝓝 0) (𝓝 (E 0 c x)) := by
  have e0 := (hm.self_of_nhds).e_eq hg.self_of_nhds he c x
  have hk : ∀ (l : Idx sh) a, Tendsto (fun t : ℝ => (kxyz (k0 + t • delta) G l a : ℂ)) (𝓝 0) (𝓝 (kxyz (k0 + (0 : ℝ) • delta) G l a : ℂ)) := by
    intro l a
    have : Continuous fun t : ℝ => (kxyz (k0 + t • delta) G l a : ℂ) := by
      simp only [kxyz_add, mulVec_smul, Pi.add_apply, Pi.smul_apply, smul_eq_mul]
      fun_prop
    exact this.tendsto 0
  have hf : ∀ (l : Idx sh) a, Tendsto (fun t : ℝ => fftn (H t a) l) (𝓝 0) (𝓝 (fftn (H 0 a) l)) := fun l a => tendsto_fftn (hH a) l
  have hc : ∀ l : Idx sh, Tendsto (fun t : ℝ => cross (fun a => (kxyz (k0 + t • delta) G l a : ℂ)) (fun a => fftn (H t a) l) c) (𝓝 0)
      (𝓝 (cross (fun a => (kxyz (k0 + (0 : ℝ) • delta) G l a : ℂ)) (fun a => fftn (H 0 a) l) c)) := by
    intro l
    fin_cases c <;> exact ((hk l _).mul (hf l _)).sub ((hk l _).mul (hf l _))
  rw [e0]
  refine Tendsto.congr' ?_ ((tendsto_ifftn hc x).div_const (eps c x))
  filter_upwards [hg, hm] with t ht hmt
  exact (hmt.e_eq ht he c x).symm

/-- **C113.** Along a line of Bloch vectors, a band whose magnetic field is continuous has a slope: the flux of `E × conj(H)`, for the fields the code returns,
over the norm of `H`. -/
theorem C113_slope_partial {k0 delta : Fin 3 → ℝ} {G : Matrix (Fin 3) (Fin 3) ℝ} {eps : VField sh ℂ} (he : PosReal eps)
    {lam : ℝ → ℝ} {h : ℝ → Hmn sh} {E H : ℝ → VField sh ℂ} (hg : ∀ᶠ t in 𝓝 (0 : ℝ), Good (k0 + t • delta) G sh)
    (hm : ∀ᶠ t in 𝓝 (0 : ℝ), IsMode (k0 + t • delta) G eps (lam t) (h t) (E t) (H t))
    (hH : ∀ c x, Tendsto (fun t => H t c x) (𝓝 0) (𝓝 (H 0 c x))) (h0 : H 0 ≠ 0) :
    HasDerivAt lam (2 * (cellFlux (G *ᵥ delta) (E 0) (H 0)).re / ∑ c, ∑ x, normSq (H 0 c x)) 0 := by
  have hne : ∀ c x, eps c x ≠ 0 := fun c x => by
    obtain ⟨r, hr, e⟩ := he c x
    rw [e]; exact_mod_cast hr.ne'
  have hE := IsMode.tendsto_e hne hg hm hH
  set D := G *ᵥ delta with hD
  have hP0 : cellProduct (H 0) (H 0) = ((∑ c, ∑ x, normSq (H 0 c x) : ℝ) : ℂ) := by
    unfold cellProduct
    push_cast
    exact Finset.sum_congr rfl fun c _ => Finset.sum_congr rfl fun x _ => (normSq_eq_conj_mul_self).symm
  have hpos : 0 < ∑ c, ∑ x, normSq (H 0 c x) := by
    obtain ⟨c, hc⟩ := Function.ne_iff.1 h0
    obtain ⟨x, hx⟩ := Function.ne_iff.1 hc
    refine Finset.sum_pos' (fun c _ => Finset.sum_nonneg fun x _ => normSq_nonneg _) ⟨c, Finset.mem_univ _, ?_⟩
    exact Finset.sum_pos' (fun x _ => normSq_nonneg _) ⟨x, Finset.mem_univ _, normSq_pos.2 hx⟩
  have hP : Tendsto (fun t => cellProduct (H 0) (H t)) (𝓝 0) (𝓝 (cellProduct (H 0) (H 0))) := by
    unfold cellProduct
    exact tendsto_finsetSum _ fun c _ => tendsto_finsetSum _ fun x _ => tendsto_const_nhds.mul (hH c x)
  have hconj : ∀ {f : ℝ → ℂ} {z : ℂ}, Tendsto f (𝓝 0) (𝓝 z) → Tendsto (fun t => (starRingEnd ℂ) (f t)) (𝓝 0) (𝓝 ((starRingEnd ℂ) z)) :=
    fun hf => (continuous_conj.tendsto _).comp hf
  have hF : Tendsto (fun t => cellFlux D (E t) (H 0) + (starRingEnd ℂ) (cellFlux D (E 0) (H t))) (𝓝 0)
      (𝓝 (cellFlux D (E 0) (H 0) + (starRingEnd ℂ) (cellFlux D (E 0) (H 0)))) := by
    have a1 : Tendsto (fun t => cellFlux D (E t) (H 0)) (𝓝 0) (𝓝 (cellFlux D (E 0) (H 0))) := by
      unfold cellFlux
      refine tendsto_finsetSum _ fun x _ => ?_
      exact (((tendsto_const_nhds.mul (((hE _ x).mul_const _).sub ((hE _ x).mul_const _))).add
        (tendsto_const_nhds.mul (((hE _ x).mul_const _).sub ((hE _ x).mul_const _)))).add
        (tendsto_const_nhds.mul (((hE _ x).mul_const _).sub ((hE _ x).mul_const _))))
    have a2 : Tendsto (fun t => cellFlux D (E 0) (H t)) (𝓝 0) (𝓝 (cellFlux D (E 0) (H 0))) := by
      unfold cellFlux
      refine tendsto_finsetSum _ fun x _ => ?_
      exact (((tendsto_const_nhds.mul (((hconj (hH _ x)).const_mul _).sub ((hconj (hH _ x)).const_mul _))).add
        (tendsto_const_nhds.mul (((hconj (hH _ x)).const_mul _).sub ((hconj (hH _ x)).const_mul _)))).add
        (tendsto_const_nhds.mul (((hconj (hH _ x)).const_mul _).sub ((hconj (hH _ x)).const_mul _))))
    exact a1.add (hconj a2)
  have hPne : cellProduct (H 0) (H 0) ≠ 0 := by rw [hP0]; exact_mod_cast hpos.ne'
  have hQ := (continuous_re.tendsto _).comp (hF.div hP hPne)
  have hval : ((cellFlux D (E 0) (H 0) + (starRingEnd ℂ) (cellFlux D (E 0) (H 0))) / cellProduct (H 0) (H 0)).re
      = 2 * (cellFlux D (E 0) (H 0)).re / ∑ c, ∑ x, normSq (H 0 c x) := by
    rw [hP0, Complex.add_conj, ← ofReal_div, ofReal_re]
  rw [hval] at hQ
  rw [hasDerivAt_iff_tendsto_slope]
  refine Tendsto.congr' ?_ (hQ.mono_left nhdsWithin_le_nhds)
  have hm0 := hm.self_of_nhds
  have hg0 := hg.self_of_nhds
  have ev : ∀ᶠ t in 𝓝 (0 : ℝ), cellProduct (H 0) (H t) ≠ 0 := hP.eventually_ne hPne
  filter_upwards [nhdsWithin_le_nhds hg, nhdsWithin_le_nhds hm, nhdsWithin_le_nhds ev, self_mem_nhdsWithin] with t ht hmt hp (htn : t ≠ 0)
  rw [zero_smul, add_zero] at hm0 hg0
  have key := C113_two_modes_partial he hg0 ht hm0 hmt
  have hs : ∀ A B : VField sh ℂ, cellFlux (G *ᵥ (t • delta)) A B = t * cellFlux D A B := by
    intro A B
    unfold cellFlux
    rw [Finset.mul_sum]
    refine Finset.sum_congr rfl fun x _ => ?_
    simp only [mulVec_smul, Pi.smul_apply, smul_eq_mul, hD]
    push_cast; ring
  rw [hs, hs, map_mul, conj_ofReal, ← mul_add] at key
  have htc : (t : ℂ) ≠ 0 := by exact_mod_cast htn
  have : (cellFlux D (E t) (H 0) + (starRingEnd ℂ) (cellFlux D (E 0) (H t))) / cellProduct (H 0) (H t) = ((slope lam 0 t : ℝ) : ℂ) := by
    rw [slope_def_field, sub_zero, div_eq_iff hp]
    push_cast at key ⊢
    field_simp
    linear_combination -key
  simp only [Function.comp_apply, Pi.div_apply]
  rw [this, ofReal_re]

/-- Electric and magnetic energy of a mode, up to the factor `lam`. -/
theorem IsMode.energy {k0 : Fin 3 → ℝ} {G : Matrix (Fin 3) (Fin 3) ℝ} {eps : VField sh ℂ} (he : PosReal eps) (hg : Good k0 G sh)
    {lam : ℝ} {h : Hmn sh} {E H : VField sh ℂ} (hm : IsMode k0 G eps lam h E H) :
    -lam * ∑ c, ∑ x, normSq (H c x) = ∑ c, ∑ x, (eps c x).re * normSq (E c x) := by
  have hne : ∀ c x, eps c x ≠ 0 := fun c x => by
    obtain ⟨r, hr, e⟩ := he c x
    rw [e]; exact_mod_cast hr.ne'
  by_cases hN : (Fintype.card (Idx sh) : ℂ) = 0
  · have : IsEmpty (Idx sh) := by
      rw [← Fintype.card_eq_zero_iff]
      exact_mod_cast hN
    simp
  have hc := hm.curls hg hne
  have key : (lam : ℂ) * ((Fintype.card (Idx sh) : ℂ) * cellProduct H H)
      = -((Fintype.card (Idx sh) : ℂ) * cellProduct (fun c y => eps c y * E c y) E) := by
    rw [← sum_product_fft, ← sum_product_fft, Finset.mul_sum, ← Finset.sum_neg_distrib]
    refine Finset.sum_congr rfl fun l _ => ?_
    rw [Finset.mul_sum]
    have a1 : ∀ c, (lam : ℂ) * ((starRingEnd ℂ) (fftn (H c) l) * fftn (H c) l)
        = (starRingEnd ℂ) (fftn (H c) l) * cross (fun a => (kxyz k0 G l a : ℂ)) (fun a => fftn (E a) l) c := fun c => by
      rw [← (hc c l).2]; ring
    simp only [a1]
    rw [cross_antihermitian]
    simp only [(hc _ l).1]
  have hP0 : cellProduct H H = ((∑ c, ∑ x, normSq (H c x) : ℝ) : ℂ) := by
    unfold cellProduct
    push_cast
    exact Finset.sum_congr rfl fun c _ => Finset.sum_congr rfl fun x _ => (normSq_eq_conj_mul_self).symm
  have hE0 : cellProduct (fun c y => eps c y * E c y) E = ((∑ c, ∑ x, (eps c x).re * normSq (E c x) : ℝ) : ℂ) := by
    unfold cellProduct
    push_cast
    refine Finset.sum_congr rfl fun c _ => Finset.sum_congr rfl fun x _ => ?_
    obtain ⟨r, -, e⟩ := he c x
    simp only [e, map_mul, conj_ofReal, ofReal_re, normSq_eq_conj_mul_self]
    ring
  have : ((-lam * ∑ c, ∑ x, normSq (H c x) : ℝ) : ℂ) = ((∑ c, ∑ x, (eps c x).re * normSq (E c x) : ℝ) : ℂ) := by
    rw [← hE0, ofReal_mul, ← hP0]
    refine mul_left_cancel₀ hN ?_
    push_cast
    linear_combination -key
  exact_mod_cast this

/-- **C113.** Group velocity is energy velocity: the derivative of the frequency `sqrt(-lam)` of a band along a direction of Bloch vectors is the power flow
of the mode along the corresponding direction of wave vectors, over its energy `(sum eps |E|² + sum |H|²) / 2`; here `E` is `-1/omega` times the result of
`hmn_2_exyz`, the field of `curl H = i omega eps E` for phases `exp(-i k r)`. The two halves of the energy are equal. -/
theorem C113_group_velocity_partial {k0 delta : Fin 3 → ℝ} {G : Matrix (Fin 3) (Fin 3) ℝ} {eps : VField sh ℂ} (he : PosReal eps)
    {lam : ℝ → ℝ} {h : ℝ → Hmn sh} {E H : ℝ → VField sh ℂ} (hg : ∀ᶠ t in 𝓝 (0 : ℝ), Good (k0 + t • delta) G sh)
    (hm : ∀ᶠ t in 𝓝 (0 : ℝ), IsMode (k0 + t • delta) G eps (lam t) (h t) (E t) (H t))
    (hH : ∀ c x, Tendsto (fun t => H t c x) (𝓝 0) (𝓝 (H 0 c x))) (h0 : H 0 ≠ 0) {omega : ℝ} (hw : 0 < omega) (hl : lam 0 = -omega ^ 2) :
    let Ep : VField sh ℂ := fun c x => -(E 0 c x) / omega
    let We := ∑ c, ∑ x, (eps c x).re * normSq (Ep c x)
    let Wh := ∑ c, ∑ x, normSq (H 0 c x)
    We = Wh ∧ HasDerivAt (fun t => Real.sqrt (-lam t)) ((cellFlux (G *ᵥ delta) Ep (H 0)).re / ((We + Wh) / 2)) 0 := by
  intro Ep We Wh
  have hs := C113_slope_partial he hg hm hH h0
  have hen := (hm.self_of_nhds).energy he hg.self_of_nhds
  have hWe : We = Wh := by
    have : We = (∑ c, ∑ x, (eps c x).re * normSq (E 0 c x)) / omega ^ 2 := by
      simp only [We, Finset.sum_div]
      refine Finset.sum_congr rfl fun c _ => Finset.sum_congr rfl fun x _ => ?_
      simp only [Ep, map_div₀, normSq_neg, normSq_ofReal]
      field_simp
    rw [this, ← hen, hl]
    field_simp
    rfl
  refine ⟨hWe, ?_⟩
  have hpos : -lam 0 ≠ 0 := by rw [hl]; nlinarith [pow_pos hw 2]
  have hd : HasDerivAt (fun t => Real.sqrt (-lam t)) _ 0 := (hs.fun_neg).sqrt hpos
  have e1 : Real.sqrt (-lam 0) = omega := by rw [hl, neg_neg, Real.sqrt_sq hw.le]
  have e2 : cellFlux (G *ᵥ delta) Ep (H 0) = ((-1 / omega : ℝ) : ℂ) * cellFlux (G *ᵥ delta) (E 0) (H 0) := by
    unfold cellFlux
    rw [Finset.mul_sum]
    refine Finset.sum_congr rfl fun x _ => ?_
    simp only [Ep]
    push_cast
    ring
  rw [hWe, e2, re_ofReal_mul]
  convert hd using 1
  rw [e1]
  show _ = -(2 * _ / Wh) / _
  by_cases hz : Wh = 0
  · simp [hz]
  · field_simp
    ring

/-- **C113, disagreement.** At wave vectors with `kx = 0, ky ≠ 0` the claim is false: on every nonempty grid of the cubic lattice filled with `epsilon = 1`,
along the Bloch vectors `(0, 1/4, 1/4 + t)`, the operator has an eigenvector with a constant magnetic field whose eigenvalue does not have the slope given
by the flux of the returned fields. -/
theorem C113_fails_partial (hsh : ∀ a, 0 < sh a) : ∃ (k0 delta : Fin 3 → ℝ) (eps : VField sh ℂ) (lam : ℝ → ℝ) (h : ℝ → Hmn sh) (E H : ℝ → VField sh ℂ),
    PosReal eps ∧ (∀ᶠ t in 𝓝 (0 : ℝ), IsMode (k0 + t • delta) 1 eps (lam t) (h t) (E t) (H t))
      ∧ (∀ c x, Tendsto (fun t => H t c x) (𝓝 0) (𝓝 (H 0 c x))) ∧ H 0 ≠ 0
      ∧ ¬ HasDerivAt lam (2 * (cellFlux (1 *ᵥ delta) (E 0) (H 0)).re / ∑ c, ∑ x, normSq (H 0 c x)) 0 := by
  let k0 : Fin 3 → ℝ := fun c => if c = 0 then 0 else 1 / 4
  let delta : Fin 3 → ℝ := fun c => if c = 2 then 1 else 0
  let o : Idx sh := fun a => ⟨0, hsh a⟩
  let h : Hmn sh := fun i x => if i = 0 ∧ x = o then 1 else 0
  have hnear : ∀ᶠ t in 𝓝 (0 : ℝ), |t| < 1 / 4 := by
    have : Tendsto (fun t : ℝ => |t|) (𝓝 0) (𝓝 |0|) := continuous_abs.tendsto 0
    rw [abs_zero] at this
    exact this.eventually (gt_mem_nhds (by norm_num))
  have hk : ∀ (t : ℝ), |t| < 1 / 4 → ∀ (x : Idx sh) (k : Fin 3 → ℝ), IsWave (k0 + t • delta) 1 k x → k 2 ≠ 0 := by
    rintro t ht x k ⟨g, -, -, -, hk⟩ hz
    have h := hk 2
    rw [hz, Fin.sum_univ_three] at h
    simp only [one_apply] at h
    simp +decide [k0, delta] at h
    rw [abs_lt] at ht
    have h1 : (0 : ℝ) < (g 2 : ℝ) := by linarith
    have h2 : (g 2 : ℝ) < 1 := by linarith
    have h1' : 0 < g 2 := by exact_mod_cast h1
    have h2' : g 2 < 1 := by exact_mod_cast h2
    omega
  have hreg : ∀ t : ℝ, |t| < 1 / 4 → Regular (k0 + t • delta) 1 sh := fun t ht x k hw hc => hk t ht x k hw hc.2.2
  have hko : ∀ t : ℝ, kxyz (k0 + t • delta) 1 o = fun c => if c = 0 then 0 else if c = 1 then 1 / 4 else 1 / 4 + t := by
    intro t
    unfold kxyz
    rw [one_mulVec]
    funext c
    have : fftfreq (sh c) (o c) = 0 := by unfold fftfreq; simp [o]
    rw [this]
    fin_cases c <;> simp [k0, delta]
  have hmo : ∀ t : ℝ, mVec (k0 + t • delta) 1 o = ey := fun t => mVec_neg _ _ (by rw [hko]; rfl)
  have hno : ∀ t : ℝ, |t| < 1 / 4 → nVec (k0 + t • delta) 1 o = some fun c => if c = 0 then -1 else 0 := by
    intro t ht
    rw [abs_lt] at ht
    have hp : 0 < 1 / 4 + t := by linarith
    have hc : cross (kxyz (k0 + t • delta) 1 o) ey = fun c => if c = 0 then -(1 / 4 + t) else 0 := by
      rw [hko]; funext c; fin_cases c <;> simp [cross, ey]
    have hn : norm3 (fun c : Fin 3 => if c = 0 then -(1 / 4 + t) else 0) = 1 / 4 + t := by
      unfold norm3
      rw [Fin.sum_univ_three]
      simp
      rw [Real.sqrt_eq_iff_mul_self_eq (by positivity) (by norm_num at hp ⊢; linarith)]
      ring
    unfold nVec
    simp only [hmo, hc, hn]
    rw [if_pos ⟨1, by rw [hko]; simp⟩, if_neg hp.ne']
    congr 1
    funext c
    by_cases h1 : c = 0
    · simp only [if_pos h1]
      rw [neg_div, div_self hp.ne']
    · simp only [if_neg h1, zero_div]
  have hmode : ∀ t : ℝ, |t| < 1 / 4 → ∃ E, IsMode (k0 + t • delta) 1 (fun _ _ => 1) (-(1 / 16 + (1 / 4 + t) ^ 2)) h E
      (fun c => ifftn fun x => if c = 1 ∧ x = o then 1 else 0)
      ∧ ∀ c, E c = ifftn fun x => if c = 0 ∧ x = o then -(kMag (k0 + t • delta) 1 o : ℂ) else 0 := by
    intro t ht
    obtain ⟨n, hn, hx⟩ := nAll_regular (k0 + t • delta) 1 (hreg t ht)
    have hnn : n o = fun c => if c = 0 then -1 else 0 := Option.some.inj ((hx o).symm.trans (hno t ht))
    obtain ⟨op, iop, hop, -, hval, -⟩ := C60_uniform_partial (k0 + t • delta) 1 (hreg t ht)
      (fun x k hw hc => hk t ht x k hw (congrFun hc 2)) (e := 1) one_ne_zero
    refine ⟨fun c x => ifftn (dXyz (k0 + t • delta) 1 n h c) x / 1, ⟨?_, ?_, ?_⟩, ?_⟩
    · rw [hop]
      congr 1
      funext i x
      rw [(hval h i x _ (kxyz_isWave _ _ x)).1, Pi.smul_apply, Pi.smul_apply, smul_eq_mul]
      by_cases hxo : i = 0 ∧ x = o
      · rw [hxo.2, hko, Fin.sum_univ_three]
        simp +decide
        left; norm_num
      · simp [h, hxo]
    · unfold hmn2exyz
      rw [if_neg (by push Not; intros; norm_num), hn]; rfl
    · unfold hmn2hxyz
      rw [hn]
      simp only [Option.map_some, Option.some.injEq]
      funext c
      congr 1
      funext x
      by_cases hxo : x = o
      · rw [hxo, hmo t]
        by_cases h1 : c = 1 <;> simp [h, h1, ey]
      · simp [h, hxo]
    · intro c
      simp only [div_one]
      show ifftn _ = ifftn _
      congr 1
      funext x
      unfold dXyz
      by_cases hxo : x = o
      · rw [hxo, hnn]
        by_cases h1 : c = 0 <;> simp [h, h1]
      · simp [h, hxo]
  choose! E hE using hmode
  let H0 : VField sh ℂ := fun c => ifftn fun x => if c = 1 ∧ x = o then 1 else 0
  have hH0 : H0 ≠ 0 := by
    intro hc
    have h1 := congrFun (congrArg fftn (congrFun hc 1)) o
    simp only [H0] at h1
    rw [fftn_ifftn] at h1
    simp [fftn] at h1
  refine ⟨k0, delta, fun _ _ => 1, fun t => -(1 / 16 + (1 / 4 + t) ^ 2), fun _ => h, E, fun _ => H0, fun _ _ => ⟨1, by norm_num, by norm_num⟩,
    hnear.mono fun t ht => (hE t ht).1, fun _ _ => tendsto_const_nhds, hH0, ?_⟩
  intro hd
  have hN : (Fintype.card (Idx sh) : ℂ) ≠ 0 := by
    have : Nonempty (Idx sh) := ⟨o⟩
    exact_mod_cast Fintype.card_ne_zero
  have hN' : (Fintype.card (Idx sh) : ℝ) ≠ 0 := by exact_mod_cast hN
  have hd' : HasDerivAt (fun t : ℝ => -(1 / 16 + (1 / 4 + t) ^ 2)) (-(2 * (1 / 4 + 0))) 0 := by
    have := (((hasDerivAt_id (0 : ℝ)).const_add (1 / 4)).pow 2).const_add (1 / 16) |>.fun_neg
    convert this using 1
    all_goals (first | rfl | norm_num)
  have hu := hd.unique hd'
  have e0 := (hE 0 (by norm_num)).2
  have hmag : kMag (k0 + (0 : ℝ) • delta) 1 o = Real.sqrt (1 / 8) := by
    unfold kMag norm3
    rw [hko, Fin.sum_univ_three]
    simp +decide
    norm_num
  have f1 := flux_fft (1 *ᵥ delta) (E 0) H0
  have fE : ∀ c l, fftn (E 0 c) l = if c = 0 ∧ l = o then -((Real.sqrt (1 / 8) : ℝ) : ℂ) else 0 := fun c l => by
    rw [e0, fftn_ifftn, hmag]
  have fH : ∀ c l, fftn (H0 c) l = if c = 1 ∧ l = o then 1 else 0 := fun c l => by
    simp only [H0]; rw [fftn_ifftn]
  have f2 := sum_product_fft H0 H0
  have g2 : ∑ l, ∑ c, (starRingEnd ℂ) (fftn (H0 c) l) * fftn (H0 c) l = 1 := by
    rw [Finset.sum_eq_single o]
    · simp [fH, Fin.sum_univ_three]
    · intro l _ hl; simp [fH, hl]
    · simp
  have g1 : ∑ l, ∑ c, (starRingEnd ℂ) (fftn (E 0 c) l) * cross (fun a => ((1 *ᵥ delta) a : ℂ)) (fun a => fftn (H0 a) l) c
      = ((Real.sqrt (1 / 8) : ℝ) : ℂ) := by
    rw [one_mulVec, Finset.sum_eq_single o]
    · simp only [fE, fH, Fin.sum_univ_three]
      simp +decide [cross, delta]
    · intro l _ hl; simp [fE, hl]
    · simp
  have hP0 : cellProduct H0 H0 = ((∑ c, ∑ x, normSq (H0 c x) : ℝ) : ℂ) := by
    unfold cellProduct
    push_cast
    exact Finset.sum_congr rfl fun c _ => Finset.sum_congr rfl fun x _ => (normSq_eq_conj_mul_self).symm
  rw [g2, hP0] at f2
  rw [g1] at f1
  have f2' : 1 = (Fintype.card (Idx sh) : ℝ) * ∑ c, ∑ x, normSq (H0 c x) := by exact_mod_cast f2
  have f1' : Real.sqrt (1 / 8) = -((Fintype.card (Idx sh) : ℝ) * (cellFlux (1 *ᵥ delta) (E 0) H0).re) := by
    have := congrArg re f1
    rw [ofReal_re, neg_re] at this
    rw [this, ← ofReal_natCast, re_ofReal_mul, conj_re]
  have hS : ∑ c, ∑ x, normSq (H0 c x) = 1 / (Fintype.card (Idx sh) : ℝ) := by
    field_simp; linarith
  have hFl : (cellFlux (1 *ᵥ delta) (E 0) H0).re = -Real.sqrt (1 / 8) / (Fintype.card (Idx sh) : ℝ) := by
    field_simp; linarith
  rw [hS, hFl] at hu
  have h3 : Real.sqrt (1 / 8) = 1 / 4 := by
    field_simp at hu
    linarith
  have h4 := Real.sq_sqrt (show (0 : ℝ) ≤ 1 / 8 by norm_num)
  rw [h3] at h4
  norm_num at h4

/-! ### The hypotheses can be met -/

/-- On every nonempty grid of the cubic lattice filled with `epsilon = 4`, the plane wave along x with Bloch vectors `(1/4 + t, 0, 0)` is such a band;
its frequency is `(1/4 + t) / 2`. -/
example (hsh : ∀ a, 0 < sh a) : ∃ (k0 delta : Fin 3 → ℝ) (eps : VField sh ℂ) (lam : ℝ → ℝ) (h : ℝ → Hmn sh) (E H : ℝ → VField sh ℂ),
    PosReal eps ∧ (∀ᶠ t in 𝓝 (0 : ℝ), Good (k0 + t • delta) 1 sh) ∧ (∀ᶠ t in 𝓝 (0 : ℝ), IsMode (k0 + t • delta) 1 eps (lam t) (h t) (E t) (H t))
      ∧ (∀ c x, Tendsto (fun t => H t c x) (𝓝 0) (𝓝 (H 0 c x))) ∧ H 0 ≠ 0 ∧ lam 0 = -(1 / 8 : ℝ) ^ 2 := by
  let k0 : Fin 3 → ℝ := fun c => if c = 0 then 1 / 4 else 0
  let delta : Fin 3 → ℝ := fun c => if c = 0 then 1 else 0
  let o : Idx sh := fun a => ⟨0, hsh a⟩
  let h : Hmn sh := fun i x => if i = 0 ∧ x = o then 1 else 0
  have hnear : ∀ᶠ t in 𝓝 (0 : ℝ), |t| < 1 / 4 := by
    have : Tendsto (fun t : ℝ => |t|) (𝓝 0) (𝓝 |0|) := continuous_abs.tendsto 0
    rw [abs_zero] at this
    exact this.eventually (gt_mem_nhds (by norm_num))
  have hk : ∀ (t : ℝ), |t| < 1 / 4 → ∀ (x : Idx sh) (k : Fin 3 → ℝ), IsWave (k0 + t • delta) 1 k x → k 0 ≠ 0 := by
    rintro t ht x k ⟨g, -, -, -, hk⟩ hz
    have h := hk 0
    rw [hz, Fin.sum_univ_three] at h
    simp only [one_apply] at h
    simp +decide [k0, delta] at h
    rw [abs_lt] at ht
    have h1 : (0 : ℝ) < (g 0 : ℝ) := by linarith
    have h2 : (g 0 : ℝ) < 1 := by linarith
    have h1' : 0 < g 0 := by exact_mod_cast h1
    have h2' : g 0 < 1 := by exact_mod_cast h2
    omega
  have hgood : ∀ t : ℝ, |t| < 1 / 4 → Good (k0 + t • delta) 1 sh := fun t ht x k hw hc => hk t ht x k hw hc.1
  have hko : ∀ t : ℝ, kxyz (k0 + t • delta) 1 o = fun c => if c = 0 then 1 / 4 + t else 0 := by
    intro t
    unfold kxyz
    rw [one_mulVec]
    funext c
    have : fftfreq (sh c) (o c) = 0 := by unfold fftfreq; simp [o]
    rw [this]
    fin_cases c <;> simp [k0, delta]
  have hmo : ∀ t : ℝ, |t| < 1 / 4 → mVec (k0 + t • delta) 1 o = fun c => if c = 1 then -1 else 0 := by
    intro t ht
    rw [abs_lt] at ht
    have hp : 0 < 1 / 4 + t := by linarith
    have hx : kxyz (k0 + t • delta) 1 o 0 ≠ 0 := by rw [hko]; simp; linarith
    rw [mVec_pos _ _ hx]
    have hc : cross (kxyz (k0 + t • delta) 1 o) ez = fun c => if c = 1 then -(1 / 4 + t) else 0 := by
      rw [hko]; funext c; fin_cases c <;> simp [cross, ez]
    have hn : norm3 (fun c : Fin 3 => if c = 1 then -(1 / 4 + t) else 0) = 1 / 4 + t := by
      unfold norm3
      rw [Fin.sum_univ_three]
      simp
      rw [Real.sqrt_eq_iff_mul_self_eq (by positivity) (by norm_num at hp ⊢; linarith)]
      ring
    rw [hc, hn]
    funext c
    by_cases h1 : c = 1
    · simp only [if_pos h1]
      rw [neg_div, div_self hp.ne']
    · simp only [if_neg h1, zero_div]
  have hmode : ∀ t : ℝ, |t| < 1 / 4 → ∃ E, IsMode (k0 + t • delta) 1 (fun _ _ => 4) (-((1 / 4 + t) ^ 2 / 4)) h E
      (fun c => ifftn fun x => if c = 1 ∧ x = o then -1 else 0) := by
    intro t ht
    obtain ⟨n, hn, hx⟩ := nAll_regular (k0 + t • delta) 1 ((hgood t ht).regular _ _)
    obtain ⟨op, iop, hop, -, hval, -⟩ := C60_uniform_partial (k0 + t • delta) 1 ((hgood t ht).regular _ _)
      (fun x k hw hc => hk t ht x k hw (congrFun hc 0)) (e := 4) (by norm_num)
    refine ⟨fun c x => ifftn (dXyz (k0 + t • delta) 1 n h c) x / 4, ?_, ?_, ?_⟩
    · rw [hop]
      congr 1
      funext i x
      rw [(hval h i x _ (kxyz_isWave _ _ x)).1, Pi.smul_apply, Pi.smul_apply, smul_eq_mul]
      by_cases hxo : i = 0 ∧ x = o
      · rw [hxo.2, hko, Fin.sum_univ_three]
        simp
      · simp [h, hxo]
    · unfold hmn2exyz
      rw [if_neg (by push Not; intros; norm_num), hn]; rfl
    · unfold hmn2hxyz
      rw [hn]
      simp only [Option.map_some, Option.some.injEq]
      funext c
      congr 1
      funext x
      by_cases hxo : x = o
      · rw [hxo, hmo t ht]
        by_cases h1 : c = 1 <;> simp [h, h1]
      · simp [h, hxo]
  choose! E hE using hmode
  refine ⟨k0, delta, fun _ _ => 4, fun t => -((1 / 4 + t) ^ 2 / 4), fun _ => h, E,
    fun _ c => ifftn fun x => if c = 1 ∧ x = o then -1 else 0, fun _ _ => ⟨4, by norm_num, by norm_num⟩,
    hnear.mono hgood, hnear.mono hE, fun _ _ => tendsto_const_nhds, ?_, by norm_num⟩
  intro hc
  have h1 := congrFun (congrArg fftn (congrFun hc 1)) o
  rw [fftn_ifftn] at h1
  simp [fftn] at h1

end Meanas.Props
