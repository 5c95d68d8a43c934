/-
C136: shifts of Bloch bands under changes of the medium (meanas/fdfd/bloch.py:183-273).
-/
import Verif.Props.BlochVelocity
import Verif.Props.BlochInvariance
import Mathlib.Analysis.Complex.RealDeriv
import Mathlib.Analysis.Calculus.Deriv.Mul

namespace Meanas.Props

open Complex Matrix Meanas.Bloch Filter Topology

variable {sh : Fin 3 → ℕ}

/-- `h` is an eigenvector of `maxwell_operator` with the (possibly complex) eigenvalue `lam`, `E` its field from `hmn_2_exyz`. -/
def IsBand (k0 : Fin 3 → ℝ) (G : Matrix (Fin 3) (Fin 3) ℝ) (eps : VField sh ℂ) (lam : ℂ) (h : Hmn sh) (E : VField sh ℂ) : Prop :=
  maxwellOperator k0 G eps h = some (lam • h) ∧ hmn2exyz k0 G eps h = some E

theorem IsBand.nz {k0 : Fin 3 → ℝ} {G : Matrix (Fin 3) (Fin 3) ℝ} {eps : VField sh ℂ} {lam : ℂ} {h : Hmn sh} {E : VField sh ℂ} (hm : IsBand k0 G eps lam h E)
    (c : Fin 3) (x : Idx sh) : eps c x ≠ 0 := by
  intro hc
  have h1 := hm.1
  unfold maxwellOperator at h1
  rw [if_pos ⟨c, x, hc⟩] at h1
  cases h1

theorem IsBand.regular {k0 : Fin 3 → ℝ} {G : Matrix (Fin 3) (Fin 3) ℝ} {eps : VField sh ℂ} {lam : ℂ} {h : Hmn sh} {E : VField sh ℂ} (hm : IsBand k0 G eps lam h E) :
    Regular k0 G sh := by
  by_contra hr
  have := hm.1
  rw [(C59_nan_partial k0 G hr eps h).1] at this
  cases this

theorem IsBand.e_eq {k0 : Fin 3 → ℝ} {G : Matrix (Fin 3) (Fin 3) ℝ} {n : Idx sh → Fin 3 → ℝ} (hn : nAll k0 G sh = some n) {eps : VField sh ℂ} {lam : ℂ}
    {h : Hmn sh} {E : VField sh ℂ} (hm : IsBand k0 G eps lam h E) : E = fun c x => ifftn (dXyz k0 G n h c) x / eps c x := by
  have h2 := hm.2
  unfold hmn2exyz at h2
  rw [if_neg (by push Not; exact hm.nz), hn] at h2
  exact (Option.some.inj h2).symm

/-- The eigenvalue equation, tested with another vector. -/
theorem IsBand.form {k0 : Fin 3 → ℝ} {G : Matrix (Fin 3) (Fin 3) ℝ} {n : Idx sh → Fin 3 → ℝ} (hn : nAll k0 G sh = some n) {eps : VField sh ℂ} {lam : ℂ}
    {h : Hmn sh} {E : VField sh ℂ} (hm : IsBand k0 G eps lam h E) (u : Hmn sh) :
    lam * hip u h = -(Fintype.card (Idx sh) : ℂ) * ∑ c, ∑ x, (starRingEnd ℂ) (ifftn (dXyz k0 G n u c) x) * E c x := by
  have h1 := hip_maxwell k0 G hn (u := u) hm.1
  rw [hm.e_eq hn, ← h1]
  unfold hip
  rw [Finset.mul_sum]
  refine Finset.sum_congr rfl fun i _ => ?_
  rw [Finset.mul_sum]
  refine Finset.sum_congr rfl fun x _ => ?_
  simp only [Pi.smul_apply, smul_eq_mul]; ring

/-- **C136.** Two structures on the same lattice and grid at the same Bloch vector, the first lossless, the second any: the difference of the eigenvalues of two
modes is given exactly by the overlap of their electric fields in the change of the permittivity. -/
theorem C136_two_media {k0 : Fin 3 → ℝ} {G : Matrix (Fin 3) (Fin 3) ℝ} {eps eps' : VField sh ℂ} (he : PosReal eps) {lam : ℝ} {lam' : ℂ}
    {h h' : Hmn sh} {E E' : VField sh ℂ} (hm : IsBand k0 G eps lam h E) (hm' : IsBand k0 G eps' lam' h' E') :
    (lam' - lam) * hip h h' = (Fintype.card (Idx sh) : ℂ) * ∑ c, ∑ x, (eps' c x - eps c x) * ((starRingEnd ℂ) (E c x) * E' c x) := by
  obtain ⟨n, hn, -⟩ := nAll_regular k0 G hm.regular
  have a := hm'.form hn h
  have b := congrArg (starRingEnd ℂ) (hm.form hn h')
  have hsw : (starRingEnd ℂ) (hip h' h) = hip h h' := by
    unfold hip
    simp only [map_sum, map_mul, conj_conj]
    exact Finset.sum_congr rfl fun i _ => Finset.sum_congr rfl fun x _ => mul_comm _ _
  rw [map_mul, hsw, conj_ofReal, map_mul, map_neg, map_natCast] at b
  simp only [map_sum, map_mul, conj_conj] at b
  have e1 : ∀ c x, ifftn (dXyz k0 G n h c) x = eps c x * E c x := fun c x => by
    rw [hm.e_eq hn]; exact (mul_div_cancel₀ _ (hm.nz c x)).symm
  have e2 : ∀ c x, ifftn (dXyz k0 G n h' c) x = eps' c x * E' c x := fun c x => by
    rw [hm'.e_eq hn]; exact (mul_div_cancel₀ _ (hm'.nz c x)).symm
  have hr : ∀ c x, (starRingEnd ℂ) (eps c x) = eps c x := fun c x => by
    obtain ⟨r, -, e⟩ := he c x
    rw [e, conj_ofReal]
  simp only [e1, map_mul, hr] at a
  simp only [e2] at b
  rw [sub_mul, a, b, neg_mul, neg_mul, sub_neg_eq_add, ← sub_eq_neg_add, ← mul_sub, ← Finset.sum_sub_distrib]
  congr 1
  refine Finset.sum_congr rfl fun c _ => ?_
  rw [← Finset.sum_sub_distrib]
  exact Finset.sum_congr rfl fun x _ => by ring

/-- Electric energy of a mode, up to the factor `lam`. -/
theorem IsBand.energy {k0 : Fin 3 → ℝ} {G : Matrix (Fin 3) (Fin 3) ℝ} {eps : VField sh ℂ} (he : PosReal eps) {lam : ℂ}
    {h : Hmn sh} {E : VField sh ℂ} (hm : IsBand k0 G eps lam h E) :
    lam * ((∑ i, ∑ x, normSq (h i x) : ℝ) : ℂ) = -((Fintype.card (Idx sh) : ℂ) * ((∑ c, ∑ x, (eps c x).re * normSq (E c x) : ℝ) : ℂ)) := by
  obtain ⟨n, hn, -⟩ := nAll_regular k0 G hm.regular
  have a := hm.form hn h
  have e1 : ∀ c x, ifftn (dXyz k0 G n h c) x = eps c x * E c x := fun c x => by
    rw [hm.e_eq hn]; exact (mul_div_cancel₀ _ (hm.nz c x)).symm
  have hh : hip h h = ((∑ i, ∑ x, normSq (h i x) : ℝ) : ℂ) := by
    unfold hip
    push_cast
    exact Finset.sum_congr rfl fun c _ => Finset.sum_congr rfl fun x _ => (normSq_eq_conj_mul_self).symm
  rw [hh] at a
  rw [a, neg_mul]
  congr 2
  push_cast
  refine Finset.sum_congr rfl fun c _ => Finset.sum_congr rfl fun x _ => ?_
  obtain ⟨r, -, e⟩ := he c x
  rw [e1, e, map_mul, conj_ofReal, ofReal_re, normSq_eq_conj_mul_self]; ring

/-- **C136.** Along any path of media that starts at a lossless one and is differentiable there (losses may be added), a band whose coefficients are continuous has
a differentiable eigenvalue. -/
theorem C136_slope {k0 : Fin 3 → ℝ} {G : Matrix (Fin 3) (Fin 3) ℝ} {eps : ℝ → VField sh ℂ} (he : PosReal (eps 0)) (dε : VField sh ℂ)
    (hd : ∀ c x, HasDerivAt (fun t => eps t c x) (dε c x) 0) {lam : ℝ → ℂ} {h : ℝ → Hmn sh} {E : ℝ → VField sh ℂ}
    (hm : ∀ᶠ t in 𝓝 (0 : ℝ), IsBand k0 G (eps t) (lam t) (h t) (E t)) (hc : ∀ i x, ContinuousAt (fun t => h t i x) 0) (h0 : h 0 ≠ 0) :
    HasDerivAt lam ((Fintype.card (Idx sh) : ℂ) * (∑ c, ∑ x, dε c x * normSq (E 0 c x)) / ((∑ i, ∑ x, normSq (h 0 i x) : ℝ) : ℂ)) 0 := by
  have hm0 := hm.self_of_nhds
  obtain ⟨n, hn, -⟩ := nAll_regular k0 G hm0.regular
  have hpos : 0 < ∑ i, ∑ x, normSq (h 0 i x) := by
    obtain ⟨c, hc⟩ := Function.ne_iff.1 h0
    obtain ⟨x, hx⟩ := Function.ne_iff.1 hc
    refine Finset.sum_pos' (fun c _ => Finset.sum_nonneg fun x _ => normSq_nonneg _) ⟨c, Finset.mem_univ _, ?_⟩
    exact Finset.sum_pos' (fun x _ => normSq_nonneg _) ⟨x, Finset.mem_univ _, normSq_pos.2 hx⟩
  have hlam : ∃ l : ℝ, lam 0 = l := by
    have := hm0.energy he
    refine ⟨-(Fintype.card (Idx sh) * ∑ c, ∑ x, (eps 0 c x).re * normSq (E 0 c x)) / ∑ i, ∑ x, normSq (h 0 i x), ?_⟩
    rw [ofReal_div, eq_div_iff (ofReal_ne_zero.2 hpos.ne'), this, ofReal_neg, ofReal_mul, ofReal_natCast]
  obtain ⟨l, hl⟩ := hlam
  have hE : ∀ c x, Tendsto (fun t => E t c x) (𝓝 0) (𝓝 (E 0 c x)) := by
    intro c x
    have hcont : Tendsto (fun t => ifftn (dXyz k0 G n (h t) c) x / eps t c x) (𝓝 0) (𝓝 (ifftn (dXyz k0 G n (h 0) c) x / eps 0 c x)) := by
      refine Tendsto.div (tendsto_ifftn (fun l => ?_) x) (hd c x).continuousAt.tendsto (hm0.nz c x)
      unfold dXyz
      exact ((((hc 0 l).tendsto).const_mul _).sub (((hc 1 l).tendsto).const_mul _)).mul_const _
    rw [hm0.e_eq hn]
    refine Tendsto.congr' ?_ hcont
    filter_upwards [hm] with t ht
    rw [ht.e_eq hn]
  have hip0 : hip (h 0) (h 0) = ((∑ i, ∑ x, normSq (h 0 i x) : ℝ) : ℂ) := by
    unfold hip
    push_cast
    exact Finset.sum_congr rfl fun c _ => Finset.sum_congr rfl fun x _ => (normSq_eq_conj_mul_self).symm
  have hP : Tendsto (fun t => hip (h 0) (h t)) (𝓝 0) (𝓝 (hip (h 0) (h 0))) := by
    unfold hip
    exact tendsto_finsetSum _ fun c _ => tendsto_finsetSum _ fun x _ => tendsto_const_nhds.mul (hc c x)
  have hPne : hip (h 0) (h 0) ≠ 0 := by rw [hip0]; exact ofReal_ne_zero.2 hpos.ne'
  have hN : Tendsto (fun t => (Fintype.card (Idx sh) : ℂ) * ∑ c, ∑ x, slope (fun s => eps s c x) 0 t * ((starRingEnd ℂ) (E 0 c x) * E t c x)) (𝓝[≠] 0)
      (𝓝 ((Fintype.card (Idx sh) : ℂ) * ∑ c, ∑ x, dε c x * normSq (E 0 c x))) := by
    refine Tendsto.const_mul _ (tendsto_finsetSum _ fun c _ => tendsto_finsetSum _ fun x _ => ?_)
    rw [normSq_eq_conj_mul_self]
    exact (hasDerivAt_iff_tendsto_slope.1 (hd c x)).mul (((hE c x).mono_left nhdsWithin_le_nhds).const_mul _)
  rw [hasDerivAt_iff_tendsto_slope, ← hip0]
  refine Tendsto.congr' ?_ (hN.div (hP.mono_left nhdsWithin_le_nhds) hPne)
  filter_upwards [nhdsWithin_le_nhds hm, nhdsWithin_le_nhds (hP.eventually_ne hPne), self_mem_nhdsWithin] with t hmt hp (htn : t ≠ 0)
  rw [hl] at hm0
  have key := C136_two_media he hm0 hmt
  have htc : (t : ℂ) ≠ 0 := ofReal_ne_zero.2 htn
  have hs : ∀ c x, (eps t c x - eps 0 c x) = t * slope (fun s => eps s c x) 0 t := fun c x => by
    rw [slope_def_module, sub_zero, real_smul, ← mul_assoc, ofReal_inv, mul_inv_cancel₀ htc, one_mul]
  simp only [Pi.div_apply]
  rw [slope_def_module, sub_zero, real_smul, hl, ofReal_inv, ← div_eq_inv_mul, eq_div_iff htc, div_mul_eq_mul_div, div_eq_iff hp, key, mul_right_comm, mul_assoc]
  simp only [hs, Finset.mul_sum]
  exact Finset.sum_congr rfl fun c _ => Finset.sum_congr rfl fun x _ => by ring

/-- **C136.** The frequency of a band: `dω/ω = -½ ∫ dε |E|² / ∫ ε |E|²`. -/
theorem C136_frequency {k0 : Fin 3 → ℝ} {G : Matrix (Fin 3) (Fin 3) ℝ} {eps : ℝ → VField sh ℂ} (he : PosReal (eps 0)) (dε : VField sh ℂ)
    (hd : ∀ c x, HasDerivAt (fun t => eps t c x) (dε c x) 0) {ω : ℝ → ℂ} {h : ℝ → Hmn sh} {E : ℝ → VField sh ℂ} (hω : ContinuousAt ω 0) (hω0 : ω 0 ≠ 0)
    (hm : ∀ᶠ t in 𝓝 (0 : ℝ), IsBand k0 G (eps t) (-ω t ^ 2) (h t) (E t)) (hc : ∀ i x, ContinuousAt (fun t => h t i x) 0) (h0 : h 0 ≠ 0) :
    HasDerivAt ω (-(ω 0) / 2 * ((∑ c, ∑ x, dε c x * normSq (E 0 c x)) / ((∑ c, ∑ x, (eps 0 c x).re * normSq (E 0 c x) : ℝ) : ℂ))) 0 := by
  have hs := C136_slope he dε hd hm hc h0
  have hen := (hm.self_of_nhds).energy he
  have hpos : 0 < ∑ i, ∑ x, normSq (h 0 i x) := by
    obtain ⟨c, hc⟩ := Function.ne_iff.1 h0
    obtain ⟨x, hx⟩ := Function.ne_iff.1 hc
    refine Finset.sum_pos' (fun c _ => Finset.sum_nonneg fun x _ => normSq_nonneg _) ⟨c, Finset.mem_univ _, ?_⟩
    exact Finset.sum_pos' (fun x _ => normSq_nonneg _) ⟨x, Finset.mem_univ _, normSq_pos.2 hx⟩
  generalize (∑ i, ∑ x, normSq (h 0 i x)) = Nh at hs hen hpos
  generalize (∑ c, ∑ x, (eps 0 c x).re * normSq (E 0 c x)) = Ne at hen ⊢
  generalize (∑ c, ∑ x, dε c x * normSq (E 0 c x)) = Nd at hs ⊢
  have hNh : (Nh : ℂ) ≠ 0 := ofReal_ne_zero.2 hpos.ne'
  have hNe : (Ne : ℂ) ≠ 0 := fun hc => by
    rw [hc, mul_zero, neg_zero] at hen
    exact mul_ne_zero (neg_ne_zero.2 (pow_ne_zero 2 hω0)) hNh hen
  rw [hasDerivAt_iff_tendsto_slope] at hs ⊢
  have h2 : ω 0 + ω 0 ≠ 0 := by rw [← two_mul]; exact mul_ne_zero two_ne_zero hω0
  have hsum : Tendsto (fun t => ω t + ω 0) (𝓝[≠] 0) (𝓝 (ω 0 + ω 0)) := (hω.tendsto.mono_left nhdsWithin_le_nhds).add_const _
  have hval : -(ω 0) / 2 * (Nd / Ne) = -((Fintype.card (Idx sh) : ℂ) * Nd / Nh) / (ω 0 + ω 0) := by
    have hcard : (Fintype.card (Idx sh) : ℂ) = ω 0 ^ 2 * Nh / Ne := by
      rw [eq_div_iff hNe]; linear_combination hen
    rw [hcard]; field_simp; ring
  rw [hval]
  refine Tendsto.congr' ?_ ((hs.neg).div hsum h2)
  filter_upwards [hsum.eventually_ne h2] with t ht
  simp only [Pi.div_apply]
  rw [slope_def_module, slope_def_module, div_eq_iff ht, real_smul, real_smul]
  ring

/-- The hypotheses of `C136_slope` are met by every band of a lossless medium that is scaled as a whole. -/
example {k0 : Fin 3 → ℝ} {G : Matrix (Fin 3) (Fin 3) ℝ} {eps : VField sh ℂ} {lam : ℂ} {h : Hmn sh} {E : VField sh ℂ} (hm : IsBand k0 G eps lam h E) :
    (∀ c x, HasDerivAt (fun t : ℝ => ((1 + t : ℝ) : ℂ) * eps c x) (eps c x) 0)
      ∧ ∀ᶠ t : ℝ in 𝓝 0, ∃ E', IsBand k0 G (fun c x => ((1 + t : ℝ) : ℂ) * eps c x) (lam / ((1 + t : ℝ) : ℂ)) h E' := by
  constructor
  · intro c x
    have h1 : HasDerivAt (fun t : ℝ => ((1 + t : ℝ) : ℂ)) 1 0 := by
      have := ((hasDerivAt_id (0 : ℝ)).const_add 1).ofReal_comp
      simpa using this
    simpa using h1.mul_const (eps c x)
  · filter_upwards [lt_mem_nhds (show (-1 : ℝ) < 0 by norm_num)] with t ht
    have h2 : ((1 + t : ℝ) : ℂ) ≠ 0 := ofReal_ne_zero.2 (by linarith)
    obtain ⟨n, hn, -⟩ := nAll_regular k0 G hm.regular
    refine ⟨fun c x => ifftn (dXyz k0 G n h c) x / (((1 + t : ℝ) : ℂ) * eps c x), ?_, ?_⟩
    · rw [C110_eps k0 G _ h2, hm.1, Option.map_some]
      congr 1
      funext i x
      simp only [Pi.smul_apply, smul_eq_mul]; ring
    · unfold hmn2exyz
      rw [if_neg (by push Not; exact fun c x => mul_ne_zero h2 (hm.nz c x)), hn]
      rfl

end Meanas.Props
