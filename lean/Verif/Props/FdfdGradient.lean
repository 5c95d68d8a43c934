/-
C103: gradients of FDFD solutions by the adjoint method, with two solutions of the same system (meanas/fdfd/operators.py, meanas/fdfd/solvers.py).
-/
import Verif.Props.FdfdSystem
import Mathlib.Topology.Instances.Matrix
import Mathlib.Analysis.Calculus.Deriv.Slope

namespace Meanas.Props

open Matrix Complex Fdfd Spec Solvers

variable {sh : Fin 3 → ℕ}

/-- What a probe with weights `J'` (a current distribution) measures: `∫ J'·E dV` with the Yee volumes of E. -/
noncomputable def probe (dxes : Dx sh) (J' E : Vec sh) : ℂ := ∑ c, ∑ x, volE dxes.1 dxes.2 c x * (J' (c, x) * E (c, x))

theorem probe_dot (dxes : Dx sh) (J' E : Vec sh) : probe dxes J' E = E ⬝ᵥ ((diagonal (pSquared dxes) : Mat sh) *ᵥ J') := by
  simp only [probe, dotProduct, mulVec_diagonal, Fintype.sum_prod_type, pSquared_eq]
  exact Finset.sum_congr rfl fun c _ => Finset.sum_congr rfl fun x _ => by ring

/-- C103: the change of a measured field under any change of the media. `E₁` is the field of `J` in the first medium, `E₂` its field in the second,
`E'` the field that the probe, used as a current, makes in the second. Exact for changes of any size, any grid with complex widths, and with
conductors of both kinds (with fields that vanish on the electric ones). -/
theorem C103_exact (ω : ℂ) (hω : ω ≠ 0) (dxes : Dx sh) (hg : GridNz dxes) (eps₁ eps₂ : Vec sh) (mu₁ mu₂ : Option (Vec sh))
    (hmu₁ : ∀ p, muV mu₁ p ≠ 0) (hmu₂ : ∀ p, muV mu₂ p ≠ 0) (pec pmc : Option (Pos sh → Bool)) (J J' E₁ E₂ E' : Vec sh)
    (h₁ : eFull ω dxes eps₁ mu₁ pec pmc *ᵥ E₁ = (-I * ω) • J) (h₂ : eFull ω dxes eps₂ mu₂ pec pmc *ᵥ E₂ = (-I * ω) • J)
    (h' : eFull ω dxes eps₂ mu₂ pec pmc *ᵥ E' = (-I * ω) • J') (hp₁ : notMask pec *ᵥ E₁ = E₁) (hp' : notMask pec *ᵥ E' = E') :
    let H₁ := Fdfd.e2h ω dxes mu₁ pmc *ᵥ E₁
    let H' := Fdfd.e2h ω dxes mu₂ pmc *ᵥ E'
    probe dxes J' E₁ - probe dxes J' E₂
      = I * ω * (∑ c, ∑ x, volE dxes.1 dxes.2 c x * ((eps₁ (c, x) - eps₂ (c, x)) * (E' (c, x) * E₁ (c, x)))
        - ∑ c, ∑ x, volH dxes.1 dxes.2 c x * ((muV mu₁ (c, x) - muV mu₂ (c, x)) * (H' (c, x) * H₁ (c, x)))) := by
  intro H₁ H'
  have hk : (-I * ω) ≠ 0 := mul_ne_zero (neg_ne_zero.2 I_ne_zero) hω
  obtain ⟨pe, hpe⟩ := notMask_diag pec
  obtain ⟨pm, hpm⟩ := notMask_diag pmc
  have hpm2 : ∀ p, (pm p : ℂ) * pm p = pm p := by
    intro p
    have := congrFun (congrFun hpm p) p
    rw [diagonal_apply_eq] at this
    rw [← this]
    cases pmc with
    | none => simp [notMask]
    | some m => simp [notMask, diagonal_apply_eq]
  -- the two bilinear forms
  have s2 := symm_dot (vol_eFull_symm ω dxes hg eps₂ mu₂ pec pmc) E₁ E'
  have hrec : probe dxes J' E₂ = probe dxes J E' := C82_reciprocity ω hω dxes hg eps₂ mu₂ pec pmc E₂ E' J J' h₂ h'
  have form : ∀ (eps : Vec sh) (mu : Option (Vec sh)), E' ⬝ᵥ (((diagonal (pSquared dxes) : Mat sh) * eFull ω dxes eps mu pec pmc) *ᵥ E₁)
      = (∑ p : Pos sh, volH dxes.1 dxes.2 p.1 p.2 * pm p * (muV mu p)⁻¹ * (cE dxes E' p * cE dxes E₁ p))
        - ω ^ 2 * ∑ p : Pos sh, pSquared dxes p * eps p * (E' p * E₁ p) := by
    intro eps mu
    rw [vol_eFull ω dxes hg eps mu pec pmc _ _ hpe hpm, ← mulVec_mulVec, ← mulVec_mulVec, ← hpe, hp₁, sub_mulVec, hpe, dotProduct_mulVec,
      ← mulVec_transpose, diagonal_transpose, ← hpe, hp', dotProduct_sub, smul_mulVec, dotProduct_smul, ← mulVec_mulVec, ← mulVec_mulVec,
      dotProduct_mulVec, vecMul_transpose, curlForward_mulVec, curlForward_mulVec]
    simp only [dotProduct, mulVec_diagonal, smul_eq_mul]
    congr 1
    · exact Finset.sum_congr rfl fun p _ => by ring
    · congr 1; exact Finset.sum_congr rfl fun p _ => by ring
  have hHp : ∀ (mu : Option (Vec sh)) (E : Vec sh) p, (Fdfd.e2h ω dxes mu pmc *ᵥ E) p = pm p * (cE dxes E p / (-I * ω) / muV mu p) := by
    intro mu E p
    have : Fdfd.e2h ω dxes mu pmc = notMask pmc * Fdfd.e2h ω dxes mu none := by
      cases pmc <;> cases mu <;> simp [Fdfd.e2h, notMask]
    rw [this, ← mulVec_mulVec, hpm, mulVec_diagonal, Fdfd.e2h_mulVec]
  have e1 : E' ⬝ᵥ (((diagonal (pSquared dxes) : Mat sh) * eFull ω dxes eps₁ mu₁ pec pmc) *ᵥ E₁) = (-I * ω) * probe dxes J E' := by
    rw [← mulVec_mulVec, h₁, mulVec_smul, dotProduct_smul, smul_eq_mul, probe_dot]
  have e2 : E' ⬝ᵥ (((diagonal (pSquared dxes) : Mat sh) * eFull ω dxes eps₂ mu₂ pec pmc) *ᵥ E₁) = (-I * ω) * probe dxes J' E₁ := by
    rw [← s2, ← mulVec_mulVec, h', mulVec_smul, dotProduct_smul, smul_eq_mul, probe_dot]
  rw [form] at e1 e2
  refine mul_left_cancel₀ hk ?_
  rw [hrec, mul_sub, ← e1, ← e2]
  have t1 : ∑ c, ∑ x, volE dxes.1 dxes.2 c x * ((eps₁ (c, x) - eps₂ (c, x)) * (E' (c, x) * E₁ (c, x)))
      = (∑ p : Pos sh, pSquared dxes p * eps₁ p * (E' p * E₁ p)) - ∑ p : Pos sh, pSquared dxes p * eps₂ p * (E' p * E₁ p) := by
    rw [← Finset.sum_sub_distrib, Fintype.sum_prod_type]
    exact Finset.sum_congr rfl fun c _ => Finset.sum_congr rfl fun x _ => by rw [pSquared_eq]; ring
  have t2 : (-I * ω) * (I * ω) * ∑ c, ∑ x, volH dxes.1 dxes.2 c x * ((muV mu₁ (c, x) - muV mu₂ (c, x)) * (H' (c, x) * H₁ (c, x)))
      = (∑ p : Pos sh, volH dxes.1 dxes.2 p.1 p.2 * pm p * (muV mu₁ p)⁻¹ * (cE dxes E' p * cE dxes E₁ p))
        - ∑ p : Pos sh, volH dxes.1 dxes.2 p.1 p.2 * pm p * (muV mu₂ p)⁻¹ * (cE dxes E' p * cE dxes E₁ p) := by
    rw [← Finset.sum_sub_distrib, Fintype.sum_prod_type, Finset.mul_sum]
    refine Finset.sum_congr rfl fun c _ => ?_
    rw [Finset.mul_sum]
    refine Finset.sum_congr rfl fun x _ => ?_
    have m1 := hmu₁ (c, x)
    have m2 := hmu₂ (c, x)
    simp only [H₁, H', hHp]
    have hI := I_ne_zero
    field_simp
    linear_combination (volH dxes.1 dxes.2 c x * (muV mu₂ (c, x) - muV mu₁ (c, x)) * cE dxes E' (c, x) * cE dxes E₁ (c, x)) * hpm2 (c, x)
  rw [t1]
  linear_combination t2 + ω ^ 2 * ((∑ p : Pos sh, pSquared dxes p * eps₁ p * (E' p * E₁ p)) - ∑ p : Pos sh, pSquared dxes p * eps₂ p * (E' p * E₁ p)) * I_sq

/-- C103: the gradient of a measured field, with conductors of both kinds. If the media depend linearly on a parameter, `ε + t dε`, `μ + t dμ`, and the
system at `t = 0` has no source-free field that vanishes in the electric conductor, then for solutions `E t` that vanish there the derivative of the measured value at `t = 0` is `iω (∫ dε E'·E dV - ∫ dμ H'·H dV)`, with `E'`, `H'` the fields that
the probe makes as a current: two solutions give the derivatives with respect to every cell of ε and μ. -/
theorem C103_gradient_conductors (ω : ℂ) (hω : ω ≠ 0) (dxes : Dx sh) (hg : GridNz dxes) (eps mu dε dμ : Vec sh) (hmu : ∀ p, mu p ≠ 0)
    (pec pmc : Option (Pos sh → Bool)) (hreg : ∀ v, notMask pec *ᵥ v = v → eFull ω dxes eps (some mu) pec pmc *ᵥ v = 0 → v = 0) (J J' E' : Vec sh)
    (E : ℂ → Vec sh)
    (hE : ∀ᶠ t in nhds 0, eFull ω dxes (eps + t • dε) (some (mu + t • dμ)) pec pmc *ᵥ E t = (-I * ω) • J ∧ notMask pec *ᵥ E t = E t)
    (h' : eFull ω dxes eps (some mu) pec pmc *ᵥ E' = (-I * ω) • J') (hp' : notMask pec *ᵥ E' = E') :
    let H := Fdfd.e2h ω dxes (some mu) pmc *ᵥ E 0
    let H' := Fdfd.e2h ω dxes (some mu) pmc *ᵥ E'
    HasDerivAt (fun t => probe dxes J' (E t))
      (I * ω * (∑ c, ∑ x, volE dxes.1 dxes.2 c x * (dε (c, x) * (E' (c, x) * E 0 (c, x)))
        - ∑ c, ∑ x, volH dxes.1 dxes.2 c x * (dμ (c, x) * (H' (c, x) * H (c, x))))) 0 := by
  intro H H'
  have hmut : ∀ p, ∀ᶠ t : ℂ in nhds 0, mu p + t * dμ p ≠ 0 := by
    intro p
    have : ContinuousAt (fun t : ℂ => mu p + t * dμ p) 0 := by fun_prop
    exact this.eventually_ne (by simpa using hmu p)
  -- the system made regular in the conductor
  obtain ⟨pe, hpe⟩ := notMask_diag pec
  have hpe2 : notMask pec * notMask pec = (notMask pec : Mat sh) := by
    cases pec with
    | none => simp [notMask]
    | some m => rw [notMask, diagonal_mul_diagonal]; congr 1; funext p; cases h : m p <;> simp
  let B : ℂ → Mat sh := fun t => eFull ω dxes (eps + t • dε) (some (mu + t • dμ)) pec pmc + (1 - notMask pec)
  have hA : ContinuousAt B 0 := by
    have c1 : ContinuousAt (fun t : ℂ => (muDiv (some (mu + t • dμ)) : Mat sh)) 0 := by
      refine continuousAt_pi.2 fun p => continuousAt_pi.2 fun q => ?_
      simp only [muDiv, diagonal_apply]
      by_cases hpq : p = q
      · simp only [hpq, if_true, Pi.add_apply, Pi.smul_apply, smul_eq_mul]
        exact ContinuousAt.div₀ continuousAt_const (by fun_prop) (by simpa using hmu q)
      · simp only [hpq, if_false]; exact continuousAt_const
    have c2 : ContinuousAt (fun t : ℂ => (diagonal (eps + t • dε) : Mat sh)) 0 := by
      refine Continuous.continuousAt (Continuous.matrix_diagonal ?_)
      exact continuous_const.add (continuous_id.smul continuous_const)
    simp only [B, eFull]
    exact ((continuousAt_const.mul ((((continuousAt_const.mul continuousAt_const).mul c1).mul continuousAt_const).sub
      ((continuousAt_const (y := ω ^ 2)).smul c2))).mul continuousAt_const).add continuousAt_const
  have hrow : ∀ (e : Vec sh) (m : Option (Vec sh)), notMask pec * eFull ω dxes e m pec pmc = eFull ω dxes e m pec pmc := by
    intro e m
    simp only [eFull, ← Matrix.mul_assoc, hpe2]
  have hB0 : IsUnit (B 0).det := by
    rw [← Matrix.isUnit_iff_isUnit_det, ← Matrix.mulVec_injective_iff_isUnit]
    refine (injective_iff_map_eq_zero (Matrix.mulVecLin (B 0))).2 fun v hv => ?_
    rw [Matrix.mulVecLin_apply] at hv
    simp only [B, zero_smul, add_zero, add_mulVec, sub_mulVec, one_mulVec] at hv
    have h1 : notMask pec *ᵥ (eFull ω dxes eps (some mu) pec pmc *ᵥ v + (v - notMask pec *ᵥ v)) = 0 := by rw [hv, mulVec_zero]
    rw [mulVec_add, mulVec_sub, mulVec_mulVec, mulVec_mulVec, hpe2, sub_self, add_zero, hrow] at h1
    rw [h1, zero_add, sub_eq_zero] at hv
    exact hreg v hv.symm h1
  -- so the solution is continuous
  have hdet : ∀ᶠ t : ℂ in nhds 0, IsUnit (B t).det := by
    have : ContinuousAt (fun t : ℂ => (B t).det) 0 := (continuous_id.matrix_det.continuousAt).comp' hA
    filter_upwards [this.eventually_ne hB0.ne_zero] with t ht
    exact isUnit_iff_ne_zero.2 ht
  have hEq : ∀ᶠ t : ℂ in nhds 0, E t = (B t)⁻¹ *ᵥ ((-I * ω) • J) := by
    filter_upwards [hE, hdet] with t h1 h2
    have : B t *ᵥ E t = (-I * ω) • J := by
      simp only [B, add_mulVec, sub_mulVec, one_mulVec, h1.1, h1.2, sub_self, add_zero]
    rw [← this, mulVec_mulVec, nonsing_inv_mul _ h2, one_mulVec]
  have hEc : ContinuousAt E 0 := by
    have hinv : ContinuousAt (fun t : ℂ => (B t)⁻¹) 0 := by
      refine ContinuousAt.comp' (f := B) ?_ hA
      exact continuousAt_matrix_inv _ (by
        rw [Ring.inverse_eq_inv']
        exact continuousAt_inv₀ hB0.ne_zero)
    have : ContinuousAt (fun t : ℂ => (B t)⁻¹ *ᵥ ((-I * ω) • J)) 0 :=
      (Continuous.matrix_mulVec continuous_id continuous_const).continuousAt.comp' hinv
    exact this.congr (hEq.mono fun t h => h.symm)
  have hE0 := hE.self_of_nhds
  simp only [zero_smul, add_zero] at hE0
  -- exact difference
  have hdiff : ∀ᶠ t : ℂ in nhds 0, probe dxes J' (E t) - probe dxes J' (E 0)
      = t * (I * ω * (∑ c, ∑ x, volE dxes.1 dxes.2 c x * (dε (c, x) * (E' (c, x) * E t (c, x)))
        - ∑ c, ∑ x, volH dxes.1 dxes.2 c x * (dμ (c, x) * (H' (c, x) * (Fdfd.e2h ω dxes (some (mu + t • dμ)) pmc *ᵥ E t) (c, x))))) := by
    filter_upwards [hE, Filter.eventually_all.2 hmut] with t ht hm
    have := C103_exact ω hω dxes hg (eps + t • dε) eps (some (mu + t • dμ)) (some mu) (by simpa using hm) (by simpa using hmu) pec pmc J J'
      (E t) (E 0) E' ht.1 hE0.1 h' ht.2 hp'
    rw [this]
    simp only [Pi.add_apply, Pi.smul_apply, smul_eq_mul, muV_some, add_sub_cancel_left, mul_sub, Finset.mul_sum]
    congr 1
    · exact Finset.sum_congr rfl fun c _ => Finset.sum_congr rfl fun x _ => by ring
    · exact Finset.sum_congr rfl fun c _ => Finset.sum_congr rfl fun x _ => by ring
  have hHc : ∀ p, ContinuousAt (fun t : ℂ => (Fdfd.e2h ω dxes (some (mu + t • dμ)) pmc *ᵥ E t) p) 0 := by
    intro p
    have c1 : ContinuousAt (fun t : ℂ => Fdfd.e2h ω dxes (some (mu + t • dμ)) pmc) 0 := by
      have c0 : ContinuousAt (fun t : ℂ => (diagonal fun p => 1 / (mu + t • dμ) p : Mat sh)) 0 := by
        refine continuousAt_pi.2 fun p => continuousAt_pi.2 fun q => ?_
        simp only [diagonal_apply]
        by_cases hpq : p = q
        · simp only [hpq, if_true, Pi.add_apply, Pi.smul_apply, smul_eq_mul]
          exact ContinuousAt.div₀ continuousAt_const (by fun_prop) (by simpa using hmu q)
        · simp only [hpq, if_false]; exact continuousAt_const
      cases pmc with
      | none => exact c0.mul continuousAt_const
      | some m => exact continuousAt_const.mul (c0.mul continuousAt_const)
    have : ContinuousAt (fun t : ℂ => Fdfd.e2h ω dxes (some (mu + t • dμ)) pmc *ᵥ E t) 0 := by
      refine continuousAt_pi.2 fun p => ?_
      simp only [mulVec, dotProduct]
      refine tendsto_finsetSum _ fun q _ => ?_
      exact ((continuousAt_pi.1 (continuousAt_pi.1 c1 p) q).mul (continuousAt_pi.1 hEc q))
    exact continuousAt_pi.1 this p
  rw [hasDerivAt_iff_tendsto_slope]
  have hlim : Filter.Tendsto (fun t : ℂ => I * ω * (∑ c, ∑ x, volE dxes.1 dxes.2 c x * (dε (c, x) * (E' (c, x) * E t (c, x)))
        - ∑ c, ∑ x, volH dxes.1 dxes.2 c x * (dμ (c, x) * (H' (c, x) * (Fdfd.e2h ω dxes (some (mu + t • dμ)) pmc *ᵥ E t) (c, x)))))
      (nhds 0) (nhds (I * ω * (∑ c, ∑ x, volE dxes.1 dxes.2 c x * (dε (c, x) * (E' (c, x) * E 0 (c, x)))
        - ∑ c, ∑ x, volH dxes.1 dxes.2 c x * (dμ (c, x) * (H' (c, x) * H (c, x)))))) := by
    refine Filter.Tendsto.const_mul _ (Filter.Tendsto.sub ?_ ?_)
    · refine tendsto_finsetSum _ fun c _ => tendsto_finsetSum _ fun x _ => ?_
      exact Filter.Tendsto.const_mul _ (Filter.Tendsto.const_mul _ (Filter.Tendsto.const_mul _ (continuousAt_pi.1 hEc (c, x))))
    · refine tendsto_finsetSum _ fun c _ => tendsto_finsetSum _ fun x _ => ?_
      have := hHc (c, x)
      rw [ContinuousAt] at this
      simp only [zero_smul, add_zero] at this
      exact Filter.Tendsto.const_mul _ (Filter.Tendsto.const_mul _ (Filter.Tendsto.const_mul _ this))
  refine Filter.Tendsto.congr' ?_ (hlim.mono_left nhdsWithin_le_nhds)
  filter_upwards [hdiff.filter_mono nhdsWithin_le_nhds, self_mem_nhdsWithin] with t ht hne
  rw [slope_def_field, ht, sub_zero, mul_div_cancel_left₀ _ hne]

/-- C103: the gradient of a measured field without electric conductors. If the media depend linearly on a parameter, `ε + t dε`, `μ + t dμ`, and the system at `t = 0` is regular,
then for solutions `E t` the derivative of the measured value at `t = 0` is `iω (∫ dε E'·E dV - ∫ dμ H'·H dV)`, with `E'`, `H'` the fields that
the probe makes as a current: two solutions give the derivatives with respect to every cell of ε and μ. -/
theorem C103_gradient (ω : ℂ) (hω : ω ≠ 0) (dxes : Dx sh) (hg : GridNz dxes) (eps mu dε dμ : Vec sh) (hmu : ∀ p, mu p ≠ 0)
    (pmc : Option (Pos sh → Bool)) (hreg : IsUnit (eFull ω dxes eps (some mu) none pmc).det) (J J' E' : Vec sh) (E : ℂ → Vec sh)
    (hE : ∀ᶠ t in nhds 0, eFull ω dxes (eps + t • dε) (some (mu + t • dμ)) none pmc *ᵥ E t = (-I * ω) • J)
    (h' : eFull ω dxes eps (some mu) none pmc *ᵥ E' = (-I * ω) • J') :
    let H := Fdfd.e2h ω dxes (some mu) pmc *ᵥ E 0
    let H' := Fdfd.e2h ω dxes (some mu) pmc *ᵥ E'
    HasDerivAt (fun t => probe dxes J' (E t))
      (I * ω * (∑ c, ∑ x, volE dxes.1 dxes.2 c x * (dε (c, x) * (E' (c, x) * E 0 (c, x)))
        - ∑ c, ∑ x, volH dxes.1 dxes.2 c x * (dμ (c, x) * (H' (c, x) * H (c, x))))) 0 := by
  intro H H'
  refine C103_gradient_conductors ω hω dxes hg eps mu dε dμ hmu none pmc (fun v _ hv => ?_) J J' E' E
    (hE.mono fun t ht => ⟨ht, by simp [notMask]⟩) h' (by simp [notMask])
  have := congrArg (fun w => (eFull ω dxes eps (some mu) none pmc)⁻¹ *ᵥ w) hv
  simpa only [mulVec_mulVec, nonsing_inv_mul _ hreg, one_mulVec, mulVec_zero] using this

/-- C103 for the fields returned by `generic` with an exact matrix solver: the probe's reading as a function of the permittivity, without conductors.
The second solve is an ordinary one, with the probe as its current. -/
theorem C103_solver {R : Type} (hasH : Bool) (solve : Mat sh → Vec sh → Opts sh R → Vec sh) (hs : Exact solve) (opts : Opts sh R)
    (P : Problem sh) (hω : P.ω ≠ 0) (hg : GridNz P.dxes) (hadj : P.adjoint = false) (hpec : P.pec = none) (hmu : ∀ p, muV P.mu p ≠ 0)
    (hreg : IsUnit (eFull P.ω P.dxes P.eps P.mu none P.pmc).det) (dε J' : Vec sh) :
    ∃ E E', (generic hasH solve opts P).1 = .ok E ∧ (generic hasH solve opts { P with J := J' }).1 = .ok E' ∧
      ∀ F : ℂ → Vec sh, (∀ t, (generic hasH solve opts { P with eps := P.eps + t • dε }).1 = .ok (F t)) →
        HasDerivAt (fun t => probe P.dxes J' (F t))
          (I * P.ω * ∑ c, ∑ x, volE P.dxes.1 P.dxes.2 c x * (dε (c, x) * (E' (c, x) * E (c, x)))) 0 := by
  have hmu1 : ∀ eps : Vec sh, eFull P.ω P.dxes eps (some (muV P.mu)) none P.pmc = eFull P.ω P.dxes eps P.mu none P.pmc := by
    intro eps; simp only [eFull, muDiv_diag, muV_some]
  have hsolv : ∀ (eps b : Vec sh), IsUnit (eFull P.ω P.dxes eps P.mu none P.pmc).det →
      ∃ E, eFull P.ω P.dxes eps P.mu none P.pmc *ᵥ E = b := fun eps b h =>
    ⟨(eFull P.ω P.dxes eps P.mu none P.pmc)⁻¹ *ᵥ b, by rw [mulVec_mulVec, mul_nonsing_inv _ h, one_mulVec]⟩
  obtain ⟨E, r, e⟩ := C32_solves_partial hasH solve hs opts P hg hadj (by rw [hpec]; exact hsolv _ _ hreg)
  obtain ⟨E', r', e'⟩ := C32_solves_partial hasH solve hs opts { P with J := J' } hg hadj (by rw [hpec]; exact hsolv _ _ hreg)
  rw [hpec] at e e'
  refine ⟨E, E', r, r', fun F hF => ?_⟩
  have hF0 : F 0 = E := by
    have := hF 0
    rw [zero_smul, add_zero] at this
    exact (Except.ok.inj (r.symm.trans this)).symm
  have hdet : ∀ᶠ t : ℂ in nhds 0, IsUnit (eFull P.ω P.dxes (P.eps + t • dε) P.mu none P.pmc).det := by
    have hc : Continuous fun t : ℂ => (eFull P.ω P.dxes (P.eps + t • dε) P.mu none P.pmc).det := by
      refine Continuous.matrix_det ?_
      simp only [eFull, notMask, Matrix.one_mul, Matrix.mul_one]
      have c2 : Continuous fun t : ℂ => (diagonal (P.eps + t • dε) : Mat sh) :=
        Continuous.matrix_diagonal (continuous_const.add (continuous_id.smul continuous_const))
      exact continuous_const.sub ((continuous_const (y := P.ω ^ 2)).smul c2)
    filter_upwards [hc.continuousAt.eventually_ne (x := 0) (by simpa using hreg.ne_zero)] with t ht
    exact isUnit_iff_ne_zero.2 ht
  have := C103_gradient P.ω hω P.dxes hg P.eps (muV P.mu) dε 0 hmu P.pmc (by rw [hmu1]; exact hreg) P.J J' E' F (by
    filter_upwards [hdet] with t ht
    obtain ⟨E2, r2, e2⟩ := C32_solves_partial hasH solve hs opts { P with eps := P.eps + t • dε } hg hadj (by simp only [hpec]; exact hsolv _ _ ht)
    rw [Except.ok.inj ((hF t).symm.trans r2), smul_zero, add_zero, hmu1]
    simp only [hpec] at e2
    exact e2) (by rw [hmu1]; exact e')
  simpa only [Pi.zero_apply, zero_mul, mul_zero, Finset.sum_const_zero, sub_zero, hF0] using this

/-- The hypothesis of a regular system is met by every medium with some loss everywhere (C83). -/
example (ω : ℂ) (d : DxList sh ℝ × DxList sh ℝ) (hd : PosGrid d) (eps : Vec sh) (pmc : Option (Pos sh → Bool)) (hloss : ∀ p, (ω ^ 2 * eps p).im < 0) :
    IsUnit (eFull ω (cDx d) eps none none pmc).det :=
  (Matrix.isUnit_iff_isUnit_det _).1 (Matrix.mulVec_injective_iff_isUnit.1 fun E E' h =>
    funext fun p => C83_unique ω d hd eps none (by simp) none pmc (.inl hloss) E E' h p (by simp))

/-- With electric conductors loss in the open cells leaves no source-free field that vanishes in the conductor. -/
example (ω : ℂ) (d : DxList sh ℝ × DxList sh ℝ) (hd : PosGrid d) (eps : Vec sh) (m : Pos sh → Bool) (pmc : Option (Pos sh → Bool))
    (hloss : ∀ p, (ω ^ 2 * eps p).im < 0) (v : Vec sh) (hv : notMask (some m) *ᵥ v = v) (h : eFull ω (cDx d) eps none (some m) pmc *ᵥ v = 0) : v = 0 := by
  funext p
  by_cases hp : m p = true
  · have := congrFun hv p
    rw [notMask, mulVec_diagonal, hp] at this
    simpa using this.symm
  · exact C83_unique ω d hd eps none (by simp) (some m) pmc (.inl hloss) v 0 (by rw [mulVec_zero]; exact h) p (by simpa using hp)

end Meanas.Props
