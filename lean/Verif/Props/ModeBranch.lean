/-
C173: simple modes of waveguides continue smoothly and uniquely when the frequency and the media change; they carry power, stay real in lossless media and
follow the formulas of first-order perturbation theory.
-/
import Verif.Lemmas.EigenBranch
import Verif.Props.ModeReversal
import Verif.Props.ModeExistence
import Verif.Props.Waveguide2dSens
import Verif.Props.ModeSymmetry
import Verif.Props.BendMedium

namespace Meanas.Props

open Matrix Complex Wg2 Spec Topology

variable {sh : Fin 2 → ℕ}

namespace BranchAux

variable {P : Type*} [NormedAddCommGroup P] [NormedSpace ℝ P] {k : WithTop ℕ∞}

/-- All entries of a family of matrices are `k` times differentiable. -/
def Sm {r s : Type*} (k : WithTop ℕ∞) (A : P → Matrix r s ℂ) (p : P) : Prop := ∀ i j, ContDiffAt ℝ k (fun q => A q i j) p

theorem Sm.const {r s : Type*} (A : Matrix r s ℂ) {p : P} : Sm k (fun _ => A) p := fun _ _ => contDiffAt_const
theorem Sm.add {r s : Type*} {A B : P → Matrix r s ℂ} {p : P} (hA : Sm k A p) (hB : Sm k B p) : Sm k (fun q => A q + B q) p := fun i j => (hA i j).add (hB i j)
theorem Sm.mul {r s t : Type*} [Fintype s] {A : P → Matrix r s ℂ} {B : P → Matrix s t ℂ} {p : P} (hA : Sm k A p) (hB : Sm k B p) : Sm k (fun q => A q * B q) p := by
  intro i j
  simp only [mul_apply]
  exact ContDiffAt.sum fun l _ => (hA i l).mul (hB l j)
theorem Sm.smul {r s : Type*} {c : P → ℂ} {A : P → Matrix r s ℂ} {p : P} (hc : ContDiffAt ℝ k c p) (hA : Sm k A p) : Sm k (fun q => c q • A q) p :=
  fun i j => hc.mul (hA i j)
theorem Sm.diagonal {r : Type*} [DecidableEq r] {d : P → r → ℂ} {p : P} (hd : ∀ i, ContDiffAt ℝ k (fun q => d q i) p) : Sm k (fun q => Matrix.diagonal (d q)) p := by
  intro i j
  by_cases h : i = j
  · subst h; simpa only [diagonal_apply_eq] using hd i
  · simpa only [diagonal_apply_ne _ h] using contDiffAt_const
theorem Sm.diag2 {a b : P → Idx sh → ℂ} {p : P} (ha : ∀ x, ContDiffAt ℝ k (fun q => a q x) p) (hb : ∀ x, ContDiffAt ℝ k (fun q => b q x) p) :
    Sm k (fun q => Wg2.diag2 (a q) (b q)) p := Sm.diagonal fun i => by split_ifs <;> [exact ha _; exact hb _]
theorem Sm.mulVec {r s : Type*} [Fintype s] {A : P → Matrix r s ℂ} {v : P → s → ℂ} {p : P} (hA : Sm k A p) (hv : ContDiffAt ℝ k v p) (i : r) :
    ContDiffAt ℝ k (fun q => (A q *ᵥ v q) i) p :=
  ContDiffAt.sum fun j _ => (hA i j).mul (contDiffAt_pi.1 hv j)

theorem sm_inv {f : P → ℂ} {p : P} (hf : ContDiffAt ℝ k f p) (h0 : f p ≠ 0) : ContDiffAt ℝ k (fun q => 1 / f q) p := by
  simp only [one_div]
  exact hf.inv h0

theorem smooth_operatorE {ω : P → ℂ} {eps mu : P → V 3 sh} {p : P} (dxes : Dx2 sh) (hω : ContDiffAt ℝ k ω p) (he : ContDiffAt ℝ k eps p) (hm : ContDiffAt ℝ k mu p)
    (heps : ∀ i, eps p i ≠ 0) (hmu : ∀ i, mu p i ≠ 0) : Sm k (fun q => operatorE (ω q) dxes (eps q) (some (mu q))) p := by
  have e : ∀ i, ContDiffAt ℝ k (fun q => eps q i) p := contDiffAt_pi.1 he
  have m : ∀ i, ContDiffAt ℝ k (fun q => mu q i) p := contDiffAt_pi.1 hm
  have ei : Sm k (fun q => (Matrix.diagonal fun x => 1 / part (eps q) 2 x : B sh)) p := Sm.diagonal fun x => sm_inv (e (2, x)) (heps _)
  have mi : Sm k (fun q => (Matrix.diagonal fun x => 1 / part (mu q) 2 x : B sh)) p := Sm.diagonal fun x => sm_inv (m (2, x)) (hmu _)
  have exy : Sm k (fun q => Wg2.diag2 (part (eps q) 0) (part (eps q) 1)) p := Sm.diag2 (fun x => e (0, x)) fun x => e (1, x)
  have myx : Sm k (fun q => Wg2.diag2 (part (mu q) 1) (part (mu q) 0)) p := Sm.diag2 (fun x => m (1, x)) fun x => m (0, x)
  simp only [operatorE, Option.getD_some]
  exact ((Sm.smul (hω.mul hω) (myx.mul exy)).add (((myx.mul (Sm.const _)).mul mi).mul (Sm.const _))).add ((((Sm.const _).mul ei).mul (Sm.const _)).mul exy)

theorem smooth_exy2e {b : P → ℂ} {eps : P → V 3 sh} {p : P} (dxes : Dx2 sh) (hb : ContDiffAt ℝ k b p) (he : ContDiffAt ℝ k eps p)
    (hb0 : b p ≠ 0) (heps : ∀ i, eps p i ≠ 0) : Sm k (fun q => exy2e (b q) dxes (eps q)) p := by
  have e : ∀ i, ContDiffAt ℝ k (fun q => eps q i) p := contDiffAt_pi.1 he
  have ei : Sm k (fun q => (Matrix.diagonal fun x => 1 / part (eps q) 2 x : B sh)) p := Sm.diagonal fun x => sm_inv (e (2, x)) (heps _)
  have exy : Sm k (fun q => Wg2.diag2 (part (eps q) 0) (part (eps q) 1)) p := Sm.diag2 (fun x => e (0, x)) fun x => e (1, x)
  have h := (ei.mul (Sm.smul (sm_inv (contDiffAt_const.mul hb) (mul_ne_zero I_ne_zero hb0)) (Sm.const (hstack (OperatorsS.derivBack dxes.2 0) (OperatorsS.derivBack dxes.2 1))))).mul exy
  intro i j
  simp only [exy2e, eyeOver, of_apply]
  split_ifs
  all_goals first | exact contDiffAt_const | exact h _ _

theorem smooth_exy2h {ω b : P → ℂ} {eps mu : P → V 3 sh} {p : P} (dxes : Dx2 sh) (hω : ContDiffAt ℝ k ω p) (hb : ContDiffAt ℝ k b p) (he : ContDiffAt ℝ k eps p)
    (hm : ContDiffAt ℝ k mu p) (hω0 : ω p ≠ 0) (hb0 : b p ≠ 0) (heps : ∀ i, eps p i ≠ 0) (hmu : ∀ i, mu p i ≠ 0) :
    Sm k (fun q => exy2h (b q) (ω q) dxes (eps q) (some (mu q))) p := by
  have m : ∀ i, ContDiffAt ℝ k (fun q => mu q i) p := contDiffAt_pi.1 hm
  have mi : Sm k (fun q => (Matrix.diagonal fun i => 1 / mu q i : M 3 3 sh)) p := Sm.diagonal fun i => sm_inv (m i) (hmu _)
  have hc : Sm k (fun q => curlE (b q) dxes) p := by
    rintro ⟨c, x⟩ ⟨c', y⟩
    have hz : ContDiffAt ℝ k (fun q => ((-I * b q) • (1 : B sh)) x y) p := (contDiffAt_const.mul hb).mul contDiffAt_const
    have hk : ∀ z : ℂ, ContDiffAt ℝ k (fun _ : P => z) p := fun z => contDiffAt_const
    fin_cases c <;> fin_cases c'
    all_goals first | exact hz | exact hz.neg | exact hk 0 | exact hk (OperatorsS.derivForward dxes.1 0 x y) | exact hk (OperatorsS.derivForward dxes.1 1 x y) | exact hk (-OperatorsS.derivForward dxes.1 0 x y) | exact hk (-OperatorsS.derivForward dxes.1 1 x y)
  exact (mi.mul (Sm.smul (sm_inv (contDiffAt_const.mul hω) (mul_ne_zero (neg_ne_zero.2 I_ne_zero) hω0)) hc)).mul (smooth_exy2e dxes hb he hb0 heps)

theorem smooth_eps {q : ℂ × V 3 sh × V 3 sh} : ContDiffAt ℝ k (fun q : ℂ × V 3 sh × V 3 sh => q.2.1) q := contDiffAt_fst.comp q contDiffAt_snd
theorem smooth_mu {q : ℂ × V 3 sh × V 3 sh} : ContDiffAt ℝ k (fun q : ℂ × V 3 sh × V 3 sh => q.2.2) q := contDiffAt_snd.comp q contDiffAt_snd
theorem smooth_om {q : ℂ × V 3 sh × V 3 sh} : ContDiffAt ℝ k (fun q : ℂ × V 3 sh × V 3 sh => q.1) q := contDiffAt_fst

theorem near_eps {q₀ : ℂ × V 3 sh × V 3 sh} (h : ∀ p, q₀.2.1 p ≠ 0) : ∀ᶠ q : ℂ × V 3 sh × V 3 sh in 𝓝 q₀, ∀ p, q.2.1 p ≠ 0 :=
  Filter.eventually_all.2 fun p => ContinuousAt.eventually_ne (contDiffAt_pi.1 (smooth_eps (k := 1)) p).continuousAt (h p)
theorem near_mu {q₀ : ℂ × V 3 sh × V 3 sh} (h : ∀ p, q₀.2.2 p ≠ 0) : ∀ᶠ q : ℂ × V 3 sh × V 3 sh in 𝓝 q₀, ∀ p, q.2.2 p ≠ 0 :=
  Filter.eventually_all.2 fun p => ContinuousAt.eventually_ne (contDiffAt_pi.1 (smooth_mu (k := 1)) p).continuousAt (h p)

/-- Two modes, the second one of a lossless waveguide at a real frequency. -/
theorem pair_lossless {β₁ ω₁ : ℂ} {β₂ ω₂ : ℝ} {dE dH : DxList sh ℝ} (hE : Nonzero dE) (hH : Nonzero dH) {eps₁ mu₁ eps mu E₁ H₁ E₂ H₂ : Fin 3 → Arr sh ℂ}
    (m₁ : IsMode β₁ ω₁ (cw dE) (cw dH) eps₁ mu₁ E₁ H₁) (m₂ : IsMode β₂ ω₂ (cw dE) (cw dH) eps mu E₂ H₂)
    (heps : ∀ c x, (eps c x).im = 0) (hmu : ∀ c x, (mu c x).im = 0) :
    (β₁ - β₂) * (modePower dE dH E₁ H₂ + areaOverlap (cw dE) (cw dH) (fun c x => (starRingEnd ℂ) (E₂ c x)) H₁)
      = ∑ c, ∑ x, ((ω₁ * eps₁ c x - ω₂ * eps c x) * ((areaE dE dH c x : ℂ) * (E₁ c x * (starRingEnd ℂ) (E₂ c x)))
        + (ω₁ * mu₁ c x - ω₂ * mu c x) * ((areaH dE dH c x : ℂ) * (H₁ c x * (starRingEnd ℂ) (H₂ c x)))) := by
  have hc := conj_isMode m₂
  simp only [conj_eq_iff_im.2 (heps _ _), conj_eq_iff_im.2 (hmu _ _), conj_ofReal] at hc
  have h1 := lorentz hE hH m₁ hc
  have h2 := lorentz hE hH hc m₁
  have e1 : areaOverlap (cw dE) (cw dH) E₁ (fun c x => -(starRingEnd ℂ) (H₂ c x)) = -modePower dE dH E₁ H₂ := by
    rw [areaOverlap, modePower, ← Finset.sum_neg_distrib]
    refine Finset.sum_congr rfl fun x _ => ?_
    rw [volE_0, volE_1, areaE_0, areaE_1]; simp only [cw]; push_cast; ring
  rw [e1] at h1
  have hsum : ∑ c, ∑ x, ((ω₁ * eps₁ c x - ω₂ * eps c x) * ((areaE dE dH c x : ℂ) * (E₁ c x * (starRingEnd ℂ) (E₂ c x)))
        + (ω₁ * mu₁ c x - ω₂ * mu c x) * ((areaH dE dH c x : ℂ) * (H₁ c x * (starRingEnd ℂ) (H₂ c x))))
      = (ω₂ * (∑ c, ∑ x, (areaH dE dH c x : ℂ) * (mu c x * -(starRingEnd ℂ) (H₂ c x) * H₁ c x))
          + ω₁ * ∑ c, ∑ x, (areaE dE dH c x : ℂ) * (eps₁ c x * (starRingEnd ℂ) (E₂ c x) * E₁ c x))
        - (ω₁ * (∑ c, ∑ x, (areaH dE dH c x : ℂ) * (mu₁ c x * H₁ c x * -(starRingEnd ℂ) (H₂ c x)))
          + ω₂ * ∑ c, ∑ x, (areaE dE dH c x : ℂ) * (eps c x * E₁ c x * (starRingEnd ℂ) (E₂ c x))) := by
    simp only [Finset.mul_sum, ← Finset.sum_add_distrib, ← Finset.sum_sub_distrib]
    exact Finset.sum_congr rfl fun c _ => Finset.sum_congr rfl fun x _ => by ring
  rw [hsum]
  linear_combination h2 - h1

end BranchAux

open BranchAux

/-- A branch of modes through the mode `(β₀, v₀)` of the waveguide `q₀ = (ω₀, ε₀, μ₀)`: wavenumber and transverse field are analytic functions of frequency and media, and no
other mode is near. -/
structure ModeBranch (dxes : Dx2 sh) (q₀ : ℂ × V 3 sh × V 3 sh) (β₀ : ℂ) (v₀ : V 2 sh) (β : ℂ × V 3 sh × V 3 sh → ℂ) (v : ℂ × V 3 sh × V 3 sh → V 2 sh) : Prop where
  /-- the wavenumber is analytic -/
  analytic : ContDiffAt ℝ ⊤ β q₀
  /-- so is the field -/
  field_analytic : ContDiffAt ℝ ⊤ v q₀
  /-- the branch passes through the given mode -/
  start : β q₀ = β₀
  /-- with the given field -/
  field_start : v q₀ = v₀
  /-- and consists of modes -/
  mode : ∀ᶠ q in 𝓝 q₀, operatorE q.1 dxes q.2.1 (some q.2.2) *ᵥ v q = β q ^ 2 • v q
  /-- every mode of a nearby waveguide with a nearby wavenumber is on it -/
  unique : ∀ᶠ r : (ℂ × V 3 sh × V 3 sh) × ℂ in 𝓝 (q₀, β₀), ∀ u : V 2 sh, u ≠ 0 →
    operatorE r.1.1 dxes r.1.2.1 (some r.1.2.2) *ᵥ u = r.2 ^ 2 • u → r.2 = β r.1 ∧ ∃ c : ℂ, u = c • v r.1

/-- **C173.** Continuation of a simple mode. If `β₀² ≠ 0` is a simple root of the characteristic polynomial of `operator_e`, then for all nearby frequencies and media
there is exactly one mode near it, and its wavenumber and transverse field are analytic functions of the frequency and of all entries of `epsilon` and `mu`. -/
theorem C173_branch (dxes : Dx2 sh) {ω₀ : ℂ} {eps₀ mu₀ : V 3 sh} (heps : ∀ p, eps₀ p ≠ 0) (hmu : ∀ p, mu₀ p ≠ 0) {β₀ : ℂ} (hβ : β₀ ≠ 0) {v₀ : V 2 sh} (hv : v₀ ≠ 0)
    (he : operatorE ω₀ dxes eps₀ (some mu₀) *ᵥ v₀ = β₀ ^ 2 • v₀) (hs : (operatorE ω₀ dxes eps₀ (some mu₀)).charpoly.rootMultiplicity (β₀ ^ 2) = 1) :
    ∃ β v, ModeBranch dxes (ω₀, eps₀, mu₀) β₀ v₀ β v := by
  have hsm := smooth_operatorE (k := ⊤) (P := ℂ × V 3 sh × V 3 sh) (p := (ω₀, eps₀, mu₀)) dxes smooth_om smooth_eps smooth_mu heps hmu
  obtain ⟨β, v, h1, h2, h3, h4, h5, h6⟩ := Branch.exists_branch (by simp) hsm hβ hv he hs
  exact ⟨β, v, h1, h2, h3, h4, h5, h6⟩

/-- **C173.** In lossless media the wavenumber of such a branch stays real: a simple propagating mode cannot become a decaying one without first meeting another mode. -/
theorem C173_real {dE dH : DxList sh ℝ} {ω₀ β₀ : ℝ} (hω : ω₀ ≠ 0) (hβ : β₀ ≠ 0) {eps₀ mu₀ : V 3 sh} (heps : ∀ p, eps₀ p ≠ 0) (hmu : ∀ p, mu₀ p ≠ 0) {v₀ : V 2 sh} (hv : v₀ ≠ 0)
    {β : ℂ × V 3 sh × V 3 sh → ℂ} {v : ℂ × V 3 sh × V 3 sh → V 2 sh} (B : ModeBranch (cw dE, cw dH) ((ω₀ : ℂ), eps₀, mu₀) β₀ v₀ β v) :
    ∀ᶠ q in 𝓝 ((ω₀ : ℂ), eps₀, mu₀), q.1.im = 0 → (∀ p, (q.2.1 p).im = 0) → (∀ p, (q.2.2 p).im = 0) → (β q).im = 0 := by
  have cb := B.analytic.continuousAt
  have cv := B.field_analytic.continuousAt
  have hconj : Filter.Tendsto (fun q => (q, (starRingEnd ℂ) (β q))) (𝓝 ((ω₀ : ℂ), eps₀, mu₀)) (𝓝 (((ω₀ : ℂ), eps₀, mu₀), (β₀ : ℂ))) := by
    have : (starRingEnd ℂ) (β ((ω₀ : ℂ), eps₀, mu₀)) = β₀ := by rw [B.start, conj_ofReal]
    rw [← this]
    exact (continuousAt_id.prodMk (continuous_conj.continuousAt.comp cb)).tendsto
  have ne1 : ∀ᶠ q in 𝓝 ((ω₀ : ℂ), eps₀, mu₀), β q ≠ 0 := cb.eventually_ne (by rw [B.start]; exact ofReal_ne_zero.2 hβ)
  have ne2 : ∀ᶠ q in 𝓝 ((ω₀ : ℂ), eps₀, mu₀), v q ≠ 0 := cv.eventually_ne (by rw [B.field_start]; exact hv)
  have ne3 : ∀ᶠ q : ℂ × V 3 sh × V 3 sh in 𝓝 ((ω₀ : ℂ), eps₀, mu₀), q.1 ≠ 0 := continuousAt_fst.eventually_ne (ofReal_ne_zero.2 hω)
  have ne4 : ∀ᶠ q : ℂ × V 3 sh × V 3 sh in 𝓝 ((ω₀ : ℂ), eps₀, mu₀), ∀ p, q.2.1 p ≠ 0 := near_eps heps
  have ne5 : ∀ᶠ q : ℂ × V 3 sh × V 3 sh in 𝓝 ((ω₀ : ℂ), eps₀, mu₀), ∀ p, q.2.2 p ≠ 0 := near_mu hmu
  filter_upwards [B.mode, hconj.eventually B.unique, ne1, ne2, ne3, ne4, ne5] with q hm hu h1 h2 h3 h4 h5 r1 r2 r3
  have hq : ((q.1.re : ℝ) : ℂ) = q.1 := Complex.ext (by simp) (by simp [r1])
  have ht := (C102_time_reversal (β := β q) (ω := q.1.re) h1 (fun h => h3 (by rw [← hq, h, ofReal_zero])) dE dH q.2.1 (some q.2.2) h4 r2 h5 r3 (v q) (by rw [hq]; exact hm)).1
  rw [hq] at ht
  have hcv : conjV (v q) ≠ 0 := fun h => h2 (funext fun p => (map_eq_zero (starRingEnd ℂ)).1 (congrFun h p))
  exact conj_eq_iff_im.1 (hu _ hcv ht).1

/-- The derivative of the wavenumber along a branch, before dividing by the power. -/
theorem branch_derivative {dE dH : DxList sh ℝ} (hE : Nonzero dE) (hH : Nonzero dH) {ω₀ β₀ : ℝ} (hω : ω₀ ≠ 0) (hβ : β₀ ≠ 0) {eps₀ mu₀ : V 3 sh}
    (heps : ∀ p, eps₀ p ≠ 0) (hepsr : ∀ p, (eps₀ p).im = 0) (hmu : ∀ p, mu₀ p ≠ 0) (hmur : ∀ p, (mu₀ p).im = 0) {v₀ : V 2 sh}
    {β : ℂ × V 3 sh × V 3 sh → ℂ} {v : ℂ × V 3 sh × V 3 sh → V 2 sh} (B : ModeBranch (cw dE, cw dH) ((ω₀ : ℂ), eps₀, mu₀) β₀ v₀ β v) (δω : ℂ) (δε δμ : V 3 sh) :
    let E := fld (exy2e β₀ (cw dE, cw dH) eps₀ *ᵥ v₀)
    let H := fld (exy2h β₀ ω₀ (cw dE, cw dH) eps₀ (some mu₀) *ᵥ v₀)
    fderiv ℝ β ((ω₀ : ℂ), eps₀, mu₀) (δω, δε, δμ) * ((2 * (modePower dE dH E H).re : ℝ) : ℂ)
      = ∑ c, ∑ x, ((δω * eps₀ (c, x) + ω₀ * δε (c, x)) * ((areaE dE dH c x * normSq (E c x) : ℝ) : ℂ)
        + (δω * mu₀ (c, x) + ω₀ * δμ (c, x)) * ((areaH dE dH c x * normSq (H c x) : ℝ) : ℂ)) := by
  intro E H
  obtain ⟨q₀, hq₀⟩ : ∃ q₀ : ℂ × V 3 sh × V 3 sh, q₀ = ((ω₀ : ℂ), eps₀, mu₀) := ⟨_, rfl⟩
  obtain ⟨δ, hδ⟩ : ∃ δ : ℂ × V 3 sh × V 3 sh, δ = (δω, δε, δμ) := ⟨_, rfl⟩
  rw [← hq₀] at B
  rw [← hq₀, ← hδ]
  have q1 : q₀.1 = ω₀ := by rw [hq₀]
  have q2 : q₀.2.1 = eps₀ := by rw [hq₀]
  have q3 : q₀.2.2 = mu₀ := by rw [hq₀]
  set L : ℝ → ℂ × V 3 sh × V 3 sh := fun t => q₀ + t • δ with hL
  have L0 : L 0 = q₀ := by simp [hL]
  have hLd : HasDerivAt L δ 0 := by
    have := ((hasDerivAt_id (0 : ℝ)).smul_const δ).const_add q₀
    rwa [one_smul] at this
  have hLc : ContinuousAt L 0 := hLd.continuousAt
  have hbd : HasDerivAt (fun t => β (L t) - β₀) (fderiv ℝ β q₀ δ) 0 := by
    have h := (B.analytic.differentiableAt (by simp)).hasFDerivAt
    rw [← L0] at h
    have := (h.comp_hasDerivAt (0 : ℝ) hLd).sub_const (β₀ : ℂ)
    rw [L0] at this
    exact this
  -- fields along the line
  set Et : ℝ → Fin 3 → Arr sh ℂ := fun t => fld (exy2e (β (L t)) (cw dE, cw dH) (L t).2.1 *ᵥ v (L t)) with hEt
  set Ht : ℝ → Fin 3 → Arr sh ℂ := fun t => fld (exy2h (β (L t)) (L t).1 (cw dE, cw dH) (L t).2.1 (some (L t).2.2) *ᵥ v (L t)) with hHt
  have Et0 : Et 0 = E := by simp only [hEt, L0, B.start, B.field_start, q2]; rfl
  have Ht0 : Ht 0 = H := by simp only [hHt, L0, B.start, B.field_start, q1, q2, q3]; rfl
  have hb0 : β q₀ ≠ 0 := by rw [B.start]; exact ofReal_ne_zero.2 hβ
  have cE : ∀ c x, ContinuousAt (fun t => Et t c x) 0 := fun c x => by
    have h := (Sm.mulVec (smooth_exy2e (cw dE, cw dH) B.analytic smooth_eps hb0 (by rw [q2]; exact heps)) B.field_analytic (c, x)).continuousAt
    rw [← L0] at h
    exact h.comp hLc
  have cH : ∀ c x, ContinuousAt (fun t => Ht t c x) 0 := fun c x => by
    have h := (Sm.mulVec (smooth_exy2h (cw dE, cw dH) smooth_om B.analytic smooth_eps smooth_mu (by rw [q1]; exact ofReal_ne_zero.2 hω) hb0 (by rw [q2]; exact heps)
      (by rw [q3]; exact hmu)) B.field_analytic (c, x)).continuousAt
    rw [← L0] at h
    exact h.comp hLc
  have m₀ : IsMode (β₀ : ℂ) (ω₀ : ℂ) (cw dE) (cw dH) (fld eps₀) (fld mu₀) E H := by
    have h := B.mode.self_of_nhds
    rw [B.start, B.field_start, q1, q2, q3] at h
    exact C39_is_mode β₀ ω₀ (ofReal_ne_zero.2 hβ) (ofReal_ne_zero.2 hω) (cw dE, cw dH) eps₀ (some mu₀) heps hmu v₀ h
  set N : ℝ → ℂ := fun t => modePower dE dH (Et t) H + areaOverlap (cw dE) (cw dH) (fun c x => (starRingEnd ℂ) (E c x)) (Ht t) with hN
  have N0 : N 0 = ((2 * (modePower dE dH E H).re : ℝ) : ℂ) := by rw [hN]; simp only [Et0, Ht0]; exact power_self _ _ _ _
  have hNc : ContinuousAt N 0 := by
    refine ContinuousAt.add ?_ ?_
    · unfold modePower
      refine tendsto_finsetSum _ fun x _ => ?_
      exact ((cE 0 x).mul continuousAt_const |>.const_mul _).sub ((cE 1 x).mul continuousAt_const |>.const_mul _)
    · unfold areaOverlap
      refine tendsto_finsetSum _ fun x _ => ?_
      exact ((continuousAt_const.mul (cH 1 x)).const_mul _).sub ((continuousAt_const.mul (cH 0 x)).const_mul _)
  have lhs : HasDerivAt (fun t => (β (L t) - β₀) * N t) (fderiv ℝ β q₀ δ * N 0) 0 := hasDerivAt_mul_of_zero hbd (by rw [L0, B.start, sub_self]) hNc
  have d1 : HasDerivAt (fun t => (L t).1) δω 0 := by
    have : (fun t => (L t).1) = fun t : ℝ => (ω₀ : ℂ) + t • δω := by funext t; simp [hL, hq₀, hδ]
    rw [this]; simpa using ((hasDerivAt_id (0 : ℝ)).smul_const δω).const_add (ω₀ : ℂ)
  have d2 : ∀ p, HasDerivAt (fun t => (L t).2.1 p) (δε p) 0 := fun p => by
    have : (fun t => (L t).2.1 p) = fun t : ℝ => eps₀ p + t • δε p := by funext t; simp [hL, hq₀, hδ]
    rw [this]; simpa using ((hasDerivAt_id (0 : ℝ)).smul_const (δε p)).const_add (eps₀ p)
  have d3 : ∀ p, HasDerivAt (fun t => (L t).2.2 p) (δμ p) 0 := fun p => by
    have : (fun t => (L t).2.2 p) = fun t : ℝ => mu₀ p + t • δμ p := by funext t; simp [hL, hq₀, hδ]
    rw [this]; simpa using ((hasDerivAt_id (0 : ℝ)).smul_const (δμ p)).const_add (mu₀ p)
  have de : ∀ p, HasDerivAt (fun t => (L t).1 * (L t).2.1 p - ω₀ * eps₀ p) (δω * eps₀ p + ω₀ * δε p) 0 := fun p => by
    have := (d1.fun_mul (d2 p)).sub_const (ω₀ * eps₀ p)
    simpa only [L0, q1, q2] using this
  have dm : ∀ p, HasDerivAt (fun t => (L t).1 * (L t).2.2 p - ω₀ * mu₀ p) (δω * mu₀ p + ω₀ * δμ p) 0 := fun p => by
    have := (d1.fun_mul (d3 p)).sub_const (ω₀ * mu₀ p)
    simpa only [L0, q1, q3] using this
  have rhs : HasDerivAt (fun t => ∑ c, ∑ x, (((L t).1 * (L t).2.1 (c, x) - ω₀ * eps₀ (c, x)) * ((areaE dE dH c x : ℂ) * (Et t c x * (starRingEnd ℂ) (E c x)))
        + ((L t).1 * (L t).2.2 (c, x) - ω₀ * mu₀ (c, x)) * ((areaH dE dH c x : ℂ) * (Ht t c x * (starRingEnd ℂ) (H c x)))))
      (∑ c, ∑ x, ((δω * eps₀ (c, x) + ω₀ * δε (c, x)) * ((areaE dE dH c x : ℂ) * (Et 0 c x * (starRingEnd ℂ) (E c x)))
        + (δω * mu₀ (c, x) + ω₀ * δμ (c, x)) * ((areaH dE dH c x : ℂ) * (Ht 0 c x * (starRingEnd ℂ) (H c x))))) 0 := by
    refine HasDerivAt.fun_sum fun c _ => HasDerivAt.fun_sum fun x _ => HasDerivAt.fun_add ?_ ?_
    · exact hasDerivAt_mul_of_zero (de _) (by rw [L0, q1, q2, sub_self]) (((cE c x).mul continuousAt_const).const_mul _)
    · exact hasDerivAt_mul_of_zero (dm _) (by rw [L0, q1, q3, sub_self]) (((cH c x).mul continuousAt_const).const_mul _)
  have hLt : Filter.Tendsto L (𝓝 0) (𝓝 q₀) := by rw [← L0]; exact hLc
  have heq : (fun t => (β (L t) - β₀) * N t) =ᶠ[𝓝 0] fun t => ∑ c, ∑ x, (((L t).1 * (L t).2.1 (c, x) - ω₀ * eps₀ (c, x)) * ((areaE dE dH c x : ℂ) * (Et t c x * (starRingEnd ℂ) (E c x)))
        + ((L t).1 * (L t).2.2 (c, x) - ω₀ * mu₀ (c, x)) * ((areaH dE dH c x : ℂ) * (Ht t c x * (starRingEnd ℂ) (H c x)))) := by
    have ne1 : ∀ᶠ q in 𝓝 q₀, β q ≠ 0 := B.analytic.continuousAt.eventually_ne hb0
    have ne3 : ∀ᶠ q : ℂ × V 3 sh × V 3 sh in 𝓝 q₀, q.1 ≠ 0 := continuousAt_fst.eventually_ne (by rw [q1]; exact ofReal_ne_zero.2 hω)
    have ne4 : ∀ᶠ q : ℂ × V 3 sh × V 3 sh in 𝓝 q₀, ∀ p, q.2.1 p ≠ 0 := near_eps (by rw [q2]; exact heps)
    have ne5 : ∀ᶠ q : ℂ × V 3 sh × V 3 sh in 𝓝 q₀, ∀ p, q.2.2 p ≠ 0 := near_mu (by rw [q3]; exact hmu)
    filter_upwards [hLt.eventually B.mode, hLt.eventually ne1, hLt.eventually ne3, hLt.eventually ne4, hLt.eventually ne5] with t h0 h1 h3 h4 h5
    exact pair_lossless hE hH (C39_is_mode _ _ h1 h3 (cw dE, cw dH) _ (some _) h4 h5 _ h0) m₀ (fun c x => hepsr (c, x)) (fun c x => hmur (c, x))
  have := (lhs.congr_of_eventuallyEq heq.symm).unique rhs
  rw [N0] at this
  rw [this, Et0, Ht0]
  refine Finset.sum_congr rfl fun c _ => Finset.sum_congr rfl fun x _ => ?_
  rw [mul_conj, mul_conj]
  push_cast
  ring

/-- **C173.** A simple mode of a lossless waveguide with a real wavenumber always carries power. -/
theorem C173_power {dE dH : DxList sh ℝ} (hE : ∀ a i, 0 < dE a i) (hH : ∀ a i, 0 < dH a i) {ω₀ β₀ : ℝ} (hω : ω₀ ≠ 0) (hβ : β₀ ≠ 0) {eps mu : V 3 sh}
    (heps : Lossless eps) (hmu : Lossless mu) {v : V 2 sh} (hv : v ≠ 0) (he : operatorE ω₀ (cw dE, cw dH) eps (some mu) *ᵥ v = (β₀ : ℂ) ^ 2 • v)
    (hs : (operatorE ω₀ (cw dE, cw dH) eps (some mu)).charpoly.rootMultiplicity ((β₀ : ℂ) ^ 2) = 1) :
    (modePower dE dH (fld (exy2e β₀ (cw dE, cw dH) eps *ᵥ v)) (fld (exy2h β₀ ω₀ (cw dE, cw dH) eps (some mu) *ᵥ v))).re ≠ 0 := by
  obtain ⟨β, w, B⟩ := C173_branch (cw dE, cw dH) heps.ne hmu.ne (ofReal_ne_zero.2 hβ) hv he hs
  have h := branch_derivative (fun a i => (hE a i).ne') (fun a i => (hH a i).ne') hω hβ heps.ne (fun p => (heps p).1) hmu.ne (fun p => (hmu p).1) B 1 0 0
  simp only at h
  intro h0
  set E := fld (exy2e β₀ (cw dE, cw dH) eps *ᵥ v) with hEd
  set H := fld (exy2h β₀ ω₀ (cw dE, cw dH) eps (some mu) *ᵥ v) with hHd
  rw [h0, mul_zero, ofReal_zero, mul_zero] at h
  have aE : ∀ c x, 0 < areaE dE dH c x := fun c x => Finset.prod_pos fun a _ => by split <;> simp [hE, hH]
  have aH : ∀ c x, 0 < areaH dE dH c x := fun c x => Finset.prod_pos fun a _ => by split <;> simp [hE, hH]
  have hr : (0 : ℝ) = ∑ c, ∑ x, ((eps (c, x)).re * (areaE dE dH c x * normSq (E c x)) + (mu (c, x)).re * (areaH dE dH c x * normSq (H c x))) := by
    have := congrArg re h
    simp only [re_sum, zero_re, Pi.zero_apply, mul_zero, add_zero, one_mul, add_re, re_mul_ofReal] at this
    exact this
  have t1 : ∀ c x, 0 ≤ (eps (c, x)).re * (areaE dE dH c x * normSq (E c x)) := fun c x => mul_nonneg (heps _).2.le (mul_nonneg (aE c x).le (normSq_nonneg _))
  have t2 : ∀ c x, 0 ≤ (mu (c, x)).re * (areaH dE dH c x * normSq (H c x)) := fun c x => mul_nonneg (hmu _).2.le (mul_nonneg (aH c x).le (normSq_nonneg _))
  obtain ⟨⟨c, x⟩, hcx⟩ : ∃ p, v p ≠ 0 := by by_contra hc; push Not at hc; exact hv (funext hc)
  have hne : E c.castSucc x ≠ 0 := by
    have : E c.castSucc x = v (c, x) := by
      match c with
      | 0 => exact exy2e_0 _ _ _ v x
      | 1 => exact exy2e_1 _ _ _ v x
    rw [this]; exact hcx
  have : 0 < ∑ c, ∑ x, ((eps (c, x)).re * (areaE dE dH c x * normSq (E c x)) + (mu (c, x)).re * (areaH dE dH c x * normSq (H c x))) := by
    refine Finset.sum_pos' (fun c _ => Finset.sum_nonneg fun x _ => add_nonneg (t1 c x) (t2 c x)) ⟨c.castSucc, Finset.mem_univ _, ?_⟩
    refine Finset.sum_pos' (fun x _ => add_nonneg (t1 _ x) (t2 _ x)) ⟨x, Finset.mem_univ _, ?_⟩
    exact add_pos_of_pos_of_nonneg (mul_pos (heps _).2 (mul_pos (aE _ x) (normSq_pos.2 hne))) (t2 _ x)
  exact absurd hr this.ne

/-- **C173.** First-order perturbation theory, exact for the grid: the derivative of the wavenumber of a simple mode of a lossless waveguide under any change
`(δω, δε, δμ)` of frequency and media, also lossy ones. -/
theorem C173_derivative {dE dH : DxList sh ℝ} (hE : ∀ a i, 0 < dE a i) (hH : ∀ a i, 0 < dH a i) {ω₀ β₀ : ℝ} (hω : ω₀ ≠ 0) (hβ : β₀ ≠ 0) {eps mu : V 3 sh}
    (heps : Lossless eps) (hmu : Lossless mu) {v₀ : V 2 sh} (hv : v₀ ≠ 0) (he : operatorE ω₀ (cw dE, cw dH) eps (some mu) *ᵥ v₀ = (β₀ : ℂ) ^ 2 • v₀)
    (hs : (operatorE ω₀ (cw dE, cw dH) eps (some mu)).charpoly.rootMultiplicity ((β₀ : ℂ) ^ 2) = 1) :
    ∃ (β : ℂ × V 3 sh × V 3 sh → ℂ) (v : ℂ × V 3 sh × V 3 sh → V 2 sh) (L : ℂ × V 3 sh × V 3 sh →L[ℝ] ℂ),
      ModeBranch (cw dE, cw dH) ((ω₀ : ℂ), eps, mu) β₀ v₀ β v ∧ HasFDerivAt β L ((ω₀ : ℂ), eps, mu) ∧
      let E := fld (exy2e β₀ (cw dE, cw dH) eps *ᵥ v₀)
      let H := fld (exy2h β₀ ω₀ (cw dE, cw dH) eps (some mu) *ᵥ v₀)
      ∀ (δω : ℂ) (δε δμ : V 3 sh), L (δω, δε, δμ)
        = (∑ c, ∑ x, ((areaE dE dH c x * normSq (E c x) : ℝ) * (δω * eps (c, x) + ω₀ * δε (c, x))
          + (areaH dE dH c x * normSq (H c x) : ℝ) * (δω * mu (c, x) + ω₀ * δμ (c, x)))) / (2 * (modePower dE dH E H).re : ℝ) := by
  obtain ⟨β, v, B⟩ := C173_branch (cw dE, cw dH) heps.ne hmu.ne (ofReal_ne_zero.2 hβ) hv he hs
  refine ⟨β, v, _, B, (B.analytic.differentiableAt (by simp)).hasFDerivAt, ?_⟩
  intro E H δω δε δμ
  have h := branch_derivative (fun a i => (hE a i).ne') (fun a i => (hH a i).ne') hω hβ heps.ne (fun p => (heps p).1) hmu.ne (fun p => (hmu p).1) B δω δε δμ
  have hP := C173_power hE hH hω hβ heps hmu hv he hs
  rw [eq_div_iff (ofReal_ne_zero.2 (mul_ne_zero two_ne_zero hP))]
  refine h.trans (Finset.sum_congr rfl fun c _ => Finset.sum_congr rfl fun x _ => ?_)
  ring

namespace BranchAux

theorem exy2h_some (β ω : ℂ) (dxes : Dx2 sh) (eps : V 3 sh) (mu : Option (V 3 sh)) : exy2h β ω dxes eps (some (mu.getD 1)) = exy2h β ω dxes eps mu := by
  cases mu with
  | none =>
    have : (diagonal fun p : Fin 3 × Idx sh => (1 : ℂ) / (1 : V 3 sh) p) = 1 := by
      rw [← diagonal_one]; congr 1; funext p; simp
    simp only [exy2h, e2h, Option.getD_none, this, Matrix.one_mul]
  | some m => rfl

end BranchAux

/-- **C173.** Group velocity of a simple mode: the wavenumber is an analytic function of the frequency, stays real, and `dβ/dω` is the energy over twice the power, which is not
zero. No assumption on the branch is left (compare C97). -/
theorem C173_group {dE dH : DxList sh ℝ} (hE : ∀ a i, 0 < dE a i) (hH : ∀ a i, 0 < dH a i) {ω₀ β₀ : ℝ} (hω : ω₀ ≠ 0) (hβ : β₀ ≠ 0) {eps : V 3 sh} {mu : Option (V 3 sh)}
    (heps : Lossless eps) (hmu : Lossless (mu.getD 1)) {v₀ : V 2 sh} (hv : v₀ ≠ 0) (he : operatorE ω₀ (cw dE, cw dH) eps mu *ᵥ v₀ = (β₀ : ℂ) ^ 2 • v₀)
    (hs : (operatorE ω₀ (cw dE, cw dH) eps mu).charpoly.rootMultiplicity ((β₀ : ℂ) ^ 2) = 1) :
    let E := fld (exy2e β₀ (cw dE, cw dH) eps *ᵥ v₀)
    let H := fld (exy2h β₀ ω₀ (cw dE, cw dH) eps mu *ᵥ v₀)
    (modePower dE dH E H).re ≠ 0 ∧ ∃ (β : ℝ → ℂ) (v : ℝ → V 2 sh), ContDiffAt ℝ ⊤ β ω₀ ∧ ContDiffAt ℝ ⊤ v ω₀ ∧ β ω₀ = β₀ ∧ v ω₀ = v₀ ∧
      (∀ᶠ ω : ℝ in 𝓝 ω₀, operatorE ω (cw dE, cw dH) eps mu *ᵥ v ω = β ω ^ 2 • v ω ∧ (β ω).im = 0) ∧
      HasDerivAt β (((∑ c, ∑ x, (areaE dE dH c x * normSq (E c x) * (eps (c, x)).re + areaH dE dH c x * normSq (H c x) * (mu.getD 1 (c, x)).re))
        / (2 * (modePower dE dH E H).re) : ℝ) : ℂ) ω₀ := by
  intro E H
  have hop : ∀ ω : ℂ, operatorE ω (cw dE, cw dH) eps (some (mu.getD 1)) = operatorE ω (cw dE, cw dH) eps mu := fun ω => rfl
  have hH' : H = fld (exy2h β₀ ω₀ (cw dE, cw dH) eps (some (mu.getD 1)) *ᵥ v₀) := by rw [exy2h_some]
  obtain ⟨β, v, B⟩ := C173_branch (cw dE, cw dH) heps.ne hmu.ne (ofReal_ne_zero.2 hβ) hv (by rw [hop]; exact he) (by rw [hop]; exact hs)
  have hP : (modePower dE dH E H).re ≠ 0 := by
    rw [hH']
    exact C173_power hE hH hω hβ heps hmu hv (by rw [hop]; exact he) (by rw [hop]; exact hs)
  have hline : ContDiffAt ℝ ⊤ (fun ω : ℝ => ((ω : ℂ), eps, mu.getD 1)) ω₀ := (ofRealCLM.contDiff.contDiffAt).prodMk contDiffAt_const
  have cβ : ContDiffAt ℝ ⊤ (fun ω : ℝ => β ((ω : ℂ), eps, mu.getD 1)) ω₀ := ContDiffAt.comp ω₀ B.analytic hline
  have cv : ContDiffAt ℝ ⊤ (fun ω : ℝ => v ((ω : ℂ), eps, mu.getD 1)) ω₀ := ContDiffAt.comp ω₀ B.field_analytic hline
  have hmode : ∀ᶠ ω : ℝ in 𝓝 ω₀, operatorE ω (cw dE, cw dH) eps mu *ᵥ v ((ω : ℂ), eps, mu.getD 1) = β ((ω : ℂ), eps, mu.getD 1) ^ 2 • v ((ω : ℂ), eps, mu.getD 1) :=
    hline.continuousAt.eventually B.mode
  have hreal := hline.continuousAt.eventually (C173_real hω hβ heps.ne hmu.ne hv B)
  refine ⟨hP, fun ω => β ((ω : ℂ), eps, mu.getD 1), fun ω => v ((ω : ℂ), eps, mu.getD 1), cβ, cv, B.start, B.field_start, ?_, ?_⟩
  · filter_upwards [hmode, hreal] with ω h1 h2
    exact ⟨h1, h2 (ofReal_im ω) (fun p => (heps p).1) fun p => (hmu p).1⟩
  · have h := C97_group_velocity hω (fun a i => (hE a i).ne') (fun a i => (hH a i).ne') eps mu heps.ne (fun p => (heps p).1) hmu.ne (fun p => (hmu p).1)
      (fun ω => β ((ω : ℂ), eps, mu.getD 1)) (fun ω => v ((ω : ℂ), eps, mu.getD 1)) cv.continuousAt cβ.continuousAt
      (by simp only [B.start]; exact ofReal_ne_zero.2 hβ) hmode (by simp only [B.start, B.field_start]; exact hP)
    simp only [B.start, B.field_start] at h
    exact h

/-- **C173.** The same for bends: a simple mode of `cylindrical_operator` of a lossless bend continues analytically in the frequency with a real angular wavenumber, so that the formulas of
C140 and C166 for continuous branches apply to it. -/
theorem C173_bend {dE dH : DxList sh ℝ} (hE : ∀ a i, 0 < dE a i) (hH : ∀ a i, 0 < dH a i) {ω₀ m₀ r : ℝ} (hω : ω₀ ≠ 0) (hm : m₀ ≠ 0) (hr : 0 < r) {eps : V 3 sh}
    (heps : Lossless eps) {v₀ : V 2 sh} (hv : v₀ ≠ 0) (he : WgCyl.cylindricalOperator ω₀ (cw dE, cw dH) eps r *ᵥ v₀ = ((m₀ : ℂ) / r) ^ 2 • v₀)
    (hs : (WgCyl.cylindricalOperator ω₀ (cw dE, cw dH) eps r).charpoly.rootMultiplicity (((m₀ : ℂ) / r) ^ 2) = 1) :
    ∃ (m : ℝ → ℂ) (v : ℝ → V 2 sh) (g : ℝ), ContDiffAt ℝ ⊤ m ω₀ ∧ ContDiffAt ℝ ⊤ v ω₀ ∧ m ω₀ = m₀ ∧ v ω₀ = v₀ ∧
      (∀ᶠ ω : ℝ in 𝓝 ω₀, WgCyl.cylindricalOperator ω (cw dE, cw dH) eps r *ᵥ v ω = (m ω / r) ^ 2 • v ω ∧ (m ω).im = 0) ∧ HasDerivAt m (g : ℂ) ω₀ := by
  have hop : ∀ ω : ℂ, _ := fun ω => cyl_operatorE hE hH hr ω heps.ne
  have hr' : (r : ℂ) ≠ 0 := ofReal_ne_zero.2 hr.ne'
  rw [hop] at he hs
  rw [← ofReal_div] at he hs
  obtain ⟨-, β, v, h1, h2, h3, h4, h5, h6⟩ := C173_group hE hH hω (div_ne_zero hm hr.ne') (bendEps_lossless hE hH hr heps).1
    (mu := some (bendMu (cw dE, cw dH) r 1)) (bendEps_lossless hE hH hr one_lossless).2 hv he hs
  obtain ⟨g, hg⟩ : ∃ g : ℝ, HasDerivAt β (g : ℂ) ω₀ := ⟨_, h6⟩
  refine ⟨fun ω => r * β ω, v, r * g, contDiffAt_const.mul h1, h2, ?_, h4, ?_, ?_⟩
  · show (r : ℂ) * β ω₀ = m₀
    rw [h3]; push_cast; field_simp
  · filter_upwards [h5] with ω h
    refine ⟨?_, by rw [im_ofReal_mul, h.2, mul_zero]⟩
    show _ = ((r : ℂ) * β ω / r) ^ 2 • v ω
    rw [hop, mul_div_cancel_left₀ _ hr']
    exact h.1
  · rw [ofReal_mul]
    exact hg.const_mul (r : ℂ)

/-- A bend one cell wide in vacuum: the radial and the axial polarisation have different angular wavenumbers, both simple. -/
example : Lossless (1 : V 3 (fun _ => 1)) ∧ ∃ v₀ : V 2 (fun _ => 1), v₀ ≠ 0 ∧ ∃ m₀ : ℝ, m₀ ≠ 0 ∧
    WgCyl.cylindricalOperator ((1 : ℝ) : ℂ) (cw (fun _ _ => 1), cw (fun _ _ => 1)) 1 ((10 : ℝ) : ℂ) *ᵥ v₀ = ((m₀ : ℂ) / (10 : ℝ)) ^ 2 • v₀ ∧
    (WgCyl.cylindricalOperator ((1 : ℝ) : ℂ) (cw (fun _ _ => 1), cw (fun _ _ => 1)) (1 : V 3 (fun _ => 1)) ((10 : ℝ) : ℂ)).charpoly.rootMultiplicity (((m₀ : ℂ) / (10 : ℝ)) ^ 2) = 1 := by
  have h1 : ∀ (a : Fin 2) (i : Fin 1), (0 : ℝ) < (fun _ _ => 1 : DxList (fun _ => 1) ℝ) a i := fun _ _ => one_pos
  have hone : ∀ p : Fin 3 × Idx (fun _ : Fin 2 => 1), (1 : V 3 (fun _ => 1)) p ≠ 0 := fun p => one_ne_zero
  have hA : ∀ i, radA (sh := fun _ => 1) (fun _ _ => 1) 10 i = 11 := fun i => by
    have e : radA (sh := fun _ => 1) (fun _ _ => 1) 10 i = 10 + ∑ j : Fin 1, if (j : ℕ) ≤ i then (1 : ℝ) else 0 := rfl
    rw [e]; simp; norm_num
  have hB : ∀ i, radB (sh := fun _ => 1) (fun _ _ => 1) (fun _ _ => 1) 10 i = 23 / 2 := fun i => by
    have e : radB (sh := fun _ => 1) (fun _ _ => 1) (fun _ _ => 1) 10 i = 10 + 1 / 2 + ∑ j : Fin 1, if (j : ℕ) ≤ i then (1 : ℝ) else 0 := rfl
    rw [e]; simp; norm_num
  rw [cyl_operatorE h1 h1 (by norm_num) _ hone]
  set D : Dx2 (fun _ => 1) := (cw (fun _ _ => 1), cw (fun _ _ => 1)) with hD
  have f1 : ∀ (a : Fin 2) (f : Idx (fun _ : Fin 2 => 1) → ℂ) y, fw D a f y = 0 := fun a f y => (C85_deriv_zero (some D.1) a rfl f y).1
  have b1 : ∀ (a : Fin 2) (f : Idx (fun _ : Fin 2 => 1) → ℂ) y, bw D a f y = 0 := fun a f y => (C85_deriv_zero (some D.2) a rfl f y).2
  have o0 : ∀ w x, (operatorE ((1 : ℝ) : ℂ) D (bendEps D ((10 : ℝ) : ℂ) 1) (some (bendMu D ((10 : ℝ) : ℂ) 1)) *ᵥ w) (0, x) = (23 / 20) ^ 2 * w (0, x) := fun w x => by
    rw [operatorE_0]
    simp only [f1, b1]
    simp only [Option.getD_some, bendEps_0, bendMu_1, hD, tB_cw, hB]
    norm_num
    ring
  have o1 : ∀ w x, (operatorE ((1 : ℝ) : ℂ) D (bendEps D ((10 : ℝ) : ℂ) 1) (some (bendMu D ((10 : ℝ) : ℂ) 1)) *ᵥ w) (1, x) = (11 / 10) ^ 2 * w (1, x) := fun w x => by
    rw [operatorE_1]
    simp only [f1, b1]
    simp only [Option.getD_some, bendEps_1, bendMu_0, hD, tA_cw, hA]
    norm_num
    ring
  have hm : (((23 / 2 : ℝ) : ℂ) / ((10 : ℝ) : ℂ)) ^ 2 = (23 / 20) ^ 2 := by push_cast; norm_num
  set A := operatorE ((1 : ℝ) : ℂ) D (bendEps D ((10 : ℝ) : ℂ) 1) (some (bendMu D ((10 : ℝ) : ℂ) 1)) with hAd
  have x0 : ∀ x : Idx (fun _ : Fin 2 => 1), x = 0 := fun x => Subsingleton.elim _ _
  have hV : (fun p => if p.1 = 0 then 1 else 0 : V 2 (fun _ => 1)) ≠ 0 := fun h => by have := congrFun h (0, 0); simp at this
  have hE : A *ᵥ (fun p => if p.1 = 0 then 1 else 0 : V 2 (fun _ => 1)) = (((23 / 2 : ℝ) : ℂ) / ((10 : ℝ) : ℂ)) ^ 2 • (fun p => if p.1 = 0 then 1 else 0 : V 2 (fun _ => 1)) := by
    rw [hm]
    funext ⟨c, x⟩
    fin_cases c
    · exact (o0 _ x).trans (by simp)
    · exact (o1 _ x).trans (by simp)
  refine ⟨one_lossless, _, hV, 23 / 2, by norm_num, hE, ?_⟩
  refine Branch.simple_of_kernel hV hE (fun u hu => ⟨u (0, 0), ?_⟩) fun w hw => ?_
  · rw [hm] at hu
    funext ⟨c, x⟩
    rw [x0 x]
    fin_cases c
    · simp
    · have := (o1 u 0).symm.trans (congrFun hu (1, 0))
      simp only [Pi.smul_apply, smul_eq_mul] at this
      have h0 : u (1, 0) = 0 := by linear_combination (-(400 / 45) : ℂ) * this
      simp [h0]
  · rw [hm] at hw
    have := congrFun hw (0, 0)
    rw [Pi.sub_apply, o0 w 0] at this
    simp at this

/-- Two cells along x with an anisotropic medium: the uniform `E_x` is a simple mode with wavenumber 1 at frequency 1, so all hypotheses are met. -/
example : Lossless pEps ∧ Lossless ((none : Option (V 3 pSh)).getD 1) ∧ pV ≠ 0 ∧
    operatorE ((1 : ℝ) : ℂ) (cw (fun _ _ => 1), cw (fun _ _ => 1)) pEps none *ᵥ pV = ((1 : ℝ) : ℂ) ^ 2 • pV ∧
    (operatorE ((1 : ℝ) : ℂ) (cw (fun _ _ => 1), cw (fun _ _ => 1)) pEps none).charpoly.rootMultiplicity (((1 : ℝ) : ℂ) ^ 2) = 1 := by
  have hd : ((cw (fun _ _ => 1), cw (fun _ _ => 1)) : Dx2 pSh) = pDx := by
    refine Prod.ext ?_ ?_ <;> funext a i <;> simp [cw, pDx]
  have hV : pV ≠ 0 := by intro h; have := congrFun h (0, pX); simp [pV] at this
  have hE : operatorE 1 pDx pEps none *ᵥ pV = (1 : ℂ) • pV := by
    funext p
    obtain ⟨c, x⟩ := p
    fin_cases c
    · exact (pOp pV x).1.trans (by simp [pV])
    · exact (pOp pV x).2.trans (by simp [pV])
  rw [hd, ofReal_one, one_pow]
  refine ⟨fun p => ?_, fun p => ?_, hV, hE, Branch.simple_of_kernel hV hE (fun w hw => ⟨w (0, pX), ?_⟩) fun w hw => ?_⟩
  · simp only [pEps]; split_ifs <;> simp
  · simp
  · have h0 : ∀ x, w (0, shiftIdx 0 1 x) = w (0, x) := fun x => by
      have := (pOp w x).1.symm.trans (congrFun hw (0, x))
      simp only [Pi.smul_apply, smul_eq_mul] at this
      linear_combination this / 2
    have h1 : ∀ x, 2 * w (1, shiftIdx 0 1 x) = w (1, x) := fun x => by
      have := (pOp w x).2.symm.trans (congrFun hw (1, x))
      simp only [Pi.smul_apply, smul_eq_mul] at this
      linear_combination this
    funext p
    obtain ⟨c, x⟩ := p
    fin_cases c
    · show w (0, x) = w (0, pX) * pV (0, x)
      rcases pCells x with rfl | rfl
      · simp [pV]
      · rw [h0]; simp [pV]
    · show w (1, x) = w (0, pX) * pV (1, x)
      have e1 := h1 x
      have e2 := h1 (shiftIdx 0 1 x)
      rw [(pShift x).1] at e2
      have : w (1, x) = 0 := by linear_combination (1 / 3 : ℂ) * e1 + (2 / 3 : ℂ) * e2
      rw [this]; simp [pV]
  · have e : ∀ x, 2 * (w (0, shiftIdx 0 1 x) - w (0, x)) = 1 := fun x => by
      have := congrFun hw (0, x)
      rw [Pi.sub_apply, (pOp w x).1] at this
      simp only [Pi.smul_apply, smul_eq_mul, pV, if_true] at this
      linear_combination this
    have e1 := e pX
    have e2 := e (shiftIdx 0 1 pX)
    rw [(pShift pX).1] at e2
    have : (0 : ℂ) = 2 := by linear_combination e1 + e2
    exact absurd this (by norm_num)

end Meanas.Props
