/-
Simple eigenvalues of families of matrices: they continue, smoothly and uniquely, when the matrix changes.
-/
import Mathlib.Analysis.Calculus.ImplicitContDiff
import Mathlib.Analysis.Calculus.Deriv.Pow
import Mathlib.Analysis.Complex.Basic
import Mathlib.LinearAlgebra.Eigenspace.Zero
import Mathlib.LinearAlgebra.Matrix.Adjugate
import Mathlib.LinearAlgebra.Matrix.Charpoly.LinearMap
import Mathlib.LinearAlgebra.Matrix.ToLinearEquiv
import Mathlib.Data.Matrix.Block

namespace Meanas.Branch

open Matrix Complex Topology

variable {n : Type*} [Fintype n] [DecidableEq n]

/-- Eigenvectors of a simple eigenvalue are multiples of each other, and the eigenvector is not in the range of `A - λ`. -/
theorem simple_kernel {A : Matrix n n ℂ} {l : ℂ} (hs : A.charpoly.rootMultiplicity l = 1) {v : n → ℂ} (hv : v ≠ 0) (he : A *ᵥ v = l • v) :
    (∀ u, A *ᵥ u = l • u → ∃ c : ℂ, u = c • v) ∧ ∀ w, A *ᵥ w - l • w ≠ v := by
  have hf : Module.finrank ℂ (Module.End.maxGenEigenspace A.toLin' l) = 1 := by
    rwa [LinearMap.finrank_maxGenEigenspace_eq, Matrix.charpoly_toLin']
  have mem : ∀ (k : ℕ) u, ((A.toLin' - l • (1 : Module.End ℂ (n → ℂ))) ^ k) u = 0 → u ∈ Module.End.maxGenEigenspace A.toLin' l := fun k u h =>
    (Module.End.mem_maxGenEigenspace _ _ _).2 ⟨k, h⟩
  have hone : ∀ u, (A.toLin' - l • (1 : Module.End ℂ (n → ℂ))) u = A *ᵥ u - l • u := fun u => by simp [Matrix.toLin'_apply]
  have m0 : ∀ u, A *ᵥ u = l • u → u ∈ Module.End.maxGenEigenspace A.toLin' l := fun u h => mem 1 u (by rw [pow_one, hone, h, sub_self])
  have key : ∀ u ∈ Module.End.maxGenEigenspace A.toLin' l, ∃ c : ℂ, u = c • v := by
    intro u hu
    have hv' : (⟨v, m0 v he⟩ : Module.End.maxGenEigenspace A.toLin' l) ≠ 0 := fun h => hv (congrArg Subtype.val h)
    obtain ⟨c, hc⟩ := (finrank_eq_one_iff_of_nonzero' _ hv').1 hf ⟨u, hu⟩
    exact ⟨c, (congrArg Subtype.val hc).symm⟩
  refine ⟨fun u h => key u (m0 u h), fun w h => ?_⟩
  have hw : w ∈ Module.End.maxGenEigenspace A.toLin' l := mem 2 w (by rw [pow_two, Module.End.mul_apply, hone w, h, hone v, he, sub_self])
  obtain ⟨c, rfl⟩ := key w hw
  rw [mulVec_smul, he, smul_comm c l v, sub_self] at h
  exact hv h.symm

/-- Conversely, these two conditions make the eigenvalue simple. -/
theorem simple_of_kernel {A : Matrix n n ℂ} {l : ℂ} {v : n → ℂ} (hv : v ≠ 0) (he : A *ᵥ v = l • v) (h1 : ∀ u, A *ᵥ u = l • u → ∃ c : ℂ, u = c • v)
    (h2 : ∀ w, A *ᵥ w - l • w ≠ v) : A.charpoly.rootMultiplicity l = 1 := by
  have hone : ∀ u, (A.toLin' - l • (1 : Module.End ℂ (n → ℂ))) u = A *ᵥ u - l • u := fun u => by simp [Matrix.toLin'_apply]
  have key : ∀ (k : ℕ) u, ((A.toLin' - l • (1 : Module.End ℂ (n → ℂ))) ^ k) u = 0 → ∃ c : ℂ, u = c • v := by
    intro k
    induction k with
    | zero => intro u hu; exact ⟨0, by rw [zero_smul]; exact hu⟩
    | succ k ih =>
      intro u hu
      rw [pow_succ, Module.End.mul_apply] at hu
      obtain ⟨c, hc⟩ := ih _ hu
      rw [hone] at hc
      have c0 : c = 0 := by
        by_contra hne
        refine h2 (c⁻¹ • u) ?_
        rw [mulVec_smul, smul_comm, ← smul_sub, hc, inv_smul_smul₀ hne]
      rw [c0, zero_smul, sub_eq_zero] at hc
      exact h1 u hc
  have hm : v ∈ Module.End.maxGenEigenspace A.toLin' l := (Module.End.mem_maxGenEigenspace _ _ _).2 ⟨1, by rw [pow_one, hone, he, sub_self]⟩
  have hv' : (⟨v, hm⟩ : Module.End.maxGenEigenspace A.toLin' l) ≠ 0 := fun h => hv (congrArg Subtype.val h)
  have hf : Module.finrank ℂ (Module.End.maxGenEigenspace A.toLin' l) = 1 := by
    refine (finrank_eq_one_iff_of_nonzero' _ hv').2 fun u => ?_
    obtain ⟨k, hk⟩ := (Module.End.mem_maxGenEigenspace _ _ _).1 u.2
    obtain ⟨c, hc⟩ := key k u hk
    exact ⟨c, Subtype.ext hc.symm⟩
  rw [LinearMap.finrank_maxGenEigenspace_eq, Matrix.charpoly_toLin'] at hf
  exact hf

/-- The bordered matrix `[[A - b², -v₀], [ℓ, 0]]`. -/
def border (A : Matrix n n ℂ) (v₀ ell : n → ℂ) (b : ℂ) : Matrix (n ⊕ Unit) (n ⊕ Unit) ℂ :=
  fromBlocks (A - b ^ 2 • (1 : Matrix n n ℂ)) (of fun i _ => -v₀ i) (of fun _ j => ell j) 0

theorem border_inl (A : Matrix n n ℂ) (v₀ ell : n → ℂ) (b : ℂ) (W : n ⊕ Unit → ℂ) (i : n) :
    (border A v₀ ell b *ᵥ W) (Sum.inl i) = (A *ᵥ (fun j => W (Sum.inl j))) i - b ^ 2 * W (Sum.inl i) - v₀ i * W (Sum.inr ()) := by
  rw [border, fromBlocks_mulVec, Sum.elim_inl, Pi.add_apply, sub_mulVec, smul_mulVec, one_mulVec]
  simp [mulVec, dotProduct]
  ring

theorem border_inr (A : Matrix n n ℂ) (v₀ ell : n → ℂ) (b : ℂ) (W : n ⊕ Unit → ℂ) :
    (border A v₀ ell b *ᵥ W) (Sum.inr ()) = ell ⬝ᵥ fun j => W (Sum.inl j) := by
  rw [border, fromBlocks_mulVec, Sum.elim_inr, Pi.add_apply]
  simp [mulVec, dotProduct, Function.comp_def]

/-- The vector of minors along the last row. -/
def minors (A : Matrix n n ℂ) (v₀ ell : n → ℂ) (b : ℂ) : n ⊕ Unit → ℂ := cramer (border A v₀ ell b) (Pi.single (Sum.inr ()) 1)

theorem minors_eq (A : Matrix n n ℂ) (v₀ ell : n → ℂ) (b : ℂ) :
    border A v₀ ell b *ᵥ minors A v₀ ell b = (border A v₀ ell b).det • Pi.single (Sum.inr ()) 1 := mulVec_cramer _ _

section smooth
variable {𝕜 : Type*} [RCLike 𝕜] [NormedAlgebra 𝕜 ℂ] {P : Type*} [NormedAddCommGroup P] [NormedSpace 𝕜 P]

theorem contDiffAt_det {m : Type*} [Fintype m] [DecidableEq m] {k : WithTop ℕ∞} {B : P → Matrix m m ℂ} {p : P}
    (h : ∀ i j, ContDiffAt 𝕜 k (fun q => B q i j) p) : ContDiffAt 𝕜 k (fun q => (B q).det) p := by
  simp only [det_apply]
  refine ContDiffAt.sum fun σ _ => ?_
  have := contDiffAt_prod (t := Finset.univ) (f := fun i q => B q (σ i) i) fun i _ => h (σ i) i
  simpa only [Units.smul_def, zsmul_eq_mul] using contDiffAt_const.mul this

omit [Fintype n] in
theorem contDiffAt_border {k : WithTop ℕ∞} {A : P → Matrix n n ℂ} {b : P → ℂ} {p : P} (hA : ∀ i j, ContDiffAt 𝕜 k (fun q => A q i j) p)
    (hb : ContDiffAt 𝕜 k b p) (v₀ ell : n → ℂ) (i j : n ⊕ Unit) : ContDiffAt 𝕜 k (fun q => border (A q) v₀ ell (b q) i j) p := by
  rcases i with i | i <;> rcases j with j | j <;> simp only [border, fromBlocks_apply₁₁, fromBlocks_apply₁₂, fromBlocks_apply₂₁, fromBlocks_apply₂₂, of_apply, Matrix.sub_apply, Matrix.smul_apply, smul_eq_mul]
  · exact (hA i j).sub ((hb.pow 2).mul contDiffAt_const)
  all_goals exact contDiffAt_const

theorem contDiffAt_minors {k : WithTop ℕ∞} {A : P → Matrix n n ℂ} {b : P → ℂ} {p : P} (hA : ∀ i j, ContDiffAt 𝕜 k (fun q => A q i j) p)
    (hb : ContDiffAt 𝕜 k b p) (v₀ ell : n → ℂ) (s : n ⊕ Unit) : ContDiffAt 𝕜 k (fun q => minors (A q) v₀ ell (b q) s) p := by
  simp only [minors, cramer_apply]
  refine contDiffAt_det fun i j => ?_
  simp only [updateCol_apply]
  split_ifs
  · exact contDiffAt_const
  · exact contDiffAt_border hA hb v₀ ell i j

/-- **Continuation of a simple eigenvalue.** If `β₀²` is a simple eigenvalue of `A p₀`, `β₀ ≠ 0`, then near `p₀` there are `β` and `v`, as smooth as `A`, with
`A v = β² v`, and every eigenpair of a nearby matrix with a nearby `b` is on this branch. -/
theorem exists_branch {P : Type*} [NormedAddCommGroup P] [NormedSpace ℝ P] [CompleteSpace P] {k : WithTop ℕ∞} (hk : k ≠ 0) {A : P → Matrix n n ℂ} {p₀ : P} (hA : ∀ i j, ContDiffAt ℝ k (fun q => A q i j) p₀)
    {β₀ : ℂ} (hβ : β₀ ≠ 0) {v₀ : n → ℂ} (hv : v₀ ≠ 0) (he : A p₀ *ᵥ v₀ = β₀ ^ 2 • v₀) (hs : (A p₀).charpoly.rootMultiplicity (β₀ ^ 2) = 1) :
    ∃ (β : P → ℂ) (v : P → n → ℂ), ContDiffAt ℝ k β p₀ ∧ ContDiffAt ℝ k v p₀ ∧ β p₀ = β₀ ∧ v p₀ = v₀ ∧
      (∀ᶠ p in 𝓝 p₀, A p *ᵥ v p = β p ^ 2 • v p) ∧
      ∀ᶠ q : P × ℂ in 𝓝 (p₀, β₀), ∀ u : n → ℂ, u ≠ 0 → A q.1 *ᵥ u = q.2 ^ 2 • u → q.2 = β q.1 ∧ ∃ c : ℂ, u = c • v q.1 := by
  obtain ⟨hs1, hs2⟩ := simple_kernel hs hv he
  obtain ⟨i₀, hi₀⟩ : ∃ i, v₀ i ≠ 0 := by by_contra hc; push Not at hc; exact hv (funext hc)
  obtain ⟨ell, hell⟩ : ∃ ell : n → ℂ, ell ⬝ᵥ v₀ = 1 := ⟨Pi.single i₀ (v₀ i₀)⁻¹, by rw [single_dotProduct, inv_mul_cancel₀ hi₀]⟩
  -- the bordered matrix is regular
  have hreg : (border (A p₀) v₀ ell β₀).det ≠ 0 := by
    intro h0
    obtain ⟨W, hW, h⟩ := exists_mulVec_eq_zero_iff.2 h0
    have h1 : A p₀ *ᵥ (fun j => W (Sum.inl j)) - β₀ ^ 2 • (fun j => W (Sum.inl j)) = W (Sum.inr ()) • v₀ := by
      funext i
      have := congrFun h (Sum.inl i)
      rw [border_inl] at this
      simp only [Pi.sub_apply, Pi.smul_apply, smul_eq_mul, Pi.zero_apply] at this ⊢
      linear_combination this
    have h2 := congrFun h (Sum.inr ())
    rw [border_inr, Pi.zero_apply] at h2
    have h3 : W (Sum.inr ()) = 0 := by
      by_contra hne
      refine hs2 ((W (Sum.inr ()))⁻¹ • fun j => W (Sum.inl j)) ?_
      rw [mulVec_smul, smul_comm, ← smul_sub, h1, inv_smul_smul₀ hne]
    rw [h3, zero_smul, sub_eq_zero] at h1
    obtain ⟨c, hc⟩ := hs1 _ h1
    rw [hc, dotProduct_smul, hell, smul_eq_mul, mul_one] at h2
    rw [h2, zero_smul] at hc
    refine hW (funext fun s => ?_)
    rcases s with s | s
    · exact congrFun hc s
    · exact h3
  -- the equation of the wavenumber
  set f : P × ℂ → ℂ := fun q => minors (A q.1) v₀ ell q.2 (Sum.inr ()) with hf
  have hA' : ∀ i j, ContDiffAt ℝ k (fun q : P × ℂ => A q.1 i j) (p₀, β₀) := fun i j => (hA i j).comp (p₀, β₀) contDiffAt_fst
  have cf : ContDiffAt ℝ k f (p₀, β₀) := contDiffAt_minors hA' contDiffAt_snd v₀ ell _
  have heq : ∀ p b, A p *ᵥ (fun j => minors (A p) v₀ ell b (Sum.inl j)) - b ^ 2 • (fun j => minors (A p) v₀ ell b (Sum.inl j)) = f (p, b) • v₀ := by
    intro p b
    funext i
    have := congrFun (minors_eq (A p) v₀ ell b) (Sum.inl i)
    rw [border_inl] at this
    simp only [Pi.sub_apply, Pi.smul_apply, smul_eq_mul, Pi.single_apply, reduceCtorEq, if_false, mul_zero] at this ⊢
    linear_combination this
  have hnorm : ∀ p b, (ell ⬝ᵥ fun j => minors (A p) v₀ ell b (Sum.inl j)) = (border (A p) v₀ ell b).det := by
    intro p b
    have := congrFun (minors_eq (A p) v₀ ell b) (Sum.inr ())
    rw [border_inr] at this
    rw [this]; simp
  have huniq : ∀ p b, (border (A p) v₀ ell b).det ≠ 0 → ∀ u : n → ℂ, u ≠ 0 → A p *ᵥ u = b ^ 2 • u →
      f (p, b) = 0 ∧ u = ((ell ⬝ᵥ u) / (border (A p) v₀ ell b).det) • fun j => minors (A p) v₀ ell b (Sum.inl j) := by
    intro p b hd u hu hau
    have hz : border (A p) v₀ ell b *ᵥ ((border (A p) v₀ ell b).det • Sum.elim u (fun _ => 0) - (ell ⬝ᵥ u) • minors (A p) v₀ ell b) = 0 := by
      rw [mulVec_sub, mulVec_smul, mulVec_smul, minors_eq]
      funext s
      rcases s with s | s
      · rw [Pi.sub_apply, Pi.smul_apply, border_inl]
        simp only [Sum.elim_inl, Sum.elim_inr, hau]
        simp
      · obtain rfl : s = () := rfl
        rw [Pi.sub_apply, Pi.smul_apply, border_inr]
        simp only [Sum.elim_inl]
        simp [mul_comm]
    have hz' : (border (A p) v₀ ell b).det • Sum.elim u (fun _ => 0) - (ell ⬝ᵥ u) • minors (A p) v₀ ell b = 0 := by
      by_contra hne
      exact hd (exists_mulVec_eq_zero_iff.1 ⟨_, hne, hz⟩)
    have hu' : u = ((ell ⬝ᵥ u) / (border (A p) v₀ ell b).det) • fun j => minors (A p) v₀ ell b (Sum.inl j) := by
      funext j
      have := congrFun hz' (Sum.inl j)
      simp only [Pi.sub_apply, Pi.smul_apply, smul_eq_mul, Sum.elim_inl, Pi.zero_apply] at this ⊢
      field_simp
      linear_combination this
    refine ⟨?_, hu'⟩
    have := congrFun hz' (Sum.inr ())
    simp only [Pi.sub_apply, Pi.smul_apply, smul_eq_mul, Sum.elim_inr, Pi.zero_apply, mul_zero, zero_sub, neg_eq_zero, mul_eq_zero] at this
    rcases this with h | h
    · rw [h, zero_div, zero_smul] at hu'
      exact absurd hu' hu
    · exact h
  obtain ⟨f0, w0⟩ := huniq p₀ β₀ hreg v₀ hv he
  rw [hell] at w0
  set D := (border (A p₀) v₀ ell β₀).det with hD
  have w0' : (fun j => minors (A p₀) v₀ ell β₀ (Sum.inl j)) = D • v₀ := by
    conv_rhs => rw [w0]
    rw [smul_smul, mul_one_div_cancel hreg, one_smul]
  -- its derivative in the wavenumber
  have hder : ∃ g : ℂ, g ≠ 0 ∧ HasDerivAt (fun b => f (p₀, b)) g β₀ := by
    have hm : ∀ s, DifferentiableAt ℂ (fun b => minors (A p₀) v₀ ell b s) β₀ := fun s =>
      (contDiffAt_minors (𝕜 := ℂ) (k := 1) (A := fun _ : ℂ => A p₀) (b := fun b => b) (fun i j => contDiffAt_const) contDiffAt_id v₀ ell s).differentiableAt one_ne_zero
    have d1 : ∀ j, HasDerivAt (fun b => minors (A p₀) v₀ ell b (Sum.inl j)) (deriv (fun b => minors (A p₀) v₀ ell b (Sum.inl j)) β₀) β₀ := fun j => (hm _).hasDerivAt
    have d2 : HasDerivAt (fun b => f (p₀, b)) (deriv (fun b => f (p₀, b)) β₀) β₀ := (hm (Sum.inr ())).hasDerivAt
    refine ⟨_, fun hg => ?_, d2⟩
    set w' : n → ℂ := fun j => deriv (fun b => minors (A p₀) v₀ ell b (Sum.inl j)) β₀ with hw'
    have h1 : A p₀ *ᵥ w' - β₀ ^ 2 • w' = (2 * β₀ * D) • v₀ := by
      funext i
      have l : HasDerivAt (fun b => ∑ j, A p₀ i j * minors (A p₀) v₀ ell b (Sum.inl j) - b ^ 2 * minors (A p₀) v₀ ell b (Sum.inl i))
          (∑ j, A p₀ i j * w' j - (2 * β₀ * (D * v₀ i) + β₀ ^ 2 * w' i)) β₀ := by
        have m0 : minors (A p₀) v₀ ell β₀ (Sum.inl i) = D * v₀ i := congrFun w0' i
        have := (HasDerivAt.fun_sum fun j (_ : j ∈ Finset.univ) => (d1 j).const_mul (A p₀ i j)).fun_sub ((hasDerivAt_pow 2 β₀).fun_mul (d1 i))
        rw [m0] at this
        refine this.congr_deriv ?_
        simp [hw']
      have r : HasDerivAt (fun b => f (p₀, b) * v₀ i) 0 β₀ := by
        have := d2.mul_const (v₀ i)
        rwa [hg, zero_mul] at this
      have e : (fun b => ∑ j, A p₀ i j * minors (A p₀) v₀ ell b (Sum.inl j) - b ^ 2 * minors (A p₀) v₀ ell b (Sum.inl i)) = fun b => f (p₀, b) * v₀ i :=
        funext fun b => congrFun (heq p₀ b) i
      rw [e] at l
      have := l.unique r
      change ∑ j, A p₀ i j * w' j - β₀ ^ 2 * w' i = (2 * β₀ * D) * v₀ i
      linear_combination this
    have hne : 2 * β₀ * D ≠ 0 := mul_ne_zero (mul_ne_zero two_ne_zero hβ) hreg
    refine hs2 ((2 * β₀ * D)⁻¹ • w') ?_
    rw [mulVec_smul, smul_comm, ← smul_sub, h1, inv_smul_smul₀ hne]
  obtain ⟨g, hg, hgd⟩ := hder
  have hinv : (fderiv ℝ f (p₀, β₀) ∘L .inr ℝ P ℂ).IsInvertible := by
    have h1 : HasFDerivAt (fun b => f (p₀, b)) (fderiv ℝ f (p₀, β₀) ∘L .inr ℝ P ℂ) β₀ :=
      (cf.differentiableAt hk).hasFDerivAt.comp β₀ (hasFDerivAt_prodMk_right p₀ β₀)
    have h2 := (hgd.hasFDerivAt.restrictScalars ℝ)
    rw [h1.unique h2]
    refine ⟨(ContinuousLinearEquiv.unitsEquivAut ℂ (Units.mk0 g hg)).restrictScalars ℝ, ?_⟩
    ext
    all_goals simp
  set β := cf.implicitFunction hk hinv with hβdef
  have cβ : ContDiffAt ℝ k β p₀ := cf.contDiffAt_implicitFunction hk hinv
  have β0 : β p₀ = β₀ := cf.implicitFunction_apply_self hk hinv
  have hfβ : ∀ᶠ p in 𝓝 p₀, f (p, β p) = 0 := by
    have := cf.eventually_apply_implicitFunction hk hinv
    rwa [f0] at this
  have hiff : ∀ᶠ q : P × ℂ in 𝓝 (p₀, β₀), f q = 0 ↔ β q.1 = q.2 := by
    have := cf.eventually_apply_eq_iff_implicitFunction hk hinv
    rwa [f0] at this
  have hdet : ∀ᶠ q : P × ℂ in 𝓝 (p₀, β₀), (border (A q.1) v₀ ell q.2).det ≠ 0 :=
    (contDiffAt_det (k := k) (fun i j => contDiffAt_border hA' contDiffAt_snd v₀ ell i j)).continuousAt.eventually_ne hreg
  refine ⟨β, fun p j => minors (A p) v₀ ell (β p) (Sum.inl j) / D, cβ, ?_, β0, ?_, ?_, ?_⟩
  · refine contDiffAt_pi.2 fun j => ?_
    exact (contDiffAt_minors hA cβ v₀ ell _).div_const _
  · funext j
    have := congrFun w0' j
    simp only [β0, this, Pi.smul_apply, smul_eq_mul]
    field_simp
  · filter_upwards [hfβ] with p hp
    have h := heq p (β p)
    rw [hp, zero_smul, sub_eq_zero] at h
    have e : (fun j => minors (A p) v₀ ell (β p) (Sum.inl j) / D) = D⁻¹ • fun j => minors (A p) v₀ ell (β p) (Sum.inl j) := by
      funext j; simp [div_eq_inv_mul]
    rw [e, mulVec_smul, h, smul_comm]
  · filter_upwards [hiff, hdet] with q h1 h2 u hu hau
    obtain ⟨k1, k2⟩ := huniq q.1 q.2 h2 u hu hau
    have hb := h1.1 k1
    refine ⟨hb.symm, ⟨(ell ⬝ᵥ u) / (border (A q.1) v₀ ell q.2).det * D, ?_⟩⟩
    conv_lhs => rw [k2]
    funext j
    simp only [Pi.smul_apply, smul_eq_mul, hb]
    field_simp

end smooth
end Meanas.Branch
