/-
C175: nondegenerate Bloch bands are smooth functions of the Bloch vector and of the medium (meanas/fdfd/bloch.py:130-350).
-/
import Verif.Props.ModeBranch
import Verif.Props.BlochPerturb
import Mathlib.Analysis.Calculus.Deriv.Prod

namespace Meanas.Props

open Matrix Complex Meanas.Bloch Topology BranchAux

variable {sh : Fin 3 → ℕ}

/-- A branch of bands through the band `(ω₀, h₀)` of the structure `q₀ = (k₀, ε₀)`: frequency and coefficients are analytic functions of the Bloch vector and of the medium,
and no other band is near. -/
structure BandBranch (G : Matrix (Fin 3) (Fin 3) ℝ) (q₀ : (Fin 3 → ℝ) × VField sh ℂ) (ω₀ : ℂ) (h₀ : Hmn sh) (ω : (Fin 3 → ℝ) × VField sh ℂ → ℂ)
    (h : (Fin 3 → ℝ) × VField sh ℂ → Hmn sh) : Prop where
  /-- the frequency is analytic -/
  analytic : ContDiffAt ℝ ⊤ ω q₀
  /-- so are the coefficients -/
  field_analytic : ∀ i x, ContDiffAt ℝ ⊤ (fun q => h q i x) q₀
  /-- the branch passes through the given band -/
  start : ω q₀ = ω₀
  /-- with the given coefficients -/
  field_start : h q₀ = h₀
  /-- and consists of bands -/
  band : ∀ᶠ q in 𝓝 q₀, maxwellOperator q.1 G q.2 (h q) = some (-ω q ^ 2 • h q)
  /-- every band of a nearby structure with a nearby frequency is on it -/
  unique : ∀ᶠ r : ((Fin 3 → ℝ) × VField sh ℂ) × ℂ in 𝓝 (q₀, ω₀), ∀ u : Hmn sh, u ≠ 0 → maxwellOperator r.1.1 G r.1.2 u = some (-r.2 ^ 2 • u) →
    r.2 = ω r.1 ∧ ∃ c : ℂ, u = c • h r.1

/-- No plane wave of the grid has `kx = 0`. -/
def Generic (k0 : Fin 3 → ℝ) (G : Matrix (Fin 3) (Fin 3) ℝ) (sh : Fin 3 → ℕ) : Prop := ∀ (x : Idx sh) (k : Fin 3 → ℝ), IsWave k0 G k x → k 0 ≠ 0

namespace BandAux

theorem generic_iff (k0 : Fin 3 → ℝ) (G : Matrix (Fin 3) (Fin 3) ℝ) : Generic k0 G sh ↔ ∀ x : Idx sh, kxyz k0 G x 0 ≠ 0 :=
  ⟨fun h x => h x _ (kxyz_isWave k0 G x), fun h x k hw => by rw [hw.eq]; exact h x⟩

theorem generic_good {k0 : Fin 3 → ℝ} {G : Matrix (Fin 3) (Fin 3) ℝ} (h : Generic k0 G sh) : Good k0 G sh := fun x k hw hc => h x k hw hc.1

theorem smooth_kxyz (k0 : Fin 3 → ℝ) (G : Matrix (Fin 3) (Fin 3) ℝ) (x : Idx sh) : ContDiffAt ℝ ⊤ (fun k => kxyz k G x) k0 := by
  rw [contDiffAt_pi]
  intro c
  show ContDiffAt ℝ ⊤ (fun k : Fin 3 → ℝ => ∑ a, G c a * (k a - fftfreq (sh a) (x a))) k0
  exact ContDiffAt.sum fun a _ => contDiffAt_const.mul ((contDiffAt_pi.1 contDiffAt_id a).sub contDiffAt_const)

theorem smooth_cross {P : Type*} [NormedAddCommGroup P] [NormedSpace ℝ P] {f g : P → Fin 3 → ℝ} {p : P} (hf : ContDiffAt ℝ ⊤ f p) (hg : ContDiffAt ℝ ⊤ g p) :
    ContDiffAt ℝ ⊤ (fun q => cross (f q) (g q)) p := by
  have f' := contDiffAt_pi.1 hf
  have g' := contDiffAt_pi.1 hg
  rw [contDiffAt_pi]
  intro c
  fin_cases c
  · exact ((f' 1).mul (g' 2)).sub ((f' 2).mul (g' 1))
  · exact ((f' 2).mul (g' 0)).sub ((f' 0).mul (g' 2))
  · exact ((f' 0).mul (g' 1)).sub ((f' 1).mul (g' 0))

theorem smooth_norm3 {P : Type*} [NormedAddCommGroup P] [NormedSpace ℝ P] {f : P → Fin 3 → ℝ} {p : P} (hf : ContDiffAt ℝ ⊤ f p) (h0 : f p ≠ 0) :
    ContDiffAt ℝ ⊤ (fun q => norm3 (f q)) p := by
  have f' := contDiffAt_pi.1 hf
  refine ContDiffAt.sqrt (ContDiffAt.sum fun c _ => (f' c).pow 2) ?_
  intro hc
  apply h0
  rw [← norm3_eq_zero, norm3, hc, Real.sqrt_zero]

theorem smooth_unit {P : Type*} [NormedAddCommGroup P] [NormedSpace ℝ P] {f : P → Fin 3 → ℝ} {p : P} (hf : ContDiffAt ℝ ⊤ f p) (h0 : f p ≠ 0) :
    ContDiffAt ℝ ⊤ (fun q => fun c => f q c / norm3 (f q)) p := by
  rw [contDiffAt_pi]
  intro c
  simp only [div_eq_mul_inv]
  exact (contDiffAt_pi.1 hf c).mul ((smooth_norm3 hf h0).inv fun h => h0 (norm3_eq_zero.1 h))

theorem near_kx {k0 : Fin 3 → ℝ} {G : Matrix (Fin 3) (Fin 3) ℝ} {x : Idx sh} (h : kxyz k0 G x 0 ≠ 0) : ∀ᶠ k in 𝓝 k0, kxyz k G x 0 ≠ 0 :=
  (contDiffAt_pi.1 (smooth_kxyz k0 G x) 0).continuousAt.eventually_ne h

theorem near_generic {k0 : Fin 3 → ℝ} {G : Matrix (Fin 3) (Fin 3) ℝ} (h : Generic k0 G sh) : ∀ᶠ k in 𝓝 k0, Generic k G sh := by
  simp only [generic_iff] at h ⊢
  exact Filter.eventually_all.2 fun x => near_kx (h x)

theorem cross_ez_ne {k : Fin 3 → ℝ} (h : k 0 ≠ 0) : cross k ez ≠ 0 := fun hc => h (by have := congrFun hc 1; simpa [cross, ez] using this)

theorem smooth_m {k0 : Fin 3 → ℝ} {G : Matrix (Fin 3) (Fin 3) ℝ} {x : Idx sh} (h : kxyz k0 G x 0 ≠ 0) : ContDiffAt ℝ ⊤ (fun k => mVec k G x) k0 := by
  refine (smooth_unit (smooth_cross (smooth_kxyz k0 G x) contDiffAt_const) (cross_ez_ne h)).congr_of_eventuallyEq ?_
  filter_upwards [near_kx h] with k hk
  exact mVec_pos k G hk

theorem nVec_pos {k0 : Fin 3 → ℝ} {G : Matrix (Fin 3) (Fin 3) ℝ} {x : Idx sh} (h : kxyz k0 G x 0 ≠ 0) :
    cross (kxyz k0 G x) (mVec k0 G x) ≠ 0 ∧ nVec k0 G x = some fun c => cross (kxyz k0 G x) (mVec k0 G x) c / norm3 (cross (kxyz k0 G x) (mVec k0 G x)) := by
  have hne : nVec k0 G x ≠ none := fun hc => h ((nVec_none k0 G).1 hc).1
  unfold nVec at hne ⊢
  simp only at hne ⊢
  rw [if_pos ⟨0, h⟩] at hne ⊢
  split_ifs at hne ⊢ with h1
  · exact absurd rfl hne
  · exact ⟨fun hc => h1 (norm3_eq_zero.2 hc), rfl⟩

theorem smooth_n {k0 : Fin 3 → ℝ} {G : Matrix (Fin 3) (Fin 3) ℝ} {x : Idx sh} (h : kxyz k0 G x 0 ≠ 0) : ContDiffAt ℝ ⊤ (fun k => (nVec k G x).getD 0) k0 := by
  refine (smooth_unit (smooth_cross (smooth_kxyz k0 G x) (smooth_m h)) (nVec_pos h).1).congr_of_eventuallyEq ?_
  filter_upwards [near_kx h] with k hk
  rw [(nVec_pos hk).2, Option.getD_some]

theorem smooth_mag {k0 : Fin 3 → ℝ} {G : Matrix (Fin 3) (Fin 3) ℝ} {x : Idx sh} (h : kxyz k0 G x 0 ≠ 0) : ContDiffAt ℝ ⊤ (fun k => kMag k G x) k0 :=
  smooth_norm3 (smooth_kxyz k0 G x) fun hc => h (congrFun hc 0)

theorem nAll_getD {k0 : Fin 3 → ℝ} {G : Matrix (Fin 3) (Fin 3) ℝ} (h : Generic k0 G sh) : nAll k0 G sh = some fun x => (nVec k0 G x).getD 0 := by
  unfold nAll
  rw [if_neg]
  push Not
  intro x hc
  exact (generic_iff k0 G).1 h x ((nVec_none k0 G).1 hc).1

/-- Coefficients to the Fourier components of `D`. -/
noncomputable def toD (k : Fin 3 → ℝ) (G : Matrix (Fin 3) (Fin 3) ℝ) (c : Fin 3) : Matrix (Idx sh) (Fin 2 × Idx sh) ℂ :=
  of fun x p => if p.2 = x then (if p.1 = 0 then ((nVec k G x).getD 0 c : ℂ) else -(mVec k G x c : ℂ)) * (kMag k G x : ℂ) else 0

/-- Fourier transforms as matrices. -/
noncomputable def fMat (sh : Fin 3 → ℕ) : Matrix (Idx sh) (Idx sh) ℂ := of fun k x => (chi k x)⁻¹
noncomputable def fiMat (sh : Fin 3 → ℕ) : Matrix (Idx sh) (Idx sh) ℂ := of fun x k => chi k x / (Fintype.card (Idx sh) : ℂ)

/-- Minus the Maxwell operator. -/
noncomputable def bandMat (G : Matrix (Fin 3) (Fin 3) ℝ) (q : (Fin 3 → ℝ) × VField sh ℂ) : Matrix (Fin 2 × Idx sh) (Fin 2 × Idx sh) ℂ :=
  ∑ c, (toD (sh := sh) q.1 G c)ᵀ * (fMat sh * (diagonal (fun x => 1 / q.2 c x) * (fiMat sh * toD (sh := sh) q.1 G c)))

theorem Sm.finsum {P : Type*} [NormedAddCommGroup P] [NormedSpace ℝ P] {r s ι : Type*} [Fintype ι] {k : WithTop ℕ∞} {A : ι → P → Matrix r s ℂ} {p : P} (hA : ∀ c, Sm k (A c) p) :
    Sm k (fun q => ∑ c, A c q) p := by
  intro i j
  simp only [Matrix.sum_apply]
  exact ContDiffAt.sum fun c _ => hA c i j

theorem smooth_toD {k0 : Fin 3 → ℝ} {G : Matrix (Fin 3) (Fin 3) ℝ} (h : Generic k0 G sh) (eps : VField sh ℂ) (c : Fin 3) :
    Sm (⊤ : WithTop ℕ∞) (fun q : (Fin 3 → ℝ) × VField sh ℂ => toD (sh := sh) q.1 G c) (k0, eps) := by
  rw [generic_iff] at h
  have key : Sm (⊤ : WithTop ℕ∞) (fun k => toD (sh := sh) k G c) k0 := by
    intro x p
    simp only [toD, of_apply]
    have hC : ∀ {f : (Fin 3 → ℝ) → ℝ}, ContDiffAt ℝ ⊤ f k0 → ContDiffAt ℝ ⊤ (fun k => (f k : ℂ)) k0 := fun hf => ofRealCLM.contDiff.contDiffAt.comp k0 hf
    split_ifs
    · exact (hC (contDiffAt_pi.1 (smooth_n (h x)) c)).mul (hC (smooth_mag (h x)))
    · exact (hC (contDiffAt_pi.1 (smooth_m (h x)) c)).neg.mul (hC (smooth_mag (h x)))
    · exact contDiffAt_const
  exact fun i j => ContDiffAt.comp (k0, eps) (key i j) contDiffAt_fst

theorem smooth_bandMat {G : Matrix (Fin 3) (Fin 3) ℝ} {q₀ : (Fin 3 → ℝ) × VField sh ℂ} (h : Generic q₀.1 G sh) (he : ∀ c x, q₀.2 c x ≠ 0) :
    Sm (⊤ : WithTop ℕ∞) (fun q => bandMat G q) q₀ := by
  refine Sm.finsum fun c => ?_
  have h1 := smooth_toD h q₀.2 c
  refine Sm.mul (fun i j => h1 j i) ((Sm.const _).mul (Sm.mul (Sm.diagonal fun x => sm_inv ?_ (he c x)) ((Sm.const _).mul h1)))
  exact contDiffAt_pi.1 (contDiffAt_pi.1 (contDiffAt_snd (p := q₀)) c) x

/-- Coefficients as one vector. -/
def flatH (h : Hmn sh) : Fin 2 × Idx sh → ℂ := fun p => h p.1 p.2

theorem toD_mulVec {k : Fin 3 → ℝ} (G : Matrix (Fin 3) (Fin 3) ℝ) (c : Fin 3) (h : Hmn sh) :
    toD k G c *ᵥ flatH h = dXyz k G (fun x => (nVec k G x).getD 0) h c := by
  funext x
  simp only [mulVec, dotProduct, toD, of_apply, Fintype.sum_prod_type, Fin.sum_univ_two, flatH, dXyz, ite_mul, zero_mul, Finset.sum_ite_eq', Finset.mem_univ, if_true]
  simp
  ring

theorem toD_transpose_mulVec {k : Fin 3 → ℝ} (G : Matrix (Fin 3) (Fin 3) ℝ) (c : Fin 3) (f : Idx sh → ℂ) (i : Fin 2) (x : Idx sh) :
    ((toD k G c)ᵀ *ᵥ f) (i, x) = (if i = 0 then ((nVec k G x).getD 0 c : ℂ) else -(mVec k G x c : ℂ)) * (kMag k G x : ℂ) * f x := by
  simp only [mulVec, dotProduct, transpose_apply, toD, of_apply, ite_mul, zero_mul]
  rw [Finset.sum_eq_single x]
  · simp
  · intro y _ hy; rw [if_neg (Ne.symm hy)]
  · simp

theorem maxwell_mat {k : Fin 3 → ℝ} {G : Matrix (Fin 3) (Fin 3) ℝ} (hk : Generic k G sh) {eps : VField sh ℂ} (he : ∀ c x, eps c x ≠ 0) (h : Hmn sh) :
    maxwellOperator k G eps h = some fun i x => -(bandMat G (k, eps) *ᵥ flatH h) (i, x) := by
  unfold maxwellOperator
  rw [if_neg (by push Not; exact he), nAll_getD hk, Option.map_some]
  congr 1
  funext i x
  have hF : ∀ f : Arr sh ℂ, fMat sh *ᵥ f = fftn f := fun f => rfl
  have hFi : ∀ f : Arr sh ℂ, fiMat sh *ᵥ f = ifftn f := fun f => by
    funext y
    simp only [mulVec, dotProduct, fiMat, of_apply, ifftn, Finset.sum_div]
    exact Finset.sum_congr rfl fun l _ => by ring
  simp only [bandMat, sum_mulVec, Finset.sum_apply, ← mulVec_mulVec, toD_mulVec, hFi, toD_transpose_mulVec, hF]
  have hdg : ∀ c, diagonal (fun x => 1 / eps c x) *ᵥ ifftn (dXyz k G (fun x => (nVec k G x).getD 0) h c) = fun y => ifftn (dXyz k G (fun x => (nVec k G x).getD 0) h c) y / eps c y := by
    intro c; funext y; rw [mulVec_diagonal]; ring
  simp only [hdg]
  rw [Finset.sum_mul, Finset.sum_mul, ← Finset.sum_neg_distrib]
  split_ifs
  · exact Finset.sum_congr rfl fun c _ => by ring
  · exact Finset.sum_congr rfl fun c _ => by ring

theorem maxwell_iff {k : Fin 3 → ℝ} {G : Matrix (Fin 3) (Fin 3) ℝ} (hk : Generic k G sh) {eps : VField sh ℂ} (he : ∀ c x, eps c x ≠ 0) (h : Hmn sh) (z : ℂ) :
    maxwellOperator k G eps h = some (-z • h) ↔ bandMat G (k, eps) *ᵥ flatH h = z • flatH h := by
  rw [maxwell_mat hk he, Option.some.injEq]
  constructor
  · intro hh
    funext ⟨i, x⟩
    have := congrFun (congrFun hh i) x
    simp only [Pi.smul_apply, smul_eq_mul, flatH] at this ⊢
    linear_combination -this
  · intro hh
    funext i x
    rw [hh]
    simp only [Pi.smul_apply, smul_eq_mul, flatH]
    ring

end BandAux

open BandAux

/-- **C175.** Continuation of a nondegenerate band. Let no plane wave of the grid have `kx = 0`, and let the medium be lossless. If the eigenvectors of `maxwell_operator`
with eigenvalue `-ω₀² ≠ 0` are the multiples of one vector, then all nearby Bloch vectors and media (also lossy ones) have exactly one band near it, and its frequency and
coefficients are analytic functions of the Bloch vector and of all entries of `epsilon`. -/
theorem C175_branch {k₀ : Fin 3 → ℝ} {G : Matrix (Fin 3) (Fin 3) ℝ} (hk : Generic k₀ G sh) {eps₀ : VField sh ℂ} (he : PosReal eps₀) {ω₀ : ℂ} (hω : ω₀ ≠ 0) {h₀ : Hmn sh} (h0 : h₀ ≠ 0)
    (hb : maxwellOperator k₀ G eps₀ h₀ = some (-ω₀ ^ 2 • h₀)) (hone : ∀ u, maxwellOperator k₀ G eps₀ u = some (-ω₀ ^ 2 • u) → ∃ c : ℂ, u = c • h₀) :
    ∃ ω h, BandBranch G (k₀, eps₀) ω₀ h₀ ω h := by
  have hne : ∀ c x, eps₀ c x ≠ 0 := fun c x => by
    obtain ⟨r, hr, e⟩ := he c x
    rw [e]; exact_mod_cast hr.ne'
  have hv : flatH h₀ ≠ 0 := fun hc => h0 (by funext i x; exact congrFun hc (i, x))
  have hm := (maxwell_iff hk hne h₀ _).1 hb
  have hs : (bandMat G (k₀, eps₀)).charpoly.rootMultiplicity (ω₀ ^ 2) = 1 := by
    refine Branch.simple_of_kernel hv hm (fun u hu => ?_) fun w hw => ?_
    · obtain ⟨c, hc⟩ := hone (fun i x => u (i, x)) ((maxwell_iff hk hne _ _).2 hu)
      exact ⟨c, funext fun p => congrFun (congrFun hc p.1) p.2⟩
    · obtain ⟨op, h1, h2, -, h4⟩ := C59_hermitian_partial k₀ G ((generic_good hk).regular k₀ G) he
      have hop : ∀ u : Hmn sh, op u = fun i x => -(bandMat G (k₀, eps₀) *ᵥ flatH u) (i, x) := fun u => Option.some.inj ((h1 u).symm.trans (maxwell_mat hk hne u))
      have e0 : op h₀ = fun i x => -ω₀ ^ 2 * h₀ i x := Option.some.inj ((h1 h₀).symm.trans hb)
      have hr := conj_eq_iff_im.2 (h4 _ _ h0 e0).1
      set W : Hmn sh := fun i x => w (i, x) with hW
      have eW : op W = fun i x => -ω₀ ^ 2 * W i x - h₀ i x := by
        rw [hop]
        funext i x
        have := congrFun hw (i, x)
        simp only [Pi.sub_apply, Pi.smul_apply, smul_eq_mul, flatH] at this
        show -(bandMat G (k₀, eps₀) *ᵥ w) (i, x) = _
        rw [hW]
        linear_combination -this
      have key := h2 h₀ W
      rw [e0, eW] at key
      have k1 : hip h₀ (fun i x => -ω₀ ^ 2 * W i x - h₀ i x) = -ω₀ ^ 2 * hip h₀ W - hip h₀ h₀ := by
        simp only [hip, Finset.mul_sum, ← Finset.sum_sub_distrib]
        exact Finset.sum_congr rfl fun i _ => Finset.sum_congr rfl fun x _ => by ring
      have k2 : hip (fun i x => -ω₀ ^ 2 * h₀ i x) W = -ω₀ ^ 2 * hip h₀ W := by
        simp only [hip, Finset.mul_sum]
        refine Finset.sum_congr rfl fun i _ => Finset.sum_congr rfl fun x _ => ?_
        rw [map_mul, hr]; ring
      rw [k1, k2] at key
      have hz : hip h₀ h₀ = 0 := by linear_combination -key
      have hz' : ∑ i, ∑ x, normSq (h₀ i x) = 0 := by
        have : ((∑ i, ∑ x, normSq (h₀ i x) : ℝ) : ℂ) = 0 := by
          rw [← hz]; push_cast
          exact Finset.sum_congr rfl fun i _ => Finset.sum_congr rfl fun x _ => normSq_eq_conj_mul_self
        exact_mod_cast this
      apply h0
      funext i x
      have z1 := (Finset.sum_eq_zero_iff_of_nonneg fun i _ => Finset.sum_nonneg fun x _ => normSq_nonneg (h₀ i x)).1 hz' i (Finset.mem_univ i)
      exact normSq_eq_zero.1 ((Finset.sum_eq_zero_iff_of_nonneg fun x _ => normSq_nonneg (h₀ i x)).1 z1 x (Finset.mem_univ x))
  obtain ⟨ω, v, a1, a2, a3, a4, a5, a6⟩ := Branch.exists_branch (by simp) (smooth_bandMat (q₀ := (k₀, eps₀)) hk hne) hω hv hm hs
  have ne1 : ∀ᶠ q : (Fin 3 → ℝ) × VField sh ℂ in 𝓝 (k₀, eps₀), ∀ c x, q.2 c x ≠ 0 :=
    Filter.eventually_all.2 fun c => Filter.eventually_all.2 fun x => ContinuousAt.eventually_ne
      (g := fun q : (Fin 3 → ℝ) × VField sh ℂ => q.2 c x) (continuousAt_pi.1 (continuousAt_pi.1 continuousAt_snd c) x) (hne c x)
  have ne2 : ∀ᶠ q : (Fin 3 → ℝ) × VField sh ℂ in 𝓝 (k₀, eps₀), Generic q.1 G sh := (continuousAt_fst (p := (k₀, eps₀))).eventually (near_generic hk)
  refine ⟨ω, fun q i x => v q (i, x), a1, fun i x => contDiffAt_pi.1 a2 (i, x), a3, ?_, ?_, ?_⟩
  · funext i x; show v (k₀, eps₀) (i, x) = _; rw [a4]; rfl
  · filter_upwards [a5, ne1, ne2] with q h1 h2 h3
    exact (maxwell_iff h3 h2 _ _).2 h1
  · have hf := continuousAt_fst (p := (((k₀, eps₀) : (Fin 3 → ℝ) × VField sh ℂ), ω₀))
    filter_upwards [a6, hf.eventually ne1, hf.eventually ne2] with r h1 h2 h3 u hu hr
    obtain ⟨b1, c, b2⟩ := h1 (flatH u) (fun hc => hu (by funext i x; exact congrFun hc (i, x))) ((maxwell_iff h3 h2 _ _).1 hr)
    exact ⟨b1, c, by funext i x; exact congrFun b2 (i, x)⟩

/-- **C175.** The slopes of a nondegenerate band of a lossless structure, in all directions at once: the group velocity is the flux of the Poynting vector over the energy,
a change of the medium (also a lossy one) shifts the frequency by `-ω/2 ∫ dε |E|² / ∫ ε |E|²`, and the frequency stays real as long as the medium is lossless. -/
theorem C175_slopes {k₀ : Fin 3 → ℝ} {G : Matrix (Fin 3) (Fin 3) ℝ} (hk : Generic k₀ G sh) {eps₀ : VField sh ℂ} (he : PosReal eps₀) {ω₀ : ℝ} (hω : 0 < ω₀) {h₀ : Hmn sh} (h0 : h₀ ≠ 0)
    {E₀ H₀ : VField sh ℂ} (hb : maxwellOperator k₀ G eps₀ h₀ = some (-(ω₀ : ℂ) ^ 2 • h₀)) (hE : hmn2exyz k₀ G eps₀ h₀ = some E₀) (hH : hmn2hxyz k₀ G h₀ = some H₀)
    (hone : ∀ u, maxwellOperator k₀ G eps₀ u = some (-(ω₀ : ℂ) ^ 2 • u) → ∃ c : ℂ, u = c • h₀) :
    ∃ ω h, ∃ L : (Fin 3 → ℝ) × VField sh ℂ →L[ℝ] ℂ, BandBranch G (k₀, eps₀) ω₀ h₀ ω h ∧ HasFDerivAt ω L (k₀, eps₀) ∧
      (∀ᶠ q in 𝓝 (k₀, eps₀), PosReal q.2 → (ω q).im = 0) ∧
      let Ep : VField sh ℂ := fun c x => -(E₀ c x) / ω₀
      let W := ∑ c, ∑ x, (eps₀ c x).re * normSq (Ep c x)
      W = ∑ c, ∑ x, normSq (H₀ c x) ∧
      ∀ (δk : Fin 3 → ℝ) (δε : VField sh ℂ), L (δk, δε) = ((cellFlux (G *ᵥ δk) Ep H₀).re / W : ℝ) - ω₀ / 2 * ((∑ c, ∑ x, δε c x * normSq (Ep c x)) / (W : ℂ)) := by
  have hne : ∀ c x, eps₀ c x ≠ 0 := fun c x => by
    obtain ⟨r, hr, e⟩ := he c x
    rw [e]; exact_mod_cast hr.ne'
  obtain ⟨ω, h, B⟩ := C175_branch hk he (ofReal_ne_zero.2 hω.ne') h0 hb hone
  have hgen : ∀ᶠ q : (Fin 3 → ℝ) × VField sh ℂ in 𝓝 (k₀, eps₀), Generic q.1 G sh := (continuousAt_fst (p := (k₀, eps₀))).eventually (near_generic hk)
  have hnz : ∀ᶠ q : (Fin 3 → ℝ) × VField sh ℂ in 𝓝 (k₀, eps₀), h q ≠ 0 := by
    obtain ⟨i, hi⟩ := Function.ne_iff.1 h0
    obtain ⟨x, hx⟩ := Function.ne_iff.1 hi
    have : ∀ᶠ q : (Fin 3 → ℝ) × VField sh ℂ in 𝓝 (k₀, eps₀), h q i x ≠ 0 := (B.field_analytic i x).continuousAt.eventually_ne (by rw [B.field_start]; exact hx)
    filter_upwards [this] with q hq hc
    exact hq (by rw [hc]; rfl)
  have hreal : ∀ᶠ q in 𝓝 (k₀, eps₀), PosReal q.2 → (ω q).im = 0 := by
    filter_upwards [hgen, hnz, B.band] with q h1 h2 h3 h4
    obtain ⟨op, o1, -, -, o4⟩ := C59_hermitian_partial q.1 G ((generic_good h1).regular q.1 G) h4
    obtain ⟨r1, r2⟩ := o4 _ _ h2 (Option.some.inj ((o1 (h q)).symm.trans h3))
    rw [neg_im, sq, mul_im, neg_eq_zero] at r1
    rw [neg_re, sq, mul_re, neg_nonpos] at r2
    have r3 : (ω q).re * (ω q).im = 0 := by linarith
    rcases mul_eq_zero.1 r3 with h | h
    · rw [h] at r2
      nlinarith [mul_self_nonneg (ω q).im]
    · exact h
  have hd : HasFDerivAt ω (fderiv ℝ ω (k₀, eps₀)) (k₀, eps₀) := (B.analytic.differentiableAt (by simp)).hasFDerivAt
  have hexy : ∀ {k : Fin 3 → ℝ} {eps : VField sh ℂ}, Generic k G sh → (∀ c x, eps c x ≠ 0) → ∀ u, hmn2exyz k G eps u = some ((hmn2exyz k G eps u).getD 0) := by
    intro k eps h1 h2 u
    unfold hmn2exyz
    rw [if_neg (by push Not; exact h2), nAll_getD h1]; rfl
  have hhxy : ∀ {k : Fin 3 → ℝ}, Generic k G sh → ∀ u : Hmn sh, hmn2hxyz k G u = some fun c => ifftn fun x => mVec k G x c * u 0 x + (nVec k G x).getD 0 c * u 1 x := by
    intro k h1 u
    unfold hmn2hxyz
    rw [nAll_getD h1]; rfl
  -- along the Bloch vector
  have dk : ∀ δk : Fin 3 → ℝ, let Ep : VField sh ℂ := fun c x => -(E₀ c x) / ω₀
      let W := ∑ c, ∑ x, (eps₀ c x).re * normSq (Ep c x)
      W = ∑ c, ∑ x, normSq (H₀ c x) ∧ fderiv ℝ ω (k₀, eps₀) (δk, 0) = (((cellFlux (G *ᵥ δk) Ep H₀).re / W : ℝ) : ℂ) := by
    intro δk Ep W
    have hl : HasDerivAt (fun t : ℝ => ((k₀ + t • δk, eps₀) : (Fin 3 → ℝ) × VField sh ℂ)) (δk, 0) 0 := by
      refine HasDerivAt.prodMk ?_ (hasDerivAt_const _ _)
      simpa using ((hasDerivAt_id (0 : ℝ)).smul_const δk).const_add k₀
    have z : ((k₀ + (0 : ℝ) • δk, eps₀) : (Fin 3 → ℝ) × VField sh ℂ) = (k₀, eps₀) := by simp
    have zk : k₀ + (0 : ℝ) • δk = k₀ := by simp
    have ht : Filter.Tendsto (fun t : ℝ => ((k₀ + t • δk, eps₀) : (Fin 3 → ℝ) × VField sh ℂ)) (𝓝 0) (𝓝 (k₀, eps₀)) := by have := hl.continuousAt.tendsto; rwa [z] at this
    have hd' : HasDerivAt (fun t : ℝ => ω (k₀ + t • δk, eps₀)) (fderiv ℝ ω (k₀, eps₀) (δk, 0)) 0 := by
      rw [← z] at hd
      have := hd.comp_hasDerivAt (0 : ℝ) hl
      rw [z] at this
      exact this
    have hre : ∀ᶠ t : ℝ in 𝓝 0, (((ω (k₀ + t • δk, eps₀)).re : ℝ) : ℂ) = ω (k₀ + t • δk, eps₀) := by
      filter_upwards [ht.eventually hreal] with t h1
      exact Complex.ext (by simp) (by simp [h1 he])
    have hpos : ∀ᶠ t : ℝ in 𝓝 0, 0 < (ω (k₀ + t • δk, eps₀)).re := by
      have : ContinuousAt (fun t : ℝ => (ω (k₀ + t • δk, eps₀)).re) 0 := continuous_re.continuousAt.comp hd'.continuousAt
      refine this.eventually (lt_mem_nhds ?_)
      simp only [z, B.start, ofReal_re]; exact hω
    have key := C113_group_velocity_partial (k0 := k₀) (delta := δk) (G := G) he (lam := fun t => -(ω (k₀ + t • δk, eps₀)).re ^ 2) (h := fun t => h (k₀ + t • δk, eps₀))
      (E := fun t => (hmn2exyz (k₀ + t • δk) G eps₀ (h (k₀ + t • δk, eps₀))).getD 0)
      (H := fun t => (hmn2hxyz (k₀ + t • δk) G (h (k₀ + t • δk, eps₀))).getD 0)
      ?_ ?_ ?_ ?_ hω (by simp only [z, B.start, ofReal_re])
    · simp only [zk, B.field_start, hE, hH, Option.getD_some] at key
      obtain ⟨k1, k2⟩ := key
      refine ⟨k1, ?_⟩
      have h3 := k2.ofReal_comp
      have h4 : HasDerivAt (fun t : ℝ => ω (k₀ + t • δk, eps₀)) (((cellFlux (G *ᵥ δk) Ep H₀).re / ((W + ∑ c, ∑ x, normSq (H₀ c x)) / 2) : ℝ) : ℂ) 0 := by
        refine h3.congr_of_eventuallyEq ?_
        filter_upwards [hre, hpos] with t r1 r2
        simp only [neg_neg]
        rw [Real.sqrt_sq r2.le, r1]
      rw [hd'.unique h4, ← k1]
      congr 2
      show _ = W
      ring
    · filter_upwards [ht.eventually hgen] with t h1
      exact generic_good h1
    · filter_upwards [ht.eventually hgen, ht.eventually B.band, hre] with t h1 h2 h3
      refine ⟨?_, hexy h1 hne _, by rw [hhxy h1]; rfl⟩
      rw [h2]
      congr 2
      push_cast
      rw [h3]
    · intro c x
      have hkx := (generic_iff k₀ G).1 hk
      have hkt : Filter.Tendsto (fun t : ℝ => k₀ + t • δk) (𝓝 0) (𝓝 k₀) := (continuous_fst.tendsto _).comp ht
      have e0 : (hmn2hxyz (k₀ + (0 : ℝ) • δk) G (h (k₀ + (0 : ℝ) • δk, eps₀))).getD 0 c x
          = ifftn (fun x => mVec (k₀ + (0 : ℝ) • δk) G x c * h (k₀ + (0 : ℝ) • δk, eps₀) 0 x + (nVec (k₀ + (0 : ℝ) • δk) G x).getD 0 c * h (k₀ + (0 : ℝ) • δk, eps₀) 1 x) x := by
        rw [hhxy (by rw [zk]; exact hk)]; rfl
      rw [e0]
      have ev : (fun t : ℝ => ifftn (fun x => mVec (k₀ + t • δk) G x c * h (k₀ + t • δk, eps₀) 0 x + (nVec (k₀ + t • δk) G x).getD 0 c * h (k₀ + t • δk, eps₀) 1 x) x)
          =ᶠ[𝓝 0] fun t => (hmn2hxyz (k₀ + t • δk) G (h (k₀ + t • δk, eps₀))).getD 0 c x := by
        filter_upwards [ht.eventually hgen] with t h1
        rw [hhxy h1]; rfl
      refine Filter.Tendsto.congr' ev (tendsto_ifftn (fun l => ?_) x)
      have hhc : ∀ i, Filter.Tendsto (fun t : ℝ => h (k₀ + t • δk, eps₀) i l) (𝓝 0) (𝓝 (h (k₀ + (0 : ℝ) • δk, eps₀) i l)) := fun i => by
        rw [z]; exact (B.field_analytic i l).continuousAt.tendsto.comp ht
      have hmc : Filter.Tendsto (fun t : ℝ => ((mVec (k₀ + t • δk) G l c : ℝ) : ℂ)) (𝓝 0) (𝓝 (mVec (k₀ + (0 : ℝ) • δk) G l c : ℂ)) := by
        rw [zk]; exact (continuous_ofReal.tendsto _).comp ((contDiffAt_pi.1 (smooth_m (hkx l)) c).continuousAt.tendsto.comp hkt)
      have hnc : Filter.Tendsto (fun t : ℝ => (((nVec (k₀ + t • δk) G l).getD 0 c : ℝ) : ℂ)) (𝓝 0) (𝓝 ((nVec (k₀ + (0 : ℝ) • δk) G l).getD 0 c : ℂ)) := by
        rw [zk]; exact (continuous_ofReal.tendsto _).comp ((contDiffAt_pi.1 (smooth_n (hkx l)) c).continuousAt.tendsto.comp hkt)
      exact (hmc.mul (hhc 0)).add (hnc.mul (hhc 1))
    · simp only [zk, B.field_start, hH, Option.getD_some]
      intro hc
      have hm : IsMode k₀ G eps₀ (-ω₀ ^ 2) h₀ E₀ H₀ := ⟨by rw [hb]; push_cast; rfl, hE, hH⟩
      have hE0 : E₀ = 0 := by
        funext c x
        rw [hm.e_eq (generic_good hk) hne c x, hc]
        have : (fun l => cross (fun a => (kxyz k₀ G l a : ℂ)) (fun a => fftn ((0 : VField sh ℂ) a) l) c) = 0 := by
          funext l
          have : ∀ a, fftn ((0 : VField sh ℂ) a) l = 0 := fun a => by simp [fftn]
          simp only [this]
          fin_cases c <;> simp [cross]
        rw [this]
        simp [ifftn]
      have hen := IsBand.energy he (⟨hb, hE⟩ : IsBand k₀ G eps₀ _ h₀ E₀)
      rw [hE0] at hen
      simp only [Pi.zero_apply, map_zero, mul_zero, Finset.sum_const_zero, ofReal_zero, neg_zero] at hen
      have hz' : ∑ i, ∑ x, normSq (h₀ i x) = 0 := by
        rcases mul_eq_zero.1 hen with h | h
        · exact absurd h (neg_ne_zero.2 (pow_ne_zero 2 (ofReal_ne_zero.2 hω.ne')))
        · exact_mod_cast h
      apply h0
      funext i x
      have z1 := (Finset.sum_eq_zero_iff_of_nonneg fun i _ => Finset.sum_nonneg fun x _ => normSq_nonneg (h₀ i x)).1 hz' i (Finset.mem_univ i)
      exact normSq_eq_zero.1 ((Finset.sum_eq_zero_iff_of_nonneg fun x _ => normSq_nonneg (h₀ i x)).1 z1 x (Finset.mem_univ x))
  -- along the medium
  have de : ∀ δε : VField sh ℂ, fderiv ℝ ω (k₀, eps₀) (0, δε) = -(ω₀ : ℂ) / 2 * ((∑ c, ∑ x, δε c x * normSq (E₀ c x)) / ((∑ c, ∑ x, (eps₀ c x).re * normSq (E₀ c x) : ℝ) : ℂ)) := by
    intro δε
    have hl : HasDerivAt (fun t : ℝ => ((k₀, eps₀ + t • δε) : (Fin 3 → ℝ) × VField sh ℂ)) (0, δε) 0 := by
      refine (hasDerivAt_const _ _).prodMk ?_
      simpa using ((hasDerivAt_id (0 : ℝ)).smul_const δε).const_add eps₀
    have ze : eps₀ + (0 : ℝ) • δε = eps₀ := by simp
    have ht : Filter.Tendsto (fun t : ℝ => ((k₀, eps₀ + t • δε) : (Fin 3 → ℝ) × VField sh ℂ)) (𝓝 0) (𝓝 (k₀, eps₀)) := by have := hl.continuousAt.tendsto; rwa [ze] at this
    have hd' : HasDerivAt (fun t : ℝ => ω (k₀, eps₀ + t • δε)) (fderiv ℝ ω (k₀, eps₀) (0, δε)) 0 := by
      have hd2 : HasFDerivAt ω (fderiv ℝ ω (k₀, eps₀)) (k₀, eps₀ + (0 : ℝ) • δε) := by rw [ze]; exact hd
      exact hd2.comp_hasDerivAt (0 : ℝ) hl
    have hline : ∀ c x, HasDerivAt (fun t : ℝ => (eps₀ + t • δε) c x) (δε c x) 0 := fun c x => by
      have : HasDerivAt (fun t : ℝ => eps₀ c x + t • δε c x) (δε c x) 0 := by simpa using ((hasDerivAt_id (0 : ℝ)).smul_const (δε c x)).const_add (eps₀ c x)
      exact this
    have ne1 : ∀ᶠ t : ℝ in 𝓝 0, ∀ c x, (eps₀ + t • δε) c x ≠ 0 :=
      Filter.eventually_all.2 fun c => Filter.eventually_all.2 fun x => (hline c x).continuousAt.eventually_ne (by rw [ze]; exact hne c x)
    have key := C136_frequency (k0 := k₀) (G := G) (eps := fun t => eps₀ + t • δε) (by rw [ze]; exact he) δε hline (ω := fun t => ω (k₀, eps₀ + t • δε))
      (h := fun t => h (k₀, eps₀ + t • δε)) (E := fun t => (hmn2exyz k₀ G (eps₀ + t • δε) (h (k₀, eps₀ + t • δε))).getD 0) hd'.continuousAt
      (by simp only [ze, B.start]; exact ofReal_ne_zero.2 hω.ne') ?_ ?_ (by simp only [ze, B.field_start]; exact h0)
    · simp only [ze, B.start, B.field_start, hE, Option.getD_some] at key
      exact hd'.unique key
    · filter_upwards [ht.eventually B.band, ne1] with t h1 h2
      exact ⟨h1, hexy hk h2 _⟩
    · intro i x
      have := (B.field_analytic i x).continuousAt.tendsto.comp ht
      show Filter.Tendsto _ _ (𝓝 (h (k₀, eps₀ + (0 : ℝ) • δε) i x))
      rw [ze]
      exact this
  refine ⟨ω, h, _, B, hd, hreal, ?_⟩
  intro Ep W
  refine ⟨(dk 0).1, fun δk δε => ?_⟩
  have hsplit : ((δk, δε) : (Fin 3 → ℝ) × VField sh ℂ) = (δk, 0) + (0, δε) := by simp
  rw [hsplit, map_add, de δε]
  have hk1 : fderiv ℝ ω (k₀, eps₀) (δk, 0) = (((cellFlux (G *ᵥ δk) Ep H₀).re / W : ℝ) : ℂ) := (dk δk).2
  rw [hk1, sub_eq_add_neg]
  congr 1
  have hw0 : (ω₀ : ℂ) ≠ 0 := ofReal_ne_zero.2 hω.ne'
  have hn : ∀ c x, normSq (Ep c x) = (ω₀ ^ 2)⁻¹ * normSq (E₀ c x) := fun c x => by
    show normSq (-(E₀ c x) / ω₀) = _
    rw [normSq_div, normSq_neg, normSq_ofReal]
    field_simp
  have e1 : ∑ c, ∑ x, δε c x * (normSq (Ep c x) : ℂ) = ((ω₀ : ℂ) ^ 2)⁻¹ * ∑ c, ∑ x, δε c x * normSq (E₀ c x) := by
    simp only [hn, Finset.mul_sum]
    exact Finset.sum_congr rfl fun c _ => Finset.sum_congr rfl fun x _ => by push_cast; ring
  have e2 : (W : ℂ) = ((ω₀ : ℂ) ^ 2)⁻¹ * ((∑ c, ∑ x, (eps₀ c x).re * normSq (E₀ c x) : ℝ) : ℂ) := by
    have : W = (ω₀ ^ 2)⁻¹ * ∑ c, ∑ x, (eps₀ c x).re * normSq (E₀ c x) := by
      show ∑ c, ∑ x, (eps₀ c x).re * normSq (Ep c x) = _
      simp only [hn, Finset.mul_sum]
      exact Finset.sum_congr rfl fun c _ => Finset.sum_congr rfl fun x _ => by ring
    rw [this]; push_cast; rfl
  rw [e1, e2, mul_div_mul_left _ _ (inv_ne_zero (pow_ne_zero 2 hw0))]
  ring

/-- A row of any number of cells along x, filled with a uniform medium with index 2 for `E_y` and 1 otherwise, at the Bloch vector `(1/4, 0, 0)`: the lowest band of `E_z` has
`ω = 1/4` and no other band does. So all hypotheses are met. -/
example (hx : 0 < sh 0) (hy : sh 1 = 1) (hz : sh 2 = 1) :
    let k₀ : Fin 3 → ℝ := fun c => if c = 0 then 1 / 4 else 0
    let eps : VField sh ℂ := fun c _ => if c = 1 then 4 else 1
    Generic k₀ 1 sh ∧ PosReal eps ∧ ∃ (h₀ : Hmn sh) (E₀ H₀ : VField sh ℂ), h₀ ≠ 0 ∧ maxwellOperator k₀ 1 eps h₀ = some (-((1 / 4 : ℝ) : ℂ) ^ 2 • h₀) ∧
      hmn2exyz k₀ 1 eps h₀ = some E₀ ∧ hmn2hxyz k₀ 1 h₀ = some H₀ ∧ ∀ u, maxwellOperator k₀ 1 eps u = some (-((1 / 4 : ℝ) : ℂ) ^ 2 • u) → ∃ c : ℂ, u = c • h₀ := by
  intro k₀ eps
  have hkx : ∀ x : Idx sh, kxyz k₀ 1 x = fun c => if c = 0 then 1 / 4 - (fftfreq (sh 0) (x 0) : ℝ) else 0 := by
    intro x
    unfold kxyz
    rw [one_mulVec]
    funext c
    have f1 : ∀ a, sh a = 1 → fftfreq (sh a) (x a) = 0 := fun a ha => by
      have : ((x a : Fin (sh a)) : ℕ) = 0 := by have := (x a).2; omega
      unfold fftfreq; rw [if_pos (by rw [this, ha]; norm_num), this]; rfl
    fin_cases c
    · simp [k₀]
    · simp [k₀, f1 1 hy]
    · simp [k₀, f1 2 hz]
  set w : Idx sh → ℝ := fun x => 1 / 4 - (fftfreq (sh 0) (x 0) : ℝ) with hw
  replace hkx : ∀ x : Idx sh, kxyz k₀ 1 x = fun c => if c = 0 then w x else 0 := hkx
  have hint : ∀ (g : ℤ) (r : ℤ), (1 / 4 - (g : ℝ)) ≠ r / 2 := fun g r h => by
    have : (2 * r + 4 * g : ℝ) = 1 := by linarith
    have : 2 * r + 4 * g = 1 := by exact_mod_cast this
    omega
  have hw0 : ∀ x, w x ≠ 0 := fun x h => hint (fftfreq (sh 0) (x 0)) 0 (by simpa [hw] using h)
  have hgen : Generic k₀ 1 sh := (generic_iff k₀ 1).2 fun x => by rw [hkx]; simpa using hw0 x
  have hpos : PosReal eps := fun c x => by
    by_cases hc : c = 1
    · exact ⟨4, by norm_num, by simp [eps, hc]⟩
    · exact ⟨1, by norm_num, by simp [eps, hc]⟩
  have hne : ∀ c x, eps c x ≠ 0 := fun c x => by
    obtain ⟨r, hr, e⟩ := hpos c x
    rw [e]; exact_mod_cast hr.ne'
  have hmag : ∀ x : Idx sh, kMag k₀ 1 x = |w x| := fun x => by
    unfold kMag norm3
    rw [hkx, Fin.sum_univ_three]
    simp [Real.sqrt_sq_eq_abs]
  have hm : ∀ x : Idx sh, mVec k₀ 1 x = fun c => if c = 1 then -(w x) / |w x| else 0 := fun x => by
    rw [mVec_pos k₀ 1 (by rw [hkx]; simpa using hw0 x), hkx]
    have : cross (fun c => if c = 0 then w x else 0) ez = fun c => if c = 1 then -(w x) else 0 := by
      funext c; fin_cases c <;> simp [cross, ez]
    funext c
    show cross (fun c => if c = 0 then w x else 0) ez c / norm3 (cross (fun c => if c = 0 then w x else 0) ez) = _
    rw [this, norm3, Fin.sum_univ_three]
    by_cases hc : c = 1 <;> simp [hc, Real.sqrt_sq_eq_abs]
  have hn : ∀ x : Idx sh, (nVec k₀ 1 x).getD 0 = fun c => if c = 2 then -1 else 0 := fun x => by
    have ha : |w x| ≠ 0 := abs_ne_zero.2 (hw0 x)
    rw [(nVec_pos (by rw [hkx]; simpa using hw0 x)).2, Option.getD_some, hkx, hm]
    have : cross (fun c => if c = 0 then w x else 0) (fun c : Fin 3 => if c = 1 then -(w x) / |w x| else 0) = fun c => if c = 2 then -|w x| else 0 := by
      funext c; fin_cases c <;> simp [cross]
      rw [mul_div_assoc', div_eq_iff ha, mul_neg, neg_mul, abs_mul_abs_self]
    funext c
    show cross (fun c => if c = 0 then w x else 0) (fun c : Fin 3 => if c = 1 then -(w x) / |w x| else 0) c / norm3 (cross (fun c => if c = 0 then w x else 0) (fun c : Fin 3 => if c = 1 then -(w x) / |w x| else 0)) = _
    rw [this, norm3, Fin.sum_univ_three]
    by_cases hc : c = 2 <;> simp [hc, Real.sqrt_sq_eq_abs, ha]
  have hop : ∀ u : Hmn sh, maxwellOperator k₀ 1 eps u = some fun i x => -(w x) ^ 2 * (if i = 0 then 1 else 1 / 4) * u i x := fun u => by
    obtain ⟨b, b1, b2, b3⟩ := maxwell_eq k₀ 1 (nAll_getD hgen) hne u
    rw [b1]
    congr 1
    have hf : ∀ c x, fftn (fun y => ifftn (dXyz k₀ 1 (fun x => (nVec k₀ 1 x).getD 0) u c) y / eps c y) x = dXyz k₀ 1 (fun x => (nVec k₀ 1 x).getD 0) u c x / (if c = 1 then 4 else 1) := fun c x => by
      have : (fun y => ifftn (dXyz k₀ 1 (fun x => (nVec k₀ 1 x).getD 0) u c) y / eps c y) = fun y => (if c = 1 then 4 else 1 : ℂ)⁻¹ * ifftn (dXyz k₀ 1 (fun x => (nVec k₀ 1 x).getD 0) u c) y := by
        funext y; simp only [eps]; ring
      rw [this, fftn_smul, fftn_ifftn]; ring
    have hab : ∀ x, ((|w x| : ℝ) : ℂ) * ((|w x| : ℝ) : ℂ) = (w x : ℂ) ^ 2 := fun x => by rw [← ofReal_mul, abs_mul_abs_self, ofReal_mul]; ring
    have hsg : ∀ x, ((w x : ℂ) / ((|w x| : ℝ) : ℂ)) * ((w x : ℂ) / ((|w x| : ℝ) : ℂ)) = 1 := fun x => by
      rw [div_mul_div_comm, hab, sq, div_self (mul_ne_zero (ofReal_ne_zero.2 (hw0 x)) (ofReal_ne_zero.2 (hw0 x)))]
    funext i x
    fin_cases i
    · show b 0 x = _
      rw [b2]
      simp only [hf]
      simp only [dXyz, hn, hm, hmag, Fin.sum_univ_three]
      simp
      linear_combination (hab x) * u 0 x
    · show b 1 x = _
      rw [b3]
      simp only [hf]
      simp only [dXyz, hn, hm, hmag, Fin.sum_univ_three]
      simp
      linear_combination -(hab x) * u 1 x / 4 - (hsg x) * u 1 x * ((|w x| : ℝ) : ℂ) ^ 2 / 4
  have hf0 : ∀ x : Idx sh, fftfreq (sh 0) (x 0) = 0 → x = fun a => ⟨0, by fin_cases a <;> simp [hx, hy, hz]⟩ := by
    intro x h
    have h0 : ((x 0 : Fin (sh 0)) : ℕ) = 0 := by
      have := (x 0).2
      unfold fftfreq at h
      split_ifs at h <;> omega
    funext a
    apply Fin.ext
    have h1 : ((x 1 : Fin (sh 1)) : ℕ) = 0 := by have := (x 1).2; omega
    have h2 : ((x 2 : Fin (sh 2)) : ℕ) = 0 := by have := (x 2).2; omega
    fin_cases a <;> assumption
  have hf00 : ∀ h, fftfreq (sh 0) (⟨0, h⟩ : Fin (sh 0)) = 0 := fun h => by unfold fftfreq; simp
  let o : Idx sh := fun a => ⟨0, by fin_cases a <;> simp [hx, hy, hz]⟩
  have hwo : w o = 1 / 4 := by
    have : fftfreq (sh 0) (o 0) = 0 := hf00 _
    simp [hw, this]
  have hvec := nAll_getD hgen
  refine ⟨hgen, hpos, fun i x => if i = 0 ∧ x = o then 1 else 0, ?_⟩
  have hfull : ∀ h : Hmn sh, ∃ E, hmn2exyz k₀ 1 eps h = some E := fun h => by
    unfold hmn2exyz; rw [if_neg (by push Not; exact hne), hvec]; exact ⟨_, rfl⟩
  have hfulh : ∀ h : Hmn sh, ∃ E, hmn2hxyz k₀ 1 h = some E := fun h => by
    unfold hmn2hxyz; rw [hvec]; exact ⟨_, rfl⟩
  obtain ⟨E, hE⟩ := hfull (fun i x => if i = 0 ∧ x = o then 1 else 0)
  obtain ⟨H, hH⟩ := hfulh (fun i x => if i = 0 ∧ x = o then 1 else 0)
  refine ⟨E, H, fun h => by simpa using congrFun (congrFun h 0) o, ?_, hE, hH, ?_⟩
  · rw [hop]
    congr 1
    funext i x
    by_cases h : i = 0 ∧ x = o
    · obtain ⟨rfl, rfl⟩ := h
      simp [hwo]
    · simp [h]
  · intro u hu
    rw [hop] at hu
    have hu' := fun i x => congrFun (congrFun (Option.some.inj hu) i) x
    refine ⟨u 0 o, ?_⟩
    funext i x
    have := hu' i x
    simp only [Pi.smul_apply, smul_eq_mul] at this ⊢
    by_cases h : i = 0 ∧ x = o
    · obtain ⟨rfl, rfl⟩ := h
      simp
    · rw [if_neg h, mul_zero]
      by_contra hne0
      have h2 : -(w x : ℂ) ^ 2 * (if i = 0 then 1 else 1 / 4) = -((1 / 4 : ℝ) : ℂ) ^ 2 := mul_right_cancel₀ hne0 this
      by_cases hi : i = 0
      · rw [if_pos hi, mul_one, neg_inj, ← ofReal_pow, ← ofReal_pow, ofReal_inj, sq_eq_sq_iff_eq_or_eq_neg] at h2
        rcases h2 with h2 | h2
        · exact h ⟨hi, hf0 x (by have : ((fftfreq (sh 0) (x 0) : ℤ) : ℝ) = 0 := by simp only [hw] at h2; linarith
                                 exact_mod_cast this)⟩
        · have h3 : (2 * (fftfreq (sh 0) (x 0) : ℤ) : ℝ) = 1 := by simp only [hw] at h2; linarith
          have h4 : 2 * fftfreq (sh 0) (x 0) = 1 := by exact_mod_cast h3
          omega
      · rw [if_neg hi] at h2
        have h3 : (w x : ℂ) ^ 2 = ((1 / 2 : ℝ) : ℂ) ^ 2 := by push_cast at h2 ⊢; linear_combination -4 * h2
        rw [← ofReal_pow, ← ofReal_pow, ofReal_inj, sq_eq_sq_iff_eq_or_eq_neg] at h3
        rcases h3 with h3 | h3
        · exact hint (fftfreq (sh 0) (x 0)) 1 (by simpa [hw] using h3)
        · exact hint (fftfreq (sh 0) (x 0)) (-1) (by simp only [hw] at h3; push_cast; linarith)

end Meanas.Props
