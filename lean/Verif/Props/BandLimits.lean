/-
C165: limits of the bands that `maxwell_operator` has on finer and finer grids are bands of the crystal; no spurious bands appear.
-/
import Verif.Props.BandConvergence
import Mathlib.Analysis.Normed.Group.Tannery
import Mathlib.Topology.Sequences
import Mathlib.Data.Pi.Interval
import Mathlib.Data.Int.Interval

namespace Meanas.Props

open Complex Matrix Meanas.Bloch LipAux
open scoped ComplexOrder Topology

/-! ### Specification -/

/-- A mode of the crystal in the sense of Fourier coefficients, with the squared frequency `lam`: `eta c` are the coefficients of `1/eps c`, the curl of
the magnetic field is square summable, and `k × (eta * (k × h)) = -lam h`. -/
structure WeakMode (k0 : Fin 3 → ℝ) (G : Matrix (Fin 3) (Fin 3) ℝ) (eta : Fin 3 → (Fin 3 → ℤ) → ℂ) (lam : ℝ) (h : (Fin 3 → ℤ) → Fin 3 → ℂ) : Prop where
  finite_energy : ∀ c, Summable fun g => normSq (cross (fun a => (waveVec k0 G g a : ℂ)) (h g) c)
  transverse : ∀ g, ∑ a, (waveVec k0 G g a : ℂ) * h g a = 0
  curl_curl : ∀ g c, cross (fun a => (waveVec k0 G g a : ℂ))
    (fun a => ∑' q, eta a q * cross (fun b => (waveVec k0 G (g - q) b : ℂ)) (h (g - q)) a) c = -(lam : ℂ) * h g c

/-- `eta` are the coefficients of `1/eps`. -/
def IsInverse (eps : Fin 3 → (Fin 3 → ℝ) → ℝ) (eta : Fin 3 → (Fin 3 → ℤ) → ℂ) : Prop :=
  ∀ c, (Summable fun q => ‖eta c q‖) ∧ ∀ s, ((eps c s : ℂ))⁻¹ = ∑' q, eta c q * bandWave q s

/-! ### Eigenvectors on one grid -/

section
variable {sh : Fin 3 → ℕ} {k0 : Fin 3 → ℝ} {G : Matrix (Fin 3) (Fin 3) ℝ}

/-- The coefficients of the magnetic field of a vector, at the plane wave of each cell. -/
noncomputable def gridField (k0 : Fin 3 → ℝ) (G : Matrix (Fin 3) (Fin 3) ℝ) (v : Fin 2 × Idx sh → ℂ) (x : Idx sh) (c : Fin 3) : ℂ :=
  (mVec k0 G x c : ℂ) * v (0, x) + ((((nVec k0 G x).getD 0) c : ℝ) : ℂ) * v (1, x)

/-- They are the Fourier coefficients of the field that `hmn_2_hxyz` returns. -/
theorem gridField_hxyz (hr : Regular k0 G sh) (u : Hmn sh) : ∃ H, hmn2hxyz k0 G u = some H ∧ ∀ c x, fftn (H c) x = gridField k0 G (fun p => u p.1 p.2) x c := by
  obtain ⟨n, hn, hx⟩ := nAll_regular k0 G hr
  refine ⟨_, by unfold hmn2hxyz; rw [hn]; rfl, fun c x => ?_⟩
  rw [fftn_ifftn, gridField, hx x]
  rfl

theorem bandWave_add (g q : Fin 3 → ℤ) (s : Fin 3 → ℝ) : bandWave (g + q) s = bandWave g s * bandWave q s := by
  unfold bandWave
  rw [← exp_add]
  congr 1
  simp only [Pi.add_apply, Fin.sum_univ_three]
  push_cast
  ring

theorem cellFor_eq_of_dvd (hs : ∀ a, 0 < sh a) {g q : Fin 3 → ℤ} (h : ∀ a, (sh a : ℤ) ∣ g a - q a) : cellFor hs g = cellFor hs q := by
  funext a
  apply Fin.ext
  show (g a % (sh a : ℤ)).toNat = (q a % (sh a : ℤ)).toNat
  have h1 : q a % (sh a : ℤ) = g a % (sh a : ℤ) := Int.modEq_iff_dvd.2 (h a)
  rw [h1]


/-- Multiplication by a plane wave shifts the coefficients cyclically. -/
theorem shift_ifftn (hs : ∀ a, 0 < sh a) (q : Fin 3 → ℤ) (D : Arr sh ℂ) (y : Idx sh) :
    chi (cellFor hs q) y * ifftn D y = ifftn (fun x => D (cellFor hs (freqOf x - q))) y := by
  unfold ifftn
  rw [mul_div_assoc', Finset.mul_sum]
  congr 1
  let σ : Idx sh ≃ Idx sh :=
    { toFun := fun k => cellFor hs (freqOf k + q)
      invFun := fun k => cellFor hs (freqOf k - q)
      left_inv := fun k => by
        conv_rhs => rw [← cellFor_freqOf hs k]
        refine cellFor_eq_of_dvd hs fun a => ?_
        have h1 := dvd_sub (freqOf_dvd (cellFor hs (freqOf k + q)) a) (cellFor_dvd hs (freqOf k + q) a)
        have e : freqOf (cellFor hs (freqOf k + q)) a - ((cellFor hs (freqOf k + q) a : ℕ) : ℤ) - ((freqOf k + q) a - ((cellFor hs (freqOf k + q) a : ℕ) : ℤ))
            = (freqOf (cellFor hs (freqOf k + q)) - q) a - freqOf k a := by simp only [Pi.add_apply, Pi.sub_apply]; ring
        rwa [e] at h1
      right_inv := fun k => by
        conv_rhs => rw [← cellFor_freqOf hs k]
        refine cellFor_eq_of_dvd hs fun a => ?_
        have h1 := dvd_sub (freqOf_dvd (cellFor hs (freqOf k - q)) a) (cellFor_dvd hs (freqOf k - q) a)
        have e : freqOf (cellFor hs (freqOf k - q)) a - ((cellFor hs (freqOf k - q) a : ℕ) : ℤ) - ((freqOf k - q) a - ((cellFor hs (freqOf k - q) a : ℕ) : ℤ))
            = (freqOf (cellFor hs (freqOf k - q)) + q) a - freqOf k a := by simp only [Pi.add_apply, Pi.sub_apply]; ring
        rwa [e] at h1 }
  refine Fintype.sum_equiv σ _ _ fun k => ?_
  have h1 : cellFor hs (freqOf (σ k) - q) = k := σ.left_inv k
  have h2 : chi (σ k) y = chi k y * chi (cellFor hs q) y := by
    show chi (cellFor hs (freqOf k + q)) y = _
    rw [← bandWave_cell hs, bandWave_add, bandWave_cell hs, bandWave_cell hs, cellFor_freqOf]
  show _ = chi (σ k) y * D (cellFor hs (freqOf (σ k) - q))
  rw [h1, h2]
  ring

/-- Division by the permittivity is a cyclic convolution. -/
theorem divide_eps (hs : ∀ a, 0 < sh a) {eta : (Fin 3 → ℤ) → ℂ} (hsum : Summable fun q => ‖eta q‖) {E : Arr sh ℂ}
    (hE : ∀ y : Idx sh, (E y)⁻¹ = ∑' q, eta q * bandWave q (fun a => (y a : ℕ) / (sh a : ℝ))) (D : Arr sh ℂ) (x : Idx sh) :
    fftn (fun y => ifftn D y / E y) x = ∑' q, eta q * D (cellFor hs (freqOf x - q)) := by
  have hchi : ∀ (k y : Idx sh), ‖chi k y‖ = 1 := by
    intro k y
    unfold chi
    rw [norm_prod]
    refine Finset.prod_eq_one fun a _ => ?_
    have e : (2 * Real.pi * I * (k a : ℕ) * (y a : ℕ) / (sh a : ℕ) : ℂ) = ((2 * Real.pi * (k a : ℕ) * (y a : ℕ) / (sh a : ℕ) : ℝ) : ℂ) * I := by
      push_cast
      ring
    rw [e, norm_exp_ofReal_mul_I]
  have h1 : ∀ y, (chi x y)⁻¹ * (ifftn D y / E y) = ∑' q, eta q * ((chi x y)⁻¹ * ifftn (fun x => D (cellFor hs (freqOf x - q))) y) := by
    intro y
    rw [div_eq_mul_inv, hE y, ← tsum_mul_left, ← tsum_mul_left]
    refine tsum_congr fun q => ?_
    rw [bandWave_cell hs, ← shift_ifftn hs]
    ring
  have h2 : ∀ y, Summable fun q => eta q * ((chi x y)⁻¹ * ifftn (fun x => D (cellFor hs (freqOf x - q))) y) := by
    intro y
    refine Summable.of_norm_bounded (g := fun q => ‖eta q‖ * ‖ifftn D y‖) (hsum.mul_right _) fun q => ?_
    rw [← shift_ifftn hs, norm_mul, norm_mul, norm_mul, norm_inv, hchi, hchi]
    simp
  unfold fftn
  simp only [h1]
  rw [← Summable.tsum_finsetSum fun y _ => h2 y]
  refine tsum_congr fun q => ?_
  rw [← Finset.mul_sum]
  congr 1
  exact congrFun (fftn_ifftn fun x => D (cellFor hs (freqOf x - q))) x

/-- What an eigenvector on a grid satisfies. -/
theorem grid_mode (hs : ∀ a, 0 < sh a) (hg : Good k0 G sh) {eps : Fin 3 → (Fin 3 → ℝ) → ℝ} {e1 : ℝ} (heps : ∀ c s, 0 < eps c s) (heps1 : ∀ c s, eps c s ≤ e1)
    {eta : Fin 3 → (Fin 3 → ℤ) → ℂ} (heta : IsInverse eps eta) {A : Matrix (Fin 2 × Idx sh) (Fin 2 × Idx sh) ℂ} (hA : IsMatrixOf k0 G (sampleEps eps sh) A)
    {lam : ℝ} {v : Fin 2 × Idx sh → ℂ} (hv : -A *ᵥ v = (lam : ℂ) • v) :
    (∀ x, ∑ c, normSq (gridField k0 G v x c) = normSq (v (0, x)) + normSq (v (1, x)))
    ∧ (∀ x, ∑ a, (kxyz k0 G x a : ℂ) * gridField k0 G v x a = 0)
    ∧ (∀ x c, cross (fun a => (kxyz k0 G x a : ℂ))
        (fun a => ∑' q, eta a q * cross (fun b => (kxyz k0 G (cellFor hs (freqOf x - q)) b : ℂ)) (gridField k0 G v (cellFor hs (freqOf x - q))) a) c = -(lam : ℂ) * gridField k0 G v x c)
    ∧ (∀ x, ∑ c, normSq (cross (fun a => (kxyz k0 G x a : ℂ)) (gridField k0 G v x) c) = norm3 (kxyz k0 G x) ^ 2 * ∑ c, normSq (gridField k0 G v x c))
    ∧ ∑ x, norm3 (kxyz k0 G x) ^ 2 * ∑ c, normSq (gridField k0 G v x c) ≤ e1 * (lam * ∑ p, normSq (v p)) := by
  obtain ⟨n, hn, hx⟩ := nAll_regular k0 G (hg.regular k0 G)
  have hp : PosReal (sampleEps eps sh) := fun c x => ⟨_, heps c _, rfl⟩
  have hne : ∀ c x, sampleEps eps sh c x ≠ 0 := fun c x => ofReal_ne_zero.2 (heps c _).ne'
  have hF : ∀ x c, gridField k0 G v x c = (mVec k0 G x c : ℂ) * v (0, x) + (n x c : ℂ) * v (1, x) := fun x c => by rw [gridField, hx x]; rfl
  let u : Hmn sh := fun i x => v (i, x)
  have P1 : ∀ x, ∑ c, normSq (gridField k0 G v x c) = normSq (v (0, x)) + normSq (v (1, x)) := by
    intro x
    obtain ⟨n1, n2, -⟩ := nVec_some k0 G (hx x)
    simp only [hF]
    exact pythagoras (mVec_unit k0 G x) n1 n2 _ _
  have hcr : ∀ x (c : Fin 3), cross (fun a => (kxyz k0 G x a : ℂ)) (fun a => (mVec k0 G x a : ℂ)) c = kMag k0 G x * n x c := by
    intro x c
    obtain ⟨f1, -⟩ := frame_cross k0 G (hx x) (hg x _ (kxyz_isWave k0 G x)) c
    rw [← ofReal_mul, ← f1]
    fin_cases c <;> simp [cross]
  have hm1 : ∀ x : Idx sh, (mVec k0 G x 0 : ℂ) ^ 2 + (mVec k0 G x 1 : ℂ) ^ 2 + (mVec k0 G x 2 : ℂ) ^ 2 = 1 := fun x => by exact_mod_cast mVec_unit k0 G x
  have hmk : ∀ x : Idx sh, (mVec k0 G x 0 : ℂ) * kxyz k0 G x 0 + (mVec k0 G x 1 : ℂ) * kxyz k0 G x 1 + (mVec k0 G x 2 : ℂ) * kxyz k0 G x 2 = 0 := fun x => by
    exact_mod_cast mVec_k k0 G x (hg x _ (kxyz_isWave k0 G x))
  have key := fun x w c => cross_frame (fun a => (kxyz k0 G x a : ℂ)) (fun a => (mVec k0 G x a : ℂ)) (fun a => (n x a : ℂ)) (kMag k0 G x) (hm1 x) (hmk x) (hcr x) w c
  have a1 : ∀ x, (n x 0 : ℂ) ^ 2 + (n x 1 : ℂ) ^ 2 + (n x 2 : ℂ) ^ 2 = 1 := fun x => by exact_mod_cast (nVec_some k0 G (hx x)).1
  have a2 : ∀ x : Idx sh, (mVec k0 G x 0 : ℂ) * n x 0 + (mVec k0 G x 1 : ℂ) * n x 1 + (mVec k0 G x 2 : ℂ) * n x 2 = 0 := fun x => by exact_mod_cast (nVec_some k0 G (hx x)).2.1
  have hD : ∀ x c, cross (fun a => (kxyz k0 G x a : ℂ)) (gridField k0 G v x) c = dXyz k0 G n u c x := by
    intro x c
    have hma : ∑ a, (mVec k0 G x a : ℂ) * gridField k0 G v x a = v (0, x) := by
      simp only [hF, Fin.sum_univ_three]
      linear_combination (v (0, x)) * hm1 x + (v (1, x)) * a2 x
    have hna : ∑ a, (n x a : ℂ) * gridField k0 G v x a = v (1, x) := by
      simp only [hF, Fin.sum_univ_three]
      linear_combination (v (1, x)) * a1 x + (v (0, x)) * a2 x
    rw [key, hma, hna, dXyz]
  have P4 : ∀ x, ∑ c, normSq (cross (fun a => (kxyz k0 G x a : ℂ)) (gridField k0 G v x) c) = norm3 (kxyz k0 G x) ^ 2 * ∑ c, normSq (gridField k0 G v x c) := by
    intro x
    obtain ⟨n1, n2, -⟩ := nVec_some k0 G (hx x)
    have h1 := pythagoras n1 (mVec_unit k0 G x) (by linarith) (v (0, x)) (-v (1, x))
    rw [P1, ← normSq_neg (v (1, x)), ← h1, Finset.mul_sum]
    refine Finset.sum_congr rfl fun c _ => ?_
    rw [hD, dXyz, normSq_mul, normSq_ofReal, kMag, ← pow_two, mul_comm]
    congr 2
    show _ - _ * v (1, x) = _
    ring
  refine ⟨P1, fun x => ?_, fun x c => ?_, P4, ?_⟩
  · have h1 : (kxyz k0 G x 0 : ℂ) * n x 0 + kxyz k0 G x 1 * n x 1 + kxyz k0 G x 2 * n x 2 = 0 := by
      have e0 := hcr x 0
      have e1 := hcr x 1
      have e2 := hcr x 2
      simp only [cross] at e0 e1 e2
      by_cases hz : kMag k0 G x = 0
      · have : kxyz k0 G x = 0 := norm3_eq_zero.1 hz
        simp [this]
      · have hz' : (kMag k0 G x : ℂ) ≠ 0 := ofReal_ne_zero.2 hz
        apply mul_left_cancel₀ hz'
        linear_combination -(kxyz k0 G x 0 : ℂ) * e0 - (kxyz k0 G x 1 : ℂ) * e1 - (kxyz k0 G x 2 : ℂ) * e2
    simp only [hF, Fin.sum_univ_three]
    linear_combination (v (0, x)) * hmk x + (v (1, x)) * h1
  · obtain ⟨b, hb, b0, b1⟩ := maxwell_eq k0 G hn hne u
    have hb' := hA u
    rw [hb] at hb'
    have hbv : ∀ i x, b i x = -(lam : ℂ) * v (i, x) := by
      intro i x
      have h1 := congrFun (congrFun (Option.some.inj hb') i) x
      have h2 := congrFun hv (i, x)
      rw [neg_mulVec] at h2
      simp only [Pi.neg_apply, Pi.smul_apply, smul_eq_mul] at h2
      rw [h1]
      show (A *ᵥ v) (i, x) = _
      linear_combination -h2
    have hE : ∀ a, ∑' q, eta a q * cross (fun b => (kxyz k0 G (cellFor hs (freqOf x - q)) b : ℂ)) (gridField k0 G v (cellFor hs (freqOf x - q))) a
        = fftn (fun y => ifftn (dXyz k0 G n u a) y / sampleEps eps sh a y) x := by
      intro a
      rw [divide_eps hs (heta a).1 (E := sampleEps eps sh a) (fun y => (heta a).2 _)]
      exact tsum_congr fun q => by rw [hD]
    simp only [hE]
    rw [key, hF]
    have c0 := b0 x
    have c1 := b1 x
    rw [hbv] at c0 c1
    simp only [Fin.sum_univ_three] at c0 c1 ⊢
    linear_combination -(n x c : ℂ) * c1 - (mVec k0 G x c : ℂ) * c0
  · have h1 := form_eq k0 G hn hp hA v
    have h2 : (star v ⬝ᵥ (-A *ᵥ v)).re = lam * ∑ p, normSq (v p) := by
      rw [hv, dotProduct_smul, smul_eq_mul, re_ofReal_mul]
      congr 1
      rw [dotProduct, re_sum]
      refine Finset.sum_congr rfl fun p _ => ?_
      show ((starRingEnd ℂ) (v p) * v p).re = _
      rw [← normSq_eq_conj_mul_self, ofReal_re]
    rw [← h2, h1]
    have h3 : ∑ x, norm3 (kxyz k0 G x) ^ 2 * ∑ c, normSq (gridField k0 G v x c) = ∑ p : Fin 3 × Idx sh, (Fintype.card (Idx sh) : ℝ) * normSq (ifftn (dXyz k0 G n u p.1) p.2) := by
      rw [Fintype.sum_prod_type]
      simp only [← Finset.mul_sum]
      simp only [Finset.mul_sum, ← P4, hD]
      rw [Finset.sum_comm]
      refine Finset.sum_congr rfl fun c _ => ?_
      rw [← Finset.mul_sum, parseval]
    rw [h3, Finset.mul_sum]
    refine Finset.sum_le_sum fun p _ => ?_
    have h4 : (sampleEps eps sh p.1 p.2).re ≤ e1 := heps1 _ _
    have h5 : 0 < (sampleEps eps sh p.1 p.2).re := heps _ _
    have h6 : 1 ≤ e1 / (sampleEps eps sh p.1 p.2).re := (one_le_div h5).2 h4
    have h7 : (0 : ℝ) ≤ (Fintype.card (Idx sh) : ℝ) * normSq (ifftn (dXyz k0 G n u p.1) p.2) := mul_nonneg (Nat.cast_nonneg _) (normSq_nonneg _)
    calc (Fintype.card (Idx sh) : ℝ) * normSq (ifftn (dXyz k0 G n u p.1) p.2)
        ≤ e1 / (sampleEps eps sh p.1 p.2).re * ((Fintype.card (Idx sh) : ℝ) * normSq (ifftn (dXyz k0 G n u p.1) p.2)) := le_mul_of_one_le_left h7 h6
      _ = _ := by ring

end

/-! ### Limits -/

/-- Only finitely many plane waves have short wave vectors. -/
theorem finite_short (k0 : Fin 3 → ℝ) {G : Matrix (Fin 3) (Fin 3) ℝ} (hG : G.det ≠ 0) (Q : ℝ) : {g : Fin 3 → ℤ | norm3 (waveVec k0 G g) ^ 2 < Q}.Finite := by
  have hinv : G⁻¹ * G = 1 := nonsing_inv_mul G (isUnit_iff_ne_zero.2 hG)
  set B : Fin 3 → ℝ := fun a => ∑ c, |G⁻¹ a c| * (|Q| + 1) with hB
  refine (Set.finite_Icc (fun a => ⌊k0 a - B a⌋) fun a => ⌈k0 a + B a⌉).subset fun g hg => ?_
  have h1 : ∀ c, |waveVec k0 G g c| ≤ |Q| + 1 := by
    intro c
    have h2 : waveVec k0 G g c ^ 2 ≤ |Q| := by
      have h3 : norm3 (waveVec k0 G g) ^ 2 < Q := hg
      rw [norm3, Real.sq_sqrt (Finset.sum_nonneg fun _ _ => sq_nonneg _)] at h3
      have h4 := Finset.single_le_sum (f := fun c => waveVec k0 G g c ^ 2) (fun c _ => sq_nonneg _) (Finset.mem_univ c)
      exact h4.trans (h3.le.trans (le_abs_self Q))
    rw [← sq_abs] at h2
    nlinarith [abs_nonneg (waveVec k0 G g c), abs_nonneg Q]
  have h2 : ∀ a, k0 a - g a = ∑ c, G⁻¹ a c * waveVec k0 G g c := by
    intro a
    have e : waveVec k0 G g = G *ᵥ fun a => k0 a - g a := rfl
    have : G⁻¹ *ᵥ waveVec k0 G g = fun a => k0 a - g a := by rw [e, mulVec_mulVec, hinv, one_mulVec]
    exact (congrFun this a).symm
  have h3 : ∀ a, |k0 a - g a| ≤ B a := by
    intro a
    rw [h2 a]
    refine (Finset.abs_sum_le_sum_abs _ _).trans (Finset.sum_le_sum fun c _ => ?_)
    rw [abs_mul]
    exact mul_le_mul_of_nonneg_left (h1 c) (abs_nonneg _)
  refine Set.mem_Icc.2 ⟨fun a => ?_, fun a => ?_⟩
  · have := abs_le.1 (h3 a)
    exact_mod_cast (Int.floor_le _).trans (show k0 a - B a ≤ (g a : ℝ) by linarith)
  · have := abs_le.1 (h3 a)
    exact_mod_cast (show (g a : ℝ) ≤ k0 a + B a by linarith).trans (Int.le_ceil _)

section
variable {k0 : Fin 3 → ℝ} {G : Matrix (Fin 3) (Fin 3) ℝ}

theorem good_of_waves (hgood : ∀ g, ¬ (waveVec k0 G g 0 = 0 ∧ waveVec k0 G g 1 ≠ 0)) (sh : Fin 3 → ℕ) : Good k0 G sh := by
  rintro x k hw' hc
  rw [hw'.eq] at hc
  exact hgood (freqOf x) hc

theorem eventually_inGrid {sh : ℕ → Fin 3 → ℕ} (hsh : ∀ a, Filter.Tendsto (fun n => sh n a) Filter.atTop Filter.atTop) (g : Fin 3 → ℤ) :
    ∀ᶠ n in Filter.atTop, InGrid (sh n) g := by
  have h1 : ∀ᶠ n in Filter.atTop, ∀ a, 2 * gMax g + 1 ≤ sh n a := Filter.eventually_all.2 fun a => (hsh a).eventually_ge_atTop _
  exact h1.mono fun n hn => inGrid_of_gMax fun a => by have := hn a; omega

/-- **C165.** On grids that become finer and finer along every axis take `m` orthonormal eigenvectors of the operator, with eigenvalues that converge. Then, along
a subsequence, their magnetic fields converge plane wave by plane wave to `m` linearly independent modes of the crystal, whose squared frequencies are the
limits. -/
theorem C165_limit (hG : G.det ≠ 0) (hgood : ∀ g, ¬ (waveVec k0 G g 0 = 0 ∧ waveVec k0 G g 1 ≠ 0)) {eps : Fin 3 → (Fin 3 → ℝ) → ℝ} {e1 : ℝ} (heps : ∀ c s, 0 < eps c s)
    (heps1 : ∀ c s, eps c s ≤ e1) {eta : Fin 3 → (Fin 3 → ℤ) → ℂ} (heta : IsInverse eps eta) {sh : ℕ → Fin 3 → ℕ} (hs : ∀ n a, 0 < sh n a)
    (hsh : ∀ a, Filter.Tendsto (fun n => sh n a) Filter.atTop Filter.atTop) {A : ∀ n, Matrix (Fin 2 × Idx (sh n)) (Fin 2 × Idx (sh n)) ℂ}
    (hA : ∀ n, IsMatrixOf k0 G (sampleEps eps (sh n)) (A n)) {m : ℕ} {v : ∀ n, Fin m → Fin 2 × Idx (sh n) → ℂ} {lam : ℕ → Fin m → ℝ}
    (hv : ∀ n j, -A n *ᵥ v n j = (lam n j : ℂ) • v n j) (hon : ∀ n i j, star (v n i) ⬝ᵥ v n j = if i = j then 1 else 0) {L : Fin m → ℝ}
    (hL : ∀ j, Filter.Tendsto (fun n => lam n j) Filter.atTop (𝓝 (L j))) :
    ∃ (φ : ℕ → ℕ) (h : Fin m → (Fin 3 → ℤ) → Fin 3 → ℂ), StrictMono φ ∧ LinearIndependent ℂ h ∧ (∀ j, WeakMode k0 G eta (L j) (h j))
      ∧ ∀ j g c, Filter.Tendsto (fun n => gridField k0 G (v (φ n) j) (cellFor (hs (φ n)) g) c) Filter.atTop (𝓝 (h j g c)) := by
  classical
  have hgm := fun n j => grid_mode (hs n) (good_of_waves hgood (sh n)) heps heps1 heta (hA n) (hv n j)
  have hnorm : ∀ n j, ∑ p, normSq (v n j p) = 1 := by
    intro n j
    have h1 := hon n j j
    rw [if_pos rfl, dotProduct] at h1
    have h2 : ∀ p, star (v n j) p * v n j p = ((normSq (v n j p) : ℝ) : ℂ) := fun p => by rw [normSq_eq_conj_mul_self]; rfl
    simp only [h2] at h1
    exact_mod_cast h1
  have hfield : ∀ n j, ∑ x, ∑ c, normSq (gridField k0 G (v n j) x c) = 1 := by
    intro n j
    simp only [(hgm n j).1]
    rw [← hnorm n j, Fintype.sum_prod_type, Fin.sum_univ_two, Finset.sum_add_distrib]
  have hle1 : ∀ n j x c, ‖gridField k0 G (v n j) x c‖ ≤ 1 := by
    intro n j x c
    have h1 : normSq (gridField k0 G (v n j) x c) ≤ 1 := by
      rw [← hfield n j]
      refine le_trans ?_ (Finset.single_le_sum (f := fun x => ∑ c, normSq (gridField k0 G (v n j) x c)) (fun x _ => Finset.sum_nonneg fun c _ => normSq_nonneg _) (Finset.mem_univ x))
      exact Finset.single_le_sum (f := fun c => normSq (gridField k0 G (v n j) x c)) (fun c _ => normSq_nonneg _) (Finset.mem_univ c)
    rw [normSq_eq_norm_sq] at h1
    nlinarith [norm_nonneg (gridField k0 G (v n j) x c)]
  -- a convergent subsequence
  let X : ℕ → (Fin m × (Fin 3 → ℤ) × Fin 3 → ℂ) := fun n p => gridField k0 G (v n p.1) (cellFor (hs n) p.2.1) p.2.2
  have hcomp : IsCompact (Set.univ.pi fun _ : Fin m × (Fin 3 → ℤ) × Fin 3 => Metric.closedBall (0 : ℂ) 1) := isCompact_univ_pi fun _ => isCompact_closedBall 0 1
  obtain ⟨X', -, φ, hφ, hX⟩ := hcomp.tendsto_subseq (x := X) fun n p _ => by
    rw [Metric.mem_closedBall, dist_zero_right]
    exact hle1 n p.1 _ _
  let h : Fin m → (Fin 3 → ℤ) → Fin 3 → ℂ := fun j g c => X' (j, g, c)
  have hlim : ∀ j g c, Filter.Tendsto (fun n => gridField k0 G (v (φ n) j) (cellFor (hs (φ n)) g) c) Filter.atTop (𝓝 (h j g c)) :=
    fun j g c => (tendsto_pi_nhds.1 hX) (j, g, c)
  have hgrid : ∀ g, ∀ᶠ n in Filter.atTop, freqOf (cellFor (hs (φ n)) g) = g := fun g =>
    ((hφ.tendsto_atTop).eventually (eventually_inGrid hsh g)).mono fun n hn => freqOf_cellFor (hs (φ n)) hn
  have hkx : ∀ {n g}, freqOf (cellFor (hs (φ n)) g) = g → kxyz k0 G (cellFor (hs (φ n)) g) = waveVec k0 G g := fun {n g} he => by rw [← waveVec_freqOf, he]
  have hLφ : ∀ j, Filter.Tendsto (fun n => lam (φ n) j) Filter.atTop (𝓝 (L j)) := fun j => (hL j).comp hφ.tendsto_atTop
  -- the curl at the cell of a plane wave
  let D : ℕ → Fin m → (Fin 3 → ℤ) → Fin 3 → ℂ := fun n j g c =>
    cross (fun b => (kxyz k0 G (cellFor (hs (φ n)) g) b : ℂ)) (gridField k0 G (v (φ n) j) (cellFor (hs (φ n)) g)) c
  have hDlim : ∀ j g c, Filter.Tendsto (fun n => D n j g c) Filter.atTop (𝓝 (cross (fun a => (waveVec k0 G g a : ℂ)) (h j g) c)) := by
    intro j g c
    have h1 : Filter.Tendsto (fun n => cross (fun a => (waveVec k0 G g a : ℂ)) (gridField k0 G (v (φ n) j) (cellFor (hs (φ n)) g)) c) Filter.atTop
        (𝓝 (cross (fun a => (waveVec k0 G g a : ℂ)) (h j g) c)) := by
      fin_cases c <;> exact ((hlim j g _).const_mul _).sub ((hlim j g _).const_mul _)
    refine h1.congr' ((hgrid g).mono fun n hn => ?_)
    simp only [D]
    rw [hkx hn]
  have henergy : ∀ n j, ∑ x, ∑ c, normSq (cross (fun a => (kxyz k0 G x a : ℂ)) (gridField k0 G (v n j) x) c) ≤ e1 * lam n j := by
    intro n j
    have h1 := (hgm n j).2.2.2.2
    rw [hnorm, mul_one] at h1
    simp only [(hgm n j).2.2.2.1]
    exact h1
  have hDle : ∀ n j g c, normSq (D n j g c) ≤ e1 * lam (φ n) j := by
    intro n j g c
    refine le_trans ?_ (henergy (φ n) j)
    refine le_trans ?_ (Finset.single_le_sum (f := fun x => ∑ c, normSq (cross (fun a => (kxyz k0 G x a : ℂ)) (gridField k0 G (v (φ n) j) x) c))
      (fun x _ => Finset.sum_nonneg fun c _ => normSq_nonneg _) (Finset.mem_univ (cellFor (hs (φ n)) g)))
    exact Finset.single_le_sum (f := fun c => normSq (D n j g c)) (fun c _ => normSq_nonneg _) (Finset.mem_univ c)
  -- sums over finitely many plane waves are sums over cells
  have hsums : ∀ S : Finset (Fin 3 → ℤ), ∀ᶠ n in Filter.atTop, ∀ F : Idx (sh (φ n)) → ℝ, (∀ x, 0 ≤ F x) → ∑ g ∈ S, F (cellFor (hs (φ n)) g) ≤ ∑ x, F x := by
    intro S
    have h1 : ∀ᶠ n in Filter.atTop, ∀ g ∈ S, freqOf (cellFor (hs (φ n)) g) = g := (Filter.eventually_all_finset S).2 fun g _ => hgrid g
    refine h1.mono fun n hn F hF => ?_
    rw [← Finset.sum_image (g := cellFor (hs (φ n))) (f := F) fun g hg g' hg' hgg => by rw [← hn g hg, hgg, hn g' hg']]
    exact Finset.sum_le_sum_of_subset_of_nonneg (Finset.subset_univ _) fun x _ _ => hF x
  refine ⟨φ, h, hφ, ?_, fun j => ⟨fun c => ?_, fun g => ?_, fun g c => ?_⟩, hlim⟩
  · -- independence
    rw [Fintype.linearIndependent_iff]
    intro c hc
    set Q := e1 * (∑ j, (|L j| + 1)) + 1 with hQ
    have he1 : 0 < e1 := (heps 0 0).trans_le (heps1 0 0)
    have hQ0 : 0 < Q := by
      have : 0 ≤ ∑ j, (|L j| + 1) := Finset.sum_nonneg fun j _ => by positivity
      have := mul_nonneg he1.le this
      linarith
    set S := (finite_short k0 hG Q).toFinset with hS
    set N := ∑ j, normSq (c j) with hN
    have hN0 : 0 ≤ N := Finset.sum_nonneg fun j _ => normSq_nonneg _
    have hFn : ∀ n, ∑ x, ∑ a, normSq (∑ j, c j * gridField k0 G (v n j) x a) = N := by
      intro n
      obtain ⟨nn, -, hx⟩ := nAll_regular k0 G ((good_of_waves hgood (sh n)).regular k0 G)
      have e1' : ∀ x, ∑ a, normSq (∑ j, c j * gridField k0 G (v n j) x a) = normSq (∑ j, c j * v n j (0, x)) + normSq (∑ j, c j * v n j (1, x)) := by
        intro x
        obtain ⟨n1, n2, -⟩ := nVec_some k0 G (hx x)
        rw [← pythagoras (mVec_unit k0 G x) n1 n2]
        refine Finset.sum_congr rfl fun a _ => ?_
        congr 1
        rw [Finset.mul_sum, Finset.mul_sum, ← Finset.sum_add_distrib]
        refine Finset.sum_congr rfl fun j _ => ?_
        rw [gridField, hx x]
        simp only [Option.getD_some]
        ring
      simp only [e1']
      rw [Finset.sum_add_distrib]
      have e2 : ∑ x, normSq (∑ j, c j * v n j (0, x)) + ∑ x, normSq (∑ j, c j * v n j (1, x)) = ∑ p, normSq (∑ j, c j * v n j p) := by
        rw [Fintype.sum_prod_type, Fin.sum_univ_two]
      rw [e2]
      have e3 : ((∑ p, normSq (∑ j, c j * v n j p) : ℝ) : ℂ) = (N : ℂ) := by
        push_cast
        calc ∑ p, ((normSq (∑ j, c j * v n j p) : ℝ) : ℂ) = ∑ p, ∑ i, ∑ j, star (c i) * c j * (star (v n i p) * v n j p) := by
              refine Finset.sum_congr rfl fun p _ => ?_
              rw [normSq_eq_conj_mul_self, map_sum, Finset.sum_mul_sum]
              refine Finset.sum_congr rfl fun i _ => Finset.sum_congr rfl fun j _ => ?_
              rw [map_mul]
              show star (c i) * star (v n i p) * _ = _
              ring
          _ = ∑ i, ∑ j, star (c i) * c j * (star (v n i) ⬝ᵥ v n j) := by
              rw [Finset.sum_comm]
              refine Finset.sum_congr rfl fun i _ => ?_
              rw [Finset.sum_comm]
              refine Finset.sum_congr rfl fun j _ => ?_
              rw [dotProduct, Finset.mul_sum]
              rfl
          _ = (N : ℂ) := by
              rw [hN]
              push_cast
              refine Finset.sum_congr rfl fun i _ => ?_
              simp only [hon, mul_ite, mul_one, mul_zero, Finset.sum_ite_eq, Finset.mem_univ, if_true]
              rw [normSq_eq_conj_mul_self]
              rfl
      exact_mod_cast e3
    have hcs : ∀ n x, ∑ a, normSq (∑ j, c j * gridField k0 G (v n j) x a) ≤ N * ∑ j, ∑ a, normSq (gridField k0 G (v n j) x a) := by
      intro n x
      rw [Finset.sum_comm, Finset.mul_sum]
      refine Finset.sum_le_sum fun a _ => ?_
      simp only [hN, normSq_eq_norm_sq]
      calc ‖∑ j, c j * gridField k0 G (v n j) x a‖ ^ 2 ≤ (∑ j, ‖c j‖ * ‖gridField k0 G (v n j) x a‖) ^ 2 := by
            refine pow_le_pow_left₀ (norm_nonneg _) ((norm_sum_le _ _).trans (le_of_eq ?_)) 2
            exact Finset.sum_congr rfl fun j _ => norm_mul _ _
        _ ≤ _ := Finset.sum_mul_sq_le_sq_mul_sq _ _ _
    have hbound : ∀ᶠ n in Filter.atTop, N ≤ ∑ g ∈ S, ∑ a, normSq (∑ j, c j * gridField k0 G (v (φ n) j) (cellFor (hs (φ n)) g) a) + N * (e1 * ∑ j, lam (φ n) j) / Q := by
      have h1 : ∀ᶠ n in Filter.atTop, ∀ g ∈ S, freqOf (cellFor (hs (φ n)) g) = g := (Filter.eventually_all_finset S).2 fun g _ => hgrid g
      refine h1.mono fun n hn => ?_
      set F : Idx (sh (φ n)) → ℝ := fun x => ∑ a, normSq (∑ j, c j * gridField k0 G (v (φ n) j) x a) with hF
      have hF0 : ∀ x, 0 ≤ F x := fun x => Finset.sum_nonneg fun a _ => normSq_nonneg _
      have e1' : ∑ g ∈ S, F (cellFor (hs (φ n)) g) = ∑ x ∈ S.image (cellFor (hs (φ n))), F x :=
        (Finset.sum_image (g := cellFor (hs (φ n))) (f := F) fun g hg g' hg' hgg => by rw [← hn g hg, hgg, hn g' hg']).symm
      show N ≤ ∑ g ∈ S, F (cellFor (hs (φ n)) g) + _
      have e0 : N = ∑ x ∈ S.image (cellFor (hs (φ n))), F x + ∑ x ∈ (S.image (cellFor (hs (φ n))))ᶜ, F x := by
        rw [Finset.sum_add_sum_compl, hF, hFn]
      rw [e1']
      refine e0.le.trans (add_le_add le_rfl ?_)
      have e2 : ∀ x ∈ (S.image (cellFor (hs (φ n))))ᶜ, F x ≤ N / Q * ∑ j, norm3 (kxyz k0 G x) ^ 2 * ∑ a, normSq (gridField k0 G (v (φ n) j) x a) := by
        intro x hxS
        have h2 : Q ≤ norm3 (kxyz k0 G x) ^ 2 := by
          by_contra hlt
          push Not at hlt
          rw [← waveVec_freqOf] at hlt
          refine Finset.mem_compl.1 hxS (Finset.mem_image.2 ⟨freqOf x, ?_, cellFor_freqOf _ x⟩)
          rw [hS, Set.Finite.mem_toFinset]
          exact hlt
        refine (hcs (φ n) x).trans ?_
        rw [← Finset.mul_sum, ← mul_assoc]
        refine mul_le_mul_of_nonneg_right ?_ (Finset.sum_nonneg fun j _ => Finset.sum_nonneg fun a _ => normSq_nonneg _)
        rw [div_mul_eq_mul_div, le_div_iff₀ hQ0]
        exact mul_le_mul_of_nonneg_left h2 hN0
      refine (Finset.sum_le_sum e2).trans ?_
      refine (Finset.sum_le_sum_of_subset_of_nonneg (Finset.subset_univ _) fun x _ _ => mul_nonneg (div_nonneg hN0 hQ0.le)
        (Finset.sum_nonneg fun j _ => mul_nonneg (sq_nonneg _) (Finset.sum_nonneg fun a _ => normSq_nonneg _))).trans ?_
      rw [← Finset.mul_sum, Finset.sum_comm, div_mul_eq_mul_div]
      refine div_le_div_of_nonneg_right (mul_le_mul_of_nonneg_left ?_ hN0) hQ0.le
      rw [Finset.mul_sum]
      refine Finset.sum_le_sum fun j _ => ?_
      have := henergy (φ n) j
      simp only [(hgm (φ n) j).2.2.2.1] at this
      exact this
    have hlimS : Filter.Tendsto (fun n => ∑ g ∈ S, ∑ a, normSq (∑ j, c j * gridField k0 G (v (φ n) j) (cellFor (hs (φ n)) g) a) + N * (e1 * ∑ j, lam (φ n) j) / Q) Filter.atTop
        (𝓝 (∑ g ∈ S, ∑ a, normSq (∑ j, c j * h j g a) + N * (e1 * ∑ j, L j) / Q)) := by
      refine Filter.Tendsto.add (tendsto_finsetSum _ fun g _ => tendsto_finsetSum _ fun a _ => ?_) (((tendsto_finsetSum _ fun j _ => hLφ j).const_mul _).const_mul _ |>.div_const _)
      exact (continuous_normSq.tendsto _).comp (tendsto_finsetSum _ fun j _ => (hlim j g a).const_mul _)
    have hfin := ge_of_tendsto hlimS hbound
    have hz : ∀ g a, ∑ j, c j * h j g a = 0 := by
      intro g a
      have := congrFun (congrFun hc g) a
      simpa only [Finset.sum_apply, Pi.smul_apply, smul_eq_mul, Pi.zero_apply] using this
    simp only [hz, map_zero, Finset.sum_const_zero, zero_add] at hfin
    have hlt : e1 * ∑ j, L j < Q := by
      rw [hQ]
      have : ∑ j, L j ≤ ∑ j, (|L j| + 1) := Finset.sum_le_sum fun j _ => by have := le_abs_self (L j); linarith
      have := mul_le_mul_of_nonneg_left this he1.le
      linarith
    have hNz : N = 0 := by
      by_contra hne
      have hNpos : 0 < N := lt_of_le_of_ne hN0 (Ne.symm hne)
      rw [le_div_iff₀ hQ0] at hfin
      nlinarith
    intro j
    exact normSq_eq_zero.1 ((Finset.sum_eq_zero_iff_of_nonneg fun j _ => normSq_nonneg (c j)).1 hNz j (Finset.mem_univ _))
  · -- finite energy
    refine summable_of_sum_le (c := e1 * L j) (fun g => normSq_nonneg _) fun S => ?_
    refine le_of_tendsto_of_tendsto (tendsto_finsetSum S fun g _ => (continuous_normSq.tendsto _).comp (hDlim j g c)) ((hLφ j).const_mul e1) ?_
    refine (hsums S).mono fun n hn => ?_
    refine le_trans ?_ (henergy (φ n) j)
    refine le_trans (hn (fun x => normSq (cross (fun a => (kxyz k0 G x a : ℂ)) (gridField k0 G (v (φ n) j) x) c)) fun x => normSq_nonneg _) ?_
    refine Finset.sum_le_sum fun x _ => ?_
    exact Finset.single_le_sum (f := fun c => normSq (cross (fun a => (kxyz k0 G x a : ℂ)) (gridField k0 G (v (φ n) j) x) c)) (fun c _ => normSq_nonneg _) (Finset.mem_univ c)
  · -- transverse
    have h1 : Filter.Tendsto (fun n => ∑ a, (waveVec k0 G g a : ℂ) * gridField k0 G (v (φ n) j) (cellFor (hs (φ n)) g) a) Filter.atTop
        (𝓝 (∑ a, (waveVec k0 G g a : ℂ) * h j g a)) := tendsto_finsetSum _ fun a _ => (hlim j g a).const_mul _
    refine tendsto_nhds_unique h1 (tendsto_const_nhds.congr' ((hgrid g).mono fun n hn => ?_))
    have h2 := (hgm (φ n) j).2.1 (cellFor (hs (φ n)) g)
    rw [hkx hn] at h2
    exact h2.symm
  · -- the equation
    have hE : ∀ a, Filter.Tendsto (fun n => ∑' q, eta a q * D n j (g - q) a) Filter.atTop
        (𝓝 (∑' q, eta a q * cross (fun b => (waveVec k0 G (g - q) b : ℂ)) (h j (g - q)) a)) := by
      intro a
      refine tendsto_tsum_of_dominated_convergence (bound := fun q => ‖eta a q‖ * √(e1 * (L j + 1))) ((heta a).1.mul_right _)
        (fun q => (hDlim j (g - q) a).const_mul _) ?_
      have h1 : ∀ᶠ n in Filter.atTop, lam (φ n) j ≤ L j + 1 := (hLφ j).eventually_le_const (by linarith)
      refine h1.mono fun n hn q => ?_
      rw [norm_mul]
      refine mul_le_mul_of_nonneg_left (Real.le_sqrt_of_sq_le ?_) (norm_nonneg _)
      rw [← normSq_eq_norm_sq]
      refine (hDle n j (g - q) a).trans (mul_le_mul_of_nonneg_left hn ?_)
      exact ((heps 0 0).trans_le (heps1 0 0)).le
    have h1 : Filter.Tendsto (fun n => cross (fun a => (waveVec k0 G g a : ℂ)) (fun a => ∑' q, eta a q * D n j (g - q) a) c) Filter.atTop
        (𝓝 (cross (fun a => (waveVec k0 G g a : ℂ)) (fun a => ∑' q, eta a q * cross (fun b => (waveVec k0 G (g - q) b : ℂ)) (h j (g - q)) a) c)) := by
      fin_cases c <;> exact ((hE _).const_mul _).sub ((hE _).const_mul _)
    have h2 : Filter.Tendsto (fun n => -(lam (φ n) j : ℂ) * gridField k0 G (v (φ n) j) (cellFor (hs (φ n)) g) c) Filter.atTop (𝓝 (-(L j : ℂ) * h j g c)) :=
      (((continuous_ofReal.tendsto _).comp (hLφ j)).neg).mul (hlim j g c)
    refine tendsto_nhds_unique h1 (h2.congr' ((hgrid g).mono fun n hn => ?_))
    have h3 := (hgm (φ n) j).2.2.1 (cellFor (hs (φ n)) g) c
    rw [hkx hn, hn] at h3
    exact h3.symm

/-- **C165, multiplicities.** If no `m + 1` independent modes of the crystal have the squared frequency `lam`, the operator has on every fine enough grid at most `m`
bands near `lam`. -/
theorem C165_count (hG : G.det ≠ 0) (hgood : ∀ g, ¬ (waveVec k0 G g 0 = 0 ∧ waveVec k0 G g 1 ≠ 0)) {eps : Fin 3 → (Fin 3 → ℝ) → ℝ} {e1 : ℝ} (heps : ∀ c s, 0 < eps c s)
    (heps1 : ∀ c s, eps c s ≤ e1) {eta : Fin 3 → (Fin 3 → ℤ) → ℂ} (heta : IsInverse eps eta) {lam : ℝ} {m : ℕ}
    (hmult : ∀ h : Fin (m + 1) → (Fin 3 → ℤ) → Fin 3 → ℂ, (∀ j, WeakMode k0 G eta lam (h j)) → ¬ LinearIndependent ℂ h) :
    ∃ δ > 0, ∃ n0 : ℕ, ∀ sh : Fin 3 → ℕ, (∀ a, n0 ≤ sh a) → ∀ A : Matrix (Fin 2 × Idx sh) (Fin 2 × Idx sh) ℂ, IsMatrixOf k0 G (sampleEps eps sh) A →
      ∀ H : (-A).IsHermitian, (Finset.univ.filter fun i => |H.eigenvalues i - lam| ≤ δ).card ≤ m := by
  classical
  by_contra hcon
  push Not at hcon
  choose sh hsh A hA H hcard using fun n : ℕ => hcon (1 / ((n : ℝ) + 1)) (by positivity) (n + 1)
  have hemb : ∀ n, Nonempty (Fin (m + 1) ↪ {i // i ∈ Finset.univ.filter fun i => |(H n).eigenvalues i - lam| ≤ 1 / ((n : ℝ) + 1)}) := fun n =>
    Function.Embedding.nonempty_of_card_le (by rw [Fintype.card_fin, Fintype.card_coe]; exact hcard n)
  let f := fun n => (hemb n).some
  have hev : ∀ n j, |(H n).eigenvalues (f n j).1 - lam| ≤ 1 / ((n : ℝ) + 1) := fun n j => by
    have := (f n j).2
    rw [Finset.mem_filter] at this
    exact this.2
  obtain ⟨φ, h, -, hli, hw, -⟩ := C165_limit hG hgood heps heps1 heta (fun n a => by have := hsh n a; omega)
    (fun a => Filter.tendsto_atTop_mono (fun n => (Nat.le_succ n).trans (hsh n a)) Filter.tendsto_id) hA
    (v := fun n j => ((H n).eigenvectorBasis (f n j).1).ofLp) (lam := fun n j => (H n).eigenvalues (f n j).1)
    (fun n j => by
      rw [(H n).mulVec_eigenvectorBasis]
      funext p
      simp [Complex.real_smul])
    (fun n i j => by
      have h1 := (orthonormal_iff_ite.1 (H n).eigenvectorBasis.orthonormal) (f n i).1 (f n j).1
      rw [PiLp.inner_apply] at h1
      have h2 : ((f n i).1 = (f n j).1) ↔ i = j := ⟨fun he => (f n).injective (Subtype.ext he), fun he => by rw [he]⟩
      simp only [h2] at h1
      rw [← h1, dotProduct]
      refine Finset.sum_congr rfl fun p _ => ?_
      rw [RCLike.inner_apply, mul_comm]
      rfl)
    (L := fun _ => lam)
    (fun j => by
      rw [tendsto_iff_dist_tendsto_zero]
      refine squeeze_zero (fun n => dist_nonneg) (fun n => ?_) (tendsto_one_div_add_atTop_nhds_zero_nat (𝕜 := ℝ))
      rw [Real.dist_eq]
      exact hev n j)
  exact hmult h hw hli

/-- **C165, gaps.** If the crystal has no mode with a squared frequency in an interval, then on every fine enough grid the operator has no band there. -/
theorem C165_gap (hG : G.det ≠ 0) (hgood : ∀ g, ¬ (waveVec k0 G g 0 = 0 ∧ waveVec k0 G g 1 ≠ 0)) {eps : Fin 3 → (Fin 3 → ℝ) → ℝ} {e1 : ℝ} (heps : ∀ c s, 0 < eps c s)
    (heps1 : ∀ c s, eps c s ≤ e1) {eta : Fin 3 → (Fin 3 → ℤ) → ℂ} (heta : IsInverse eps eta) {a b : ℝ}
    (hgap : ∀ l ∈ Set.Icc a b, ∀ h, WeakMode k0 G eta l h → h = 0) :
    ∃ n0 : ℕ, ∀ sh : Fin 3 → ℕ, (∀ c, n0 ≤ sh c) → ∀ A : Matrix (Fin 2 × Idx sh) (Fin 2 × Idx sh) ℂ, IsMatrixOf k0 G (sampleEps eps sh) A →
      ∀ H : (-A).IsHermitian, ∀ i, H.eigenvalues i ∉ Set.Icc a b := by
  classical
  refine isCompact_Icc.induction_on (p := fun s => ∃ n0 : ℕ, ∀ sh : Fin 3 → ℕ, (∀ c, n0 ≤ sh c) → ∀ A : Matrix (Fin 2 × Idx sh) (Fin 2 × Idx sh) ℂ,
    IsMatrixOf k0 G (sampleEps eps sh) A → ∀ H : (-A).IsHermitian, ∀ i, H.eigenvalues i ∉ s) ⟨0, fun _ _ _ _ _ _ => id⟩ ?_ ?_ fun l hl => ?_
  · rintro s t hst ⟨n0, h⟩
    exact ⟨n0, fun sh hsh A hA H i hi => h sh hsh A hA H i (hst hi)⟩
  · rintro s t ⟨n0, h⟩ ⟨n1, h'⟩
    refine ⟨max n0 n1, fun sh hsh A hA H i hi => ?_⟩
    rcases hi with hi | hi
    · exact h sh (fun c => (le_max_left _ _).trans (hsh c)) A hA H i hi
    · exact h' sh (fun c => (le_max_right _ _).trans (hsh c)) A hA H i hi
  · obtain ⟨δ, hδ, n0, hn0⟩ := C165_count hG hgood heps heps1 heta (lam := l) (m := 0) fun h hw hli => hli.ne_zero 0 (hgap l hl _ (hw 0))
    refine ⟨Metric.ball l δ, mem_nhdsWithin_of_mem_nhds (Metric.ball_mem_nhds l hδ), n0, fun sh hsh A hA H i hi => ?_⟩
    have h1 := hn0 sh hsh A hA H
    rw [Nat.le_zero, Finset.card_eq_zero, Finset.filter_eq_empty_iff] at h1
    rw [Metric.mem_ball, Real.dist_eq] at hi
    exact h1 (Finset.mem_univ i) hi.le

/-- **C164 and C165 together.** If the crystal has exactly `m` independent modes with the squared frequency `lam`, then on every fine enough grid the operator has
exactly `m` bands near `lam`, and they are as close as C164 says. -/
theorem C165_exact (hG : G.det ≠ 0) (hgood : ∀ g, ¬ (waveVec k0 G g 0 = 0 ∧ waveVec k0 G g 1 ≠ 0)) {eps : Fin 3 → (Fin 3 → ℝ) → ℝ} {e0 e1 : ℝ} (he0 : 0 < e0)
    (heps : ∀ c s, e0 ≤ eps c s) (heps1 : ∀ c s, eps c s ≤ e1) {eta : Fin 3 → (Fin 3 → ℤ) → ℂ} (heta : IsInverse eps eta) {lam : ℝ} (hl : lam ≠ 0) {m : ℕ}
    (hmult : ∀ h : Fin (m + 1) → (Fin 3 → ℤ) → Fin 3 → ℂ, (∀ j, WeakMode k0 G eta lam (h j)) → ¬ LinearIndependent ℂ h)
    {h e : Fin m → (Fin 3 → ℤ) → Fin 3 → ℂ} (hmode : ∀ j, BandMode k0 G eps lam (h j) (e j)) (hind : LinearIndependent ℂ h) {w : ℕ → ℝ} (hw : Monotone w)
    (hw0 : ∀ k, 0 < w k) (hwt : Filter.Tendsto (fun n : ℕ => (n : ℝ) / w (n / 2)) Filter.atTop (𝓝 0)) (hwe : ∀ j c, Summable fun g => w (gMax g) * ‖e j g c‖)
    (hwd : ∀ j c, Summable fun g => w (gMax g) * ‖cross (fun a => (waveVec k0 G g a : ℂ)) (h j g) c‖) (ρ : ℝ) :
    ∃ δ > 0, ∃ (C : ℝ) (n0 : ℕ), ∀ (n : ℕ) (sh : Fin 3 → ℕ), n0 ≤ n → (∀ a, n ≤ sh a) → (∀ a, (sh a : ℝ) ≤ ρ * n) →
      ∃ A : Matrix (Fin 2 × Idx sh) (Fin 2 × Idx sh) ℂ, IsMatrixOf k0 G (sampleEps eps sh) A ∧ ∃ H : (-A).IsHermitian,
        (Finset.univ.filter fun i => |H.eigenvalues i - lam| ≤ δ).card = m
        ∧ ∀ i, |H.eigenvalues i - lam| ≤ δ → |H.eigenvalues i - lam| ≤ C * n / w (n / 2) := by
  classical
  obtain ⟨δ, hδ, n1, h1⟩ := C165_count hG hgood (fun c s => he0.trans_le (heps c s)) heps1 heta hmult
  obtain ⟨C, n2, h2⟩ := C164_bands hgood he0 heps hl hmode hind hw hw0 hwe hwd ρ
  have h3 : ∀ᶠ n : ℕ in Filter.atTop, C * ((n : ℝ) / w (n / 2)) ≤ δ := by
    have := hwt.const_mul C
    rw [mul_zero] at this
    exact this.eventually_le_const hδ
  obtain ⟨n3, h3⟩ := Filter.eventually_atTop.1 h3
  refine ⟨δ, hδ, C, max n1 (max n2 n3), fun n sh hn hsh hρ => ?_⟩
  obtain ⟨A, hA, H, hH⟩ := h2 n sh (by omega) hsh hρ
  have h4 := h1 sh (fun a => le_trans (by omega) (hsh a)) A hA H
  have h5 : C * n / w (n / 2) ≤ δ := by rw [mul_div_assoc]; exact h3 n (by omega)
  have hsub : (Finset.univ.filter fun i => |H.eigenvalues i - lam| ≤ C * n / w (n / 2)) ⊆ Finset.univ.filter fun i => |H.eigenvalues i - lam| ≤ δ :=
    fun i hi => by
      rw [Finset.mem_filter] at hi ⊢
      exact ⟨hi.1, hi.2.trans h5⟩
  have hle := Finset.card_le_card hsub
  refine ⟨A, hA, H, le_antisymm h4 (hH.trans hle), fun i hi => ?_⟩
  have heq := Finset.eq_of_subset_of_card_le hsub (h4.trans hH)
  have : i ∈ Finset.univ.filter fun i => |H.eigenvalues i - lam| ≤ C * n / w (n / 2) := by
    rw [heq, Finset.mem_filter]
    exact ⟨Finset.mem_univ i, hi⟩
  rw [Finset.mem_filter] at this
  exact this.2

end

/-! ### A case: vacuum -/

/-- The coefficients of the constant 1. -/
noncomputable def oneCoeff (_ : Fin 3) (q : Fin 3 → ℤ) : ℂ := if q = 0 then 1 else 0

theorem oneCoeff_inverse : IsInverse (fun _ _ => 1) oneCoeff := by
  intro c
  refine ⟨summable_of_ne_finset_zero (s := {0}) fun q hq => ?_, fun s => ?_⟩
  · rw [Finset.mem_singleton] at hq
    rw [oneCoeff, if_neg hq, norm_zero]
  · rw [tsum_eq_single 0 fun q hq => by rw [oneCoeff, if_neg hq, zero_mul]]
    simp [oneCoeff, bandWave]

theorem waveVec_quarter (g : Fin 3 → ℤ) : waveVec ![1 / 4, 0, 0] 1 g = ![1 / 4 - (g 0 : ℝ), -(g 1 : ℝ), -(g 2 : ℝ)] := by
  funext c
  simp only [waveVec, Fin.sum_univ_three, Matrix.one_apply]
  fin_cases c <;> simp

/-- In vacuum a mode has only plane waves of its frequency. -/
theorem vacuum_weak {l : ℝ} {h : (Fin 3 → ℤ) → Fin 3 → ℂ} (hw : WeakMode ![1 / 4, 0, 0] 1 oneCoeff l h) (g : Fin 3 → ℤ) :
    h g = 0 ∨ 16 * l = (((1 - 4 * g 0) ^ 2 + 16 * (g 1 ^ 2 + g 2 ^ 2) : ℤ) : ℝ) := by
  have hE : ∀ a, ∑' q, oneCoeff a q * cross (fun b => (waveVec ![1 / 4, 0, 0] 1 (g - q) b : ℂ)) (h (g - q)) a
      = cross (fun b => (waveVec ![1 / 4, 0, 0] 1 g b : ℂ)) (h g) a := by
    intro a
    rw [tsum_eq_single 0 fun q hq => by rw [oneCoeff, if_neg hq, zero_mul], sub_zero, oneCoeff, if_pos rfl, one_mul]
  have h1 := hw.curl_curl g
  simp only [hE] at h1
  have ht := hw.transverse g
  have h2 : ∀ c, ((((1 / 4 - (g 0 : ℝ)) ^ 2 + (g 1 : ℝ) ^ 2 + (g 2 : ℝ) ^ 2 - l : ℝ)) : ℂ) * h g c = 0 := by
    intro c
    have h3 := h1 c
    rw [waveVec_quarter] at h3 ht
    simp [Fin.sum_univ_three] at ht
    fin_cases c <;> simp [cross] at h3 <;> simp only [Fin.zero_eta, Fin.mk_one, Fin.reduceFinMk] <;> push_cast
    · linear_combination (4⁻¹ - (g 0 : ℂ)) * ht - h3
    · linear_combination -(g 1 : ℂ) * ht - h3
    · linear_combination -(g 2 : ℂ) * ht - h3
  by_cases hz : (1 / 4 - (g 0 : ℝ)) ^ 2 + (g 1 : ℝ) ^ 2 + (g 2 : ℝ) ^ 2 - l = 0
  · right
    push_cast
    linarith
  · left
    funext c
    exact (mul_eq_zero.1 (h2 c)).resolve_left (ofReal_ne_zero.2 hz)

theorem quarter_good (g : Fin 3 → ℤ) : ¬ (waveVec ![1 / 4, 0, 0] 1 g 0 = 0 ∧ waveVec ![1 / 4, 0, 0] 1 g 1 ≠ 0) := by
  rintro ⟨h1, -⟩
  rw [waveVec_quarter] at h1
  have h1 : (1 / 4 : ℝ) - g 0 = 0 := h1
  have h2 : (1 : ℝ) = 4 * g 0 := by linarith
  have h3 : (1 : ℤ) = 4 * g 0 := by exact_mod_cast h2
  omega

/-- A gap of vacuum. -/
theorem C165_gap_case : ∃ n0 : ℕ, ∀ sh : Fin 3 → ℕ, (∀ c, n0 ≤ sh c) → ∀ A : Matrix (Fin 2 × Idx sh) (Fin 2 × Idx sh) ℂ,
    IsMatrixOf ![1 / 4, 0, 0] 1 (sampleEps (fun _ _ => 1) sh) A → ∀ H : (-A).IsHermitian, ∀ i, H.eigenvalues i ∉ Set.Icc (1 / 8) (1 / 2) := by
  refine C165_gap (by simp) quarter_good (fun _ _ => one_pos) (e1 := 1) (fun _ _ => le_rfl) oneCoeff_inverse fun l hl h hw => ?_
  funext g
  rcases vacuum_weak hw g with h1 | h1
  · exact h1
  · exfalso
    have h2 : (2 : ℝ) ≤ (((1 - 4 * g 0) ^ 2 + 16 * (g 1 ^ 2 + g 2 ^ 2) : ℤ) : ℝ) := by rw [← h1]; linarith [hl.1]
    have h3 : (((1 - 4 * g 0) ^ 2 + 16 * (g 1 ^ 2 + g 2 ^ 2) : ℤ) : ℝ) ≤ 8 := by rw [← h1]; linarith [hl.2]
    have h2 : 2 ≤ (1 - 4 * g 0) ^ 2 + 16 * (g 1 ^ 2 + g 2 ^ 2) := by exact_mod_cast h2
    have h3 : (1 - 4 * g 0) ^ 2 + 16 * (g 1 ^ 2 + g 2 ^ 2) ≤ 8 := by exact_mod_cast h3
    have h4 : g 1 ^ 2 + g 2 ^ 2 = 0 := by nlinarith [sq_nonneg (g 1), sq_nonneg (g 2), sq_nonneg (1 - 4 * g 0)]
    rw [h4] at h2 h3
    have h5 : -2 ≤ 1 - 4 * g 0 := by nlinarith
    have h6 : 1 - 4 * g 0 ≤ 2 := by nlinarith
    have h7 : g 0 = 0 := by omega
    rw [h7] at h2
    norm_num at h2

/-- The two plane waves of vacuum with the wave vector `(1/4, 0, 0)`. -/
noncomputable def twinH (j : Fin 2) (g : Fin 3 → ℤ) (c : Fin 3) : ℂ := if g = 0 then (if c = j.succ then 1 else 0) else 0
noncomputable def twinE (j : Fin 2) (g : Fin 3 → ℤ) (c : Fin 3) : ℂ := cross (fun a => (waveVec ![1 / 4, 0, 0] 1 g a : ℂ)) (twinH j g) c

theorem twin_support {g : Fin 3 → ℤ} (hg : g ∉ ({0} : Finset (Fin 3 → ℤ))) (j : Fin 2) (c : Fin 3) : twinE j g c = 0 := by
  rw [Finset.mem_singleton] at hg
  have : twinH j g = 0 := by
    funext c
    rw [twinH, if_neg hg]
    rfl
  rw [twinE, this]
  fin_cases c <;> simp [cross]

theorem twin_mode (j : Fin 2) : BandMode ![1 / 4, 0, 0] 1 (fun _ _ => 1) (1 / 16) (twinH j) (twinE j) where
  summable_d c := summable_of_ne_finset_zero (s := {0}) fun g hg => by
    show ‖twinE j g c‖ = 0
    rw [twin_support hg, norm_zero]
  summable_e c := summable_of_ne_finset_zero (s := {0}) fun g hg => by rw [twin_support hg, norm_zero]
  ampere c s := by rw [ofReal_one, one_mul]; rfl
  faraday g c := by
    by_cases hg : g = 0
    · subst hg
      simp only [waveVec_quarter]
      have hq : waveVec ![1 / 4, 0, 0] 1 0 0 = 1 / 4 := by rw [waveVec_quarter]; simp
      fin_cases j <;> fin_cases c <;> simp [cross, twinE, twinH] <;> norm_num <;> rw [hq] <;> norm_num
    · have : twinH j g = 0 := by
        funext c
        rw [twinH, if_neg hg]
        rfl
      have h2 : twinE j g = 0 := funext fun c => twin_support (by rwa [Finset.mem_singleton]) j c
      rw [h2, this]
      fin_cases c <;> simp [cross]

/-- Vacuum has exactly two modes with the squared frequency `1/16` at `k = (1/4, 0, 0)`. -/
theorem C165_exact_case (ρ : ℝ) : ∃ δ > 0, ∃ (C : ℝ) (n0 : ℕ), ∀ (n : ℕ) (sh : Fin 3 → ℕ), n0 ≤ n → (∀ a, n ≤ sh a) → (∀ a, (sh a : ℝ) ≤ ρ * n) →
    ∃ A : Matrix (Fin 2 × Idx sh) (Fin 2 × Idx sh) ℂ, IsMatrixOf ![1 / 4, 0, 0] 1 (sampleEps (fun _ _ => 1) sh) A ∧ ∃ H : (-A).IsHermitian,
      (Finset.univ.filter fun i => |H.eigenvalues i - 1 / 16| ≤ δ).card = 2
      ∧ ∀ i, |H.eigenvalues i - 1 / 16| ≤ δ → |H.eigenvalues i - 1 / 16| ≤ C * n / (((n / 2 : ℕ) : ℝ) + 1) ^ 2 := by
  refine C165_exact (m := 2) (h := twinH) (e := twinE) (w := fun k => ((k : ℝ) + 1) ^ 2) (e0 := 1) (e1 := 1) (eta := oneCoeff) (by simp) quarter_good one_pos (fun _ _ => le_rfl)
    (fun _ _ => le_rfl) oneCoeff_inverse (by norm_num) (fun h hw hli => ?_) twin_mode ?_ (fun a b hab => ?_) (fun k => by positivity) ?_
    (fun j c => summable_of_ne_finset_zero (s := {0}) fun g hg => by rw [twin_support hg, norm_zero, mul_zero])
    (fun j c => summable_of_ne_finset_zero (s := {0}) fun g hg => by
      show _ * ‖twinE j g c‖ = 0
      rw [twin_support hg, norm_zero, mul_zero]) ρ
  · -- three modes are dependent
    have hz : ∀ j g, g ≠ 0 → h j g = 0 := by
      intro j g hg
      rcases vacuum_weak (hw j) g with h1 | h1
      · exact h1
      · exfalso
        have h2 : (1 - 4 * g 0) ^ 2 + 16 * (g 1 ^ 2 + g 2 ^ 2) = 1 := by
          have : (((1 - 4 * g 0) ^ 2 + 16 * (g 1 ^ 2 + g 2 ^ 2) : ℤ) : ℝ) = 1 := by rw [← h1]; norm_num
          exact_mod_cast this
        have h4 : g 1 ^ 2 + g 2 ^ 2 = 0 := by nlinarith [sq_nonneg (g 1), sq_nonneg (g 2), sq_nonneg (1 - 4 * g 0)]
        have h5 : g 1 = 0 := by nlinarith [sq_nonneg (g 1), sq_nonneg (g 2)]
        have h6 : g 2 = 0 := by nlinarith [sq_nonneg (g 1), sq_nonneg (g 2)]
        rw [h4] at h2
        have h7 : g 0 = 0 := by
          have h8 : -1 ≤ 1 - 4 * g 0 := by nlinarith
          have h9 : 1 - 4 * g 0 ≤ 1 := by nlinarith
          omega
        apply hg
        funext a
        fin_cases a
        · exact h7
        · exact h5
        · exact h6
    have h0 : ∀ j, h j 0 0 = 0 := by
      intro j
      have := (hw j).transverse 0
      rw [waveVec_quarter] at this
      simpa [Fin.sum_univ_three] using this
    let T : (Fin 3 → ℂ) →ₗ[ℂ] (Fin 2 → ℂ) :=
      { toFun := fun c i => ∑ j, c j * h j 0 i.succ
        map_add' := fun x y => by
          funext i
          simp only [Pi.add_apply, add_mul, Finset.sum_add_distrib]
        map_smul' := fun r y => by
          funext i
          simp only [Pi.smul_apply, smul_eq_mul, Finset.mul_sum, mul_assoc, RingHom.id_apply] }
    obtain ⟨c, hcm, hc0⟩ := (Submodule.ne_bot_iff _).1 (LinearMap.ker_ne_bot_of_finrank_lt (f := T) (by simp))
    rw [LinearMap.mem_ker] at hcm
    refine hc0 (funext fun j => Fintype.linearIndependent_iff.1 hli c ?_ j)
    funext g a
    simp only [Finset.sum_apply, Pi.smul_apply, smul_eq_mul, Pi.zero_apply]
    by_cases hg : g = 0
    · subst hg
      fin_cases a
      · exact Finset.sum_eq_zero fun j _ => by show c j * h j 0 0 = 0; rw [h0, mul_zero]
      · exact congrFun hcm 0
      · exact congrFun hcm 1
    · exact Finset.sum_eq_zero fun j _ => by rw [hz j g hg]; simp
  · rw [Fintype.linearIndependent_iff]
    intro c hc j
    have h1 := congrFun (congrFun hc 0) j.succ
    simp only [Finset.sum_apply, Pi.smul_apply, smul_eq_mul, Pi.zero_apply, twinH, if_true, Fin.sum_univ_two] at h1
    fin_cases j <;> simpa using h1
  · have : (a : ℝ) ≤ b := by exact_mod_cast hab
    show ((a : ℝ) + 1) ^ 2 ≤ ((b : ℝ) + 1) ^ 2
    gcongr
  · refine squeeze_zero (fun n => by positivity) (fun n => ?_) (tendsto_const_div_atTop_nhds_zero_nat 4)
    rcases Nat.eq_zero_or_pos n with hn | hn
    · subst hn; simp
    have hn0 : (0 : ℝ) < n := by exact_mod_cast hn
    have hhalf : (n : ℝ) / 2 ≤ ((n / 2 : ℕ) : ℝ) + 1 := by
      have : n ≤ 2 * (n / 2) + 2 := by omega
      have : (n : ℝ) ≤ 2 * ((n / 2 : ℕ) : ℝ) + 2 := by exact_mod_cast this
      linarith
    rw [div_le_div_iff₀ (by positivity) hn0]
    nlinarith

end Meanas.Props
