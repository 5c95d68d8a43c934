/-
C159: bands are Lipschitz continuous in the Bloch vector.
-/
import Verif.Props.BlochMonotone
import Verif.Props.BlochVelocity

namespace Meanas.Props

open Complex Matrix Meanas.Bloch
open scoped ComplexOrder

namespace LipAux

section
variable {E F : Type*} [NormedAddCommGroup E] [InnerProductSpace ℂ E] [FiniteDimensional ℂ E]
  [NormedAddCommGroup F] [InnerProductSpace ℂ F] [FiniteDimensional ℂ F]

/-- Comparison of the square roots of sorted eigenvalues through a contraction. -/
theorem sqrt_eigenvalues_le {T : E →ₗ[ℂ] E} (hT : T.IsSymmetric) {S : F →ₗ[ℂ] F} (hS : S.IsSymmetric) {n : ℕ}
    (hn : Module.finrank ℂ E = n) (hm : Module.finrank ℂ F = n) (J : F →ₗ[ℂ] E) (hJ : ∀ y, ‖J y‖ ≤ ‖y‖) {δ : ℝ}
    (hpos : ∀ i, 0 ≤ hT.eigenvalues hn i)
    (hle : ∀ y, √(inner ℂ y (S y)).re ≤ √(inner ℂ (J y) (T (J y))).re + δ * ‖y‖) (i : Fin n) :
    √(hS.eigenvalues hm i) ≤ √(hT.eigenvalues hn i) + δ := by
  classical
  let b := hT.eigenvectorBasis hn
  let c := hS.eigenvectorBasis hm
  let L : F →ₗ[ℂ] (({k : Fin n // i < k} → ℂ) × ({k : Fin n // k < i} → ℂ)) :=
    { toFun := fun y => (fun k => c.repr y k, fun k => b.repr (J y) k)
      map_add' := fun x y => by ext <;> simp
      map_smul' := fun r y => by ext <;> simp }
  have hdim : Module.finrank ℂ (({k : Fin n // i < k} → ℂ) × ({k : Fin n // k < i} → ℂ)) < Module.finrank ℂ F := by
    rw [hm, Module.finrank_prod, Module.finrank_fintype_fun_eq_card, Module.finrank_fintype_fun_eq_card, Fintype.card_subtype, Fintype.card_subtype]
    have h1 : (Finset.univ.filter fun k : Fin n => k < i) = Finset.Iio i := by ext; simp
    have h2 : (Finset.univ.filter fun k : Fin n => i < k) = Finset.Ioi i := by ext; simp
    rw [h1, h2, Fin.card_Iio, Fin.card_Ioi]
    have := i.2
    omega
  obtain ⟨y, hy, hy0⟩ := (Submodule.ne_bot_iff _).1 (LinearMap.ker_ne_bot_of_finrank_lt (f := L) hdim)
  rw [LinearMap.mem_ker] at hy
  have hc : ∀ k, i < k → c.repr y k = 0 := fun k hk => congrFun (congrArg Prod.fst hy) ⟨k, hk⟩
  have hb : ∀ k, k < i → b.repr (J y) k = 0 := fun k hk => congrFun (congrArg Prod.snd hy) ⟨k, hk⟩
  have hyp : 0 < ‖y‖ := norm_pos_iff.2 hy0
  have e1 : hS.eigenvalues hm i * ‖y‖ ^ 2 ≤ (inner ℂ y (S y)).re := by
    rw [MinMax.re_inner_eq_sum hS hm, MinMax.norm_sq_eq_sum c, Finset.mul_sum]
    refine Finset.sum_le_sum fun k _ => ?_
    rcases le_or_gt k i with h | h
    · exact mul_le_mul_of_nonneg_right (hS.eigenvalues_antitone hm h) (sq_nonneg _)
    · have := hc k h
      simp only [c] at this
      rw [this]; simp
  have e2 : (inner ℂ (J y) (T (J y))).re ≤ hT.eigenvalues hn i * ‖J y‖ ^ 2 := by
    rw [MinMax.re_inner_eq_sum hT hn, MinMax.norm_sq_eq_sum b, Finset.mul_sum]
    refine Finset.sum_le_sum fun k _ => ?_
    rcases lt_or_ge k i with h | h
    · have := hb k h
      simp only [b] at this
      rw [this]; simp
    · exact mul_le_mul_of_nonneg_right (hT.eigenvalues_antitone hn h) (sq_nonneg _)
  have e3 : hT.eigenvalues hn i * ‖J y‖ ^ 2 ≤ hT.eigenvalues hn i * ‖y‖ ^ 2 :=
    mul_le_mul_of_nonneg_left (pow_le_pow_left₀ (norm_nonneg _) (hJ y) 2) (hpos i)
  have s1 : √(hS.eigenvalues hm i) * ‖y‖ ≤ √(inner ℂ y (S y)).re := by
    calc _ = √(hS.eigenvalues hm i * ‖y‖ ^ 2) := by rw [Real.sqrt_mul' _ (sq_nonneg _), Real.sqrt_sq hyp.le]
      _ ≤ _ := Real.sqrt_le_sqrt e1
  have s2 : √(inner ℂ (J y) (T (J y))).re ≤ √(hT.eigenvalues hn i) * ‖y‖ := by
    calc _ ≤ √(hT.eigenvalues hn i * ‖y‖ ^ 2) := Real.sqrt_le_sqrt (e2.trans e3)
      _ = _ := by rw [Real.sqrt_mul' _ (sq_nonneg _), Real.sqrt_sq hyp.le]
  have := s1.trans ((hle y).trans (add_le_add_left s2 _))
  rw [← add_mul] at this
  exact le_of_mul_le_mul_right this hyp
end

section
variable {n : Type*} [Fintype n] [DecidableEq n]

omit [DecidableEq n] in
theorem norm_eq_sqrt (z : EuclideanSpace ℂ n) : ‖z‖ = √(∑ p, normSq (z.ofLp p)) := by
  rw [EuclideanSpace.norm_eq]
  congr 1
  refine Finset.sum_congr rfl fun p _ => (Complex.normSq_eq_norm_sq _).symm

/-- The comparison for positive semidefinite matrices. -/
theorem sqrt_eigenvalues₀_le {A B : Matrix n n ℂ} (hA : A.PosSemidef) (hB : B.IsHermitian) (Y : Matrix n n ℂ)
    (hY : ∀ v, ∑ p, normSq ((Y *ᵥ v) p) ≤ ∑ p, normSq (v p)) {δ : ℝ}
    (hle : ∀ v : n → ℂ, √(star v ⬝ᵥ (B *ᵥ v)).re ≤ √(star (Y *ᵥ v) ⬝ᵥ (A *ᵥ (Y *ᵥ v))).re + δ * √(∑ p, normSq (v p)))
    (i : Fin (Fintype.card n)) : √(hB.eigenvalues₀ i) ≤ √(hA.1.eigenvalues₀ i) + δ := by
  have hpos : ∀ i, 0 ≤ hA.1.eigenvalues₀ i := by
    intro i
    have := hA.eigenvalues_nonneg ((Fintype.equivOfCardEq (Fintype.card_fin _)) i)
    simpa [Matrix.IsHermitian.eigenvalues] using this
  refine sqrt_eigenvalues_le _ _ _ _ (Matrix.toLpLin 2 2 Y) (fun y => ?_) hpos (fun y => ?_) i
  · rw [norm_eq_sqrt, norm_eq_sqrt]
    exact Real.sqrt_le_sqrt (hY y.ofLp)
  · rw [MinMax.inner_ofLp, MinMax.inner_ofLp, norm_eq_sqrt]
    exact hle y.ofLp

omit [DecidableEq n] in
/-- Triangle inequality of a weighted norm. -/
theorem wnorm_add {w : n → ℝ} (hw : ∀ p, 0 ≤ w p) (g g' : n → ℂ) :
    √(∑ p, w p * normSq (g p + g' p)) ≤ √(∑ p, w p * normSq (g p)) + √(∑ p, w p * normSq (g' p)) := by
  have key : ∀ f : n → ℂ, √(∑ p, w p * normSq (f p)) = ‖(WithLp.toLp 2 fun p => ((√(w p) : ℝ) : ℂ) * f p : EuclideanSpace ℂ n)‖ := by
    intro f
    rw [norm_eq_sqrt]
    congr 1
    refine Finset.sum_congr rfl fun p _ => ?_
    simp only [normSq_mul, normSq_ofReal, Real.mul_self_sqrt (hw p)]
  rw [key, key, key]
  refine le_of_eq_of_le ?_ (norm_add_le _ _)
  congr 1
  ext p
  simp [mul_add]
end

variable {sh : Fin 3 → ℕ} (k0 : Fin 3 → ℝ) (G : Matrix (Fin 3) (Fin 3) ℝ)

/-- `q = |k|`, `k × m = q n`: the cross product with `k` in the frame. -/
theorem cross_frame (k m n : Fin 3 → ℂ) (q : ℂ) (hm1 : m 0 ^ 2 + m 1 ^ 2 + m 2 ^ 2 = 1) (hmk : m 0 * k 0 + m 1 * k 1 + m 2 * k 2 = 0)
    (hc : ∀ c, cross k m c = q * n c) (w : Fin 3 → ℂ) (c : Fin 3) :
    cross k w c = (n c * ∑ a, m a * w a - m c * ∑ a, n a * w a) * q := by
  have g0 := hc 0
  have g1 := hc 1
  have g2 := hc 2
  simp only [cross] at g0 g1 g2
  have K0 : q * (m 1 * n 2 - m 2 * n 1) = k 0 := by linear_combination -(m 1) * g2 + m 2 * g1 + k 0 * hm1 - m 0 * hmk
  have K1 : q * (m 2 * n 0 - m 0 * n 2) = k 1 := by linear_combination -(m 2) * g0 + m 0 * g2 + k 1 * hm1 - m 1 * hmk
  have K2 : q * (m 0 * n 1 - m 1 * n 0) = k 2 := by linear_combination -(m 0) * g1 + m 1 * g0 + k 2 * hm1 - m 2 * hmk
  simp only [Fin.sum_univ_three]
  fin_cases c <;> simp only [cross, Fin.zero_eta, Fin.mk_one, Fin.reduceFinMk]
  · linear_combination -w 2 * K1 + w 1 * K2
  · linear_combination -w 0 * K2 + w 2 * K0
  · linear_combination -w 1 * K0 + w 0 * K1

/-- Bessel's inequality for two real orthonormal vectors. -/
theorem bessel {m n : Fin 3 → ℝ} (hm : m 0 ^ 2 + m 1 ^ 2 + m 2 ^ 2 = 1) (hn : n 0 ^ 2 + n 1 ^ 2 + n 2 ^ 2 = 1) (hmn : m 0 * n 0 + m 1 * n 1 + m 2 * n 2 = 0) (w : Fin 3 → ℂ) :
    normSq (∑ a, (m a : ℂ) * w a) + normSq (∑ a, (n a : ℂ) * w a) ≤ ∑ a, normSq (w a) := by
  have real : ∀ u : Fin 3 → ℝ, (m 0 * u 0 + m 1 * u 1 + m 2 * u 2) ^ 2 + (n 0 * u 0 + n 1 * u 1 + n 2 * u 2) ^ 2 ≤ u 0 ^ 2 + u 1 ^ 2 + u 2 ^ 2 := by
    intro u
    set s := m 0 * u 0 + m 1 * u 1 + m 2 * u 2
    set t := n 0 * u 0 + n 1 * u 1 + n 2 * u 2
    have h : (u 0 - s * m 0 - t * n 0) ^ 2 + (u 1 - s * m 1 - t * n 1) ^ 2 + (u 2 - s * m 2 - t * n 2) ^ 2 = u 0 ^ 2 + u 1 ^ 2 + u 2 ^ 2 - s ^ 2 - t ^ 2 := by
      have e1 : m 0 * u 0 + m 1 * u 1 + m 2 * u 2 = s := rfl
      have e2 : n 0 * u 0 + n 1 * u 1 + n 2 * u 2 = t := rfl
      linear_combination s ^ 2 * hm + t ^ 2 * hn + 2 * s * t * hmn - 2 * s * e1 - 2 * t * e2
    nlinarith [sq_nonneg (u 0 - s * m 0 - t * n 0), sq_nonneg (u 1 - s * m 1 - t * n 1), sq_nonneg (u 2 - s * m 2 - t * n 2)]
  have h1 := real fun a => (w a).re
  have h2 := real fun a => (w a).im
  simp only [normSq_apply, Fin.sum_univ_three, add_re, add_im, re_ofReal_mul, im_ofReal_mul]
  nlinarith

theorem pythagoras {m n : Fin 3 → ℝ} (hm : m 0 ^ 2 + m 1 ^ 2 + m 2 ^ 2 = 1) (hn : n 0 ^ 2 + n 1 ^ 2 + n 2 ^ 2 = 1) (hmn : m 0 * n 0 + m 1 * n 1 + m 2 * n 2 = 0) (a b : ℂ) :
    ∑ c, normSq ((m c : ℂ) * a + (n c : ℂ) * b) = normSq a + normSq b := by
  simp only [normSq_apply, Fin.sum_univ_three, add_re, add_im, re_ofReal_mul, im_ofReal_mul]
  linear_combination (a.re ^ 2 + a.im ^ 2) * hm + (b.re ^ 2 + b.im ^ 2) * hn + 2 * (a.re * b.re + a.im * b.im) * hmn

theorem normSq_cross_le (D : Fin 3 → ℝ) (w : Fin 3 → ℂ) : ∑ c, normSq (cross (fun a => (D a : ℂ)) w c) ≤ norm3 D ^ 2 * ∑ c, normSq (w c) := by
  rw [norm3, Real.sq_sqrt (Finset.sum_nonneg fun _ _ => sq_nonneg _)]
  simp only [normSq_apply, Fin.sum_univ_three, cross, sub_re, sub_im, re_ofReal_mul, im_ofReal_mul]
  nlinarith [sq_nonneg (D 0 * (w 0).re + D 1 * (w 1).re + D 2 * (w 2).re), sq_nonneg (D 0 * (w 0).im + D 1 * (w 1).im + D 2 * (w 2).im)]

/-- Parseval. -/
theorem parseval {d : ℕ} {sh : Fin d → ℕ} (f : Arr sh ℂ) : (Fintype.card (Idx sh) : ℝ) * ∑ x, normSq (ifftn f x) = ∑ k, normSq (f k) := by
  have := sum_conj_fftn_fftn (ifftn f) (ifftn f)
  rw [fftn_ifftn] at this
  simp only [← normSq_eq_conj_mul_self] at this
  exact_mod_cast this.symm

/-- The quadratic form of minus the Maxwell operator. -/
theorem form_eq {n : Idx sh → Fin 3 → ℝ} (hn : nAll k0 G sh = some n) {eps : VField sh ℂ} (hp : PosReal eps) {B : Matrix (Fin 2 × Idx sh) (Fin 2 × Idx sh) ℂ}
    (hB : IsMatrixOf k0 G eps B) (v : Fin 2 × Idx sh → ℂ) :
    (star v ⬝ᵥ (-B *ᵥ v)).re = ∑ p : Fin 3 × Idx sh, (Fintype.card (Idx sh) : ℝ) / (eps p.1 p.2).re * normSq (ifftn (dXyz k0 G n (fun i x => v (i, x)) p.1) p.2) := by
  let u : Hmn sh := fun i x => v (i, x)
  have h1 := hip_maxwell k0 G hn (u := u) (hB u)
  have h2 : star v ⬝ᵥ (-B *ᵥ v) = -hip u fun i x => (B *ᵥ fun p => u p.1 p.2) (i, x) := by
    rw [neg_mulVec, dotProduct_neg]
    unfold hip
    rw [← Fintype.sum_prod_type']
    rfl
  have h3 : ∀ c x, (starRingEnd ℂ) (ifftn (dXyz k0 G n u c) x) * (ifftn (dXyz k0 G n u c) x / eps c x)
      = ((normSq (ifftn (dXyz k0 G n u c) x) / (eps c x).re : ℝ) : ℂ) := by
    intro c x
    obtain ⟨r, -, er⟩ := hp c x
    rw [er, ofReal_re, ofReal_div, normSq_eq_conj_mul_self]
    ring
  rw [h2, h1]
  simp only [h3]
  rw [neg_mul, neg_neg]
  have : ((Fintype.card (Idx sh) : ℕ) : ℂ) * ∑ c, ∑ x, ((normSq (ifftn (dXyz k0 G n u c) x) / (eps c x).re : ℝ) : ℂ)
      = (((Fintype.card (Idx sh) : ℝ) * ∑ c, ∑ x, normSq (ifftn (dXyz k0 G n u c) x) / (eps c x).re : ℝ) : ℂ) := by push_cast; rfl
  rw [this, ofReal_re, Fintype.sum_prod_type]
  simp only [Finset.mul_sum]
  refine Finset.sum_congr rfl fun c _ => Finset.sum_congr rfl fun x _ => ?_
  ring

end LipAux

open LipAux

variable {sh : Fin 3 → ℕ}

/-- One half of C159. -/
theorem LipAux.half {k0 k0' : Fin 3 → ℝ} {G : Matrix (Fin 3) (Fin 3) ℝ} (hg : Good k0 G sh) (hg' : Good k0' G sh) {eps : VField sh ℂ} (he : PosReal eps) {e0 : ℝ} (h0 : 0 < e0)
    (hmin : ∀ c x, e0 ≤ (eps c x).re) {A A' : Matrix (Fin 2 × Idx sh) (Fin 2 × Idx sh) ℂ} (hA : IsMatrixOf k0 G eps A) (hA' : IsMatrixOf k0' G eps A')
    (H : (-A).PosSemidef) (H' : (-A').PosSemidef) (j : Fin (Fintype.card (Fin 2 × Idx sh))) :
    √(H.1.eigenvalues₀ j) ≤ √(H'.1.eigenvalues₀ j) + norm3 (G *ᵥ (k0 - k0')) / √e0 := by
  obtain ⟨n, hn, hx⟩ := nAll_regular k0 G (hg.regular k0 G)
  obtain ⟨n', hn', hx'⟩ := nAll_regular k0' G (hg'.regular k0' G)
  let m := mVec (sh := sh) k0 G
  let m' := mVec (sh := sh) k0' G
  -- the field of a coefficient vector
  let fld : (Fin 2 × Idx sh → ℂ) → Idx sh → Fin 3 → ℂ := fun v x a => m x a * v (0, x) + n x a * v (1, x)
  -- coefficients in the other frame
  let Y : Matrix (Fin 2 × Idx sh) (Fin 2 × Idx sh) ℂ := fun p q =>
    if p.2 = q.2 then ∑ a, ((if p.1 = 0 then m' p.2 a else n' p.2 a : ℝ) : ℂ) * ((if q.1 = 0 then m p.2 a else n p.2 a : ℝ) : ℂ) else 0
  have hY : ∀ v i x, (Y *ᵥ v) (i, x) = ∑ a, ((if i = 0 then m' x a else n' x a : ℝ) : ℂ) * fld v x a := by
    intro v i x
    simp only [mulVec, dotProduct, Y, Fintype.sum_prod_type, Fin.sum_univ_two, ite_mul, zero_mul, Finset.sum_ite_eq, Finset.mem_univ, if_true, fld,
      Finset.sum_mul, ← Finset.sum_add_distrib]
    refine Finset.sum_congr rfl fun a _ => ?_
    simp only [one_ne_zero, if_false]
    ring
  have hsum : ∀ f : Fin 2 × Idx sh → ℝ, ∑ p, f p = ∑ x, (f (0, x) + f (1, x)) := by
    intro f
    rw [Fintype.sum_prod_type, Fin.sum_univ_two, Finset.sum_add_distrib]
  have hfld : ∀ v, ∑ x, ∑ a, normSq (fld v x a) = ∑ p, normSq (v p) := by
    intro v
    rw [hsum]
    refine Finset.sum_congr rfl fun x _ => ?_
    exact pythagoras (mVec_unit k0 G x) (nVec_some k0 G (hx x)).1 (nVec_some k0 G (hx x)).2.1 _ _
  have key : ∀ (κ : Fin 3 → ℝ) (ν : Idx sh → Fin 3 → ℝ) (_ : Good κ G sh) (_ : ∀ x, nVec κ G x = some (ν x)) (w : Idx sh → Fin 3 → ℂ) (c : Fin 3),
      dXyz κ G ν (fun i x => ∑ a, ((if i = 0 then mVec κ G x a else ν x a : ℝ) : ℂ) * w x a) c = fun l => cross (fun a => (kxyz κ G l a : ℂ)) (w l) c := by
    intro κ ν hk hν w c
    funext l
    have hcr : ∀ c : Fin 3, cross (fun a => (kxyz κ G l a : ℂ)) (fun a => (mVec κ G l a : ℂ)) c = kMag κ G l * ν l c := by
      intro c
      obtain ⟨f1, -⟩ := frame_cross κ G (hν l) (hk l _ (kxyz_isWave κ G l)) c
      rw [← ofReal_mul, ← f1]
      fin_cases c <;> simp [cross]
    rw [cross_frame _ _ _ _ (by exact_mod_cast mVec_unit κ G l) (by exact_mod_cast mVec_k κ G l (hk l _ (kxyz_isWave κ G l))) hcr (w l) c]
    simp only [dXyz, if_true, one_ne_zero, if_false]
  have hown : ∀ v (i : Fin 2) (x : Idx sh), v (i, x) = ∑ a, ((if i = 0 then m x a else n x a : ℝ) : ℂ) * fld v x a := by
    intro v i x
    have u1 := mVec_unit k0 G x
    obtain ⟨u2, u3, -⟩ := nVec_some k0 G (hx x)
    have c1 : (m x 0 : ℂ) ^ 2 + (m x 1 : ℂ) ^ 2 + (m x 2 : ℂ) ^ 2 = 1 := by exact_mod_cast u1
    have c2 : (n x 0 : ℂ) ^ 2 + (n x 1 : ℂ) ^ 2 + (n x 2 : ℂ) ^ 2 = 1 := by exact_mod_cast u2
    have c3 : (m x 0 : ℂ) * n x 0 + (m x 1 : ℂ) * n x 1 + (m x 2 : ℂ) * n x 2 = 0 := by exact_mod_cast u3
    simp only [fld, Fin.sum_univ_three]
    fin_cases i
    · simp only [Fin.zero_eta, if_true]
      linear_combination -v (0, x) * c1 - v (1, x) * c3
    · simp only [Fin.mk_one, one_ne_zero, if_false]
      linear_combination -v (1, x) * c2 - v (0, x) * c3
  have hcard : (0 : ℝ) ≤ Fintype.card (Idx sh) := Nat.cast_nonneg _
  refine sqrt_eigenvalues₀_le H' H.1 Y (fun v => ?_) (fun v => ?_) j
  · rw [← hfld v, hsum]
    refine Finset.sum_le_sum fun x _ => ?_
    rw [hY, hY]
    simp only [if_true, one_ne_zero, if_false]
    exact bessel (mVec_unit k0' G x) (nVec_some k0' G (hx' x)).1 (nVec_some k0' G (hx' x)).2.1 _
  · rw [form_eq k0 G hn he hA, form_eq k0' G hn' he hA']
    have e1 : ∀ c, dXyz k0 G n (fun i x => v (i, x)) c = fun l => cross (fun a => (kxyz k0 G l a : ℂ)) (fld v l) c := by
      intro c
      rw [← key k0 n hg hx (fld v) c]
      congr 1
      funext i x
      exact hown v i x
    have e2 : ∀ c, dXyz k0' G n' (fun i x => (Y *ᵥ v) (i, x)) c = fun l => cross (fun a => (kxyz k0' G l a : ℂ)) (fld v l) c := by
      intro c
      rw [← key k0' n' hg' hx' (fld v) c]
      congr 1
      funext i x
      exact hY v i x
    simp only [e1, e2]
    have e3 : ∀ c x, ifftn (fun l => cross (fun a => (kxyz k0 G l a : ℂ)) (fld v l) c) x =
        ifftn (fun l => cross (fun a => (kxyz k0' G l a : ℂ)) (fld v l) c) x + ifftn (fun l => cross (fun a => ((G *ᵥ (k0 - k0')) a : ℂ)) (fld v l) c) x := by
      intro c x
      unfold ifftn
      rw [← add_div, ← Finset.sum_add_distrib]
      congr 1
      refine Finset.sum_congr rfl fun l _ => ?_
      rw [← mul_add, ← cross_add_left]
      congr 1
      show cross _ _ c = cross _ _ c
      congr 1
      funext a
      have := congrFun (kxyz_add k0' (k0 - k0') G l) a
      rw [add_sub_cancel] at this
      rw [this]
      simp
    simp only [e3]
    refine (wnorm_add (n := Fin 3 × Idx sh) (fun p => div_nonneg hcard (h0.le.trans (hmin p.1 p.2))) _ _).trans ?_
    refine add_le_add le_rfl ?_
    have hb : ∑ p : Fin 3 × Idx sh, (Fintype.card (Idx sh) : ℝ) / (eps p.1 p.2).re * normSq (ifftn (fun l => cross (fun a => ((G *ᵥ (k0 - k0')) a : ℂ)) (fld v l) p.1) p.2)
        ≤ norm3 (G *ᵥ (k0 - k0')) ^ 2 / e0 * ∑ p, normSq (v p) := by
      calc _ ≤ ∑ p : Fin 3 × Idx sh, (Fintype.card (Idx sh) : ℝ) / e0 * normSq (ifftn (fun l => cross (fun a => ((G *ᵥ (k0 - k0')) a : ℂ)) (fld v l) p.1) p.2) := by
            refine Finset.sum_le_sum fun p _ => mul_le_mul_of_nonneg_right ?_ (normSq_nonneg _)
            exact div_le_div_of_nonneg_left hcard h0 (hmin p.1 p.2)
        _ = (∑ c, ∑ l, normSq (cross (fun a => ((G *ᵥ (k0 - k0')) a : ℂ)) (fld v l) c)) / e0 := by
            rw [Fintype.sum_prod_type, Finset.sum_div]
            refine Finset.sum_congr rfl fun c _ => ?_
            rw [← parseval, ← Finset.mul_sum]
            ring
        _ ≤ (norm3 (G *ᵥ (k0 - k0')) ^ 2 * ∑ p, normSq (v p)) / e0 := by
            refine div_le_div_of_nonneg_right ?_ h0.le
            rw [Finset.sum_comm, ← hfld, Finset.mul_sum]
            exact Finset.sum_le_sum fun l _ => normSq_cross_le _ _
        _ = _ := by ring
    refine (Real.sqrt_le_sqrt hb).trans (le_of_eq ?_)
    have hnn : 0 ≤ norm3 (G *ᵥ (k0 - k0')) := Real.sqrt_nonneg _
    rw [Real.sqrt_mul (by positivity), Real.sqrt_div (sq_nonneg _), Real.sqrt_sq hnn]

/-- **C159 (where no plane wave has `kx = 0, ky ≠ 0`).** The frequencies of every band (square roots of the sorted eigenvalues of minus the Maxwell operator) at two Bloch vectors differ by at most
`|k - k'| / √eps_min`: no band is steeper than light in the lowest permittivity. -/
theorem C159_lipschitz_partial {k0 k0' : Fin 3 → ℝ} {G : Matrix (Fin 3) (Fin 3) ℝ} (hg : Good k0 G sh) (hg' : Good k0' G sh) {eps : VField sh ℂ} (he : PosReal eps) {e0 : ℝ} (h0 : 0 < e0)
    (hmin : ∀ c x, e0 ≤ (eps c x).re) {A A' : Matrix (Fin 2 × Idx sh) (Fin 2 × Idx sh) ℂ}
    (hA : ∀ h : Hmn sh, maxwellOperator k0 G eps h = some fun i x => (A *ᵥ fun p => h p.1 p.2) (i, x))
    (hA' : ∀ h : Hmn sh, maxwellOperator k0' G eps h = some fun i x => (A' *ᵥ fun p => h p.1 p.2) (i, x)) :
    ∃ (H : (-A).IsHermitian) (H' : (-A').IsHermitian), ∀ j, |√(H.eigenvalues₀ j) - √(H'.eigenvalues₀ j)| ≤ norm3 (G *ᵥ (k0 - k0')) / √e0 := by
  have P := IsMatrixOf.negHermitian k0 G (hg.regular k0 G) he hA
  have P' := IsMatrixOf.negHermitian k0' G (hg'.regular k0' G) he hA'
  refine ⟨P.1, P'.1, fun j => ?_⟩
  rw [abs_le]
  have h1 := half hg hg' he h0 hmin hA hA' P P' j
  have h2 := half hg' hg he h0 hmin hA' hA P' P j
  have h3 : norm3 (G *ᵥ (k0' - k0)) = norm3 (G *ᵥ (k0 - k0')) := by
    rw [← neg_sub k0 k0', mulVec_neg]
    unfold norm3
    simp
  rw [h3] at h2
  constructor <;> linarith

/-- The hypotheses can be met: Bloch vectors `(1/4, 0, 0)` and `(1/4, 1/8, 0)` on a cubic lattice. -/
example : Good (fun c => if c = 0 then (1 / 4 : ℝ) else 0) 1 sh ∧ Good (fun c => if c = 0 then (1 / 4 : ℝ) else if c = 1 then 1 / 8 else 0) 1 sh := by
  constructor <;>
  · rintro x k ⟨g, -, -, -, hk⟩ ⟨h0, -⟩
    have h := hk 0
    rw [h0, Fin.sum_univ_three] at h
    simp only [one_apply] at h
    simp +decide at h
    have h4 : ((4 * g 0 : ℤ) : ℝ) = ((1 : ℤ) : ℝ) := by push_cast; linarith
    have := Int.cast_injective h4
    omega

/-- The permittivity of the counterexample. -/
def jumpEps : VField (fun _ : Fin 3 => 1) ℂ := fun c _ => if c = 2 then 4 else 1

/-- Its Bloch vectors. -/
noncomputable def jumpK (t : ℝ) : Fin 3 → ℝ := fun c => if c = 0 then t else 1 / 4

/-- **C159, disagreement.** Where a plane wave has `kx = 0, ky ≠ 0` the bands jump: in the uniaxial crystal with permittivity `(1, 1, 4)` on a grid of one cell, both bands at the Bloch vector
`(0, 1/4, 1/4)` have the squared frequency `1/8`, but at every neighbour `(t, 1/4, 1/4)` one of them has `5/64 + t²/4`. -/
theorem C159_jump_partial :
    PosReal jumpEps ∧ (∀ h : Hmn (fun _ => 1), maxwellOperator (jumpK 0) 1 jumpEps h = some fun i x => -(1 / 8) * h i x) ∧
    ∀ t : ℝ, t ≠ 0 → ∃ h : Hmn (fun _ => 1), h ≠ 0 ∧ maxwellOperator (jumpK t) 1 jumpEps h = some fun i x => -((5 / 64 + t ^ 2 / 4 : ℝ) : ℂ) * h i x := by
  have hpos : PosReal jumpEps := by
    intro c x
    by_cases h : c = 2
    · exact ⟨4, by norm_num, by simp [jumpEps, h]⟩
    · exact ⟨1, by norm_num, by simp [jumpEps, h]⟩
  have hne : ∀ c x, jumpEps c x ≠ 0 := fun c x => by
    obtain ⟨r, hr, e⟩ := hpos c x
    rw [e]; exact_mod_cast hr.ne'
  have jk0 : ∀ t, jumpK t 0 = t := fun t => rfl
  have jk1 : ∀ t, jumpK t 1 = 1 / 4 := fun t => rfl
  have jk2 : ∀ t, jumpK t 2 = 1 / 4 := fun t => rfl
  have hk : ∀ (t : ℝ) (x : Idx fun _ : Fin 3 => 1), kxyz (jumpK t) 1 x = jumpK t := by
    intro t x
    unfold kxyz
    rw [one_mulVec]
    funext c
    have : fftfreq 1 (x c) = 0 := by
      have : x c = 0 := Subsingleton.elim _ _
      rw [this]; rfl
    simp only [this, Int.cast_zero, sub_zero]
  have hreg : ∀ t, Regular (jumpK t) 1 fun _ => 1 := by
    rintro t x k hw ⟨-, -, h2⟩
    obtain rfl := hw.eq
    rw [hk, jk2] at h2
    norm_num at h2
  have hmag : ∀ t x, kMag (sh := fun _ => 1) (jumpK t) 1 x ^ 2 = t ^ 2 + 1 / 8 := by
    intro t x
    unfold kMag norm3
    rw [Real.sq_sqrt (Finset.sum_nonneg fun _ _ => sq_nonneg _), hk, Fin.sum_univ_three, jk0, jk1, jk2]
    ring
  have hconv : ∀ (g : Arr (fun _ : Fin 3 => 1) ℂ) (c : Fin 3) x, fftn (fun y => ifftn g y / jumpEps c y) x = g x / (if c = 2 then 4 else 1) := by
    intro g c x
    have : (fun y => ifftn g y / jumpEps c y) = fun y => (if c = 2 then 4 else 1 : ℂ)⁻¹ * ifftn g y := by
      funext y; simp only [jumpEps]; ring
    rw [this, fftn_smul, fftn_ifftn]
    simp only
    ring
  refine ⟨hpos, fun h => ?_, fun t ht => ?_⟩
  · obtain ⟨n, hn, hx⟩ := nAll_regular _ _ (hreg 0)
    obtain ⟨b, hb, b0, b1⟩ := maxwell_eq _ _ hn hne h
    rw [hb]
    congr 1
    have hm : ∀ x : Idx (fun _ : Fin 3 => 1), mVec (jumpK 0) 1 x = ey := fun x => mVec_neg _ _ (by rw [hk]; rfl)
    have hnn : ∀ x, n x 0 ^ 2 = 1 ∧ n x 1 = 0 ∧ n x 2 = 0 := by
      intro x
      obtain ⟨h1, h2, h3⟩ := nVec_some _ _ (hx x)
      rw [hm] at h2
      rw [hk, jk0, jk1, jk2] at h3
      simp [ey] at h2
      rw [h2] at h1 h3
      have h4 : n x 2 = 0 := by linarith
      rw [h4] at h1
      exact ⟨by linarith, h2, h4⟩
    have hq : ∀ x : Idx (fun _ : Fin 3 => 1), (kMag (jumpK 0) 1 x : ℂ) ^ 2 = 1 / 8 := by
      intro x
      rw [← ofReal_pow, hmag 0 x]; norm_num
    funext i x
    obtain ⟨n0, n1, n2⟩ := hnn x
    have n0' : (n x 0 : ℂ) ^ 2 = 1 := by exact_mod_cast n0
    have q := hq x
    generalize hK : (kMag (jumpK 0) 1 x : ℂ) = K at q
    fin_cases i
    · refine (b0 x).trans ?_
      simp only [hconv, dXyz, hm, Fin.sum_univ_three, ey, n1, n2, hK]
      simp +decide
      linear_combination ((n x 0 : ℂ) ^ 2 * h 0 x) * q + 1 / 8 * h 0 x * n0'
    · refine (b1 x).trans ?_
      simp only [hconv, dXyz, hm, Fin.sum_univ_three, ey, n1, n2, hK]
      simp +decide
      linear_combination (h 1 x) * q
  · refine ⟨fun i _ => if i = 0 then 1 else 0, fun hc => ?_, ?_⟩
    · have := congrFun (congrFun hc 0) fun _ => 0
      simp at this
    obtain ⟨n, hn, hx⟩ := nAll_regular _ _ (hreg t)
    obtain ⟨b, hb, b0, b1⟩ := maxwell_eq _ _ hn hne fun i _ => if i = 0 then 1 else 0
    rw [hb]
    congr 1
    have hf : ∀ x c, cross (jumpK t) (mVec (jumpK t) 1 x) c = kMag (jumpK t) 1 x * n x c := by
      intro x c
      have := (frame_cross _ _ (hx x) (by rw [hk]; rintro ⟨h0, -⟩; exact ht h0) c).1
      rwa [hk] at this
    have hm : ∀ x : Idx (fun _ : Fin 3 => 1), ∃ r : ℝ, r ^ 2 * (t ^ 2 + 1 / 16) = 1 ∧ mVec (jumpK t) 1 x 0 = r / 4 ∧ mVec (jumpK t) 1 x 1 = -(r * t) ∧ mVec (jumpK t) 1 x 2 = 0 := by
      intro x
      have h1 := mVec_unit (jumpK t) 1 x
      have h0 : kxyz (jumpK t) 1 x 0 ≠ 0 := by rw [hk]; exact ht
      have hp := mVec_pos _ _ h0
      rw [hk] at hp
      obtain ⟨c0, c1, c2⟩ := cross_ez (jumpK t)
      rw [hp] at h1 ⊢
      rw [jk1] at c0
      rw [jk0] at c1
      simp only [c0, c1, c2] at h1 ⊢
      refine ⟨(norm3 (cross (jumpK t) ez))⁻¹, ?_, ?_, ?_, ?_⟩
      · refine Eq.trans ?_ h1
        generalize norm3 (cross (jumpK t) ez) = w
        simp only [div_eq_mul_inv]
        ring
      · ring
      · ring
      · ring
    funext i x
    obtain ⟨r, hr, m0, m1, m2⟩ := hm x
    have f0 := hf x 0
    have f1 := hf x 1
    have f2 := hf x 2
    simp only [cross, m0, m1, m2, jk0, jk1, jk2] at f0 f1 f2
    have F0 : ((r * t / 4 : ℝ) : ℂ) = kMag (jumpK t) 1 x * n x 0 := by rw [← ofReal_mul, ← f0]; congr 1; ring
    have F1 : ((r / 16 : ℝ) : ℂ) = kMag (jumpK t) 1 x * n x 1 := by rw [← ofReal_mul, ← f1]; congr 1; ring
    have F2 : ((-(r * (t ^ 2 + 1 / 16)) : ℝ) : ℂ) = kMag (jumpK t) 1 x * n x 2 := by rw [← ofReal_mul, ← f2]; congr 1; ring
    push_cast at F0 F1 F2
    have hr' : (r : ℂ) ^ 2 * ((t : ℂ) ^ 2 + 1 / 16) = 1 := by
      have := congrArg (fun z : ℝ => (z : ℂ)) hr
      push_cast at this
      exact this
    generalize hK : (kMag (jumpK t) 1 x : ℂ) = K at F0 F1 F2
    fin_cases i
    · refine (b0 x).trans ?_
      simp only [hconv, dXyz, Fin.sum_univ_three, hK]
      simp +decide
      linear_combination ((K * n x 0 : ℂ) + r * t / 4) * F0 + ((K * n x 1 : ℂ) + r / 16) * F1 + ((K * n x 2 : ℂ) - r * (t ^ 2 + 1 / 16)) / 4 * F2
        - (1 / 16 + (t ^ 2 + 1 / 16) / 4) * hr'
    · refine (b1 x).trans ?_
      simp only [hconv, dXyz, Fin.sum_univ_three, hK, m0, m1, m2]
      simp +decide
      left
      linear_combination (-(r / 4) : ℂ) * F0 + (r * t) * F1

end Meanas.Props
