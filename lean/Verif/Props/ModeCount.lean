/-
C170: how many guided modes a lossless waveguide has: a variational lower bound.
-/
import Verif.Props.ModeExistence
import Verif.Props.BlochInvariance
import Verif.Lemmas.SpectralFlow
import Mathlib.LinearAlgebra.Eigenspace.Zero

namespace Meanas.Props

open Matrix Complex Wg2 Spec

variable {sh : Fin 2 → ℕ}

namespace CountAux

/-- The magnetic field with given transverse part and no magnetic charge, in units of the wavelength along the guide. -/
noncomputable def liftH (dE : DxList sh ℝ) (mu : Fin 3 → Arr sh ℝ) (s : ℝ) (v : V 2 sh) (c : Fin 3) (x : Idx sh) : ℂ :=
  ![v (0, x), v (1, x), s * (gradForward (some (cw dE)) (fun y => mu 0 y * v (0, y)) 0 x + gradForward (some (cw dE)) (fun y => mu 1 y * v (1, y)) 1 x) / (I * mu 2 x)] c

theorem liftH_add (dE : DxList sh ℝ) (mu : Fin 3 → Arr sh ℝ) (s : ℝ) (v w : V 2 sh) (c : Fin 3) (x : Idx sh) :
    liftH dE mu s (v + w) c x = liftH dE mu s v c x + liftH dE mu s w c x := by
  fin_cases c <;> simp [liftH, gradForward]
  ring

theorem liftH_smul (dE : DxList sh ℝ) (mu : Fin 3 → Arr sh ℝ) (s : ℝ) (r : ℂ) (v : V 2 sh) (c : Fin 3) (x : Idx sh) :
    liftH dE mu s (r • v) c x = r * liftH dE mu s v c x := by
  fin_cases c <;> simp [liftH, gradForward]
  ring

theorem scurlB_add' (dH : DxList sh ℝ) (s : ℝ) (H g : Fin 3 → Arr sh ℂ) (c : Fin 3) (x : Idx sh) :
    scurlB dH s (fun c x => H c x + g c x) c x = scurlB dH s H c x + scurlB dH s g c x := by
  fin_cases c <;> simp [scurlB, gradBack] <;> ring

theorem scurlB_smul' (dH : DxList sh ℝ) (s : ℝ) (r : ℂ) (H : Fin 3 → Arr sh ℂ) (c : Fin 3) (x : Idx sh) :
    scurlB dH s (fun c x => r * H c x) c x = r * scurlB dH s H c x := by
  fin_cases c <;> simp [scurlB, gradBack] <;> ring

noncomputable def liftLin (dE : DxList sh ℝ) (mu : Fin 3 → Arr sh ℝ) (s : ℝ) : V 2 sh →ₗ[ℂ] V 3 sh where
  toFun v p := liftH dE mu s v p.1 p.2
  map_add' v w := funext fun p => liftH_add dE mu s v w p.1 p.2
  map_smul' r v := funext fun p => liftH_smul dE mu s r v p.1 p.2

noncomputable def curlLin (dE dH : DxList sh ℝ) (mu : Fin 3 → Arr sh ℝ) (s : ℝ) : V 2 sh →ₗ[ℂ] V 3 sh where
  toFun v p := scurlB dH s (liftH dE mu s v) p.1 p.2
  map_add' v w := funext fun p => by
    rw [show liftH dE mu s (v + w) = fun c x => liftH dE mu s v c x + liftH dE mu s w c x from funext fun c => funext fun x => liftH_add dE mu s v w c x, scurlB_add']
    rfl
  map_smul' r v := funext fun p => by
    rw [show liftH dE mu s (r • v) = fun c x => r * liftH dE mu s v c x from funext fun c => funext fun x => liftH_smul dE mu s r v c x, scurlB_smul']
    rfl

/-- The Hermitian form of the excess of curl energy over magnetic energy. -/
noncomputable def Q (dE dH : DxList sh ℝ) (eps mu : Fin 3 → Arr sh ℝ) (ω s : ℝ) : M 2 2 sh :=
  (LinearMap.toMatrix' (curlLin dE dH mu s))ᴴ * diagonal (fun p => ((areaE dE dH p.1 p.2 / eps p.1 p.2 : ℝ) : ℂ)) * LinearMap.toMatrix' (curlLin dE dH mu s)
    - (LinearMap.toMatrix' (liftLin dE mu s))ᴴ * diagonal (fun p => ((s ^ 2 * ω ^ 2 * (areaH dE dH p.1 p.2 * mu p.1 p.2) : ℝ) : ℂ)) * LinearMap.toMatrix' (liftLin dE mu s)

theorem Q_herm (dE dH : DxList sh ℝ) (eps mu : Fin 3 → Arr sh ℝ) (ω s : ℝ) : (Q dE dH eps mu ω s).IsHermitian := by
  have h : ∀ d : Fin 3 × Idx sh → ℝ, (diagonal fun p => ((d p : ℝ) : ℂ) : M 3 3 sh).IsHermitian := fun d => by
    rw [IsHermitian, diagonal_conjTranspose]
    congr 1
    funext p
    exact conj_ofReal _
  exact (isHermitian_conjTranspose_mul_mul _ (h _)).sub (isHermitian_conjTranspose_mul_mul _ (h _))

theorem sandwich (L : V 2 sh →ₗ[ℂ] V 3 sh) (d : V 3 sh) (w v : V 2 sh) :
    star w ⬝ᵥ (((LinearMap.toMatrix' L)ᴴ * diagonal d * LinearMap.toMatrix' L) *ᵥ v) = ∑ c, ∑ x, d (c, x) * ((starRingEnd ℂ) (L w (c, x)) * L v (c, x)) := by
  rw [← mulVec_mulVec, ← mulVec_mulVec, dotProduct_mulVec, ← star_mulVec, LinearMap.toMatrix'_mulVec, LinearMap.toMatrix'_mulVec, dotProduct, Fintype.sum_prod_type]
  refine Finset.sum_congr rfl fun c _ => Finset.sum_congr rfl fun x _ => ?_
  rw [mulVec_diagonal, Pi.star_apply, star_def]
  ring

theorem Q_form (dE dH : DxList sh ℝ) (eps mu : Fin 3 → Arr sh ℝ) (ω s : ℝ) (w v : V 2 sh) :
    star w ⬝ᵥ (Q dE dH eps mu ω s *ᵥ v)
      = ∑ c, ∑ x, (areaE dE dH c x : ℂ) * ((starRingEnd ℂ) (scurlB dH s (liftH dE mu s w) c x) * (scurlB dH s (liftH dE mu s v) c x / eps c x))
        - ∑ c, ∑ x, (s ^ 2 * ω ^ 2 : ℂ) * (areaH dE dH c x * (mu c x * ((starRingEnd ℂ) (liftH dE mu s w c x) * liftH dE mu s v c x))) := by
  rw [Q, sub_mulVec, dotProduct_sub, sandwich, sandwich]
  congr 1
  · refine Finset.sum_congr rfl fun c _ => Finset.sum_congr rfl fun x _ => ?_
    show ((areaE dE dH c x / eps c x : ℝ) : ℂ) * ((starRingEnd ℂ) (scurlB dH s (liftH dE mu s w) c x) * scurlB dH s (liftH dE mu s v) c x) = _
    push_cast
    ring
  · refine Finset.sum_congr rfl fun c _ => Finset.sum_congr rfl fun x _ => ?_
    show ((s ^ 2 * ω ^ 2 * (areaH dE dH c x * mu c x) : ℝ) : ℂ) * ((starRingEnd ℂ) (liftH dE mu s w c x) * liftH dE mu s v c x) = _
    push_cast
    ring

theorem Q_excess (dE dH : DxList sh ℝ) (eps mu : Fin 3 → Arr sh ℝ) (ω s : ℝ) (v : V 2 sh) :
    (star v ⬝ᵥ (Q dE dH eps mu ω s *ᵥ v)).re = excess dE dH eps mu ω s (liftH dE mu s v) := by
  rw [Q_form]
  simp only [excess, Finset.sum_sub_distrib, sub_re, re_sum]
  congr 1
  · refine Finset.sum_congr rfl fun c _ => Finset.sum_congr rfl fun x _ => ?_
    rw [← mul_div_assoc, ← normSq_eq_conj_mul_self, ← ofReal_div, ← ofReal_mul, ofReal_re]
  · refine Finset.sum_congr rfl fun c _ => Finset.sum_congr rfl fun x _ => ?_
    rw [← normSq_eq_conj_mul_self, ← ofReal_mul, ← ofReal_mul, ← ofReal_pow, ← ofReal_pow, ← ofReal_mul, ← ofReal_mul, ofReal_re]

theorem sdiv_liftH {dE : DxList sh ℝ} {mu : Fin 3 → Arr sh ℝ} (hmu : ∀ c x, 0 < mu c x) (s : ℝ) (v : V 2 sh) (x : Idx sh) :
    sdiv dE s (fun c x => mu c x * liftH dE mu s v c x) x = 0 := by
  have hm : (mu 2 x : ℂ) ≠ 0 := ofReal_ne_zero.2 (hmu 2 x).ne'
  have hI := I_ne_zero
  simp only [sdiv, liftH, Matrix.cons_val_zero, Matrix.cons_val_one, Matrix.cons_val]
  field_simp
  ring

/-- A field without magnetic charge is determined by its transverse part. -/
theorem eq_liftH {dE : DxList sh ℝ} {mu : Fin 3 → Arr sh ℝ} (hmu : ∀ c x, 0 < mu c x) {s : ℝ} {G : Fin 3 → Arr sh ℂ} (h : ∀ x, sdiv dE s (fun c x => mu c x * G c x) x = 0) :
    liftH dE mu s (fun p => G p.1.castSucc p.2) = G := by
  funext c x
  revert c
  refine Fin.forall_fin_succ.2 ⟨rfl, Fin.forall_fin_succ.2 ⟨rfl, Fin.forall_fin_succ.2 ⟨?_, fun i => i.elim0⟩⟩⟩
  have hm : (mu 2 x : ℂ) ≠ 0 := ofReal_ne_zero.2 (hmu 2 x).ne'
  have := h x
  simp only [sdiv] at this
  show s * (gradForward (some (cw dE)) (fun y => (mu 0 y : ℂ) * G 0 y) 0 x + gradForward (some (cw dE)) (fun y => (mu 1 y : ℂ) * G 1 y) 1 x) / (I * mu 2 x) = G 2 x
  rw [sub_eq_zero.1 this]
  have hI := I_ne_zero
  field_simp

/-- The kernel of the form consists of modes. -/
theorem rest_of_null {dE dH : DxList sh ℝ} (hE : ∀ a i, 0 < dE a i) (hH : ∀ a i, 0 < dH a i) {eps mu : Fin 3 → Arr sh ℝ} (hmu : ∀ c x, 0 < mu c x) {ω s : ℝ}
    {v : V 2 sh} (hv : Q dE dH eps mu ω s *ᵥ v = 0) (c : Fin 3) (x : Idx sh) : rest dE dH eps mu ω s (liftH dE mu s v) c x = 0 := by
  have aH : ∀ c x, 0 < areaH dE dH c x := fun c x => Finset.prod_pos fun a _ => by split <;> simp [hE, hH]
  set H := liftH dE mu s v with hHd
  let g : Fin 3 → Arr sh ℂ := fun c x => rest dE dH eps mu ω s H c x / mu c x
  have hmg : (fun c x => (mu c x : ℂ) * g c x) = rest dE dH eps mu ω s H := by
    funext c x; exact mul_div_cancel₀ _ (ofReal_ne_zero.2 (hmu c x).ne')
  have hg := eq_liftH (dE := dE) hmu (s := s) (G := g) (by rw [hmg]; exact sdiv_rest eps mu ω s H (sdiv_liftH hmu s v))
  have key := Q_form dE dH eps mu ω s (fun p => g p.1.castSucc p.2) v
  rw [hv, dotProduct_zero, hg, scurl_adjoint hE hH s g (fun c x => scurlB dH s H c x / eps c x), ← Finset.sum_sub_distrib] at key
  have e : ∑ c, (∑ x, (areaH dE dH c x : ℂ) * ((starRingEnd ℂ) (g c x) * scurlF dE s (fun c x => scurlB dH s H c x / eps c x) c x)
      - ∑ x, (s ^ 2 * ω ^ 2 : ℂ) * (areaH dE dH c x * (mu c x * ((starRingEnd ℂ) (g c x) * H c x))))
      = ((∑ c, ∑ x, areaH dE dH c x * (normSq (rest dE dH eps mu ω s H c x) / mu c x) : ℝ) : ℂ) := by
    rw [ofReal_sum]
    refine Finset.sum_congr rfl fun c _ => ?_
    rw [ofReal_sum, ← Finset.sum_sub_distrib]
    refine Finset.sum_congr rfl fun x _ => ?_
    rw [ofReal_mul, ofReal_div, normSq_eq_conj_mul_self]
    simp only [g, map_div₀, conj_ofReal]
    rw [show rest dE dH eps mu ω s H c x = scurlF dE s (fun c x => scurlB dH s H c x / eps c x) c x - s ^ 2 * ω ^ 2 * (mu c x * H c x) from rfl]
    ring
  rw [e] at key
  have hS0 := (ofReal_eq_zero.1 key.symm)
  have hterm : ∀ c x, 0 ≤ areaH dE dH c x * (normSq (rest dE dH eps mu ω s H c x) / mu c x) := fun c x =>
    mul_nonneg (aH c x).le (div_nonneg (normSq_nonneg _) (hmu c x).le)
  have e1 := (Finset.sum_eq_zero_iff_of_nonneg fun c _ => Finset.sum_nonneg fun x _ => hterm c x).1 hS0 c (Finset.mem_univ _)
  have e2 := (Finset.sum_eq_zero_iff_of_nonneg fun x _ => hterm c x).1 e1 x (Finset.mem_univ _)
  have e3 := (mul_eq_zero.1 e2).resolve_left (aH c x).ne'
  exact normSq_eq_zero.1 ((div_eq_zero_iff.1 e3).resolve_right (hmu c x).ne')

theorem continuous_Q (dE dH : DxList sh ℝ) (eps mu : Fin 3 → Arr sh ℝ) (ω : ℝ) (p q : Fin 2 × Idx sh) : Continuous fun s => Q dE dH eps mu ω s p q := by
  have hl : ∀ (q : Fin 2 × Idx sh) (c : Fin 3) (x : Idx sh), Continuous fun s => liftH dE mu s (Pi.single q 1) c x := by
    intro q c x
    fin_cases c <;> simp only [liftH, Fin.zero_eta, Fin.mk_one, Fin.reduceFinMk, Matrix.cons_val_zero, Matrix.cons_val_one, Matrix.cons_val] <;> fun_prop
  have hL : Continuous fun s => LinearMap.toMatrix' (liftLin dE mu s) := by
    refine continuous_matrix fun r q => ?_
    simp only [LinearMap.toMatrix'_apply]
    exact hl q r.1 r.2
  have hC : Continuous fun s => LinearMap.toMatrix' (curlLin dE dH mu s) := by
    refine continuous_matrix fun r q => ?_
    simp only [LinearMap.toMatrix'_apply]
    exact (continuous_scurlB dH r.1 r.2).comp (continuous_id.prodMk (continuous_pi fun c => continuous_pi fun x => hl q c x))
  have hD : Continuous fun s : ℝ => (diagonal (fun p => ((s ^ 2 * ω ^ 2 * (areaH dE dH p.1 p.2 * mu p.1 p.2) : ℝ) : ℂ)) : M 3 3 sh) :=
    Continuous.matrix_diagonal (continuous_pi fun p => by fun_prop)
  have : Continuous fun s => Q dE dH eps mu ω s := by
    unfold Q
    exact ((hC.matrix_conjTranspose.matrix_mul continuous_const).matrix_mul hC).sub ((hL.matrix_conjTranspose.matrix_mul hD).matrix_mul hL)
  exact this.matrix_elem p q

/-- At `s = 0` the excess is positive. -/
theorem Q_zero_pos {dE dH : DxList sh ℝ} (hE : ∀ a i, 0 < dE a i) (hH : ∀ a i, 0 < dH a i) {eps mu : Fin 3 → Arr sh ℝ} (heps : ∀ c x, 0 < eps c x) (ω : ℝ)
    (v : V 2 sh) (hv : v ≠ 0) : 0 < (star v ⬝ᵥ (Q dE dH eps mu ω 0 *ᵥ v)).re := by
  have aE : ∀ c x, 0 < areaE dE dH c x := fun c x => Finset.prod_pos fun a _ => by split <;> simp [hE, hH]
  rw [Q_excess]
  have hterm : ∀ c x, 0 ≤ areaE dE dH c x * (normSq (scurlB dH 0 (liftH dE mu 0 v) c x) / eps c x) := fun c x =>
    mul_nonneg (aE c x).le (div_nonneg (normSq_nonneg _) (heps c x).le)
  have e0 : excess dE dH eps mu ω 0 (liftH dE mu 0 v) = ∑ c, ∑ x, areaE dE dH c x * (normSq (scurlB dH 0 (liftH dE mu 0 v) c x) / eps c x) := by
    simp [excess]
  rw [e0]
  refine lt_of_le_of_ne (Finset.sum_nonneg fun c _ => Finset.sum_nonneg fun x _ => hterm c x) fun h => hv ?_
  have hc : ∀ c x, scurlB dH 0 (liftH dE mu 0 v) c x = 0 := fun c x => by
    have e1 := (Finset.sum_eq_zero_iff_of_nonneg fun c _ => Finset.sum_nonneg fun x _ => hterm c x).1 h.symm c (Finset.mem_univ _)
    have e2 := (Finset.sum_eq_zero_iff_of_nonneg fun x _ => hterm c x).1 e1 x (Finset.mem_univ _)
    have := (mul_eq_zero.1 e2).resolve_left (aE c x).ne'
    exact normSq_eq_zero.1 ((div_eq_zero_iff.1 this).resolve_right (heps c x).ne')
  funext p
  obtain ⟨c, x⟩ := p
  revert c
  refine Fin.forall_fin_two.2 ⟨?_, ?_⟩
  · have := hc 1 x; simpa [scurlB, liftH] using this
  · have := hc 0 x; simpa [scurlB, liftH] using this

/-! ### Counting eigenvalues -/

theorem sum_count_le {α : Type*} [DecidableEq α] (m : Multiset α) (T : Finset α) (P : α → Prop) [DecidablePred P] (h : ∀ a ∈ T, P a) :
    ∑ a ∈ T, m.count a ≤ (m.filter P).card := by
  have e : ∑ a ∈ T, m.count a = ∑ a ∈ T, (m.filter P).count a :=
    Finset.sum_congr rfl fun a ha => by rw [Multiset.count_filter, if_pos (h a ha)]
  rw [e, ← Multiset.sum_count_eq_card (s := T ∪ (m.filter P).toFinset) (m := m.filter P) fun a ha => Finset.mem_union_right _ (Multiset.mem_toFinset.2 ha)]
  exact Finset.sum_le_sum_of_subset Finset.subset_union_left

theorem lt_nthEig {ι : Type} [Fintype ι] [DecidableEq ι] (A : Matrix ι ι ℂ) {m : ℕ} {x : ℝ} (h : m < (A.charpoly.roots.filter fun lam => x < lam.re).card) : x < nthEig A m := by
  have hs : ((A.charpoly.roots.map Complex.re).sort (· ≥ ·)).Pairwise (· ≥ ·) := Multiset.pairwise_sort _ _
  have hc : m < ((A.charpoly.roots.map Complex.re).sort (· ≥ ·)).countP (fun y => decide (x < y)) := by
    have e : ((A.charpoly.roots.map Complex.re).sort (· ≥ ·)).countP (fun y => decide (x < y)) = (A.charpoly.roots.map Complex.re).countP fun y => x < y := by
      conv_rhs => rw [← Multiset.sort_eq (A.charpoly.roots.map Complex.re) (· ≥ ·)]
      rw [Multiset.coe_countP]
    rw [e, Multiset.countP_map]
    exact h
  rw [nthEig]
  generalize (A.charpoly.roots.map Complex.re).sort (· ≥ ·) = l at hs hc
  have hlen : m < l.length := hc.trans_le List.countP_le_length
  rw [List.getD_eq_getElem _ _ hlen]
  by_contra hcon
  rw [not_lt] at hcon
  have h1 : (l.take m).countP (fun y => decide (x < y)) ≤ m := List.countP_le_length.trans (List.length_take_le _ _)
  have h2 : (l.drop m).countP (fun y => decide (x < y)) = 0 := by
    rw [List.countP_eq_zero]
    intro y hy
    obtain ⟨i, hi, rfl⟩ := List.getElem_of_mem hy
    rw [List.getElem_drop]
    have hle : l[m + i]'(by rw [List.length_drop] at hi; omega) ≤ l[m] := by
      rcases Nat.eq_zero_or_pos i with rfl | h0
      · exact le_rfl
      · exact (List.pairwise_iff_getElem.1 hs) m (m + i) hlen (by rw [List.length_drop] at hi; omega) (by omega)
    simpa using hle.trans hcon
  rw [← List.take_append_drop m l, List.countP_append, h2] at hc
  omega

/-- Independent eigenvectors for eigenvalues with real parts above `x` are counted by `nthEig`. -/
theorem lt_nthEig_of_eigenspaces {ι : Type} [Fintype ι] [DecidableEq ι] (A : Matrix ι ι ℂ) (T : Finset ℂ) {x : ℝ} (hT : ∀ lam ∈ T, x < lam.re) {m : ℕ}
    (h : m < ∑ lam ∈ T, Module.finrank ℂ (Module.End.eigenspace (Matrix.toLin' A) lam)) : x < nthEig A m := by
  refine lt_nthEig A (h.trans_le (le_trans (Finset.sum_le_sum fun lam _ => ?_) (sum_count_le A.charpoly.roots T _ hT)))
  rw [Polynomial.count_roots, ← Matrix.charpoly_toLin' A]
  exact LinearMap.finrank_eigenspace_le _ _

end CountAux

open CountAux

/-! ### Modes -/

/-- The two mode problems have as many independent modes at every wavenumber. -/
theorem C170_multiplicity {β ω : ℂ} (hβ : β ≠ 0) (hω : ω ≠ 0) (dxes : Dx2 sh) (eps : V 3 sh) (mu : Option (V 3 sh)) (heps : ∀ p, eps p ≠ 0) (hmu : ∀ p, mu.getD 1 p ≠ 0) :
    Module.finrank ℂ (Module.End.eigenspace (Matrix.toLin' (operatorE ω dxes eps mu)) (β ^ 2)) = Module.finrank ℂ (Module.End.eigenspace (Matrix.toLin' (operatorH ω dxes eps mu)) (β ^ 2)) := by
  have mE : ∀ v, v ∈ Module.End.eigenspace (Matrix.toLin' (operatorE ω dxes eps mu)) (β ^ 2) ↔ operatorE ω dxes eps mu *ᵥ v = β ^ 2 • v := fun v => by
    rw [Module.End.mem_eigenspace_iff, Matrix.toLin'_apply]
  have mH : ∀ v, v ∈ Module.End.eigenspace (Matrix.toLin' (operatorH ω dxes eps mu)) (β ^ 2) ↔ operatorH ω dxes eps mu *ᵥ v = β ^ 2 • v := fun v => by
    rw [Module.End.mem_eigenspace_iff, Matrix.toLin'_apply]
  have hxy : ∀ (A : M 3 2 sh) (u v : V 2 sh), xy (A *ᵥ (u + v)) = xy (A *ᵥ u) + xy (A *ᵥ v) := fun A u v => by rw [mulVec_add]; rfl
  have hsm : ∀ (A : M 3 2 sh) (r : ℂ) (v : V 2 sh), xy (A *ᵥ (r • v)) = r • xy (A *ᵥ v) := fun A r v => by rw [mulVec_smul]; rfl
  refine le_antisymm ?_ ?_
  · let L : Module.End.eigenspace (Matrix.toLin' (operatorE ω dxes eps mu)) (β ^ 2) →ₗ[ℂ] Module.End.eigenspace (Matrix.toLin' (operatorH ω dxes eps mu)) (β ^ 2) :=
      { toFun := fun v => ⟨xy (exy2h β ω dxes eps mu *ᵥ v), (mH _).2 (C41_mode_gives_eigenvectors β ω hβ hω dxes eps mu heps hmu _ _
          (C39_is_mode β ω hβ hω dxes eps mu heps hmu v ((mE _).1 v.2))).2.1⟩
        map_add' := fun u v => Subtype.ext (hxy _ _ _)
        map_smul' := fun r v => Subtype.ext (hsm _ _ _) }
    refine LinearMap.finrank_le_finrank_of_injective (f := L) ((injective_iff_map_eq_zero L).2 fun v hv => ?_)
    have k := C41_mode_gives_eigenvectors β ω hβ hω dxes eps mu heps hmu _ _ (C39_is_mode β ω hβ hω dxes eps mu heps hmu v ((mE _).1 v.2))
    have h0 : xy (exy2h β ω dxes eps mu *ᵥ (v : V 2 sh)) = 0 := congrArg Subtype.val hv
    have k6 := k.2.2.2.2.2
    rw [h0, mulVec_zero] at k6
    refine Subtype.ext (funext fun p => ?_)
    have := congrFun k6 (p.1.castSucc, p.2)
    obtain ⟨c, x⟩ := p
    revert c
    refine Fin.forall_fin_two.2 ⟨fun this => ?_, fun this => ?_⟩
    · rw [← exy2e_0 β dxes eps v x]; exact this.symm
    · rw [← exy2e_1 β dxes eps v x]; exact this.symm
  · let L : Module.End.eigenspace (Matrix.toLin' (operatorH ω dxes eps mu)) (β ^ 2) →ₗ[ℂ] Module.End.eigenspace (Matrix.toLin' (operatorE ω dxes eps mu)) (β ^ 2) :=
      { toFun := fun v => ⟨xy (hxy2e β ω dxes eps mu *ᵥ v), (mE _).2 (C41_mode_gives_eigenvectors β ω hβ hω dxes eps mu heps hmu _ _
          (C40_is_mode β ω hβ hω dxes eps mu heps hmu v ((mH _).1 v.2))).1⟩
        map_add' := fun u v => Subtype.ext (hxy _ _ _)
        map_smul' := fun r v => Subtype.ext (hsm _ _ _) }
    refine LinearMap.finrank_le_finrank_of_injective (f := L) ((injective_iff_map_eq_zero L).2 fun v hv => ?_)
    have k := C41_mode_gives_eigenvectors β ω hβ hω dxes eps mu heps hmu _ _ (C40_is_mode β ω hβ hω dxes eps mu heps hmu v ((mH _).1 v.2))
    have h0 : xy (hxy2e β ω dxes eps mu *ᵥ (v : V 2 sh)) = 0 := congrArg Subtype.val hv
    have k4 := k.2.2.2.1
    rw [h0, mulVec_zero] at k4
    refine Subtype.ext (funext fun p => ?_)
    have := congrFun k4 (p.1.castSucc, p.2)
    obtain ⟨c, x⟩ := p
    revert c
    refine Fin.forall_fin_two.2 ⟨fun this => ?_, fun this => ?_⟩
    · rw [← hxy2h_0 β dxes mu v x]; exact this.symm
    · rw [← hxy2h_1 β dxes mu v x]; exact this.symm

theorem energy_lt_iff {β₀ ω : ℝ} (hβ₀ : 0 < β₀) (hω : ω ≠ 0) (dE dH : DxList sh ℝ) {eps : V 3 sh} {mu : Option (V 3 sh)} (heps : Lossless eps) (hmu : Lossless (mu.getD 1))
    (v : V 2 sh) : elecEnergy dE dH eps (hxy2e β₀ ω (cw dE, cw dH) eps mu *ᵥ v) < magEnergy dE dH (mu.getD 1) (hxy2h β₀ (cw dE, cw dH) mu *ᵥ v) ↔
      excess dE dH (fun c x => (eps (c, x)).re) (fun c x => (mu.getD 1 (c, x)).re) ω β₀⁻¹ (liftH dE (fun c x => (mu.getD 1 (c, x)).re) β₀⁻¹ v) < 0 := by
  have hl : liftH dE (fun c x => (mu.getD 1 (c, x)).re) β₀⁻¹ v = fld (hxy2h β₀ (cw dE, cw dH) mu *ᵥ v) := by
    rw [← eq_liftH (dE := dE) (fun c x => (hmu (c, x)).2) (sdiv_hxy2h hβ₀.ne' dE dH hmu v)]
    congr 1
    funext p
    obtain ⟨c, x⟩ := p
    revert c
    exact Fin.forall_fin_two.2 ⟨(hxy2h_0 (β₀ : ℂ) (cw dE, cw dH) mu v x).symm, (hxy2h_1 (β₀ : ℂ) (cw dE, cw dH) mu v x).symm⟩
  rw [hl, excess_energy hβ₀.ne' hω dE dH heps, hxy2e, ← mulVec_mulVec]
  have hp : 0 < β₀⁻¹ ^ 2 * ω ^ 2 := by positivity
  exact ⟨fun h => mul_neg_of_pos_of_neg hp (sub_neg.2 h), fun h => sub_neg.1 ((mul_neg_iff.1 h).resolve_right fun h' => absurd h'.1 (not_lt.2 hp.le)).2⟩

/-- **C170.** Complete every transverse magnetic trial field of a `k`-dimensional space with `hxy2h` and `hxy2e` at some `β₀ > 0`. If the electric energy of
these fields is always below their magnetic energy, the waveguide has at least `k` independent guided modes with wavenumbers above `β₀`. -/
theorem C170_trial {β₀ ω : ℝ} (hβ₀ : 0 < β₀) (hω : ω ≠ 0) {dE dH : DxList sh ℝ} (hE : ∀ a i, 0 < dE a i) (hH : ∀ a i, 0 < dH a i) (eps : V 3 sh)
    (mu : Option (V 3 sh)) (heps : Lossless eps) (hmu : Lossless (mu.getD 1)) (W : Submodule ℂ (V 2 sh))
    (hen : ∀ v ∈ W, v ≠ 0 → elecEnergy dE dH eps (hxy2e β₀ ω (cw dE, cw dH) eps mu *ᵥ v) < magEnergy dE dH (mu.getD 1) (hxy2h β₀ (cw dE, cw dH) mu *ᵥ v)) :
    ∃ S : Finset ℝ, (∀ β ∈ S, β₀ < β) ∧
      Module.finrank ℂ W ≤ ∑ β ∈ S, Module.finrank ℂ (Module.End.eigenspace (Matrix.toLin' (operatorE ω (cw dE, cw dH) eps mu)) ((β : ℂ) ^ 2)) ∧
      Module.finrank ℂ W ≤ ∑ β ∈ S, Module.finrank ℂ (Module.End.eigenspace (Matrix.toLin' (operatorH ω (cw dE, cw dH) eps mu)) ((β : ℂ) ^ 2)) := by
  set er : Fin 3 → Arr sh ℝ := fun c x => (eps (c, x)).re with her
  set mr : Fin 3 → Arr sh ℝ := fun c x => (mu.getD 1 (c, x)).re with hmr
  have hm : ∀ c x, 0 < mr c x := fun c x => (hmu (c, x)).2
  have hwc : (ω : ℂ) ≠ 0 := ofReal_ne_zero.2 hω
  have hneg : ∀ v ∈ W, v ≠ 0 → (star v ⬝ᵥ (Q dE dH er mr ω β₀⁻¹ *ᵥ v)).re < 0 := fun v hv h0 => by
    rw [Q_excess]
    exact (energy_lt_iff hβ₀ hω dE dH heps hmu v).1 (hen v hv h0)
  obtain ⟨S, h1, h2⟩ := MinMax.matrix_flow (Q := fun s => Q dE dH er mr ω s) (fun s => Q_herm dE dH er mr ω s) (fun p q => continuous_Q dE dH er mr ω p q)
    (inv_nonneg.2 hβ₀.le) (fun v hv => Q_zero_pos hE hH (fun c x => (heps (c, x)).2) ω v hv) W hneg
  have hker : ∀ s ∈ S, Module.finrank ℂ (LinearMap.ker (Q dE dH er mr ω s).mulVecLin)
      ≤ Module.finrank ℂ (Module.End.eigenspace (Matrix.toLin' (operatorH ω (cw dE, cw dH) eps mu)) (((s⁻¹ : ℝ) : ℂ) ^ 2)) := fun s hs => by
    refine Submodule.finrank_mono fun v hv => ?_
    rw [LinearMap.mem_ker, Matrix.mulVecLin_apply] at hv
    have hsp := (h1 s hs).1
    have m := isMode_of_rest hsp.ne' hω dE dH heps hmu _ (rest_of_null hE hH hm hv)
    have hb : ((s⁻¹ : ℝ) : ℂ) ≠ 0 := ofReal_ne_zero.2 (inv_pos.2 hsp).ne'
    obtain ⟨-, k2, -⟩ := C41_mode_gives_eigenvectors ((s⁻¹ : ℝ) : ℂ) ω hb hwc (cw dE, cw dH) eps mu heps.ne hmu.ne 
      (fun p => scurlB dH s (liftH dE mr s v) p.1 p.2 / (s * (I * ω * eps (p.1, p.2)))) (fun p => liftH dE mr s v p.1 p.2) m
    rw [Module.End.mem_eigenspace_iff, Matrix.toLin'_apply]
    have e : xy (fun p => liftH dE mr s v p.1 p.2) = v := by
      funext p
      obtain ⟨c, x⟩ := p
      revert c
      exact Fin.forall_fin_two.2 ⟨rfl, rfl⟩
    rwa [e] at k2
  have hinj : Set.InjOn (fun s : ℝ => s⁻¹) S := inv_injective.injOn
  have hH' : Module.finrank ℂ W ≤ ∑ β ∈ S.image fun s : ℝ => s⁻¹, Module.finrank ℂ (Module.End.eigenspace (Matrix.toLin' (operatorH ω (cw dE, cw dH) eps mu)) ((β : ℂ) ^ 2)) := by
    rw [Finset.sum_image hinj]
    exact h2.trans (Finset.sum_le_sum hker)
  have hpos : ∀ β ∈ S.image fun s : ℝ => s⁻¹, β₀ < β := fun β hβ => by
    obtain ⟨s, hs, rfl⟩ := Finset.mem_image.1 hβ
    exact (lt_inv_comm₀ hβ₀ (h1 s hs).1).2 (h1 s hs).2
  refine ⟨S.image fun s => s⁻¹, hpos, ?_, hH'⟩
  refine hH'.trans (le_of_eq (Finset.sum_congr rfl fun β hβ => ?_))
  exact (C170_multiplicity (ofReal_ne_zero.2 (hβ₀.trans (hpos β hβ)).ne') hwc (cw dE, cw dH) eps mu heps.ne hmu.ne).symm

/-- **C170.** In terms of the mode numbers of the solvers: the modes `0, …, k-1` all propagate, with wavenumbers above `β₀`. -/
theorem C170_mode_number {β₀ ω : ℝ} (hβ₀ : 0 < β₀) (hω : ω ≠ 0) {dE dH : DxList sh ℝ} (hE : ∀ a i, 0 < dE a i) (hH : ∀ a i, 0 < dH a i) (eps : V 3 sh)
    (mu : Option (V 3 sh)) (heps : Lossless eps) (hmu : Lossless (mu.getD 1)) (W : Submodule ℂ (V 2 sh))
    (hen : ∀ v ∈ W, v ≠ 0 → elecEnergy dE dH eps (hxy2e β₀ ω (cw dE, cw dH) eps mu *ᵥ v) < magEnergy dE dH (mu.getD 1) (hxy2h β₀ (cw dE, cw dH) mu *ᵥ v))
    (m : ℕ) (hm : m < Module.finrank ℂ W) :
    β₀ ^ 2 < nthEig (operatorE ω (cw dE, cw dH) eps mu) m ∧ β₀ ^ 2 < nthEig (operatorH ω (cw dE, cw dH) eps mu) m := by
  obtain ⟨S, h1, h2, h3⟩ := C170_trial hβ₀ hω hE hH eps mu heps hmu W hen
  have hinj : Set.InjOn (fun β : ℝ => (β : ℂ) ^ 2) S := fun a ha b hb h => by
    have h' : a ^ 2 = b ^ 2 := by
      have h2 : (a : ℂ) ^ 2 = (b : ℂ) ^ 2 := h
      exact_mod_cast h2
    exact (pow_left_inj₀ (hβ₀.trans (h1 a ha)).le (hβ₀.trans (h1 b hb)).le two_ne_zero).1 h'
  have hT : ∀ lam ∈ S.image fun β : ℝ => (β : ℂ) ^ 2, β₀ ^ 2 < lam.re := fun lam hl => by
    obtain ⟨β, hβ, rfl⟩ := Finset.mem_image.1 hl
    rw [← ofReal_pow, ofReal_re]
    exact pow_lt_pow_left₀ (h1 β hβ) hβ₀.le two_ne_zero
  constructor
  · exact lt_nthEig_of_eigenspaces _ _ hT (by rw [Finset.sum_image hinj]; exact hm.trans_le h2)
  · exact lt_nthEig_of_eigenspaces _ _ hT (by rw [Finset.sum_image hinj]; exact hm.trans_le h3)

/-! ### Two modes in every waveguide -/

namespace CountAux

/-- Transverse fields that are the same everywhere. -/
def constLin : (Fin 2 → ℂ) →ₗ[ℂ] V 2 sh where
  toFun t p := t p.1
  map_add' _ _ := rfl
  map_smul' _ _ := rfl

theorem const_excess (dE dH : DxList sh ℝ) (eps : Fin 3 → Arr sh ℝ) (ω s : ℝ) (t : Fin 2 → ℂ) :
    excess dE dH eps (fun _ _ => 1) ω s (liftH dE (fun _ _ => 1) s (constLin t))
      = normSq (t 1) * (∑ x, areaE dE dH 0 x / eps 0 x - s ^ 2 * ω ^ 2 * ∑ x, areaE dE dH 0 x)
        + normSq (t 0) * (∑ x, areaE dE dH 1 x / eps 1 x - s ^ 2 * ω ^ 2 * ∑ x, areaE dE dH 1 x) := by
  have l0 : ∀ x, liftH dE (fun _ _ => 1) s (constLin (sh := sh) t) 0 x = t 0 := fun x => rfl
  have l1 : ∀ x, liftH dE (fun _ _ => 1) s (constLin (sh := sh) t) 1 x = t 1 := fun x => rfl
  have l2 : ∀ x, liftH dE (fun _ _ => 1) s (constLin (sh := sh) t) 2 x = 0 := fun x => by
    simp [liftH, constLin, gradForward]
  have c0 : ∀ x, scurlB dH s (liftH dE (fun _ _ => 1) s (constLin (sh := sh) t)) 0 x = I * t 1 := fun x => by
    simp [scurlB, gradBack, l1, l2]
  have c1 : ∀ x, scurlB dH s (liftH dE (fun _ _ => 1) s (constLin (sh := sh) t)) 1 x = -I * t 0 := fun x => by
    simp [scurlB, gradBack, l0, l2]
  have c2 : ∀ x, scurlB dH s (liftH dE (fun _ _ => 1) s (constLin (sh := sh) t)) 2 x = 0 := fun x => by
    simp [scurlB, gradBack, l0, l1]
  rw [excess, Fin.sum_univ_three]
  simp only [l0, l1, l2, c0, c1, c2, normSq_mul, normSq_I, normSq_neg, normSq_zero, mul_zero, zero_div, sub_zero, Finset.sum_const_zero, add_zero, one_mul]
  have a0 : ∀ x, areaH dE dH 0 x = areaE dE dH 1 x := fun x => (areaH_0 dE dH x).trans (areaE_1 dE dH x).symm
  have a1 : ∀ x, areaH dE dH 1 x = areaE dE dH 0 x := fun x => (areaH_1 dE dH x).trans (areaE_0 dE dH x).symm
  simp only [a0, a1, Finset.mul_sum, mul_sub, ← Finset.sum_add_distrib, ← Finset.sum_sub_distrib]
  refine Finset.sum_congr rfl fun x _ => ?_
  ring

end CountAux

/-- **C170.** Every lossless non-magnetic cross-section guides at least two modes (in free space: the two polarisations), with squared effective indices of at least the smaller of the
two area-averaged harmonic means of the transverse `ε`. -/
theorem C170_second (hsh : ∀ a, 0 < sh a) {ω : ℝ} (hω : ω ≠ 0) {dE dH : DxList sh ℝ} (hE : ∀ a i, 0 < dE a i) (hH : ∀ a i, 0 < dH a i) (eps : V 3 sh)
    (heps : Lossless eps) {k : ℝ} (hk : ∀ c : Fin 2, k * ∑ x, areaE dE dH c.castSucc x / (eps (c.castSucc, x)).re ≤ ω ^ 2 * ∑ x, areaE dE dH c.castSucc x)
    (m : ℕ) (hm : m < 2) : k ≤ nthEig (operatorE ω (cw dE, cw dH) eps none) m ∧ k ≤ nthEig (operatorH ω (cw dE, cw dH) eps none) m := by
  have aE : ∀ c x, 0 < areaE dE dH c x := fun c x => Finset.prod_pos fun a _ => by split <;> simp [hE, hH]
  let x₀ : Idx sh := fun a => ⟨0, hsh a⟩
  have hne : (Finset.univ : Finset (Idx sh)).Nonempty := ⟨x₀, Finset.mem_univ _⟩
  let A : Fin 2 → ℝ := fun c => ∑ x, areaE dE dH c.castSucc x
  let R : Fin 2 → ℝ := fun c => ∑ x, areaE dE dH c.castSucc x / (eps (c.castSucc, x)).re
  have hA0 : ∀ c, 0 < A c := fun c => Finset.sum_pos (fun x _ => aE _ x) hne
  have hR0 : ∀ c, 0 < R c := fun c => Finset.sum_pos (fun x _ => div_pos (aE _ x) (heps _).2) hne
  have hw2 : 0 < ω ^ 2 := by positivity
  set K := min (ω ^ 2 * A 0 / R 0) (ω ^ 2 * A 1 / R 1) with hK
  have hK0 : 0 < K := lt_min (div_pos (mul_pos hw2 (hA0 0)) (hR0 0)) (div_pos (mul_pos hw2 (hA0 1)) (hR0 1))
  have hkK : k ≤ K := le_min ((le_div_iff₀ (hR0 0)).2 (hk 0)) ((le_div_iff₀ (hR0 1)).2 (hk 1))
  have hKR : ∀ c, K * R c ≤ ω ^ 2 * A c := Fin.forall_fin_two.2 ⟨(le_div_iff₀ (hR0 0)).1 (min_le_left _ _), (le_div_iff₀ (hR0 1)).1 (min_le_right _ _)⟩
  have hmu : Lossless (sh := sh) (Option.getD none 1) := fun p => by simp
  have key : ∀ q, q < K → q ≤ nthEig (operatorE ω (cw dE, cw dH) eps none) m ∧ q ≤ nthEig (operatorH ω (cw dE, cw dH) eps none) m := by
    intro q hq
    -- it suffices to consider positive ones
    suffices h : ∀ q, 0 < q → q < K → q ≤ nthEig (operatorE ω (cw dE, cw dH) eps none) m ∧ q ≤ nthEig (operatorH ω (cw dE, cw dH) eps none) m by
      obtain ⟨h1, h2⟩ := h (max q (K / 2)) (lt_max_of_lt_right (half_pos hK0)) (max_lt hq (half_lt_self hK0))
      exact ⟨(le_max_left _ _).trans h1, (le_max_left _ _).trans h2⟩
    clear hq q
    intro q hq0 hq
    set β₀ := √q with hb
    have hb0 : 0 < β₀ := Real.sqrt_pos.2 hq0
    have hb2 : β₀ ^ 2 = q := Real.sq_sqrt hq0.le
    have hinj : Function.Injective (constLin (sh := sh)) := fun t u h => funext fun c => congrFun h (c, x₀)
    have hfin : Module.finrank ℂ (LinearMap.range (constLin (sh := sh))) = 2 := by
      rw [LinearMap.finrank_range_of_inj hinj]; simp
    have hlt : ∀ c, R c - (β₀⁻¹) ^ 2 * ω ^ 2 * A c < 0 := fun c => by
      have h1 : q * R c < ω ^ 2 * A c := (mul_lt_mul_of_pos_right hq (hR0 c)).trans_le (hKR c)
      rw [inv_pow, hb2, sub_neg, mul_assoc, lt_inv_mul_iff₀ hq0]
      exact h1
    obtain ⟨h1, h2⟩ := C170_mode_number hb0 hω hE hH eps none heps hmu (LinearMap.range (constLin (sh := sh))) (fun v hv h0 => by
      obtain ⟨t, rfl⟩ := hv
      rw [energy_lt_iff hb0 hω dE dH heps hmu]
      simp only [Option.getD_none, Pi.one_apply, one_re]
      rw [const_excess]
      have ht : t 0 ≠ 0 ∨ t 1 ≠ 0 := by
        by_contra hcon
        push Not at hcon
        exact h0 (by
          have : t = 0 := funext (Fin.forall_fin_two.2 hcon)
          rw [this, map_zero])
      have e0 : (∑ x, areaE dE dH 0 x / (eps (0, x)).re - β₀⁻¹ ^ 2 * ω ^ 2 * ∑ x, areaE dE dH 0 x) < 0 := hlt 0
      have e1 : (∑ x, areaE dE dH 1 x / (eps (1, x)).re - β₀⁻¹ ^ 2 * ω ^ 2 * ∑ x, areaE dE dH 1 x) < 0 := hlt 1
      have n0 := normSq_nonneg (t 0)
      have n1 := normSq_nonneg (t 1)
      rcases ht with h | h
      · exact add_neg_of_nonpos_of_neg (mul_nonpos_of_nonneg_of_nonpos n1 e0.le) (mul_neg_of_pos_of_neg (normSq_pos.2 h) e1)
      · exact add_neg_of_neg_of_nonpos (mul_neg_of_pos_of_neg (normSq_pos.2 h) e0) (mul_nonpos_of_nonneg_of_nonpos n0 e1.le)) m (by rw [hfin]; exact hm)
    rw [hb2] at h1 h2
    exact ⟨h1.le, h2.le⟩
  exact ⟨hkK.trans (le_of_forall_lt fun q hq => lt_of_lt_of_le (by exact (exists_between hq).choose_spec.1) (key _ (exists_between hq).choose_spec.2).1),
    hkK.trans (le_of_forall_lt fun q hq => lt_of_lt_of_le (by exact (exists_between hq).choose_spec.1) (key _ (exists_between hq).choose_spec.2).2)⟩

/-- **C170.** What `solve_modes` returns for the mode numbers 0 and 1 of a lossless non-magnetic cross-section is always a propagating mode with an effective index of at
least the lowest index of the materials. -/
theorem C170_solver (hsh : ∀ a, 0 < sh a) {ω : ℝ} (hω : ω ≠ 0) {dE dH : DxList sh ℝ} (hE : ∀ a i, 0 < dE a i) (hH : ∀ a i, 0 < dH a i) (eps : V 3 sh)
    {emin : ℝ} (hmin : 0 < emin) (heps : ∀ p, (eps p).im = 0 ∧ emin ≤ (eps p).re) (m : ℕ) (hm : m < 2) (p : V 2 sh × ℂ)
    (hp : IsRequestedMode id (operatorE ω (cw dE, cw dH) eps none) m p) :
    p.2.im = 0 ∧ 0 < p.2.re ∧ ω ^ 2 * emin ≤ p.2.re ^ 2 ∧ operatorE ω (cw dE, cw dH) eps none *ᵥ p.1 = p.2 ^ 2 • p.1 := by
  have aE : ∀ c x, 0 < areaE dE dH c x := fun c x => Finset.prod_pos fun a _ => by split <;> simp [hE, hH]
  have hL : Lossless eps := fun p => ⟨(heps p).1, hmin.trans_le (heps p).2⟩
  have h := (C170_second hsh hω hE hH eps hL (k := ω ^ 2 * emin) (fun c => by
    rw [mul_assoc]
    refine mul_le_mul_of_nonneg_left ?_ (sq_nonneg _)
    rw [Finset.mul_sum]
    refine Finset.sum_le_sum fun x _ => ?_
    rw [mul_div_assoc', div_le_iff₀ (hL _).2, mul_comm]
    exact mul_le_mul_of_nonneg_left (heps _).2 (aE _ _).le) m hm).1
  have hpos : 0 < nthEig (operatorE ω (cw dE, cw dH) eps none) m := lt_of_lt_of_le (by positivity) h
  obtain ⟨h1, h2, h3⟩ := C46_propagating_partial _ m p hp hpos
  refine ⟨h3, h2, ?_, ?_⟩
  · have e : p.2 = ((p.2.re : ℝ) : ℂ) := Complex.ext (by simp) (by simp [h3])
    rw [e, ← ofReal_pow, ofReal_inj] at h1
    simpa [h1] using h
  · rw [h1]; exact hp.2.1

/-! ### As many modes as plane waves -/

/-- Square of the transverse wavenumber of the plane wave with `n a` periods along each axis `a`, on a uniform grid of steps `d a`. -/
noncomputable def gridKappa (d : Fin 2 → ℝ) (n : Idx sh) : ℝ := ∑ a, (2 / d a * Real.sin (Real.pi * (n a : ℕ) / (sh a : ℕ))) ^ 2

namespace CountAux

open Meanas.Bloch in
/-- Superposition of some of the plane waves. -/
noncomputable def wave {P : Idx sh → Prop} [DecidablePred P] (a : {n // P n} → ℂ) (x : Idx sh) : ℂ := ∑ n : {n // P n}, a n * chi n.1 x

section
variable {P : Idx sh → Prop} [DecidablePred P]

theorem wave_parseval (a : {n // P n} → ℂ) : ∑ x, normSq (wave a x) = Fintype.card (Idx sh) * ∑ n, normSq (a n) := by
  have h : ((∑ x, normSq (wave a x) : ℝ) : ℂ) = ((Fintype.card (Idx sh) * ∑ n, normSq (a n) : ℝ) : ℂ) := by
    push_cast
    simp only [normSq_eq_conj_mul_self, wave, map_sum, map_mul, Finset.sum_mul_sum, Bloch.conj_chi]
    rw [Finset.sum_comm]
    rw [Finset.mul_sum]
    refine Finset.sum_congr rfl fun n _ => ?_
    rw [Finset.sum_comm]
    have e : ∀ m : {n // P n}, ∑ x, (starRingEnd ℂ) (a n) * (Bloch.chi n.1 x)⁻¹ * (a m * Bloch.chi m.1 x)
        = (starRingEnd ℂ) (a n) * a m * if m.1 = n.1 then (Fintype.card (Idx sh) : ℂ) else 0 := fun m => by
      rw [← Bloch.sum_chi m.1 n.1, Finset.mul_sum]
      refine Finset.sum_congr rfl fun x _ => ?_
      rw [Bloch.chi_comm x m.1, Bloch.chi_comm x n.1]
      ring
    simp only [e]
    rw [Finset.sum_eq_single n (fun m _ hm => by rw [if_neg fun h => hm (Subtype.ext h), mul_zero]) (by simp), if_pos rfl]
    ring
  exact_mod_cast h

theorem wave_add (r r' : ℂ) (a b : {n // P n} → ℂ) (x : Idx sh) : r * wave a x + r' * wave b x = wave (fun n => r * a n + r' * b n) x := by
  simp only [wave, Finset.mul_sum, ← Finset.sum_add_distrib]
  exact Finset.sum_congr rfl fun n _ => by ring

theorem wave_smul (r : ℂ) (a : {n // P n} → ℂ) (x : Idx sh) : r * wave a x = wave (fun n => r * a n) x := by
  simp only [wave, Finset.mul_sum]
  exact Finset.sum_congr rfl fun n _ => by ring

variable (d : Fin 2 → ℝ)

/-- Uniform widths. -/
def uni (d : Fin 2 → ℝ) : DxList sh ℝ := fun a _ => d a

/-- What the forward difference multiplies a plane wave by. -/
noncomputable def fac (a : Fin 2) (n : Idx sh) : ℂ := (cellPhase a 1 n - 1) / d a

theorem gradForward_wave (a : {n // P n} → ℂ) (b : Fin 2) (x : Idx sh) :
    gradForward (some (cw (uni d))) (wave a) b x = wave (fun n => fac d b n.1 * a n) x := by
  simp only [gradForward, wave, chi_shiftIdx, ← Finset.sum_sub_distrib, Finset.sum_div]
  refine Finset.sum_congr rfl fun n _ => ?_
  show (a n * (cellPhase b 1 n.1 * Bloch.chi n.1 x) - a n * Bloch.chi n.1 x) / (d b : ℂ) = _
  rw [fac]; ring

theorem conj_cellPhase (b : Fin 2) (n : Idx sh) : (starRingEnd ℂ) (cellPhase b 1 n) = (cellPhase b 1 n)⁻¹ := by
  rw [cellPhase, ← exp_conj, ← exp_neg]
  congr 1
  simp only [map_mul, map_div₀, map_natCast, map_ofNat, conj_ofReal, conj_I, map_intCast]
  ring

theorem gradBack_wave (a : {n // P n} → ℂ) (b : Fin 2) (x : Idx sh) :
    gradBack (some (cw (uni d))) (wave a) b x = wave (fun n => -(starRingEnd ℂ) (fac d b n.1) * a n) x := by
  simp only [gradBack, wave, chi_shiftIdx, phase_neg, ← Finset.sum_sub_distrib, Finset.sum_div]
  refine Finset.sum_congr rfl fun n _ => ?_
  show (a n * Bloch.chi n.1 x - a n * ((cellPhase b 1 n.1)⁻¹ * Bloch.chi n.1 x)) / (d b : ℂ) = _
  rw [fac, map_div₀, map_sub, conj_cellPhase, map_one, conj_ofReal]; ring

theorem normSq_fac (b : Fin 2) (n : Idx sh) : normSq (fac d b n) = (2 / d b * Real.sin (Real.pi * (n b : ℕ) / (sh b : ℕ))) ^ 2 := by
  have e : cellPhase b 1 n = exp ((2 * (Real.pi * (n b : ℕ) / (sh b : ℕ)) : ℝ) * I) := by
    rw [cellPhase]
    congr 1
    push_cast
    ring
  set θ := Real.pi * (n b : ℕ) / (sh b : ℕ) with hθ
  rw [fac, normSq_div, normSq_ofReal, e, exp_mul_I, ← ofReal_cos, ← ofReal_sin, normSq_apply]
  simp only [sub_re, sub_im, add_re, add_im, mul_re, mul_im, ofReal_re, ofReal_im, I_re, I_im, one_re, one_im]
  rw [Real.cos_two_mul, Real.sin_two_mul, mul_pow, div_pow, div_mul_eq_mul_div, pow_two (d b)]
  congr 1
  have := Real.sin_sq_add_cos_sq θ
  have hc : Real.cos θ ^ 2 = 1 - Real.sin θ ^ 2 := by linarith
  ring_nf
  rw [show Real.cos θ ^ 4 = (Real.cos θ ^ 2) ^ 2 by ring, hc]
  ring

theorem gridKappa_eq (n : Idx sh) : gridKappa d n = normSq (fac d 0 n) + normSq (fac d 1 n) := by
  rw [gridKappa, Fin.sum_univ_two, normSq_fac, normSq_fac]

/-- Curl energy of a plane wave. -/
theorem cross_identity (s : ℝ) (f0 f1 t0 t1 : ℂ) :
    normSq (s * (-(starRingEnd ℂ) f1 * (s * (f0 * t0 + f1 * t1) / (I * (1 : ℝ)))) + I * t1) + normSq (-I * t0 - s * (-(starRingEnd ℂ) f0 * (s * (f0 * t0 + f1 * t1) / (I * (1 : ℝ)))))
        + normSq (s * (-(starRingEnd ℂ) f0 * t1 - -(starRingEnd ℂ) f1 * t0))
      = (1 + s ^ 2 * (normSq f0 + normSq f1)) * (normSq t0 + normSq t1 + normSq (s * (f0 * t0 + f1 * t1) / (I * (1 : ℝ)))) := by
  have e : (s * (f0 * t0 + f1 * t1) / (I * (1 : ℝ)) : ℂ) = -I * (s * (f0 * t0 + f1 * t1)) := by
    rw [ofReal_one, mul_one, div_I]; ring
  rw [e]
  simp only [normSq_apply, add_re, add_im, sub_re, sub_im, mul_re, mul_im, neg_re, neg_im, conj_re, conj_im, I_re, I_im, ofReal_re, ofReal_im]
  ring

/-- Transverse fields made of plane waves. -/
noncomputable def waveLin : (Fin 2 → {n // P n} → ℂ) →ₗ[ℂ] V 2 sh where
  toFun t p := wave (t p.1) p.2
  map_add' t u := funext fun p => by
    have := wave_add 1 1 (t p.1) (u p.1) p.2
    simp only [one_mul] at this
    exact this.symm
  map_smul' r t := funext fun p => (wave_smul r (t p.1) p.2).symm

theorem waveLin_injective (hsh : ∀ a, 0 < sh a) : Function.Injective (waveLin (sh := sh) (P := P)) := by
  rw [injective_iff_map_eq_zero]
  intro t ht
  funext c
  have h0 : ∀ x, wave (t c) x = 0 := fun x => congrFun ht (c, x)
  have hp := wave_parseval (t c)
  simp only [h0, normSq_zero, Finset.sum_const_zero] at hp
  have hN : (0 : ℝ) < Fintype.card (Idx sh) := Nat.cast_pos.2 (Fintype.card_pos_iff.2 ⟨fun a => ⟨0, hsh a⟩⟩)
  have h1 := (mul_eq_zero.1 hp.symm).resolve_left hN.ne'
  funext n
  exact normSq_eq_zero.1 ((Finset.sum_eq_zero_iff_of_nonneg fun n _ => normSq_nonneg _).1 h1 n (Finset.mem_univ _))

/-- The longitudinal amplitude. -/
noncomputable def third (s : ℝ) (t : Fin 2 → {n // P n} → ℂ) (n : {n // P n}) : ℂ := s * (fac d 0 n.1 * t 0 n + fac d 1 n.1 * t 1 n) / (I * (1 : ℝ))

theorem wave_excess (hd : ∀ a, 0 < d a) {eps : Fin 3 → Arr sh ℝ} {emin : ℝ} (hmin : 0 < emin) (heps : ∀ c x, emin ≤ eps c x) (ω s : ℝ) (t : Fin 2 → {n // P n} → ℂ) :
    excess (uni d) (uni d) eps (fun _ _ => 1) ω s (liftH (uni d) (fun _ _ => 1) s (waveLin t))
      ≤ d 0 * d 1 * Fintype.card (Idx sh) * ∑ n, ((1 + s ^ 2 * gridKappa d n.1) / emin - s ^ 2 * ω ^ 2) * (normSq (t 0 n) + normSq (t 1 n) + normSq (third d s t n)) := by
  set H := liftH (uni d) (fun _ _ => 1) s (waveLin t) with hH
  have l0 : H 0 = wave (t 0) := rfl
  have l1 : H 1 = wave (t 1) := rfl
  have l2 : H 2 = wave (third d s t) := funext fun x => by
    have e : ∀ c : Fin 2, (fun y => ((1 : ℝ) : ℂ) * waveLin t (c, y)) = wave (t c) := fun c => funext fun y => by rw [ofReal_one, one_mul]; rfl
    show s * (gradForward (some (cw (uni d))) (fun y => ((1 : ℝ) : ℂ) * waveLin t (0, y)) 0 x + gradForward (some (cw (uni d))) (fun y => ((1 : ℝ) : ℂ) * waveLin t (1, y)) 1 x) / (I * (1 : ℝ)) = _
    rw [e, e, gradForward_wave, gradForward_wave]
    have := wave_add 1 1 (fun n => fac d 0 n.1 * t 0 n) (fun n => fac d 1 n.1 * t 1 n) x
    simp only [one_mul] at this
    rw [this, mul_div_assoc, mul_comm, div_mul_eq_mul_div, mul_div_assoc, mul_comm, wave_smul]
    congr 1
    funext n
    rw [third]; ring
  have c0 : ∀ x, scurlB (uni d) s H 0 x = wave (fun n => s * (-(starRingEnd ℂ) (fac d 1 n.1) * third d s t n) + I * t 1 n) x := fun x => by
    rw [← wave_add, ← gradBack_wave, ← l2, ← l1]; rfl
  have c1 : ∀ x, scurlB (uni d) s H 1 x = wave (fun n => -I * t 0 n - s * (-(starRingEnd ℂ) (fac d 0 n.1) * third d s t n)) x := fun x => by
    have := wave_add (-I) (-s) (t 0) (fun n => -(starRingEnd ℂ) (fac d 0 n.1) * third d s t n) x
    rw [← gradBack_wave, ← l2, ← l0] at this
    have e : scurlB (uni d) s H 1 x = -I * H 0 x + -s * gradBack (some (cw (uni d))) (H 2) 0 x := by
      show -I * H 0 x - s * gradBack (some (cw (uni d))) (H 2) 0 x = _
      ring
    rw [e, this]
    congr 1
    funext n
    ring
  have c2 : ∀ x, scurlB (uni d) s H 2 x = wave (fun n => s * (-(starRingEnd ℂ) (fac d 0 n.1) * t 1 n - -(starRingEnd ℂ) (fac d 1 n.1) * t 0 n)) x := fun x => by
    have := wave_add s (-s) (fun n => -(starRingEnd ℂ) (fac d 0 n.1) * t 1 n) (fun n => -(starRingEnd ℂ) (fac d 1 n.1) * t 0 n) x
    rw [← gradBack_wave, ← gradBack_wave, ← l1, ← l0] at this
    have e : scurlB (uni d) s H 2 x = s * gradBack (some (cw (uni d))) (H 1) 0 x + -s * gradBack (some (cw (uni d))) (H 0) 1 x := by
      show s * (gradBack (some (cw (uni d))) (H 1) 0 x - gradBack (some (cw (uni d))) (H 0) 1 x) = _
      ring
    rw [e, this]
    congr 1
    funext n
    ring
  have aE : ∀ c x, areaE (sh := sh) (uni d) (uni d) c x = d 0 * d 1 := fun c x => by simp [areaE, Fin.prod_univ_two, uni]
  have aH : ∀ c x, areaH (sh := sh) (uni d) (uni d) c x = d 0 * d 1 := fun c x => by simp [areaH, Fin.prod_univ_two, uni]
  have hA : 0 < d 0 * d 1 := mul_pos (hd 0) (hd 1)
  have step : excess (uni d) (uni d) eps (fun _ _ => 1) ω s H ≤ d 0 * d 1 / emin * (∑ c, ∑ x, normSq (scurlB (uni d) s H c x)) - d 0 * d 1 * (s ^ 2 * ω ^ 2) * ∑ c, ∑ x, normSq (H c x) := by
    simp only [excess, Finset.mul_sum, ← Finset.sum_sub_distrib]
    refine Finset.sum_le_sum fun c _ => Finset.sum_le_sum fun x _ => ?_
    rw [aE, aH]
    have : normSq (scurlB (uni d) s H c x) / eps c x ≤ normSq (scurlB (uni d) s H c x) / emin := div_le_div_of_nonneg_left (normSq_nonneg _) hmin (heps c x)
    have := mul_le_mul_of_nonneg_left this hA.le
    calc _ ≤ d 0 * d 1 * (normSq (scurlB (uni d) s H c x) / emin) - s ^ 2 * ω ^ 2 * (d 0 * d 1 * (1 * normSq (H c x))) := by linarith
      _ = _ := by ring
  refine step.trans (le_of_eq ?_)
  rw [Fin.sum_univ_three, Fin.sum_univ_three]
  simp only [c0, c1, c2]
  rw [l0, l1, l2]
  simp only [wave_parseval]
  rw [← mul_add, ← mul_add, ← mul_add, ← mul_add, ← Finset.sum_add_distrib, ← Finset.sum_add_distrib, ← Finset.sum_add_distrib, ← Finset.sum_add_distrib]
  simp only [Finset.mul_sum, ← Finset.sum_sub_distrib]
  refine Finset.sum_congr rfl fun n _ => ?_
  have ci : normSq (s * (-(starRingEnd ℂ) (fac d 1 n.1) * third d s t n) + I * t 1 n) + normSq (-I * t 0 n - s * (-(starRingEnd ℂ) (fac d 0 n.1) * third d s t n))
        + normSq (s * (-(starRingEnd ℂ) (fac d 0 n.1) * t 1 n - -(starRingEnd ℂ) (fac d 1 n.1) * t 0 n))
      = (1 + s ^ 2 * (normSq (fac d 0 n.1) + normSq (fac d 1 n.1))) * (normSq (t 0 n) + normSq (t 1 n) + normSq (third d s t n)) :=
    cross_identity s (fac d 0 n.1) (fac d 1 n.1) (t 0 n) (t 1 n)
  rw [gridKappa_eq, ci]
  ring

end

end CountAux

/-- **C170.** On a uniform grid a lossless non-magnetic cross-section with `ε ≥ emin` everywhere has at least as many guided modes with wavenumbers above `β₀` as a homogeneous medium `emin` has
plane waves (two polarisations each) with axial wavenumbers above `β₀`. -/
theorem C170_plane_waves (hsh : ∀ a, 0 < sh a) {β₀ ω : ℝ} (hβ₀ : 0 < β₀) (hω : ω ≠ 0) {d : Fin 2 → ℝ} (hd : ∀ a, 0 < d a) (eps : V 3 sh) {emin : ℝ} (hmin : 0 < emin)
    (heps : ∀ p, (eps p).im = 0 ∧ emin ≤ (eps p).re) (m : ℕ) (hm : m < 2 * (Finset.univ.filter fun n : Idx sh => gridKappa d n + β₀ ^ 2 < ω ^ 2 * emin).card) :
    β₀ ^ 2 < nthEig (operatorE ω (cw (uni d), cw (uni d)) eps none) m ∧ β₀ ^ 2 < nthEig (operatorH ω (cw (uni d), cw (uni d)) eps none) m := by
  classical
  have hL : Lossless eps := fun p => ⟨(heps p).1, hmin.trans_le (heps p).2⟩
  have hmu : Lossless (sh := sh) (Option.getD none 1) := fun p => by simp
  have hN : (0 : ℝ) < Fintype.card (Idx sh) := Nat.cast_pos.2 (Fintype.card_pos_iff.2 ⟨fun a => ⟨0, hsh a⟩⟩)
  let P : Idx sh → Prop := fun n => gridKappa d n + β₀ ^ 2 < ω ^ 2 * emin
  have hfin : Module.finrank ℂ (LinearMap.range (waveLin (sh := sh) (P := P))) = 2 * (Finset.univ.filter fun n : Idx sh => gridKappa d n + β₀ ^ 2 < ω ^ 2 * emin).card := by
    rw [LinearMap.finrank_range_of_inj (waveLin_injective hsh), Module.finrank_pi_fintype]
    simp [P, Fintype.card_subtype]
  refine C170_mode_number hβ₀ hω (fun a i => hd a) (fun a i => hd a) eps none hL hmu (LinearMap.range (waveLin (sh := sh) (P := P))) (fun v hv h0 => ?_) m (by rw [hfin]; exact hm)
  obtain ⟨t, rfl⟩ := hv
  rw [energy_lt_iff hβ₀ hω _ _ hL hmu]
  simp only [Option.getD_none, Pi.one_apply, one_re]
  refine (wave_excess d hd hmin (fun c x => (heps (c, x)).2) ω β₀⁻¹ t).trans_lt ?_
  refine mul_neg_of_pos_of_neg (mul_pos (mul_pos (hd 0) (hd 1)) hN) ?_
  have hb2 : 0 < β₀ ^ 2 := by positivity
  have hc : ∀ n : {n // P n}, (1 + β₀⁻¹ ^ 2 * gridKappa d n.1) / emin - β₀⁻¹ ^ 2 * ω ^ 2 < 0 := fun n => by
    have := n.2
    simp only [P] at this
    rw [sub_neg, div_lt_iff₀ hmin]
    rw [inv_pow, ← mul_lt_mul_iff_right₀ hb2]
    field_simp
    linarith
  have hnn : ∀ n, 0 ≤ normSq (t 0 n) + normSq (t 1 n) + normSq (third d β₀⁻¹ t n) := fun n => add_nonneg (add_nonneg (normSq_nonneg _) (normSq_nonneg _)) (normSq_nonneg _)
  obtain ⟨c, n, hcn⟩ : ∃ c n, t c n ≠ 0 := by
    by_contra hcon
    push Not at hcon
    exact h0 (by
      have : t = 0 := funext fun c => funext fun n => hcon c n
      rw [this, map_zero])
  refine Finset.sum_neg' (fun n _ => mul_nonpos_of_nonpos_of_nonneg (hc n).le (hnn n)) ⟨n, Finset.mem_univ _, mul_neg_of_neg_of_pos (hc n) ?_⟩
  have h3 := normSq_nonneg (third d β₀⁻¹ t n)
  have h1 := normSq_nonneg (t 0 n)
  have h2 := normSq_nonneg (t 1 n)
  have hp := normSq_pos.2 hcn
  revert c
  refine Fin.forall_fin_two.2 ⟨fun _ hp => by linarith, fun _ hp => by linarith⟩

/-- **C170.** In particular there are at least as many propagating modes as plane waves propagating in the medium `emin`. -/
theorem C170_propagating (hsh : ∀ a, 0 < sh a) {ω : ℝ} (hω : ω ≠ 0) {d : Fin 2 → ℝ} (hd : ∀ a, 0 < d a) (eps : V 3 sh) {emin : ℝ} (hmin : 0 < emin)
    (heps : ∀ p, (eps p).im = 0 ∧ emin ≤ (eps p).re) (m : ℕ) (hm : m < 2 * (Finset.univ.filter fun n : Idx sh => gridKappa d n < ω ^ 2 * emin).card) :
    0 < nthEig (operatorE ω (cw (uni d), cw (uni d)) eps none) m ∧ 0 < nthEig (operatorH ω (cw (uni d), cw (uni d)) eps none) m := by
  classical
  -- a gap between the squared wavenumbers and the bound
  obtain ⟨q, hq, hgap⟩ : ∃ q > 0, ∀ n : Idx sh, gridKappa d n < ω ^ 2 * emin → gridKappa d n + q < ω ^ 2 * emin := by
    let F : Finset ℝ := (Finset.univ.filter fun n : Idx sh => gridKappa d n < ω ^ 2 * emin).image fun n => ω ^ 2 * emin - gridKappa d n
    by_cases hF : F.Nonempty
    · have hpos : 0 < F.min' hF := by
        rw [Finset.lt_min'_iff]
        intro y hy
        obtain ⟨n, hn, rfl⟩ := Finset.mem_image.1 hy
        exact sub_pos.2 (Finset.mem_filter.1 hn).2
      refine ⟨F.min' hF / 2, half_pos hpos, fun n hn => ?_⟩
      have := F.min'_le _ (Finset.mem_image_of_mem (fun n => ω ^ 2 * emin - gridKappa d n) (Finset.mem_filter.2 ⟨Finset.mem_univ n, hn⟩))
      linarith
    · refine ⟨1, one_pos, fun n hn => absurd ⟨_, Finset.mem_image_of_mem _ (Finset.mem_filter.2 ⟨Finset.mem_univ n, hn⟩)⟩ hF⟩
  have hq2 : (√q) ^ 2 = q := Real.sq_sqrt hq.le
  have h := C170_plane_waves hsh (Real.sqrt_pos.2 hq) hω hd eps hmin heps m (hm.trans_le (Nat.mul_le_mul_left 2 (Finset.card_le_card fun n hn => by
    rw [Finset.mem_filter] at hn ⊢
    rw [hq2]
    exact ⟨hn.1, hgap n hn.2⟩)))
  rw [hq2] at h
  exact ⟨hq.trans h.1, hq.trans h.2⟩

/-- The hypotheses are met by a strip of `ε = 12` in `ε = 2` on a non-uniform grid: its second mode, too, has an index of at least `√2`. -/
example : 2 ≤ nthEig (operatorE (sh := fun _ => 2) ((1 : ℝ) : ℂ) (cw exE, cw exH) (fun p => if p.2 0 = 0 then 12 else 2) none) 1 := by
  have hL : Lossless (sh := fun _ => 2) (fun p => if p.2 0 = 0 then 12 else 2) := fun p => by
    show (if p.2 0 = 0 then (12 : ℂ) else 2).im = 0 ∧ 0 < (if p.2 0 = 0 then (12 : ℂ) else 2).re
    split_ifs <;> norm_num
  have hp : ∀ c x, 0 < areaE exE exH c x := fun c x => Finset.prod_pos fun a _ => by split <;> simp [exE_pos, exH_pos]
  refine (C170_second (sh := fun _ => 2) (fun _ => by norm_num) (ω := 1) one_ne_zero exE_pos exH_pos _ hL (fun c => ?_) 1 (by norm_num)).1
  rw [one_pow, one_mul, Finset.mul_sum]
  refine Finset.sum_le_sum fun x _ => ?_
  have := hp c.castSucc x
  split_ifs
  · norm_num; linarith
  · norm_num; linarith

/-- A cross-section of `ε = 12` in `ε = 3` on a 4 × 4 grid of unit cells has at `ω = 1` at least six propagating modes. -/
example (eps : V 3 fun _ => 4) (h : ∀ p, eps p = 12 ∨ eps p = 3) : 0 < nthEig (operatorE ((1 : ℝ) : ℂ) (cw (CountAux.uni fun _ => 1), cw (CountAux.uni fun _ => 1)) eps none) 5 := by
  refine (C170_propagating (sh := fun _ => 4) (fun _ => by norm_num) (ω := 1) one_ne_zero (d := fun _ => 1) (fun _ => one_pos) eps (emin := 3) (by norm_num)
    (fun p => by rcases h p with h | h <;> rw [h] <;> norm_num) 5 ?_).1
  have hsub : ({fun _ => 0, fun a => if a = 0 then 1 else 0, fun a => if a = 0 then 0 else 1} : Finset (Idx fun _ : Fin 2 => 4))
      ⊆ Finset.univ.filter fun n : Idx (fun _ : Fin 2 => 4) => gridKappa (fun _ => 1) n < 1 ^ 2 * 3 := by
    intro n hn
    refine Finset.mem_filter.2 ⟨Finset.mem_univ _, ?_⟩
    simp only [Finset.mem_insert, Finset.mem_singleton] at hn
    rcases hn with rfl | rfl | rfl
    · simp [gridKappa]
    · simp [gridKappa, mul_pow, div_pow]; norm_num
    · simp [gridKappa, mul_pow, div_pow]; norm_num
  have := Finset.card_le_card hsub
  have hc : ({fun _ => 0, fun a => if a = 0 then 1 else 0, fun a => if a = 0 then 0 else 1} : Finset (Idx fun _ : Fin 2 => 4)).card = 3 := by decide
  omega

end Meanas.Props
