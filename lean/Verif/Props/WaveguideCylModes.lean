/-
C73, C74: normalisation and mode selection for bent waveguides (meanas/fdfd/waveguide_cyl.py).
-/
import Verif.Model.CylSolveMode
import Verif.Props.WaveguideCyl
import Verif.Props.WgModes
import Verif.Props.Waveguide2dModes

namespace Meanas.Props

open Matrix Complex OperatorsS Spec Wg2 Eig

set_option linter.unusedSectionVars false

variable {sh : Fin 2 → ℕ}

/-- C73: `waveguide_cyl.normalized_fields_e` returns a common multiple of the reconstructed E and of the negated H of `exy2h` (that is, of the magnetic field itself), with unit power, and does not depend on the
scale of the eigenvector. -/
theorem C73_unit_power (v : V 2 sh) (m ω : ℂ) (dxes : Dx2 sh) (rmin : ℂ) (eps : V 3 sh) (mu : Option (V 3 sh)) (φ : ℂ) {e' h' : V 3 sh}
    (hr : WgCyl.normalizedFieldsE v m ω dxes rmin eps mu φ = .ok (e', h')) :
    (∃ c : ℂ, c ≠ 0 ∧ e' = c • (WgCyl.exy2e m ω dxes rmin eps *ᵥ v) ∧ h' = c • -(WgCyl.exy2h m ω dxes rmin eps mu *ᵥ v)) ∧
    (∃ s, innerProduct e' h' dxes φ true false = .ok s ∧ s.re = 1) ∧
    ∀ r : ℝ, 0 < r → WgCyl.normalizedFieldsE ((r : ℂ) • v) m ω dxes rmin eps mu φ = .ok (e', h') := by
  obtain ⟨h1, h2, -⟩ := C42_unit_power _ _ dxes eps φ hr
  refine ⟨h1, h2, fun r hr' => ?_⟩
  rw [WgCyl.normalizedFieldsE, mulVec_smul, mulVec_smul, ← smul_neg, C42_scale_invariant _ _ _ _ _ hr']
  exact hr

theorem fw_const (dxes : Dx2 sh) (a : Fin 2) (c : ℂ) : fw dxes a (fun _ => c) = fun _ => 0 := by
  funext x; rw [fw, derivForward_eq]; simp
theorem bw_const (dxes : Dx2 sh) (a : Fin 2) (c : ℂ) : bw dxes a (fun _ => c) = fun _ => 0 := by
  funext x; rw [bw, derivBack_eq]; simp

/-- C73, hypotheses are met: a radially polarised field on a cross-section one cell wide and two cells high is normalised successfully. -/
example : ∃ e' h', WgCyl.normalizedFieldsE (sh := ![1, 2]) (fun p => if p.1 = 0 then 1 else 0) 1 1 (fun _ _ => 1, fun _ _ => 1) 1 1 none 0
    = .ok (e', h') := by
  obtain ⟨e', h', h⟩ := plane_normalized (sh := ![1, 2]) (by decide) (show (0 : ℝ) < 2 / 5 by norm_num)
  refine ⟨e', h', ?_⟩
  rw [← h, WgCyl.normalizedFieldsE]
  set d : Dx2 ![1, 2] := (fun _ _ => 1, fun _ _ => 1)
  have hcum : ∀ i : Fin (![1, 2] 0), WgCyl.cumsumC (fun _ : Fin (![1, 2] 0) => (1 : ℂ)) i = 1 := by
    intro i
    have hi : i = (0 : Fin 1) := Subsingleton.elim (α := Fin 1) _ _
    subst hi
    show ∑ j : Fin 1, (if (j : ℕ) ≤ ((0 : Fin 1) : ℕ) then (1 : ℂ) else 0) = 1
    simp
  have hta : (WgCyl.dxes2T d 1).1 = fun _ => 2 := by
    funext x
    show (1 + WgCyl.cumsumC (fun _ => 1) (x 0)) / 1 = (2 : ℂ)
    rw [hcum]; norm_num
  have htb : (WgCyl.dxes2T d 1).2 = fun _ => 5 / 2 := by
    funext x
    show (1 + 1 / 2 + WgCyl.cumsumC (fun _ => 1) (x 0)) / 1 = (5 / 2 : ℂ)
    rw [hcum]; norm_num
  have he : WgCyl.exy2e 1 1 d 1 1 *ᵥ (fun p => if p.1 = 0 then 1 else 0 : V 2 ![1, 2]) = fun p => if p.1 = 0 then 1 else 0 := by
    funext ⟨c, x⟩
    rw [WgCyl.exy2e, hta, htb]
    revert c
    refine forall_fin3 ?_ ?_ ?_
    · rw [WgCyl.exy2eT_0]; rfl
    · rw [WgCyl.exy2eT_1]; rfl
    · rw [WgCyl.exy2eT_2 _ _ _ _ _ _ _ (fun _ => 0)]
      · simp [bw_const]
      · intro y
        have p0 : part (fun p => if p.1 = 0 then 1 else 0 : V 2 ![1, 2]) 0 = fun _ => 1 := rfl
        have p1 : part (fun p => if p.1 = 0 then 1 else 0 : V 2 ![1, 2]) 1 = fun _ => 0 := rfl
        rw [p0, p1, fw_const, fw_const]; simp
  rw [WgCyl.exy2h, ← mulVec_mulVec, he]
  congr 1
  funext ⟨c, x⟩
  rw [WgCyl.e2h, hta, htb]
  have p0 : part (fun p => if p.1 = 0 then 1 else 0 : V 3 ![1, 2]) 0 = fun _ => 1 := rfl
  have p1 : part (fun p => if p.1 = 0 then 1 else 0 : V 3 ![1, 2]) 1 = fun _ => 0 := rfl
  have p2 : part (fun p => if p.1 = 0 then 1 else 0 : V 3 ![1, 2]) 2 = fun _ => 0 := rfl
  have hI := I_ne_zero
  revert c
  refine forall_fin3 ?_ ?_ ?_
  · rw [Pi.neg_apply, WgCyl.e2hT_0, p2, fw_const]; simp
  · rw [Pi.neg_apply, WgCyl.e2hT_1]
    simp [fw_const]
    field_simp
  · rw [Pi.neg_apply, WgCyl.e2hT_2, p0, p1, fw_const, fw_const]; simp

theorem cyl_real_inputs (ω : ℂ) (dxes : Dx2 sh) (eps : V 3 sh) (rmin : ℝ) (hω : ω.im = 0) (hd1 : ∀ a i, (dxes.1 a i).im = 0)
    (hd2 : ∀ a i, (dxes.2 a i).im = 0) (heps : ∀ i, (eps i).im = 0) :
    WgCyl.cylindricalOperator (ω.re : ℂ) (reDx dxes.1, reDx dxes.2) (reV eps) rmin = WgCyl.cylindricalOperator ω dxes eps rmin := by
  have c : ∀ z : ℂ, z.im = 0 → ((z.re : ℝ) : ℂ) = z := fun z h => by apply Complex.ext <;> simp [h]
  have h1 : (reDx dxes.1, reDx dxes.2) = dxes := by
    refine Prod.ext ?_ ?_
    · funext a i; exact c _ (hd1 a i)
    · funext a i; exact c _ (hd2 a i)
  have h2 : reV eps = eps := funext fun i => c _ (heps i)
  rw [c ω hω, h1, h2]

/-- C74 (part): for lossless bends with a spectrum bounded by the estimated largest eigenvalue, `solve_modes` returns (sorted by angular wavenumber) the requested eigenvectors, each with the angular wavenumber
`rmin` times the square root of its eigenvalue when that is positive. Missing: evanescent modes, which get 0 (`C74_evanescent_partial`). -/
theorem C74_lossless_partial (eigs : M 2 2 sh → ℕ → List (ℂ × V 2 sh)) (guess : V 2 sh) (solver : M 2 2 sh → V 2 sh → Option (V 2 sh))
    (ms : List ℕ) (ω : ℂ) (dxes : Dx2 sh) (eps : V 3 sh) (rmin : ℝ) (margin mx : ℕ) (hω : ω.im = 0) (hd1 : ∀ a i, (dxes.1 a i).im = 0)
    (hd2 : ∀ a i, (dxes.2 a i).im = 0) (heps : ∀ i, (eps i).im = 0)
    (hmx : ms.max? = some mx) (hmargin : 1 ≤ margin) (lm : ℂ) (u : V 2 sh)
    (hp : powerIteration (WgCyl.cylindricalOperator ω dxes eps rmin) guess 20 = some (lm, u)) (hn : 2 * (mx + margin) + 50 ≤ Fintype.card (Fin 2 × Idx sh))
    (heigs : ∀ r : ℝ, IsEigs (WgCyl.cylindricalOperator ω dxes eps rmin + (r : ℂ) • (1 : M 2 2 sh)) (mx + margin)
      (eigs (WgCyl.cylindricalOperator ω dxes eps rmin + (r : ℂ) • (1 : M 2 2 sh)) (mx + margin)))
    (hreal : ∀ μ ∈ (WgCyl.cylindricalOperator ω dxes eps rmin).charpoly.roots, μ.im = 0)
    (hbound : ∀ μ ∈ (WgCyl.cylindricalOperator ω dxes eps rmin).charpoly.roots, ‖μ‖ ≤ ‖lm‖) :
    ∃ out raw, WgCyl.solveModes eigs guess solver ms ω dxes eps rmin margin = .ok (some out) ∧ out.Perm raw ∧
      List.Forall₂ (IsRequestedMode (· * (rmin : ℂ)) (WgCyl.cylindricalOperator ω dxes eps rmin)) ms raw ∧ out.Pairwise fun p q => q.2.re ≤ p.2.re := by
  rw [WgCyl.solveModes, cyl_real_inputs ω dxes eps rmin hω hd1 hd2 heps]
  exact solveModesOp_lossless eigs guess solver ms _ margin mx _ hmx hmargin lm u hp hn heigs hreal hbound

/-- C74: with `mode_margin=0` the solver for bends never returns either. -/
theorem C74_no_margin_partial (eigs : M 2 2 sh → ℕ → List (ℂ × V 2 sh)) (heigs : ∀ B k, (eigs B k).length ≤ k) (guess : V 2 sh)
    (solver : M 2 2 sh → V 2 sh → Option (V 2 sh)) (ms : List ℕ) (ω : ℂ) (dxes : Dx2 sh) (eps : V 3 sh) (rmin : ℝ) (res : Option (List (V 2 sh × ℂ))) :
    WgCyl.solveModes eigs guess solver ms ω dxes eps rmin 0 ≠ .ok res :=
  solveModesOp_no_margin eigs heigs guess solver ms _ _ _ res

/-- C74: a propagating mode of that list satisfies the documented eigenvalue relation and its angular wavenumber is positive. -/
theorem C74_propagating_partial (A : M 2 2 sh) (rmin : ℝ) (hr : 0 < rmin) (m : ℕ) (p : V 2 sh × ℂ) (h : IsRequestedMode (· * (rmin : ℂ)) A m p) (hpos : 0 < nthEig A m) :
    A *ᵥ p.1 = (p.2 / rmin) ^ 2 • p.1 ∧ 0 < p.2.re ∧ p.2.im = 0 := by
  have h0 : p.2 = ((√(nthEig A m) : ℝ) : ℂ) * (rmin : ℂ) := by rw [h.2.2, if_pos hpos]
  have hr' : (rmin : ℂ) ≠ 0 := by exact_mod_cast hr.ne'
  refine ⟨?_, ?_, ?_⟩
  · rw [h.2.1, h0, mul_div_cancel_right₀ _ hr']
    congr 1
    norm_cast
    rw [Real.sq_sqrt hpos.le]
  · rw [h0, ← ofReal_mul, ofReal_re]; exact mul_pos (Real.sqrt_pos.2 hpos) hr
  · rw [h0, ← ofReal_mul, ofReal_im]

/-- C74 is false for evanescent modes: they get the angular wavenumber 0. -/
theorem C74_evanescent_partial (A : M 2 2 sh) (rmin : ℝ) (m : ℕ) (p : V 2 sh × ℂ) (h : IsRequestedMode (· * (rmin : ℂ)) A m p) (hneg : nthEig A m < 0) :
    p.2 = 0 ∧ A *ᵥ p.1 ≠ (p.2 / rmin) ^ 2 • p.1 := by
  have h0 : p.2 = 0 := by rw [h.2.2, if_neg (not_lt.2 hneg.le)]; exact zero_mul _
  refine ⟨h0, ?_⟩
  rw [h.2.1, h0, zero_div, zero_pow two_ne_zero, zero_smul]
  intro hz
  rcases smul_eq_zero.1 hz with h1 | h1
  · exact hneg.ne (by exact_mod_cast h1)
  · have := h.1
    rw [h1] at this
    simp [norm2] at this

/-! ### Non-vacuity of C74: a bend with one cell along the radius and 26 across -/

/-- One cell along x, 26 along y. -/
abbrev thinSh : Fin 2 → ℕ := fun a => if a = 0 then 1 else 26

theorem thin_shift0 (s : ℤ) (x : Idx thinSh) : shiftIdx 0 s x = x := by
  funext a
  match a with
  | 0 => exact Subsingleton.elim (α := Fin 1) _ _
  | 1 => exact shiftIdx_of_ne (by decide) s x

theorem thin_fw0 (f : Idx thinSh → ℂ) (x : Idx thinSh) : fw oneDx 0 f x = 0 := by
  rw [fw, derivForward_eq, thin_shift0, sub_self, zero_div]
theorem thin_bw0 (f : Idx thinSh → ℂ) (x : Idx thinSh) : bw oneDx 0 f x = 0 := by
  rw [bw, derivBack_eq, thin_shift0, sub_self, zero_div]

theorem thin_t (x : Idx thinSh) : (WgCyl.dxes2T (oneDx : Dx2 thinSh) 1).1 x = 2 ∧ (WgCyl.dxes2T (oneDx : Dx2 thinSh) 1).2 x = 5 / 2 := by
  have h1 : (WgCyl.dxes2T (oneDx : Dx2 thinSh) 1).1 x = (1 + WgCyl.cumsumC (fun _ : Fin 1 => (1 : ℂ)) (x 0)) / 1 := rfl
  have h2 : (WgCyl.dxes2T (oneDx : Dx2 thinSh) 1).2 x = (1 + 1 / 2 + WgCyl.cumsumC (fun _ : Fin 1 => (1 : ℂ)) (x 0)) / 1 := rfl
  rw [h1, h2, bent_cumsum]
  constructor <;> norm_num

/-- The operator of the example. -/
noncomputable abbrev thinOp : M 2 2 thinSh := WgCyl.cylindricalOperator 1 oneDx 1 ((1 : ℝ) : ℂ)

theorem bw_const_mul (dxes : Dx2 sh) (a : Fin 2) (c : ℂ) (f : Idx sh → ℂ) (x : Idx sh) : bw dxes a (fun y => c * f y) x = c * bw dxes a f x := by
  rw [bw, bw, derivBack_eq, derivBack_eq]; ring
theorem fw_const_mul (dxes : Dx2 sh) (a : Fin 2) (c : ℂ) (f : Idx sh → ℂ) (x : Idx sh) : fw dxes a (fun y => c * f y) x = c * fw dxes a f x := by
  rw [fw, fw, derivForward_eq, derivForward_eq]; ring

theorem thin_0 (v : V 2 thinSh) (x : Idx thinSh) : (thinOp *ᵥ v) (0, x) = 25 / 4 * (v (0, x) + bw oneDx 1 (fw oneDx 1 (part v 0)) x) := by
  rw [thinOp, ofReal_one, WgCyl.cylindricalOperator, WgCyl.cylOpT_0]
  simp only [thin_fw0, (thin_t _).2, Pi.one_apply, zero_sub]
  rw [bw_const_mul, bw_neg]
  ring
theorem thin_1 (v : V 2 thinSh) (x : Idx thinSh) : (thinOp *ᵥ v) (1, x) = 4 * (v (1, x) + fw oneDx 1 (bw oneDx 1 (part v 1)) x) := by
  rw [thinOp, ofReal_one, WgCyl.cylindricalOperator, WgCyl.cylOpT_1]
  simp only [thin_bw0, (thin_t _).1, Pi.one_apply, zero_add, div_one, one_mul, bw_const_mul, fw_const_mul]
  change _ + 2 * 0 + 2 * (2 * fw oneDx 1 (bw oneDx 1 (part v 1)) x) = _
  ring

theorem thin_symm (u v : V 2 thinSh) : u ⬝ᵥ (thinOp *ᵥ v) = (thinOp *ᵥ u) ⬝ᵥ v := by
  have key : ∀ a b : V 2 thinSh, a ⬝ᵥ (thinOp *ᵥ b) = 25 / 4 * (∑ x, a (0, x) * b (0, x) - ∑ x, fw oneDx 1 (part a 0) x * fw oneDx 1 (part b 0) x)
      + 4 * (∑ x, a (1, x) * b (1, x) - ∑ x, bw oneDx 1 (part a 1) x * bw oneDx 1 (part b 1) x) := by
    intro a b
    have p1 := parts_uniform (one_uniform (sh := thinSh)) 1 (part a 0) (fw oneDx 1 (part b 0))
    have p2 := parts_uniform (one_uniform (sh := thinSh)) 1 (bw oneDx 1 (part b 1)) (part a 1)
    have p1' : ∑ x, a (0, x) * bw oneDx 1 (fw oneDx 1 (part b 0)) x = -∑ x, fw oneDx 1 (part a 0) x * fw oneDx 1 (part b 0) x := p1
    have p2' : ∑ x, bw oneDx 1 (part a 1) x * bw oneDx 1 (part b 1) x = -∑ x, a (1, x) * fw oneDx 1 (bw oneDx 1 (part b 1)) x := by
      rw [Finset.sum_congr rfl fun x _ => mul_comm _ (bw oneDx 1 (part b 1) x), p2]
      exact congrArg _ (Finset.sum_congr rfl fun x _ => mul_comm _ _)
    rw [dotProduct, Fintype.sum_prod_type, Fin.sum_univ_two]
    simp only [thin_0, thin_1]
    rw [p2', sub_neg_eq_add, ← neg_neg (∑ x, fw oneDx 1 (part a 0) x * _), ← p1', sub_neg_eq_add, mul_add, mul_add]
    simp only [Finset.mul_sum, ← Finset.sum_add_distrib]
    exact Finset.sum_congr rfl fun x _ => by ring
  rw [key, dotProduct_comm, key]
  refine congrArg₂ _ (congrArg _ (congrArg₂ _ ?_ ?_)) (congrArg _ (congrArg₂ _ ?_ ?_)) <;> exact Finset.sum_congr rfl fun x _ => mul_comm _ _

theorem thin_conj (v : V 2 thinSh) : thinOp *ᵥ star v = star (thinOp *ᵥ v) := by
  have r1 : ∀ (a : Fin 2) (i : Fin (thinSh a)), (starRingEnd ℂ) ((oneDx : Dx2 thinSh).1 a i) = (oneDx : Dx2 thinSh).1 a i := fun _ _ => map_one _
  have r2 : ∀ (a : Fin 2) (i : Fin (thinSh a)), (starRingEnd ℂ) ((oneDx : Dx2 thinSh).2 a i) = (oneDx : Dx2 thinSh).2 a i := fun _ _ => map_one _
  have q : (starRingEnd ℂ) (25 / 4 : ℂ) = 25 / 4 := by rw [map_div₀, map_ofNat, map_ofNat]
  have q' : (starRingEnd ℂ) (4 : ℂ) = 4 := map_ofNat _ 4
  funext ⟨c, x⟩
  match c with
  | 0 =>
    change (thinOp *ᵥ star v) (0, x) = (starRingEnd ℂ) ((thinOp *ᵥ v) (0, x))
    rw [thin_0, thin_0, map_mul, map_add, conj_bw r2]
    simp only [conj_fw r1, q]; rfl
  | 1 =>
    change (thinOp *ᵥ star v) (1, x) = (starRingEnd ℂ) ((thinOp *ᵥ v) (1, x))
    rw [thin_1, thin_1, map_mul, map_add, conj_fw r1]
    simp only [conj_bw r2, q']; rfl

theorem thin_real {μ : ℂ} (h : μ ∈ thinOp.charpoly.roots) : μ.im = 0 := by
  obtain ⟨v, hv, e⟩ := root_eigenvector h
  have h1 := thin_symm (star v) v
  rw [thin_conj, e, dotProduct_smul, star_smul, smul_dotProduct] at h1
  exact Complex.conj_eq_iff_im.1 (mul_right_cancel₀ (dot_self_ne hv) h1).symm

theorem thin_card : Fintype.card (Fin 2 × Idx thinSh) = 52 := by
  rw [Fintype.card_prod, Fintype.card_pi, Fin.prod_univ_two]; simp

/-- A start vector for which the power iteration finds the largest eigenvalue of the bend. -/
theorem thin_guess : ∃ v lm u, powerIteration thinOp v 20 = some (lm, u) ∧ ∀ μ ∈ thinOp.charpoly.roots, ‖μ‖ ≤ ‖lm‖ := by
  let v1 : V 2 thinSh := fun p => if p.1 = 0 then 0 else 1
  have h1 : thinOp *ᵥ v1 = (4 : ℂ) • v1 := by
    funext ⟨c, x⟩
    match c with
    | 0 =>
      rw [thin_0]
      simp [part, derivForward_eq, derivBack_eq, v1]
    | 1 =>
      rw [thin_1]
      simp [part, derivForward_eq, derivBack_eq, v1]
  have hne : v1 ≠ 0 := fun h => one_ne_zero (congrFun h (1, fun a => ⟨0, by fin_cases a <;> decide⟩))
  have hmem : (4 : ℂ) ∈ thinOp.charpoly.roots.toFinset := Multiset.mem_toFinset.2 (eig_mem_roots hne h1)
  obtain ⟨lm, hlm, hmax⟩ := Finset.exists_max_image thinOp.charpoly.roots.toFinset (fun μ => ‖μ‖) ⟨4, hmem⟩
  obtain ⟨v, hv, hev⟩ := root_eigenvector (Multiset.mem_toFinset.1 hlm)
  have hlm0 : lm ≠ 0 := by
    intro h
    have := hmax 4 hmem
    rw [h] at this
    simp at this
    linarith
  exact ⟨v, lm, _, C65_power_eigenvector thinOp v 20 lm hlm0 hv hev, fun μ hμ => hmax μ (Multiset.mem_toFinset.2 hμ)⟩

/-- All hypotheses of `C74_lossless_partial` are met (mode 0 of the bend). -/
example : ∃ guess out raw, WgCyl.solveModes eigsOracle guess exactSolve [0] 1 (oneDx : Dx2 thinSh) 1 1 1 = .ok (some out) ∧ out.Perm raw ∧
    List.Forall₂ (IsRequestedMode (· * ((1 : ℝ) : ℂ)) thinOp) [0] raw ∧ out.Pairwise fun p q => q.2.re ≤ p.2.re := by
  obtain ⟨v, lm, w, hpow, hmax⟩ := thin_guess
  exact ⟨v, C74_lossless_partial eigsOracle v exactSolve [0] 1 oneDx 1 1 1 0 (by simp) (fun _ _ => by simp [oneDx]) (fun _ _ => by simp [oneDx])
    (fun _ => by simp) rfl (by norm_num) lm _ hpow (by rw [thin_card]) (fun r => eigsOracle_spec _ _ (by rw [thin_card]; norm_num))
    (fun μ hμ => thin_real hμ) hmax⟩

/-! ### C70 for bends: `waveguide_cyl.solve_mode` -/

/-- C70 is false for positional arguments of the bent-waveguide `solve_mode` as well. -/
theorem C70_bent_positional_raises_partial (eigs : M 2 2 sh → ℕ → List (ℂ × V 2 sh)) (guess : V 2 sh) (solver : M 2 2 sh → V 2 sh → Option (V 2 sh))
    (m : ℕ) (a : WgCyl.Arg sh) (args : List (WgCyl.Arg sh)) (kwargs : List (String × WgCyl.Arg sh)) :
    ∃ msg, WgCyl.solveMode eigs guess solver m (a :: args) kwargs = .error msg := by
  have hb : ∃ msg, bindArgs WgCyl.solveModesParams (a :: args) (("mode_numbers", .modes [m]) :: kwargs.filter fun k => k.1 != "mode_numbers")
      = .error msg := by
    rw [bindArgs]
    by_cases h1 : WgCyl.solveModesParams.length < (a :: args).length
    · exact ⟨_, if_pos h1⟩
    · rw [if_neg h1]
      refine ⟨"TypeError: got multiple values for argument", if_pos ?_⟩
      simp [WgCyl.solveModesParams]
  obtain ⟨msg, hm⟩ := hb
  exact ⟨msg, by rw [WgCyl.solveMode, hm]⟩

/-- C70 (what holds) for bends: the keyword call returns the single mode of `solve_modes([m], ...)`. -/
theorem C70_bent_keyword_partial (eigs : M 2 2 sh → ℕ → List (ℂ × V 2 sh)) (guess : V 2 sh) (solver : M 2 2 sh → V 2 sh → Option (V 2 sh))
    (m margin : ℕ) (ω : ℂ) (dxes : Dx2 sh) (eps : V 3 sh) (rmin : ℝ) (p : V 2 sh × ℂ)
    (h : WgCyl.solveModes eigs guess solver [m] ω dxes eps rmin margin = .ok (some [p])) :
    WgCyl.solveMode eigs guess solver m []
      [("omega", .omega ω), ("dxes", .dxes dxes), ("epsilon", .field eps), ("rmin", .radius rmin), ("mode_margin", .margin margin)] = .ok (some p) := by
  simp [WgCyl.solveMode, bindArgs, WgCyl.solveModesParams, WgCyl.callSolveModes, List.lookup, h]

/-- C70 (what holds) for bends, with `mode_margin` left at its default of 2. -/
theorem C70_bent_keyword_defaults_partial (eigs : M 2 2 sh → ℕ → List (ℂ × V 2 sh)) (guess : V 2 sh) (solver : M 2 2 sh → V 2 sh → Option (V 2 sh))
    (m : ℕ) (ω : ℂ) (dxes : Dx2 sh) (eps : V 3 sh) (rmin : ℝ) (p : V 2 sh × ℂ)
    (h : WgCyl.solveModes eigs guess solver [m] ω dxes eps rmin 2 = .ok (some [p])) :
    WgCyl.solveMode eigs guess solver m [] [("omega", .omega ω), ("dxes", .dxes dxes), ("epsilon", .field eps), ("rmin", .radius rmin)] = .ok (some p) := by
  simp [WgCyl.solveMode, bindArgs, WgCyl.solveModesParams, WgCyl.callSolveModes, List.lookup, h]

/-- C70 together with C74: for a lossless bend the keyword call returns a unit eigenvector for the `m`-th largest eigenvalue. -/
theorem C70_bent_lossless_partial (eigs : M 2 2 sh → ℕ → List (ℂ × V 2 sh)) (guess : V 2 sh) (solver : M 2 2 sh → V 2 sh → Option (V 2 sh))
    (m : ℕ) (ω : ℂ) (dxes : Dx2 sh) (eps : V 3 sh) (rmin : ℝ) (margin : ℕ) (hω : ω.im = 0) (hd1 : ∀ a i, (dxes.1 a i).im = 0)
    (hd2 : ∀ a i, (dxes.2 a i).im = 0) (heps : ∀ i, (eps i).im = 0) (hmargin : 1 ≤ margin) (lm : ℂ) (u : V 2 sh)
    (hp : powerIteration (WgCyl.cylindricalOperator ω dxes eps rmin) guess 20 = some (lm, u)) (hn : 2 * (m + margin) + 50 ≤ Fintype.card (Fin 2 × Idx sh))
    (heigs : ∀ r : ℝ, IsEigs (WgCyl.cylindricalOperator ω dxes eps rmin + (r : ℂ) • (1 : M 2 2 sh)) (m + margin)
      (eigs (WgCyl.cylindricalOperator ω dxes eps rmin + (r : ℂ) • (1 : M 2 2 sh)) (m + margin)))
    (hreal : ∀ μ ∈ (WgCyl.cylindricalOperator ω dxes eps rmin).charpoly.roots, μ.im = 0)
    (hbound : ∀ μ ∈ (WgCyl.cylindricalOperator ω dxes eps rmin).charpoly.roots, ‖μ‖ ≤ ‖lm‖) :
    ∃ p, WgCyl.solveMode eigs guess solver m []
        [("omega", .omega ω), ("dxes", .dxes dxes), ("epsilon", .field eps), ("rmin", .radius rmin), ("mode_margin", .margin margin)] = .ok (some p) ∧
      IsRequestedMode (· * (rmin : ℂ)) (WgCyl.cylindricalOperator ω dxes eps rmin) m p := by
  obtain ⟨out, raw, h1, h2, h3, -⟩ := C74_lossless_partial eigs guess solver [m] ω dxes eps rmin margin m hω hd1 hd2 heps rfl
    hmargin lm u hp hn heigs hreal hbound
  cases h3 with
  | cons hr ht =>
    cases ht
    rw [List.perm_singleton.1 h2] at h1
    exact ⟨_, C70_bent_keyword_partial eigs guess solver m margin ω dxes eps rmin _ h1, hr⟩

/-- The fundamental mode of the thin bend through the keyword call. -/
example : ∃ guess p, WgCyl.solveMode eigsOracle guess exactSolve 0 [] [("omega", .omega 1), ("dxes", .dxes (oneDx : Dx2 thinSh)), ("epsilon", .field 1),
      ("rmin", .radius 1), ("mode_margin", .margin 1)] = .ok (some p) ∧ IsRequestedMode (· * ((1 : ℝ) : ℂ)) thinOp 0 p := by
  obtain ⟨v, lm, w, hpow, hmax⟩ := thin_guess
  exact ⟨v, C70_bent_lossless_partial eigsOracle v exactSolve 0 1 oneDx 1 1 1 (by simp) (fun _ _ => by simp [oneDx]) (fun _ _ => by simp [oneDx])
    (fun _ => by simp) (by norm_num) lm _ hpow (by rw [thin_card]) (fun r => eigsOracle_spec _ _ (by rw [thin_card]; norm_num))
    (fun μ hμ => thin_real hμ) hmax⟩

end Meanas.Props
