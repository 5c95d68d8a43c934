/-
C46, C70: `solve_modes` and `solve_mode` (meanas/fdfd/waveguide_2d.py).
-/
import Verif.Model.WgModes
import Verif.Props.Eigensolvers
import Verif.Props.Waveguide2dSens
import Mathlib.Data.Multiset.Sort
import Mathlib.Data.List.Sort
import Mathlib.Data.List.GetD

set_option linter.unusedSectionVars false

namespace Meanas.Props

open Matrix Complex Wg2 Eig
open scoped ComplexOrder

variable {ι : Type} [Fintype ι] [DecidableEq ι]

/-- The `m`-th largest real part among the eigenvalues (roots of the characteristic polynomial with multiplicity), counting from 0. -/
noncomputable def nthEig (A : Matrix ι ι ℂ) (m : ℕ) : ℝ := ((A.charpoly.roots.map Complex.re).sort (· ≥ ·)).getD m 0

theorem signed_nth {A : Matrix ι ι ℂ} {k : ℕ} {res : List (ℂ × (ι → ℂ))} (h : IsSigned A k false res) {m : ℕ} (hm : m < k) :
    ∃ p ∈ res, res.getD (res.length - (m + 1)) (0, 0) = p ∧ p.1.re = nthEig A m := by
  obtain ⟨rest, hr, hle⟩ := h.split
  have hlen : m < res.length := by rw [h.length]; exact hm
  have hidx : res.length - (m + 1) < res.length := by omega
  refine ⟨res[res.length - (m + 1)], List.getElem_mem _, List.getD_eq_getElem _ _ hidx, ?_⟩
  let l := (res.map fun p => p.1.re).reverse ++ (rest.map Complex.re).sort (· ≥ ·)
  have hp : (A.charpoly.roots.map Complex.re).sort (· ≥ ·) = l := by
    refine List.Perm.eq_of_pairwise' (r := (· ≥ ·)) (Multiset.pairwise_sort _ _) ?_ ?_
    · refine List.pairwise_append.2 ⟨?_, Multiset.pairwise_sort _ _, ?_⟩
      · rw [List.pairwise_reverse, List.pairwise_map]; exact h.sorted
      · intro a ha b hb
        obtain ⟨p, hp, rfl⟩ := List.mem_map.1 (List.mem_reverse.1 ha)
        obtain ⟨μ, hμ, rfl⟩ := Multiset.mem_map.1 ((Multiset.mem_sort _).1 hb)
        simpa using hle μ hμ p hp
    · rw [← Multiset.coe_eq_coe, Multiset.sort_eq, hr, Multiset.map_add, ← Multiset.coe_add, Multiset.sort_eq]
      congr 1
      rw [Multiset.map_coe, List.map_map]
      exact Multiset.coe_eq_coe.2 (List.reverse_perm _).symm
  rw [nthEig, hp, List.getD_eq_getElem _ _ (by simp only [l, List.length_append, List.length_reverse, List.length_map]; omega)]
  simp only [l]
  rw [List.getElem_append_left (by simpa using hlen), List.getElem_reverse, List.getElem_map]
  congr 3
  simp; omega

theorem posSqrt_real (r : ℝ) : posSqrt (r : ℂ) = if 0 < r then ((√r : ℝ) : ℂ) else 0 := by
  rw [posSqrt, Complex.re_sqrt_ofReal]
  split_ifs with h
  · have h0 : (0 : ℂ) ≤ (r : ℂ) := by exact_mod_cast h.le
    rw [Complex.sqrt_of_nonneg h0, Real.sign_of_pos (Real.sqrt_pos.2 h)]; simp
  · rw [Real.sqrt_eq_zero'.2 (not_lt.1 h), Real.sign_zero]; simp

theorem refineAll_eigen (A : Matrix ι ι ℂ) (solver : Matrix ι ι ℂ → (ι → ℂ) → Option (ι → ℂ)) :
    ∀ ps : List (ℂ × (ι → ℂ)), (∀ p ∈ ps, p.2 ≠ 0 ∧ A *ᵥ p.2 = p.1 • p.2) →
      refineAll A solver (ps.map Prod.snd) = .ok (some (ps.map fun p => (p.1, unit p.2))) := by
  intro ps
  induction ps with
  | nil => intro _; rfl
  | cons p ps ih =>
    intro h
    obtain ⟨h1, h2⟩ := h p (List.mem_cons_self ..)
    have h3 := C65_rayleigh_eigenvector A p.2 40 (1 / 10 ^ 13) solver p.1 h1 h2 (by norm_num) (by norm_num)
    rw [List.map_cons, refineAll, h3, ih fun q hq => h q (List.mem_cons_of_mem _ hq)]
    rfl

/-- Specification of one requested mode: a unit eigenvector for the `m`-th largest eigenvalue, with the wavenumber that the code assigns. -/
def IsRequestedMode (post : ℂ → ℂ) (A : Matrix ι ι ℂ) (m : ℕ) (p : (ι → ℂ) × ℂ) : Prop :=
  norm2 p.1 = 1 ∧ A *ᵥ p.1 = (nthEig A m : ℂ) • p.1 ∧ p.2 = post (if 0 < nthEig A m then ((√(nthEig A m) : ℝ) : ℂ) else 0)

/-- The selection logic of `solve_modes` for a lossless problem (the real operator is the operator itself). -/
theorem solveModesOp_lossless (eigs : Matrix ι ι ℂ → ℕ → List (ℂ × (ι → ℂ))) (guess : ι → ℂ)
    (solver : Matrix ι ι ℂ → (ι → ℂ) → Option (ι → ℂ)) (ms : List ℕ) (A : Matrix ι ι ℂ) (margin mx : ℕ) (post : ℂ → ℂ) (hmx : ms.max? = some mx) (hmargin : 1 ≤ margin)
    (lm : ℂ) (u : ι → ℂ) (hp : powerIteration A guess 20 = some (lm, u)) (hn : 2 * (mx + margin) + 50 ≤ Fintype.card ι)
    (heigs : ∀ r : ℝ, IsEigs (A + (r : ℂ) • (1 : Matrix ι ι ℂ)) (mx + margin) (eigs (A + (r : ℂ) • (1 : Matrix ι ι ℂ)) (mx + margin)))
    (hreal : ∀ μ ∈ A.charpoly.roots, μ.im = 0) (hbound : ∀ μ ∈ A.charpoly.roots, ‖μ‖ ≤ ‖lm‖) :
    ∃ out raw, solveModesOp eigs guess solver ms A A margin post = .ok (some out) ∧ out.Perm raw ∧ List.Forall₂ (IsRequestedMode post A) ms raw ∧
      out.Pairwise fun p q => q.2.re ≤ p.2.re := by
  obtain ⟨res, hres, hs⟩ := C66_signed eigs guess A (mx + margin) false lm u hp (by omega) hn heigs hreal hbound
  have hmle : ∀ m ∈ ms, m ≤ mx := fun m hm => (List.max?_eq_some_iff.1 hmx).2 m hm
  let kept := ms.map fun m => res.getD (res.length - (m + 1)) (0, 0)
  have hkept : ∀ m ∈ ms, res.getD (res.length - (m + 1)) (0, 0) ∈ res ∧ (res.getD (res.length - (m + 1)) (0, 0)).1.re = nthEig A m := by
    intro m hm
    obtain ⟨p, hpm, he, hre⟩ := signed_nth hs (show m < mx + margin by have := hmle m hm; omega)
    rw [he]; exact ⟨hpm, hre⟩
  have hany : (ms.any fun m => decide (res.length < m + 1)) = false := by
    rw [List.any_eq_false]
    intro m hm
    have := hmle m hm
    simp [hs.length]; omega
  have hpk : ∀ p ∈ kept, p.2 ≠ 0 ∧ A *ᵥ p.2 = p.1 • p.2 := by
    intro p hpk
    obtain ⟨m, hm, rfl⟩ := List.mem_map.1 hpk
    exact hs.pair _ (hkept m hm).1
  have hroots : ∀ p ∈ res, p.1.im = 0 := by
    intro p hpm
    obtain ⟨rest, hr, -⟩ := hs.split
    refine hreal _ ?_
    rw [hr]
    exact Multiset.mem_add.2 (.inl (Multiset.mem_coe.2 (List.mem_map_of_mem hpm)))
  let raw := (kept.map fun p => (p.1, unit p.2)).map fun p => (p.2, post (posSqrt p.1))
  refine ⟨(raw.mergeSort fun p q => leC p.2 q.2).reverse, raw, ?_, ?_, ?_, ?_⟩
  · rw [solveModesOp, hmx]
    simp only [hres, hany, Bool.false_eq_true, if_false]
    have hk : (ms.map fun m => (res.getD (res.length - (m + 1)) (0, 0)).2) = kept.map Prod.snd := by
      rw [List.map_map]; rfl
    rw [hk, refineAll_eigen A solver kept hpk]
  · exact (List.reverse_perm _).trans (List.mergeSort_perm _ _)
  · simp only [raw, kept, List.map_map]
    rw [List.forall₂_map_right_iff, List.forall₂_same]
    intro m hm
    obtain ⟨h1, h2⟩ := hkept m hm
    obtain ⟨h3, h4⟩ := hs.pair _ h1
    simp only [Function.comp_apply]
    generalize res.getD (res.length - (m + 1)) (0, 0) = p at h1 h2 h3 h4
    have hpr : p.1 = (nthEig A m : ℂ) := by apply Complex.ext <;> simp [h2, hroots p h1]
    refine ⟨norm2_unit h3, ?_, ?_⟩
    · rw [unit, mulVec_smul, h4, smul_comm, hpr]
    · rw [hpr, posSqrt_real]
  · rw [List.pairwise_reverse]
    have := List.pairwise_mergeSort (le := fun p q : (ι → ℂ) × ℂ => leC p.2 q.2) (fun a b c => leC_trans _ _ _) (fun a b => leC_total _ _) raw
    exact this.imp fun h => leC_re h

variable {sh : Fin 2 → ℕ}

/-- Real inputs are unchanged by `numpy.real`. -/
theorem real_inputs (ω : ℂ) (dxes : Dx2 sh) (eps : V 3 sh) (mu : Option (V 3 sh)) (hω : ω.im = 0) (hd1 : ∀ a i, (dxes.1 a i).im = 0)
    (hd2 : ∀ a i, (dxes.2 a i).im = 0) (heps : ∀ i, (eps i).im = 0) (hmu : ∀ m ∈ mu, ∀ i, (m i).im = 0) :
    operatorE (ω.re : ℂ) (reDx dxes.1, reDx dxes.2) (reV eps) (mu.map reV) = operatorE ω dxes eps mu := by
  have c : ∀ z : ℂ, z.im = 0 → ((z.re : ℝ) : ℂ) = z := fun z h => by apply Complex.ext <;> simp [h]
  have h1 : (reDx dxes.1, reDx dxes.2) = dxes := by
    refine Prod.ext ?_ ?_
    · funext a i; exact c _ (hd1 a i)
    · funext a i; exact c _ (hd2 a i)
  have h2 : reV eps = eps := funext fun i => c _ (heps i)
  have h3 : mu.map reV = mu := by
    cases mu with
    | none => rfl
    | some m => exact congrArg some (funext fun i => c _ (hmu m rfl i))
  rw [c ω hω, h1, h2, h3]

/-- C46 (what holds), for real omega, widths and materials, an eigensolver meeting its contract, a real spectrum and a power iteration that found the
spectral radius: `solve_modes` returns for each requested mode number `m` a unit eigenvector of `operator_e` for the `m`-th largest eigenvalue; the
wavenumber is its square root if the eigenvalue is positive and *zero* otherwise; the modes come sorted by descending wavenumber.
Missing: wavenumbers of evanescent modes (`C46_evanescent_partial`) and the order of the request (`C46_order_partial`); lossy problems, where
the refinement starts from the modes of the real problem and nothing ties its limit to the requested number. -/
theorem C46_lossless_partial (eigs : M 2 2 sh → ℕ → List (ℂ × V 2 sh)) (guess : V 2 sh) (solver : M 2 2 sh → V 2 sh → Option (V 2 sh))
    (ms : List ℕ) (ω : ℂ) (dxes : Dx2 sh) (eps : V 3 sh) (mu : Option (V 3 sh)) (margin mx : ℕ) (hω : ω.im = 0) (hd1 : ∀ a i, (dxes.1 a i).im = 0)
    (hd2 : ∀ a i, (dxes.2 a i).im = 0) (heps : ∀ i, (eps i).im = 0) (hmu : ∀ m ∈ mu, ∀ i, (m i).im = 0)
    (hmx : ms.max? = some mx) (hmargin : 1 ≤ margin) (lm : ℂ) (u : V 2 sh)
    (hp : powerIteration (operatorE ω dxes eps mu) guess 20 = some (lm, u)) (hn : 2 * (mx + margin) + 50 ≤ Fintype.card (Fin 2 × Idx sh))
    (heigs : ∀ r : ℝ, IsEigs (operatorE ω dxes eps mu + (r : ℂ) • (1 : M 2 2 sh)) (mx + margin)
      (eigs (operatorE ω dxes eps mu + (r : ℂ) • (1 : M 2 2 sh)) (mx + margin)))
    (hreal : ∀ μ ∈ (operatorE ω dxes eps mu).charpoly.roots, μ.im = 0) (hbound : ∀ μ ∈ (operatorE ω dxes eps mu).charpoly.roots, ‖μ‖ ≤ ‖lm‖) :
    ∃ out raw, solveModes eigs guess solver ms ω dxes eps mu margin = .ok (some out) ∧ out.Perm raw ∧
      List.Forall₂ (IsRequestedMode id (operatorE ω dxes eps mu)) ms raw ∧ out.Pairwise fun p q => q.2.re ≤ p.2.re := by
  rw [solveModes, real_inputs ω dxes eps mu hω hd1 hd2 heps hmu]
  exact solveModesOp_lossless eigs guess solver ms _ margin mx id hmx hmargin lm u hp hn heigs hreal hbound

/-- C46 is false for evanescent modes: the wavenumber returned for a mode with negative eigenvalue is 0, whose square is not the eigenvalue. -/
theorem C46_evanescent_partial (A : Matrix ι ι ℂ) (m : ℕ) (p : (ι → ℂ) × ℂ) (h : IsRequestedMode id A m p) (hneg : nthEig A m < 0) :
    p.2 = 0 ∧ p.2 ^ 2 ≠ (nthEig A m : ℂ) := by
  have h0 : p.2 = 0 := by rw [h.2.2, if_neg (not_lt.2 hneg.le)]; rfl
  refine ⟨h0, ?_⟩
  rw [h0, zero_pow two_ne_zero]
  exact_mod_cast hneg.ne'

/-- For propagating modes the wavenumber is the positive square root. -/
theorem C46_propagating_partial (A : Matrix ι ι ℂ) (m : ℕ) (p : (ι → ℂ) × ℂ) (h : IsRequestedMode id A m p) (hpos : 0 < nthEig A m) :
    p.2 ^ 2 = (nthEig A m : ℂ) ∧ 0 < p.2.re ∧ p.2.im = 0 := by
  have h0 : p.2 = ((√(nthEig A m) : ℝ) : ℂ) := by rw [h.2.2, if_pos hpos]; rfl
  refine ⟨?_, ?_, ?_⟩
  · rw [h0]; norm_cast; rw [Real.sq_sqrt hpos.le]
  · rw [h0, Complex.ofReal_re]; exact Real.sqrt_pos.2 hpos
  · rw [h0, Complex.ofReal_im]

/-- C46 is false about the order: modes requested as `[1, 0]` come back as `[0, 1]` whenever the fundamental mode is propagating and not
degenerate. -/
theorem C46_order_partial (A : Matrix ι ι ℂ) (p0 p1 : (ι → ℂ) × ℂ) (out : List ((ι → ℂ) × ℂ)) (h0 : IsRequestedMode id A 0 p0) (h1 : IsRequestedMode id A 1 p1)
    (hpos : 0 < nthEig A 0) (hdeg : nthEig A 1 < nthEig A 0) (hperm : out.Perm [p1, p0]) (hsorted : out.Pairwise fun p q => q.2.re ≤ p.2.re) :
    out = [p0, p1] := by
  have hlt : p1.2.re < p0.2.re := by
    rw [h0.2.2, h1.2.2, if_pos hpos, id, id, Complex.ofReal_re]
    split_ifs with h
    · rw [Complex.ofReal_re]; exact Real.sqrt_lt_sqrt h.le hdeg
    · exact Real.sqrt_pos.2 hpos
  have h2 : out = [p1, p0] ∨ out = [p0, p1] := by
    have hl := hperm.length_eq
    match out, hl with
    | [a, b], _ =>
      have ha : a ∈ [p1, p0] := hperm.mem_iff.1 (by simp)
      rcases List.mem_cons.1 ha with rfl | ha
      · have := List.perm_singleton.1 ((List.perm_cons a).1 hperm)
        exact .inl (by rw [this])
      · obtain rfl := List.mem_singleton.1 ha
        have h3 : [a, b].Perm [a, p1] := hperm.trans (List.Perm.swap _ _ _)
        have := List.perm_singleton.1 ((List.perm_cons a).1 h3)
        exact .inr (by rw [this])
  rcases h2 with rfl | rfl
  · have := (List.pairwise_cons.1 hsorted).1 p0 (by simp)
    linarith
  · rfl

/-- With `mode_margin=0` the eigensolver is asked for as many modes as the largest mode number, one less than needed. -/
theorem solveModesOp_no_margin (eigs : Matrix ι ι ℂ → ℕ → List (ℂ × (ι → ℂ))) (heigs : ∀ B k, (eigs B k).length ≤ k) (guess : ι → ℂ)
    (solver : Matrix ι ι ℂ → (ι → ℂ) → Option (ι → ℂ)) (ms : List ℕ) (Ar A : Matrix ι ι ℂ) (post : ℂ → ℂ) (res : Option (List ((ι → ℂ) × ℂ))) :
    solveModesOp eigs guess solver ms Ar A 0 post ≠ .ok res := by
  rw [solveModesOp]
  cases hmx : ms.max? with
  | none => simp
  | some mx =>
    dsimp only
    cases hs : signedEigensolve eigs guess Ar (mx + 0) false with
    | error e => simp
    | ok pairs =>
      dsimp only
      have hlen : pairs.length ≤ mx := by
        unfold signedEigensolve at hs
        split at hs
        · simp at hs
        · dsimp only at hs
          split_ifs at hs
          all_goals
            injection hs with hs
            rw [← hs, List.length_mergeSort, List.length_map]
            exact heigs _ _
      rw [if_pos (by
        rw [List.any_eq_true]
        exact ⟨mx, List.max?_mem hmx, by simpa using Nat.lt_succ_of_le hlen⟩)]
      simp

/-- C46: `mode_margin=0`, documented as "solve for max(mode_number) + mode_margin modes", never returns: numbering starts at 0, so one mode is missing and the
selection of the last requested mode raises. -/
theorem C46_no_margin_partial (eigs : M 2 2 sh → ℕ → List (ℂ × V 2 sh)) (heigs : ∀ B k, (eigs B k).length ≤ k) (guess : V 2 sh)
    (solver : M 2 2 sh → V 2 sh → Option (V 2 sh)) (ms : List ℕ) (ω : ℂ) (dxes : Dx2 sh) (eps : V 3 sh) (mu : Option (V 3 sh))
    (res : Option (List (V 2 sh × ℂ))) : solveModes eigs guess solver ms ω dxes eps mu 0 ≠ .ok res :=
  solveModesOp_no_margin eigs heigs guess solver ms _ _ _ res

/-- The hypothesis holds for an eigensolver that meets its contract. -/
example (B : Matrix ι ι ℂ) (k : ℕ) : (eigsOracle B k).length ≤ k := by
  by_cases h : k ≤ Fintype.card ι
  · exact (eigsOracle_spec B k h).1.le
  · rw [eigsOracle, dif_neg h]; exact Nat.zero_le _

/-- An empty request raises. -/
theorem C46_empty_partial (eigs : M 2 2 sh → ℕ → List (ℂ × V 2 sh)) (guess : V 2 sh) (solver : M 2 2 sh → V 2 sh → Option (V 2 sh))
    (ω : ℂ) (dxes : Dx2 sh) (eps : V 3 sh) (mu : Option (V 3 sh)) (margin : ℕ) :
    solveModes eigs guess solver [] ω dxes eps mu margin = .error "ValueError: max() arg is an empty sequence" := rfl

/-! ### Non-vacuity of C46: a homogeneous medium on a uniform grid -/

/-- Unit widths. -/
def oneDx : Dx2 sh := (fun _ _ => 1, fun _ _ => 1)

theorem one_uniform : UniformGrid (fun _ => 1) (oneDx : Dx2 sh) := ⟨fun _ => one_ne_zero, fun _ _ => rfl, fun _ _ => rfl⟩

theorem vac_symm (ω : ℂ) (u v : V 2 sh) : u ⬝ᵥ (operatorE ω oneDx 1 none *ᵥ v) = (operatorE ω oneDx 1 none *ᵥ u) ⬝ᵥ v := by
  have key : ∀ a b : V 2 sh, a ⬝ᵥ (operatorE ω oneDx 1 none *ᵥ b)
      = ∑ x, ω ^ 2 * (a (0, x) * b (0, x) + a (1, x) * b (1, x))
        - ∑ x, (fw oneDx 0 (part a 1) x - fw oneDx 1 (part a 0) x) * (fw oneDx 0 (part b 1) x - fw oneDx 1 (part b 0) x)
        - ∑ x, (bw oneDx 0 (part a 0) x + bw oneDx 1 (part a 1) x) * (bw oneDx 0 (part b 0) x + bw oneDx 1 (part b 1) x) := by
    intro a b
    set cu : Idx sh → ℂ := fun x => fw oneDx 0 (part b 1) x - fw oneDx 1 (part b 0) x with hcu
    set dv : Idx sh → ℂ := fun x => bw oneDx 0 (part b 0) x + bw oneDx 1 (part b 1) x with hdv
    have e0 : ∀ x, (operatorE ω oneDx 1 none *ᵥ b) (0, x) = ω ^ 2 * b (0, x) - bw oneDx 1 cu x + fw oneDx 0 dv x := by
      intro x; rw [operatorE_0]; simp [hcu, hdv]; rfl
    have e1 : ∀ x, (operatorE ω oneDx 1 none *ᵥ b) (1, x) = ω ^ 2 * b (1, x) + bw oneDx 0 cu x + fw oneDx 1 dv x := by
      intro x; rw [operatorE_1]; simp [hcu, hdv]; rfl
    have p1 := parts_uniform (one_uniform (sh := sh)) 1 (part a 0) cu
    have p2 := parts_uniform (one_uniform (sh := sh)) 0 (part a 1) cu
    have p3 := parts_uniform (one_uniform (sh := sh)) 0 dv (part a 0)
    have p4 := parts_uniform (one_uniform (sh := sh)) 1 dv (part a 1)
    rw [dotProduct, Fintype.sum_prod_type, Fin.sum_univ_two]
    simp only [e0, e1]
    change _ = _ - ∑ x, (fw oneDx 0 (part a 1) x - fw oneDx 1 (part a 0) x) * cu x
      - ∑ x, (bw oneDx 0 (part a 0) x + bw oneDx 1 (part a 1) x) * dv x
    clear_value cu dv
    have p3' : ∑ x, bw oneDx 0 (part a 0) x * dv x = -∑ x, a (0, x) * fw oneDx 0 dv x := by
      rw [Finset.sum_congr rfl fun x _ => mul_comm _ (dv x), p3]
      exact congrArg _ (Finset.sum_congr rfl fun x _ => mul_comm _ _)
    have p4' : ∑ x, bw oneDx 1 (part a 1) x * dv x = -∑ x, a (1, x) * fw oneDx 1 dv x := by
      rw [Finset.sum_congr rfl fun x _ => mul_comm _ (dv x), p4]
      exact congrArg _ (Finset.sum_congr rfl fun x _ => mul_comm _ _)
    have p1' : ∑ x, a (0, x) * bw oneDx 1 cu x = -∑ x, fw oneDx 1 (part a 0) x * cu x := p1
    have p2' : ∑ x, a (1, x) * bw oneDx 0 cu x = -∑ x, fw oneDx 0 (part a 1) x * cu x := p2
    simp only [mul_add, mul_sub, add_mul, sub_mul, Finset.sum_add_distrib, Finset.sum_sub_distrib]
    rw [p1', p2', p3', p4']
    have q1 : ∀ c, ∑ x, a (c, x) * (ω ^ 2 * b (c, x)) = ∑ x, ω ^ 2 * (a (c, x) * b (c, x)) := fun c =>
      Finset.sum_congr rfl fun x _ => by ring
    rw [q1, q1]
    ring
  rw [key, dotProduct_comm, key]
  refine congrArg₂ _ (congrArg₂ _ ?_ ?_) ?_ <;> exact Finset.sum_congr rfl fun x _ => by ring

theorem vac_conj (ω : ℂ) (hω : ω.im = 0) (v : V 2 sh) : operatorE ω oneDx 1 none *ᵥ star v = star (operatorE ω oneDx 1 none *ᵥ v) := by
  have hc : (starRingEnd ℂ) ω = ω := Complex.conj_eq_iff_im.2 hω
  have r1 : ∀ (a : Fin 2) (i : Fin (sh a)), (starRingEnd ℂ) ((oneDx : Dx2 sh).1 a i) = (oneDx : Dx2 sh).1 a i := fun _ _ => map_one _
  have r2 : ∀ (a : Fin 2) (i : Fin (sh a)), (starRingEnd ℂ) ((oneDx : Dx2 sh).2 a i) = (oneDx : Dx2 sh).2 a i := fun _ _ => map_one _
  funext ⟨c, x⟩
  fin_cases c
  · change (operatorE ω oneDx 1 none *ᵥ star v) (0, x) = (starRingEnd ℂ) ((operatorE ω oneDx 1 none *ᵥ v) (0, x))
    rw [operatorE_0, operatorE_0]
    simp only [Option.getD_none, Pi.one_apply, div_one, one_mul, map_add, map_sub, map_mul, map_pow, hc, conj_fw r1, conj_bw r2]
    rfl
  · change (operatorE ω oneDx 1 none *ᵥ star v) (1, x) = (starRingEnd ℂ) ((operatorE ω oneDx 1 none *ᵥ v) (1, x))
    rw [operatorE_1, operatorE_1]
    simp only [Option.getD_none, Pi.one_apply, div_one, one_mul, map_add, map_sub, map_mul, map_pow, hc, conj_fw r1, conj_bw r2]
    rfl

theorem vac_real (ω : ℂ) (hω : ω.im = 0) {μ : ℂ} (h : μ ∈ (operatorE ω (oneDx : Dx2 sh) 1 none).charpoly.roots) : μ.im = 0 := by
  obtain ⟨v, hv, e⟩ := root_eigenvector h
  have h1 := vac_symm ω (star v) v
  rw [vac_conj ω hω, e, dotProduct_smul, star_smul, smul_dotProduct] at h1
  exact Complex.conj_eq_iff_im.1 (mul_right_cancel₀ (dot_self_ne hv) h1).symm

theorem eig_mem_roots {A : Matrix ι ι ℂ} {v : ι → ℂ} {μ : ℂ} (hv : v ≠ 0) (h : A *ᵥ v = μ • v) : μ ∈ A.charpoly.roots := by
  rw [Polynomial.mem_roots (charpoly_monic A).ne_zero, Polynomial.IsRoot, eval_charpoly]
  refine Matrix.exists_mulVec_eq_zero_iff.1 ⟨v, hv, ?_⟩
  rw [sub_mulVec, h, sub_eq_zero, scalar_apply]
  ext i; simp [mulVec_diagonal]

/-- A start vector for which the power iteration finds the largest eigenvalue of the 6 × 6 homogeneous cross-section. -/
theorem vac_guess : ∃ v lm u, powerIteration (operatorE 1 (oneDx : Dx2 fun _ => 6) 1 none) v 20 = some (lm, u) ∧
    ∀ μ ∈ (operatorE 1 (oneDx : Dx2 fun _ => 6) 1 none).charpoly.roots, ‖μ‖ ≤ ‖lm‖ := by
  set A := operatorE 1 (oneDx : Dx2 fun _ => 6) 1 none with hA
  have h1 : A *ᵥ (1 : V 2 fun _ => 6) = (1 : ℂ) • 1 := by
    rw [one_smul]
    funext ⟨c, x⟩
    fin_cases c
    · change (A *ᵥ 1) (0, x) = 1
      rw [hA, operatorE_0]; simp [part, derivForward_eq, derivBack_eq]
    · change (A *ᵥ 1) (1, x) = 1
      rw [hA, operatorE_1]; simp [part, derivForward_eq, derivBack_eq]
  have hne : (1 : V 2 fun _ => 6) ≠ 0 := fun h => one_ne_zero (congrFun h (0, fun _ => 0))
  have hmem : (1 : ℂ) ∈ A.charpoly.roots.toFinset := Multiset.mem_toFinset.2 (eig_mem_roots hne h1)
  obtain ⟨lm, hlm, hmax⟩ := Finset.exists_max_image A.charpoly.roots.toFinset (fun μ => ‖μ‖) ⟨1, hmem⟩
  obtain ⟨v, hv, hev⟩ := root_eigenvector (Multiset.mem_toFinset.1 hlm)
  have hlm0 : lm ≠ 0 := by
    intro h
    have := hmax 1 hmem
    rw [h] at this
    simp at this
    linarith
  exact ⟨v, lm, _, C65_power_eigenvector A v 20 lm hlm0 hv hev, fun μ hμ => hmax μ (Multiset.mem_toFinset.2 hμ)⟩

/-- All hypotheses of `C46_lossless_partial` are met for a 6 × 6 homogeneous cross-section, requesting the modes 1 and 0. -/
example : ∃ guess out raw, solveModes eigsOracle guess exactSolve [1, 0] 1 (oneDx : Dx2 fun _ => 6) 1 none 2 = .ok (some out) ∧ out.Perm raw ∧
    List.Forall₂ (IsRequestedMode id (operatorE 1 (oneDx : Dx2 fun _ => 6) 1 none)) [1, 0] raw ∧ out.Pairwise fun p q => q.2.re ≤ p.2.re := by
  obtain ⟨v, lm, w, hpow, hmax⟩ := vac_guess
  have hcard : Fintype.card (Fin 2 × Idx fun _ : Fin 2 => 6) = 72 := by simp [Idx]
  exact ⟨v, C46_lossless_partial eigsOracle v exactSolve [1, 0] 1 oneDx 1 none 2 1 (by simp) (fun _ _ => by simp [oneDx]) (fun _ _ => by simp [oneDx])
    (fun _ => by simp) (fun m hm => by simp at hm) rfl (by norm_num) lm _ hpow (by rw [hcard]; norm_num) (fun r => eigsOracle_spec _ _ (by rw [hcard]; norm_num))
    (fun μ hμ => vac_real 1 (by simp) hμ) hmax⟩

/-! ### C70 -/

/-- C70 is false for positional arguments: `solve_mode(mode_number, *args)` raises a TypeError as soon as one positional argument follows the mode
number, because `solve_modes` then receives `mode_numbers` twice. -/
theorem C70_positional_raises_partial (eigs : M 2 2 sh → ℕ → List (ℂ × V 2 sh)) (guess : V 2 sh) (solver : M 2 2 sh → V 2 sh → Option (V 2 sh))
    (m : ℕ) (a : Arg sh) (args : List (Arg sh)) (kwargs : List (String × Arg sh)) :
    ∃ msg, solveMode eigs guess solver m (a :: args) kwargs = .error msg := by
  have hb : ∃ msg, bindArgs solveModesParams (a :: args) (("mode_numbers", .modes [m]) :: kwargs.filter fun k => k.1 != "mode_numbers") = .error msg := by
    rw [bindArgs]
    by_cases h1 : solveModesParams.length < (a :: args).length
    · exact ⟨_, if_pos h1⟩
    · rw [if_neg h1]
      refine ⟨"TypeError: got multiple values for argument", if_pos ?_⟩
      simp [solveModesParams]
  obtain ⟨msg, hm⟩ := hb
  exact ⟨msg, by rw [solveMode, hm]⟩

/-- C70 (what holds): with keyword arguments only, `solve_mode` returns the single mode of `solve_modes([m], ...)`. -/
theorem C70_keyword_partial (eigs : M 2 2 sh → ℕ → List (ℂ × V 2 sh)) (guess : V 2 sh) (solver : M 2 2 sh → V 2 sh → Option (V 2 sh))
    (m margin : ℕ) (ω : ℂ) (dxes : Dx2 sh) (eps mu : V 3 sh) (p : V 2 sh × ℂ)
    (h : solveModes eigs guess solver [m] ω dxes eps (some mu) margin = .ok (some [p])) :
    solveMode eigs guess solver m [] [("omega", .omega ω), ("dxes", .dxes dxes), ("epsilon", .field eps), ("mu", .field mu), ("mode_margin", .margin margin)]
      = .ok (some p) := by
  simp [solveMode, bindArgs, solveModesParams, callSolveModes, List.lookup, h]

/-- C70 (what holds), with `mode_margin` and `mu` left at their defaults. -/
theorem C70_keyword_defaults_partial (eigs : M 2 2 sh → ℕ → List (ℂ × V 2 sh)) (guess : V 2 sh) (solver : M 2 2 sh → V 2 sh → Option (V 2 sh))
    (m : ℕ) (ω : ℂ) (dxes : Dx2 sh) (eps : V 3 sh) (p : V 2 sh × ℂ) (h : solveModes eigs guess solver [m] ω dxes eps none 2 = .ok (some [p])) :
    solveMode eigs guess solver m [] [("omega", .omega ω), ("dxes", .dxes dxes), ("epsilon", .field eps)] = .ok (some p) := by
  simp [solveMode, bindArgs, solveModesParams, callSolveModes, List.lookup, h]

/-- C70 together with C46: for a lossless cross-section the keyword call returns a unit eigenvector for the `m`-th largest eigenvalue. -/
theorem C70_lossless_partial (eigs : M 2 2 sh → ℕ → List (ℂ × V 2 sh)) (guess : V 2 sh) (solver : M 2 2 sh → V 2 sh → Option (V 2 sh))
    (m : ℕ) (ω : ℂ) (dxes : Dx2 sh) (eps : V 3 sh) (hω : ω.im = 0) (hd1 : ∀ a i, (dxes.1 a i).im = 0)
    (hd2 : ∀ a i, (dxes.2 a i).im = 0) (heps : ∀ i, (eps i).im = 0) (lm : ℂ) (u : V 2 sh)
    (hp : powerIteration (operatorE ω dxes eps none) guess 20 = some (lm, u)) (hn : 2 * (m + 2) + 50 ≤ Fintype.card (Fin 2 × Idx sh))
    (heigs : ∀ r : ℝ, IsEigs (operatorE ω dxes eps none + (r : ℂ) • (1 : M 2 2 sh)) (m + 2)
      (eigs (operatorE ω dxes eps none + (r : ℂ) • (1 : M 2 2 sh)) (m + 2)))
    (hreal : ∀ μ ∈ (operatorE ω dxes eps none).charpoly.roots, μ.im = 0) (hbound : ∀ μ ∈ (operatorE ω dxes eps none).charpoly.roots, ‖μ‖ ≤ ‖lm‖) :
    ∃ p, solveMode eigs guess solver m [] [("omega", .omega ω), ("dxes", .dxes dxes), ("epsilon", .field eps)] = .ok (some p) ∧
      IsRequestedMode id (operatorE ω dxes eps none) m p := by
  obtain ⟨out, raw, h1, h2, h3, -⟩ := C46_lossless_partial eigs guess solver [m] ω dxes eps none 2 m hω hd1 hd2 heps (fun m hm => by simp at hm) rfl
    (by norm_num) lm u hp hn heigs hreal hbound
  cases h3 with
  | cons hr ht =>
    cases ht
    rw [List.perm_singleton.1 h2] at h1
    exact ⟨_, C70_keyword_defaults_partial eigs guess solver m ω dxes eps _ h1, hr⟩

/-- Mode 1 of a 6 × 6 homogeneous cross-section through the keyword call. -/
example : ∃ guess p, solveMode eigsOracle guess exactSolve 1 [] [("omega", .omega 1), ("dxes", .dxes (oneDx : Dx2 fun _ => 6)), ("epsilon", .field 1)]
    = .ok (some p) ∧ IsRequestedMode id (operatorE 1 (oneDx : Dx2 fun _ => 6) 1 none) 1 p := by
  obtain ⟨v, lm, w, hpow, hmax⟩ := vac_guess
  have hcard : Fintype.card (Fin 2 × Idx fun _ : Fin 2 => 6) = 72 := by simp [Idx]
  exact ⟨v, C70_lossless_partial eigsOracle v exactSolve 1 1 oneDx 1 (by simp) (fun _ _ => by simp [oneDx]) (fun _ _ => by simp [oneDx])
    (fun _ => by simp) lm w hpow (by rw [hcard]; norm_num) (fun r => eigsOracle_spec _ _ (by rw [hcard]; norm_num))
    (fun μ hμ => vac_real 1 (by simp) hμ) hmax⟩

end Meanas.Props
