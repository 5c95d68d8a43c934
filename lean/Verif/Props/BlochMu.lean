/-
C89: magnetic materials in the Bloch mode solver.
-/
import Verif.Model.BlochMu
import Verif.Props.Bloch
import Mathlib.Tactic.Linarith
import Mathlib.Tactic.Ring

namespace Meanas.Props

open Bloch

/-- broadcasting two lengths -/
private theorem bcastRev_cons {x y : ℕ} {xs ys r : List ℕ} (h : bcastRev (x :: xs) (y :: ys) = some r) :
    ∃ r', bcastRev xs ys = some r' ∧ ∃ z, r = z :: r' ∧ (z = x ∨ x = 1) ∧ (z = y ∨ y = 1) ∧ (z = x ∨ z = y) := by
  simp only [bcastRev] at h
  split at h
  · cases h
  · rename_i r' hr'
    refine ⟨r', hr', ?_⟩
    split_ifs at h with h1 h2 h3
    · cases h; exact ⟨x, rfl, Or.inl rfl, Or.inl h1, Or.inl rfl⟩
    · cases h; exact ⟨y, rfl, Or.inr h2, Or.inl rfl, Or.inr rfl⟩
    · cases h; exact ⟨x, rfl, Or.inl rfl, Or.inr h3, Or.inl rfl⟩

private theorem bcast_self (a : List ℕ) : bcast a a = .ok a := by
  have : ∀ l : List ℕ, bcastRev l l = some l := by
    intro l
    induction l with
    | nil => rfl
    | cons x xs ih => simp [bcastRev, ih]
  simp [bcast, this]

/-- C89: `maxwell_operator` called with `mu` raises a ValueError for every nonempty grid, whatever the shape of `mu`: `b_m` and `b_n` already
have a fourth axis when another one is appended, so the products get five axes and too many entries for the output. -/
theorem C89_mu_raises_partial (nx ny nz : ℕ) (hx : 0 < nx) (hy : 0 < ny) (hz : 0 < nz) (mushape : List ℕ) :
    ∃ msg, maxwellOperatorMu nx ny nz mushape = .error ("ValueError: " ++ msg) := by
  unfold maxwellOperatorMu
  simp only [bind, Except.bind, pure, Except.pure]
  have hE : ∀ a b e, bcast a b = .error e → e = "ValueError: " ++ "operands could not be broadcast together" := by
    intro a b e h
    unfold bcast at h
    split at h
    · cases h
    · cases h; decide
  cases h1 : bcast [nx, ny, nz, 3] ([nx, ny, nz] ++ [1] ++ [1]) with
  | error e => exact ⟨"operands could not be broadcast together", by simp only [hE _ _ _ h1]⟩
  | ok p =>
    simp only [bcast_self]
    cases h2 : bcastInPlace p (mushape.drop 1 ++ mushape.take 1) with
    | error e =>
      unfold bcastInPlace at h2
      split at h2
      · split_ifs at h2
        cases h2
        exact ⟨"non-broadcastable output operand", by simp only []; decide⟩
      · rename_i e' he'
        cases h2
        exact ⟨"operands could not be broadcast together", by simp only [hE _ _ _ he']⟩
    | ok t =>
      have ht : t = p := by
        unfold bcastInPlace at h2
        split at h2
        · split_ifs at h2; cases h2; rfl
        · cases h2
      subst ht
      simp only
      cases h3 : bcast t [nx, ny, nz, 3] with
      | error e => exact ⟨"operands could not be broadcast together", by simp only [hE _ _ _ h3]⟩
      | ok q =>
        simp only
        -- shape of the product
        have hp : ∃ r1 r2, t = [nx, r1, r2, nz, 3] ∧ ny ≤ r1 ∧ nz ≤ r2 := by
          unfold bcast at h1
          split at h1
          · rename_i r hr
            cases h1
            simp only [List.reverse_cons, List.reverse_nil, List.nil_append, List.cons_append] at hr
            obtain ⟨s1, e1, z1, rfl, a1, b1, c1⟩ := bcastRev_cons hr
            obtain ⟨s2, e2, z2, rfl, a2, b2, c2⟩ := bcastRev_cons e1
            obtain ⟨s3, e3, z3, rfl, a3, b3, c3⟩ := bcastRev_cons e2
            obtain ⟨s4, e4, z4, rfl, a4, b4, c4⟩ := bcastRev_cons e3
            simp only [bcastRev] at e4
            cases e4
            refine ⟨z4, z3, ?_, ?_, ?_⟩
            · have : z1 = 3 := by omega
              have : z2 = nz := by omega
              subst_vars; rfl
            · omega
            · omega
          · cases h1
        obtain ⟨r1, r2, rfl, g1, g2⟩ := hp
        have hq : ∃ q1 q2 q3, q = [nx, q1, q2, q3, 3] ∧ r1 ≤ q1 ∧ r2 ≤ q2 ∧ 0 < q3 := by
          unfold bcast at h3
          split at h3
          · rename_i r hr
            cases h3
            simp only [List.reverse_cons, List.reverse_nil, List.nil_append, List.cons_append] at hr
            obtain ⟨s1, e1, z1, rfl, a1, b1, c1⟩ := bcastRev_cons hr
            obtain ⟨s2, e2, z2, rfl, a2, b2, c2⟩ := bcastRev_cons e1
            obtain ⟨s3, e3, z3, rfl, a3, b3, c3⟩ := bcastRev_cons e2
            obtain ⟨s4, e4, z4, rfl, a4, b4, c4⟩ := bcastRev_cons e3
            simp only [bcastRev] at e4
            cases e4
            refine ⟨z4, z3, z2, ?_, ?_, ?_, ?_⟩
            · have : z1 = 3 := by omega
              subst_vars; rfl
            all_goals omega
          · cases h3
        obtain ⟨q1, q2, q3, rfl, f1, f2, f3⟩ := hq
        have hne : ¬ (([nx, q1, q2, q3, 3].eraseIdx 3).prod + ([nx, q1, q2, q3, 3].eraseIdx 3).prod = 2 * (nx * ny * nz)) := by
          simp only [List.eraseIdx, List.prod_cons, List.prod_nil]
          have : ny * nz ≤ q1 * q2 := Nat.mul_le_mul (by omega) (by omega)
          have h4 : nx * (ny * nz) ≤ nx * (q1 * q2) := Nat.mul_le_mul_left _ this
          have h5 : 0 < nx * (q1 * q2) := by
            have : 0 < q1 := by omega
            have : 0 < q2 := by omega
            positivity
          have e1 : nx * (q1 * (q2 * (3 * 1))) = 3 * (nx * (q1 * q2)) := by ring
          have e2 : nx * ny * nz = nx * (ny * nz) := by ring
          rw [e1, e2]; omega
        refine ⟨"Output array is the wrong shape", ?_⟩
        simp only [concatInto, if_neg hne]
        decide

/-- C89, concrete cases: on a cubic grid every broadcast succeeds and the output does not fit; on a 2×3×4 grid the first product fails. -/
example : maxwellOperatorMu 4 4 4 [3, 4, 4, 4] = .error "ValueError: Output array is the wrong shape" ∧
    maxwellOperatorMu 2 3 4 [3, 2, 3, 4] = .error "ValueError: operands could not be broadcast together" := by
  decide

open Complex Matrix in
/-- C89, the preconditioner: `inverse_maxwell_operator_approx` accepts `mu` on cubic grids, and its result is wrong. On a grid of one cell it is zero for
every `epsilon`, every `mu` and every vector, although with `mu = 1` it should agree with the operator without `mu`, which for `epsilon = e` multiplies by
`e / k²`. -/
theorem C89_inverse_mu_wrong_partial (k0 : Fin 3 → ℝ) (G : Matrix (Fin 3) (Fin 3) ℝ) (hr : Regular k0 G fun _ => 1)
    (hk : ∀ (x : Idx fun _ : Fin 3 => 1) (k : Fin 3 → ℝ), IsWave k0 G k x → k ≠ 0) :
    (∀ eps mu h, inverseMaxwellOperatorApproxMu (n := 1) k0 G eps mu h = some 0) ∧
      ∀ e : ℂ, e ≠ 0 → ∃ h r, inverseMaxwellOperatorApprox (sh := fun _ => 1) k0 G (fun _ _ => e) h = some r ∧ r ≠ 0 := by
  have hmag : ∀ x : Idx (fun _ : Fin 3 => 1), kMag k0 G x ≠ 0 := fun x hc => hk x _ (kxyz_isWave k0 G x) (norm3_eq_zero.1 hc)
  have hs : ∀ (x : Idx fun _ : Fin 3 => 1) (l : Fin 1), shifted x l = x := fun x l => by
    funext a
    exact Subsingleton.elim _ _
  have hu : ∀ (c : Fin 3 → Fin 1) (x : Idx fun _ : Fin 3 => 1), c = x := fun c x => by
    funext a
    exact Subsingleton.elim _ _
  have hchi : ∀ k x : Idx fun _ : Fin 3 => 1, chi k x = 1 := by
    intro k x
    refine Finset.prod_eq_one fun a _ => ?_
    have : ((x a : Fin 1) : ℕ) = 0 := Nat.lt_one_iff.1 (x a).2
    rw [this]
    simp
  have hcard : Fintype.card (Idx fun _ : Fin 3 => 1) = 1 := by simp [Idx]
  have hsum : ∀ (f : (Idx fun _ : Fin 3 => 1) → ℂ) (x : Idx fun _ : Fin 3 => 1), ∑ y, f y = f x := fun f x =>
    Fintype.sum_eq_single x fun y hy => absurd (hu y x) hy
  have hf : ∀ f : Arr (fun _ : Fin 3 => 1) ℂ, fftn f = f := fun f => by
    funext k
    rw [fftn, hsum _ k, hchi, inv_one, one_mul]
  have hi : ∀ f : Arr (fun _ : Fin 3 => 1) ℂ, ifftn f = f := fun f => by
    funext k
    rw [ifftn, hsum _ k, hchi, one_mul, hcard, Nat.cast_one, div_one]
  constructor
  · intro eps mu h
    obtain ⟨n, hn, -⟩ := nAll_regular k0 G hr
    rw [inverseMaxwellOperatorApproxMu, if_neg (by push Not; exact hmag), hn, Option.map_some]
    refine congrArg some (funext fun i => funext fun x => ?_)
    simp only [hf, hi, hs, Fin.sum_univ_one]
    have e : ∀ c, ((n x c : ℂ) * ((mVec k0 G x c * h 0 x + n x c * h 1 x) * mu c x * mVec k0 G x c)
        - mVec k0 G x c * ((mVec k0 G x c * h 0 x + n x c * h 1 x) * mu c x * n x c)) / kMag k0 G x * eps c x = 0 := fun c => by
      rw [show ∀ a b m v : ℂ, n x c = a → a * (b * v * m) - m * (b * v * a) = 0 from fun a b m v _ => by ring]
      · simp
      · rfl
    simp only [e, zero_mul, Finset.sum_const_zero, zero_div, ite_self]
    rfl
  · intro e he
    obtain ⟨op, iop, -, h2, h3, -⟩ := C60_uniform_partial k0 G hr hk he
    refine ⟨fun _ _ => 1, _, h2 _, fun hc => ?_⟩
    have h4 := (h3 (fun _ _ => 1) 0 (fun _ => 0) _ (kxyz_isWave k0 G _)).2
    rw [hc, mul_one] at h4
    have hk0 : (∑ c, kxyz k0 G (fun _ => 0 : Idx fun _ : Fin 3 => 1) c ^ 2 : ℝ) ≠ 0 := by
      intro hz
      refine hmag (fun _ => 0) ?_
      rw [kMag, norm3, hz, Real.sqrt_zero]
    refine div_ne_zero he ?_ h4.symm
    exact_mod_cast hk0

/-- The hypotheses are met by the Bloch vector `(1, 0, 0)` in a cubic lattice. -/
example (eps mu : VField (fun _ : Fin 3 => 1) ℂ) (h : Hmn fun _ => 1) :
    inverseMaxwellOperatorApproxMu (n := 1) (fun c => if c = 0 then 1 else 0) 1 eps mu h = some 0 := by
  have hk : ∀ (x : Idx fun _ : Fin 3 => 1) (k : Fin 3 → ℝ), IsWave (fun c => if c = 0 then 1 else 0) 1 k x → k 0 = 1 := by
    rintro x k ⟨g, -, h2, h3, h4⟩
    have : g 0 = 0 := by have := h2 0; have := h3 0; simp at *; omega
    rw [h4 0, Fin.sum_univ_three]
    simp [this]
  refine (C89_inverse_mu_wrong_partial _ _ (fun x k hw hc => ?_) fun x k hw hc => ?_).1 eps mu h
  · have := hk x k hw; rw [hc.1] at this; exact zero_ne_one this
  · have := hk x k hw; rw [hc] at this; exact zero_ne_one this

open Complex Matrix in
/-- C89, what the preconditioner does with `mu = 1` on a cubic grid of any size: the field it differentiates is not `h`, but each of its Cartesian components
is summed over the last grid axis, with the polarisation vectors of the cells `(x₁, x₂, l)` in place of those of the cell `(x₀, x₁, x₂)`. -/
theorem C89_inverse_mu_mixing_partial {n : ℕ} (k0 : Fin 3 → ℝ) (G : Matrix (Fin 3) (Fin 3) ℝ) (hr : Regular k0 G fun _ => n)
    (hk : ∀ (x : Idx fun _ : Fin 3 => n) (k : Fin 3 → ℝ), IsWave k0 G k x → k ≠ 0) (eps : VField (fun _ : Fin 3 => n) ℂ) (h : Hmn fun _ : Fin 3 => n) :
    ∃ (q : Idx (fun _ : Fin 3 => n) → Fin 3 → ℝ) (r : Hmn fun _ : Fin 3 => n), (∀ x, nVec k0 G x = some (q x))
      ∧ inverseMaxwellOperatorApproxMu k0 G eps (fun _ _ => 1) h = some r
      ∧ ∀ (Hxyz : Fin n → VField (fun _ : Fin 3 => n) ℂ) (b e : VField (fun _ : Fin 3 => n) ℂ) (at' : Idx (fun _ : Fin 3 => n) → Fin n → Idx fun _ : Fin 3 => n),
        (∀ x l, at' x l 0 = x 1 ∧ at' x l 1 = x 2 ∧ at' x l 2 = l) →
        (∀ l c x, Hxyz l c x = mVec k0 G (at' x l) c * h 0 x + q (at' x l) c * h 1 x) →
        (∀ c x, b c x = q x c * (∑ l, Hxyz l c x * mVec k0 G (at' x l) c) - mVec k0 G x c * ∑ l, Hxyz l c x * q (at' x l) c) →
        (∀ c x k, IsWave k0 G k x → e c x = b c x / (Real.sqrt (∑ a, k a ^ 2) : ℂ)) →
        ∀ x k, IsWave k0 G k x →
          r 0 x = (∑ c, fftn (fun y => ifftn (e c) y * eps c y) x * q x c) / (Real.sqrt (∑ a, k a ^ 2) : ℂ)
          ∧ r 1 x = -(∑ c, fftn (fun y => ifftn (e c) y * eps c y) x * mVec k0 G x c) / (Real.sqrt (∑ a, k a ^ 2) : ℂ) := by
  obtain ⟨q, hn, hx⟩ := nAll_regular k0 G hr
  have hmag : ∀ x : Idx (fun _ : Fin 3 => n), kMag k0 G x ≠ 0 := fun x hc => hk x _ (kxyz_isWave k0 G x) (norm3_eq_zero.1 hc)
  have hm : ∀ (x : Idx fun _ : Fin 3 => n) k, IsWave k0 G k x → Real.sqrt (∑ a, k a ^ 2) = kMag k0 G x := fun x k hw => by
    rw [hw.eq]; rfl
  refine ⟨q, _, hx, by rw [inverseMaxwellOperatorApproxMu, if_neg (by push Not; exact hmag), hn, Option.map_some], ?_⟩
  intro Hxyz b e at' hat hH hb he x k hw
  obtain rfl : at' = shifted := by
    funext x l a
    obtain ⟨a0, a1, a2⟩ := hat x l
    fin_cases a
    · exact a0
    · exact a1
    · exact a2
  have hHe : (fun (l : Fin n) (c : Fin 3) => (fun x => mVec k0 G (shifted x l) c * h 0 x + q (shifted x l) c * h 1 x : Arr (fun _ : Fin 3 => n) ℂ)) = Hxyz := by
    funext l c x
    exact (hH l c x).symm
  have hff : ∀ (l : Fin n) (c : Fin 3), fftn (ifftn (Hxyz l c)) = Hxyz l c := fun l c => fftn_ifftn _
  have hHl : ∀ (l : Fin n) (c : Fin 3), (fun x => mVec k0 G (shifted x l) c * h 0 x + q (shifted x l) c * h 1 x : Arr (fun _ : Fin 3 => n) ℂ) = Hxyz l c :=
    fun l c => congrFun (congrFun hHe l) c
  have hee : ∀ c, (fun x => (q x c * (∑ l, Hxyz l c x * mVec k0 G (shifted x l) c) - mVec k0 G x c * ∑ l, Hxyz l c x * q (shifted x l) c) / kMag k0 G x
      : Arr (fun _ : Fin 3 => n) ℂ) = e c := fun c => by
    funext y
    rw [he c y _ (kxyz_isWave k0 G y), hb, hm y _ (kxyz_isWave k0 G y)]
  rw [hm x k hw]
  simp only [hHl, mul_one, hff, hee, if_true, one_ne_zero, if_false]
  refine ⟨trivial, ?_⟩
  rw [div_neg, neg_div]

/-- The hypotheses are met by the Bloch vector `(1, 0, 0)` in a cubic lattice, on every cubic grid of at most two cells per side. -/
example {n : ℕ} (hn : n ≤ 2) : Regular (fun c => if c = 0 then 1 else 0) 1 (fun _ => n)
    ∧ ∀ (x : Idx fun _ : Fin 3 => n) (k : Fin 3 → ℝ), IsWave (fun c => if c = 0 then 1 else 0) 1 k x → k ≠ 0 := by
  have hk : ∀ (x : Idx fun _ : Fin 3 => n) (k : Fin 3 → ℝ), IsWave (fun c => if c = 0 then 1 else 0) 1 k x → k 0 ≠ 0 := by
    rintro x k ⟨g, -, h2, h3, h4⟩ hc
    rw [h4 0, Fin.sum_univ_three] at hc
    simp at hc
    have : (g 0 : ℝ) = 1 := by linarith
    have h5 : g 0 = 1 := by exact_mod_cast this
    have := h3 0
    rw [h5] at this
    push_cast at this
    omega
  exact ⟨fun x k hw hc => hk x k hw hc.1, fun x k hw hc => hk x k hw (by rw [hc]; rfl)⟩

end Meanas.Props
