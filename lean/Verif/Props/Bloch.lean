/-
Properties C58-C61 and C75: the plane-wave basis and operators of meanas/fdfd/bloch.py.
-/
import Verif.Lemmas.Dft
import Mathlib.Analysis.SpecialFunctions.Pow.Real

set_option linter.unusedSectionVars false
set_option linter.unusedSimpArgs false

namespace Meanas.Props

open Complex Matrix Meanas.Bloch

variable {sh : Fin 3 → ℕ} (k0 : Fin 3 → ℝ) (G : Matrix (Fin 3) (Fin 3) ℝ)

/-! ### Specification -/

/-- Wave vector, with respect to the cartesian axes, of the Fourier coefficient stored at index `x`: the integers `g` are the aliases of the indices in
the range `-N/2 ≤ g < (N + 1)/2`. -/
def IsWave (k : Fin 3 → ℝ) (x : Idx sh) : Prop :=
  ∃ g : Fin 3 → ℤ, (∀ a, (sh a : ℤ) ∣ g a - (x a : ℕ)) ∧ (∀ a, -(sh a : ℤ) ≤ 2 * g a) ∧ (∀ a, 2 * g a < sh a)
    ∧ ∀ c, k c = ∑ a, G c a * (k0 a - g a)

/-- `m, n` are unit vectors, orthogonal to each other and to `k`. -/
def Frame (k m n : Fin 3 → ℝ) : Prop :=
  ∑ c, m c * m c = 1 ∧ ∑ c, n c * n c = 1 ∧ ∑ c, m c * n c = 0 ∧ ∑ c, m c * k c = 0 ∧ ∑ c, n c * k c = 0

/-- The inner product of two plane-wave expansions. -/
noncomputable def hip (u v : Hmn sh) : ℂ := ∑ i, ∑ x, (starRingEnd ℂ) (u i x) * v i x

/-- `epsilon` real and positive everywhere. -/
def PosReal (eps : VField sh ℂ) : Prop := ∀ c x, ∃ r : ℝ, 0 < r ∧ eps c x = r

/-! ### The frame -/

theorem norm3_sq (a : Fin 3 → ℝ) : norm3 a ^ 2 = a 0 ^ 2 + a 1 ^ 2 + a 2 ^ 2 := by
  rw [norm3, Real.sq_sqrt (Finset.sum_nonneg fun c _ => sq_nonneg _), Fin.sum_univ_three]

theorem norm3_nonneg (a : Fin 3 → ℝ) : 0 ≤ norm3 a := Real.sqrt_nonneg _

theorem norm3_eq_zero {a : Fin 3 → ℝ} : norm3 a = 0 ↔ a = 0 := by
  constructor
  · intro h
    have h2 := norm3_sq a
    rw [h] at h2
    funext c
    have : a c ^ 2 = 0 := by
      have h0 := sq_nonneg (a 0); have h1 := sq_nonneg (a 1); have h3 := sq_nonneg (a 2)
      fin_cases c <;> simp only [Fin.zero_eta, Fin.mk_one, Fin.reduceFinMk] <;> nlinarith
    simpa using this
  · rintro rfl
    simp [norm3]

theorem kxyz_isWave (x : Idx sh) : IsWave k0 G (kxyz k0 G x) x := by
  refine ⟨fun a => fftfreq (sh a) (x a), fun a => ?_, fun a => ?_, fun a => ?_, fun c => rfl⟩ <;>
  · have := (x a).2
    simp only [fftfreq]
    split_ifs
    all_goals first | (simp; done) | omega

/-- The wave vector is determined by the index. -/
theorem IsWave.eq {k : Fin 3 → ℝ} {x : Idx sh} (h : IsWave k0 G k x) : k = kxyz k0 G x := by
  obtain ⟨g, h1, h2, h3, h4⟩ := h
  obtain ⟨g', h1', h2', h3', h4'⟩ := kxyz_isWave k0 G x
  have : g = g' := by
    funext a
    have hd : (sh a : ℤ) ∣ g a - g' a := by
      have := dvd_sub (h1 a) (h1' a)
      simpa using this
    have hlt : |g a - g' a| < sh a := by
      have := h2 a; have := h3 a; have := h2' a; have := h3' a
      rw [abs_lt]; omega
    have := Int.eq_zero_of_abs_lt_dvd hd hlt
    omega
  funext c
  rw [h4, h4', this]

theorem mVec_pos {x : Idx sh} (h : kxyz k0 G x 0 ≠ 0) :
    mVec k0 G x = fun c => cross (kxyz k0 G x) ez c / norm3 (cross (kxyz k0 G x) ez) := by
  unfold mVec
  exact if_pos h

theorem mVec_neg {x : Idx sh} (h : kxyz k0 G x 0 = 0) : mVec k0 G x = ey := by
  unfold mVec
  exact if_neg (by simpa using h)

theorem cross_ez (k : Fin 3 → ℝ) : cross k ez 0 = k 1 ∧ cross k ez 1 = -k 0 ∧ cross k ez 2 = 0 := by
  simp [cross, ez]

theorem mVec_unit (x : Idx sh) : mVec k0 G x 0 ^ 2 + mVec k0 G x 1 ^ 2 + mVec k0 G x 2 ^ 2 = 1 := by
  by_cases h : kxyz k0 G x 0 = 0
  · rw [mVec_neg k0 G h]; simp [ey]
  · rw [mVec_pos k0 G h]
    obtain ⟨h0, h1, h2⟩ := cross_ez (kxyz k0 G x)
    have hn : norm3 (cross (kxyz k0 G x) ez) ≠ 0 := fun hc => by
      have := congrFun (norm3_eq_zero.1 hc) 1
      rw [h1] at this
      exact h (by simpa using this)
    have := norm3_sq (cross (kxyz k0 G x) ez)
    simp only [div_pow, ← add_div]
    rw [← this]
    exact div_self (pow_ne_zero _ hn)

theorem mVec_k (x : Idx sh) (h : ¬ (kxyz k0 G x 0 = 0 ∧ kxyz k0 G x 1 ≠ 0)) :
    mVec k0 G x 0 * kxyz k0 G x 0 + mVec k0 G x 1 * kxyz k0 G x 1 + mVec k0 G x 2 * kxyz k0 G x 2 = 0 := by
  by_cases h0 : kxyz k0 G x 0 = 0
  · have h1 : kxyz k0 G x 1 = 0 := by
      by_contra hc; exact h ⟨h0, hc⟩
    rw [mVec_neg k0 G h0]; simp [ey, h1]
  · rw [mVec_pos k0 G h0]
    obtain ⟨e0, e1, e2⟩ := cross_ez (kxyz k0 G x)
    simp only [e0, e1, e2]
    ring

theorem nVec_some {x : Idx sh} {n : Fin 3 → ℝ} (h : nVec k0 G x = some n) :
    n 0 ^ 2 + n 1 ^ 2 + n 2 ^ 2 = 1
    ∧ mVec k0 G x 0 * n 0 + mVec k0 G x 1 * n 1 + mVec k0 G x 2 * n 2 = 0
    ∧ n 0 * kxyz k0 G x 0 + n 1 * kxyz k0 G x 1 + n 2 * kxyz k0 G x 2 = 0 := by
  unfold nVec at h
  simp only at h
  split_ifs at h with hk hv
  · obtain rfl := Option.some.inj h
    have := norm3_sq (cross (kxyz k0 G x) (mVec k0 G x))
    refine ⟨?_, ?_, ?_⟩
    · simp only [div_pow, ← add_div]
      rw [← this]
      exact div_self (pow_ne_zero _ hv)
    · simp only [cross]; ring
    · simp only [cross]; ring
  · obtain rfl := Option.some.inj h
    push Not at hk
    rw [mVec_neg k0 G (hk 0), hk 0, hk 1, hk 2]
    simp [ey, ez]

/-- `n` is NaN exactly at the nonzero wave vectors along y. -/
theorem nVec_none {x : Idx sh} :
    nVec k0 G x = none ↔ kxyz k0 G x 0 = 0 ∧ kxyz k0 G x 1 ≠ 0 ∧ kxyz k0 G x 2 = 0 := by
  constructor
  · intro h
    unfold nVec at h
    simp only at h
    split_ifs at h with hk hv
    have hz := norm3_eq_zero.1 hv
    have z0 : cross (kxyz k0 G x) (mVec k0 G x) 0 = 0 := congrFun hz 0
    have z1 : cross (kxyz k0 G x) (mVec k0 G x) 1 = 0 := congrFun hz 1
    have z2 : cross (kxyz k0 G x) (mVec k0 G x) 2 = 0 := congrFun hz 2
    simp only [cross] at z0 z1 z2
    have hu := mVec_unit k0 G x
    by_cases hb : kxyz k0 G x 0 = 0 ∧ kxyz k0 G x 1 ≠ 0
    · refine ⟨hb.1, hb.2, ?_⟩
      rw [mVec_neg k0 G hb.1] at z0
      simpa [ey] using z0
    · exfalso
      have hm := mVec_k k0 G x hb
      generalize kxyz k0 G x = k at *
      generalize mVec k0 G x = m at *
      obtain ⟨c, hc⟩ := hk
      have q : k 0 ^ 2 + k 1 ^ 2 + k 2 ^ 2 = 0 := by
        linear_combination -(k 0 ^ 2 + k 1 ^ 2 + k 2 ^ 2) * hu + (k 1 * m 2 - k 2 * m 1) * z0 + (k 2 * m 0 - k 0 * m 2) * z1
          + (k 0 * m 1 - k 1 * m 0) * z2 + (m 0 * k 0 + m 1 * k 1 + m 2 * k 2) * hm
      apply hc
      have h0 := sq_nonneg (k 0); have h1 := sq_nonneg (k 1); have h3 := sq_nonneg (k 2)
      have : k c ^ 2 = 0 := by
        fin_cases c <;> simp only [Fin.zero_eta, Fin.mk_one, Fin.reduceFinMk] <;> nlinarith
      simpa using this
  · rintro ⟨h0, h1, h2⟩
    unfold nVec
    simp only
    rw [if_pos ⟨1, h1⟩, if_pos]
    rw [norm3_eq_zero, mVec_neg k0 G h0]
    funext c
    fin_cases c <;> simp [cross, ey, h0, h2]

/-- At regular wave vectors the frame is right-handed: `k × m = |k| n` and `k × n = -|k| m`. -/
theorem frame_cross {x : Idx sh} {n : Fin 3 → ℝ} (h : nVec k0 G x = some n)
    (hg : ¬ (kxyz k0 G x 0 = 0 ∧ kxyz k0 G x 1 ≠ 0)) (c : Fin 3) :
    cross (kxyz k0 G x) (mVec k0 G x) c = kMag k0 G x * n c ∧ cross (kxyz k0 G x) n c = -(kMag k0 G x * mVec k0 G x c) := by
  have hm := mVec_k k0 G x hg
  have hu := mVec_unit k0 G x
  unfold nVec at h
  simp only at h
  split_ifs at h with hk hv
  · obtain rfl := Option.some.inj h
    have hn : norm3 (cross (kxyz k0 G x) (mVec k0 G x)) = kMag k0 G x := by
      rw [kMag, ← Real.sqrt_sq (norm3_nonneg (cross _ _)), ← Real.sqrt_sq (norm3_nonneg (kxyz k0 G x)), norm3_sq, norm3_sq]
      congr 1
      simp only [cross]
      generalize kxyz k0 G x = k at *
      generalize mVec k0 G x = m at *
      linear_combination (k 0 ^ 2 + k 1 ^ 2 + k 2 ^ 2) * hu - (m 0 * k 0 + m 1 * k 1 + m 2 * k 2) * hm
    have hsq : kMag k0 G x ^ 2 = _ := norm3_sq (kxyz k0 G x)
    rw [hn] at hv ⊢
    refine ⟨by field_simp, ?_⟩
    generalize kMag k0 G x = q at *
    generalize kxyz k0 G x = k at *
    generalize mVec k0 G x = m at *
    fin_cases c <;> simp only [cross, Fin.zero_eta, Fin.mk_one, Fin.reduceFinMk] <;> field_simp
    · linear_combination k 0 * hm + m 0 * hsq
    · linear_combination k 1 * hm + m 1 * hsq
    · linear_combination k 2 * hm + m 2 * hsq
  · push Not at hk
    have hz : kxyz k0 G x = 0 := funext hk
    have : kMag k0 G x = 0 := by rw [kMag, hz]; exact norm3_eq_zero.2 rfl
    rw [this, hz]
    fin_cases c <;> simp [cross]

/-- **C58.** At every nonzero wave vector with `kx ≠ 0` or `ky = 0`, `generate_kmn` returns unit vectors `m, n` orthogonal to each other and to
the wave vector, and its length. (The claim fails for the remaining ones, see below.) -/
theorem C58_frame_partial {x : Idx sh} {k : Fin 3 → ℝ} (hw : IsWave k0 G k x) (hg : k 0 ≠ 0 ∨ k 1 = 0) :
    kMag k0 G x = norm3 k ∧ ∃ n, nVec k0 G x = some n ∧ Frame k (mVec k0 G x) n := by
  obtain rfl := hw.eq
  have hg' : ¬ (kxyz k0 G x 0 = 0 ∧ kxyz k0 G x 1 ≠ 0) := by tauto
  refine ⟨rfl, ?_⟩
  cases hn : nVec k0 G x with
  | none => exact absurd ((nVec_none k0 G).1 hn) (by tauto)
  | some n =>
    obtain ⟨h1, h2, h3⟩ := nVec_some k0 G hn
    refine ⟨n, rfl, ?_, ?_, ?_, ?_, ?_⟩ <;> rw [Fin.sum_univ_three]
    · linear_combination mVec_unit k0 G x
    · linear_combination h1
    · exact h2
    · exact mVec_k k0 G x hg'
    · exact h3

/-- **C58, disagreement.** At every wave vector with `kx = 0` and `ky ≠ 0` the claim is false: `m` is `[0, 1, 0]`, which is not orthogonal to `k`;
and if also `kz = 0`, `n` is NaN. (The mask `xy_non0` looks at `kx` alone.) -/
theorem C58_fails_partial {x : Idx sh} {k : Fin 3 → ℝ} (hw : IsWave k0 G k x) (h0 : k 0 = 0) (h1 : k 1 ≠ 0) :
    (¬ ∃ n, nVec k0 G x = some n ∧ Frame k (mVec k0 G x) n) ∧ (k 2 = 0 → nVec k0 G x = none) := by
  obtain rfl := hw.eq
  refine ⟨?_, fun h2 => (nVec_none k0 G).2 ⟨h0, h1, h2⟩⟩
  rintro ⟨n, -, -, -, -, h, -⟩
  rw [Fin.sum_univ_three, mVec_neg k0 G h0] at h
  simp [ey] at h
  exact h1 h

theorem fftfreq_zero {n : ℕ} (i : Fin n) (h : (i : ℕ) = 0) : fftfreq n i = 0 := by
  have := i.2
  unfold fftfreq
  rw [if_pos (by omega)]
  omega

theorem fftfreq_one_ne {n : ℕ} (i : Fin n) (h : (i : ℕ) = 1) : fftfreq n i ≠ 0 := by
  have := i.2
  unfold fftfreq
  split_ifs <;> omega

/-- **C58, disagreement, on every grid with two or more cells along y.** On a cubic lattice, for every Bloch vector `(0, 0, kz)` with `kz ≠ 0` there is a
plane wave whose `m` is not orthogonal to it; for the Bloch vector 0 there is one whose `n` is NaN. -/
theorem C58_cubic_partial (hx : 0 < sh 0) (hy : 1 < sh 1) (hz : 0 < sh 2) (kz : ℝ) :
    ∃ (x : Idx sh) (k : Fin 3 → ℝ), IsWave (fun c => if c = 2 then kz else 0) 1 k x ∧ k 1 ≠ 0
      ∧ (¬ ∃ n, nVec (fun c => if c = 2 then kz else 0) 1 x = some n ∧ Frame k (mVec (fun c => if c = 2 then kz else 0) 1 x) n)
      ∧ (kz = 0 → nVec (fun c => if c = 2 then kz else 0) 1 x = none) := by
  let x : Idx sh := fun a => match a with
    | 0 => ⟨0, hx⟩
    | 1 => ⟨1, hy⟩
    | 2 => ⟨0, hz⟩
  set q : Fin 3 → ℝ := fun c => if c = 2 then kz else 0 with hq
  have hw := kxyz_isWave q 1 x
  have e : kxyz q 1 x = fun a => q a - fftfreq (sh a) (x a) := by
    rw [kxyz, one_mulVec]
  have e0 : kxyz q 1 x 0 = 0 := by
    rw [e]
    show (q 0 - (fftfreq (sh 0) (x 0) : ℝ)) = 0
    rw [fftfreq_zero (x 0) rfl]; simp [hq]
  have e1 : kxyz q 1 x 1 ≠ 0 := by
    rw [e]
    show (q 1 - (fftfreq (sh 1) (x 1) : ℝ)) ≠ 0
    have := fftfreq_one_ne (x 1) rfl
    simpa [hq] using this
  have e2 : kxyz q 1 x 2 = kz := by
    rw [e]
    show (q 2 - (fftfreq (sh 2) (x 2) : ℝ)) = kz
    rw [fftfreq_zero (x 2) rfl]; simp [hq]
  obtain ⟨f1, f2⟩ := C58_fails_partial q 1 hw e0 e1
  exact ⟨x, _, hw, e1, f1, fun hk => f2 (e2.trans hk)⟩

/-! ### The operators -/

/-- No wave vector of the grid is along y. -/
def Regular (sh : Fin 3 → ℕ) : Prop :=
  ∀ (x : Idx sh) (k : Fin 3 → ℝ), IsWave k0 G k x → ¬ (k 0 = 0 ∧ k 1 ≠ 0 ∧ k 2 = 0)

/-- No wave vector of the grid has `kx = 0, ky ≠ 0`. -/
def Good (sh : Fin 3 → ℕ) : Prop :=
  ∀ (x : Idx sh) (k : Fin 3 → ℝ), IsWave k0 G k x → ¬ (k 0 = 0 ∧ k 1 ≠ 0)

theorem Good.regular (h : Good k0 G sh) : Regular k0 G sh := fun x k hw hc => h x k hw ⟨hc.1, hc.2.1⟩

theorem nAll_regular (h : Regular k0 G sh) :
    ∃ n, nAll k0 G sh = some n ∧ ∀ x, nVec k0 G x = some (n x) := by
  have hx : ∀ x : Idx sh, nVec k0 G x ≠ none := fun x hc => h x _ (kxyz_isWave k0 G x) ((nVec_none k0 G).1 hc)
  refine ⟨fun x => (nVec k0 G x).getD 0, ?_, fun x => ?_⟩
  · unfold nAll
    rw [if_neg (by push Not; exact hx)]
  · cases hn : nVec k0 G x with
    | none => exact absurd hn (hx x)
    | some n => simp only [hn, Option.getD_some]

theorem nAll_irregular (h : ¬ Regular k0 G sh) : nAll k0 G sh = none := by
  unfold nAll
  rw [if_pos]
  unfold Regular at h
  push Not at h
  obtain ⟨x, k, hw, hk⟩ := h
  obtain rfl := hw.eq
  exact ⟨x, (nVec_none k0 G).2 hk⟩

theorem maxwell_eq {n : Idx sh → Fin 3 → ℝ} (hn : nAll k0 G sh = some n) {eps : VField sh ℂ} (he : ∀ c x, eps c x ≠ 0) (h : Hmn sh) :
    ∃ b, maxwellOperator k0 G eps h = some b
      ∧ (∀ x, b 0 x = (∑ c, fftn (fun y => ifftn (dXyz k0 G n h c) y / eps c y) x * n x c) * -(kMag k0 G x : ℂ))
      ∧ ∀ x, b 1 x = (∑ c, fftn (fun y => ifftn (dXyz k0 G n h c) y / eps c y) x * mVec k0 G x c) * (kMag k0 G x : ℂ) := by
  unfold maxwellOperator
  rw [if_neg (by push Not; exact he), hn]
  refine ⟨_, rfl, ?_, ?_⟩
  · exact fun x => if_pos rfl
  · exact fun x => if_neg one_ne_zero

/-- The quadratic form of the operator. -/
theorem hip_maxwell {n : Idx sh → Fin 3 → ℝ} (hn : nAll k0 G sh = some n) {eps : VField sh ℂ} {u v b : Hmn sh}
    (h : maxwellOperator k0 G eps v = some b) :
    hip u b = -(Fintype.card (Idx sh) : ℂ) * ∑ c, ∑ x, (starRingEnd ℂ) (ifftn (dXyz k0 G n u c) x) * (ifftn (dXyz k0 G n v c) x / eps c x) := by
  have he : ∀ c x, eps c x ≠ 0 := by
    by_contra hc
    push Not at hc
    unfold maxwellOperator at h
    rw [if_pos hc] at h
    cases h
  obtain ⟨b', hb, h0, h1⟩ := maxwell_eq k0 G hn he v
  rw [h] at hb
  obtain rfl := Option.some.inj hb
  have key : ∀ c, ∑ x, (starRingEnd ℂ) (dXyz k0 G n u c x) * fftn (fun y => ifftn (dXyz k0 G n v c) y / eps c y) x
      = (Fintype.card (Idx sh) : ℂ) * ∑ x, (starRingEnd ℂ) (ifftn (dXyz k0 G n u c) x) * (ifftn (dXyz k0 G n v c) x / eps c x) :=
    fun c => sum_conj_fftn _ _
  rw [Finset.mul_sum]
  simp_rw [neg_mul, ← key]
  unfold hip
  rw [Fin.sum_univ_two, ← Finset.sum_add_distrib, Finset.sum_neg_distrib, Finset.sum_comm, ← Finset.sum_neg_distrib]
  refine Finset.sum_congr rfl fun x _ => ?_
  rw [h0, h1]
  simp only [Fin.sum_univ_three, dXyz, map_mul, map_sub, conj_ofReal]
  ring

/-- **C59.** Whenever no wave vector of the grid is along y and `epsilon` is real and positive, the Maxwell operator is defined, Hermitian, and negative
semidefinite, so its eigenvalues are real and not positive. -/
theorem C59_hermitian_partial (hr : Regular k0 G sh) {eps : VField sh ℂ} (he : PosReal eps) :
    ∃ op : Hmn sh → Hmn sh, (∀ h, maxwellOperator k0 G eps h = some (op h))
      ∧ (∀ u v, hip u (op v) = hip (op u) v)
      ∧ (∀ u, (hip u (op u)).im = 0 ∧ (hip u (op u)).re ≤ 0)
      ∧ ∀ (lam : ℂ) u, u ≠ 0 → op u = (fun i x => lam * u i x) → lam.im = 0 ∧ lam.re ≤ 0 := by
  obtain ⟨n, hn, -⟩ := nAll_regular k0 G hr
  have hne : ∀ c x, eps c x ≠ 0 := by
    intro c x
    obtain ⟨r, hr, e⟩ := he c x
    rw [e]
    exact_mod_cast hr.ne'
  choose op hop h0 h1 using maxwell_eq k0 G hn hne
  have hq : ∀ u, ∃ r : ℝ, r ≤ 0 ∧ hip u (op u) = r := by
    intro u
    rw [hip_maxwell k0 G hn (hop u)]
    choose r hr he' using he
    refine ⟨-(Fintype.card (Idx sh) : ℝ) * ∑ c, ∑ x, normSq (ifftn (dXyz k0 G n u c) x) / r c x, ?_, ?_⟩
    · rw [neg_mul, neg_nonpos]
      refine mul_nonneg (Nat.cast_nonneg _) (Finset.sum_nonneg fun c _ => Finset.sum_nonneg fun x _ => ?_)
      exact div_nonneg (normSq_nonneg _) (hr c x).le
    · push_cast
      congr 1
      refine Finset.sum_congr rfl fun c _ => Finset.sum_congr rfl fun x _ => ?_
      rw [he', normSq_eq_conj_mul_self]
      ring
  refine ⟨op, hop, ?_, ?_, ?_⟩
  · intro u v
    have hs : hip (op u) v = (starRingEnd ℂ) (hip v (op u)) := by
      unfold hip
      simp_rw [map_sum, map_mul, conj_conj, mul_comm]
    rw [hs, hip_maxwell k0 G hn (hop u), hip_maxwell k0 G hn (hop v)]
    simp_rw [map_mul, map_neg, map_natCast, map_sum, map_mul, map_div₀, conj_conj]
    congr 1
    refine Finset.sum_congr rfl fun c _ => Finset.sum_congr rfl fun x _ => ?_
    obtain ⟨r, hr, e⟩ := he c x
    rw [e, conj_ofReal]
    ring
  · intro u
    obtain ⟨r, hr, e⟩ := hq u
    rw [e]
    exact ⟨ofReal_im r, by simpa using hr⟩
  · intro lam u hu hl
    obtain ⟨r, hr, e⟩ := hq u
    have h2 : hip u (op u) = lam * ((∑ i, ∑ x, normSq (u i x) : ℝ) : ℂ) := by
      rw [hl]
      unfold hip
      push_cast
      simp_rw [Finset.mul_sum, normSq_eq_conj_mul_self]
      refine Finset.sum_congr rfl fun c _ => Finset.sum_congr rfl fun x _ => by ring
    have hpos : 0 < ∑ i, ∑ x, normSq (u i x) := by
      obtain ⟨i, hi⟩ := Function.ne_iff.1 hu
      obtain ⟨x, hx⟩ := Function.ne_iff.1 hi
      refine Finset.sum_pos' (fun i _ => Finset.sum_nonneg fun x _ => normSq_nonneg _) ⟨i, Finset.mem_univ _, ?_⟩
      exact Finset.sum_pos' (fun x _ => normSq_nonneg _) ⟨x, Finset.mem_univ _, normSq_pos.2 hx⟩
    rw [e] at h2
    generalize ∑ i, ∑ x, normSq (u i x) = s at *
    have him := congrArg Complex.im h2
    have hre := congrArg Complex.re h2
    simp only [ofReal_im, ofReal_re, mul_im, mul_re, mul_zero, zero_add, sub_zero] at him hre
    constructor
    · rcases mul_eq_zero.1 him.symm with h | h
      · exact h
      · exact absurd h hpos.ne'
    · by_contra hc
      push Not at hc
      nlinarith [mul_pos hc hpos]

/-- **C59-C61, disagreement.** If a wave vector of the grid is along y, all of the plane-wave functions return NaN. -/
theorem C59_nan_partial (hr : ¬ Regular k0 G sh) (eps : VField sh ℂ) (h : Hmn sh) :
    maxwellOperator k0 G eps h = none ∧ inverseMaxwellOperatorApprox k0 G eps h = none
      ∧ hmn2exyz k0 G eps h = none ∧ hmn2hxyz k0 G h = none := by
  have hn := nAll_irregular k0 G hr
  unfold maxwellOperator inverseMaxwellOperatorApprox hmn2exyz hmn2hxyz
  rw [hn]
  simp

/-- On a cubic lattice this happens for the Bloch vectors along y on all grids with at least two cells along y, `k0 = 0` included. -/
theorem C59_nan_cubic_partial (hx : 0 < sh 0) (hy : 1 < sh 1) (hz : 0 < sh 2) (ky : ℝ) (eps : VField sh ℂ) (h : Hmn sh) :
    maxwellOperator (fun c => if c = 1 then ky else 0) 1 eps h = none := by
  refine (C59_nan_partial _ _ ?_ eps h).1
  set q : Fin 3 → ℝ := fun c => if c = 1 then ky else 0 with hq
  intro hr
  have hv : ∀ (i : Fin (sh 1)), ky - fftfreq (sh 1) i = 0 := by
    intro i
    let x : Idx sh := fun a => match a with
      | 0 => ⟨0, hx⟩
      | 1 => i
      | 2 => ⟨0, hz⟩
    have e : kxyz q 1 x = fun a => q a - fftfreq (sh a) (x a) := by
      rw [kxyz, one_mulVec]
    have e0 : kxyz q 1 x 0 = 0 := by
      rw [e]
      show (q 0 - (fftfreq (sh 0) (x 0) : ℝ)) = 0
      rw [fftfreq_zero (x 0) rfl]; simp [hq]
    have e2 : kxyz q 1 x 2 = 0 := by
      rw [e]
      show (q 2 - (fftfreq (sh 2) (x 2) : ℝ)) = 0
      rw [fftfreq_zero (x 2) rfl]; simp [hq]
    have e1 : kxyz q 1 x 1 = ky - fftfreq (sh 1) i := by
      rw [e]; rfl
    have := hr x _ (kxyz_isWave q 1 x)
    rw [e0, e2, e1] at this
    by_contra hc
    exact this ⟨rfl, hc, rfl⟩
  have h0 := hv ⟨0, by omega⟩
  have h1 := hv ⟨1, hy⟩
  rw [fftfreq_zero _ rfl] at h0
  have h2 := fftfreq_one_ne (⟨1, hy⟩ : Fin (sh 1)) rfl
  apply h2
  have : (fftfreq (sh 1) ⟨1, hy⟩ : ℝ) = 0 := by
    push_cast at h0
    linarith
  exact_mod_cast this

/-- **C60.** For a constant `epsilon` and a grid without vanishing or y-directed wave vectors, the operator multiplies the coefficients of the plane wave
`k` by `-|k|²/epsilon`, the preconditioner by `epsilon/|k|²`; one after the other, in either order, they give minus the argument. -/
theorem C60_uniform_partial (hr : Regular k0 G sh) (hk : ∀ (x : Idx sh) (k : Fin 3 → ℝ), IsWave k0 G k x → k ≠ 0)
    {e : ℂ} (he : e ≠ 0) :
    ∃ op iop : Hmn sh → Hmn sh, (∀ h, maxwellOperator k0 G (fun _ _ => e) h = some (op h))
      ∧ (∀ h, inverseMaxwellOperatorApprox k0 G (fun _ _ => e) h = some (iop h))
      ∧ (∀ h i x k, IsWave k0 G k x → op h i x = -((∑ c, k c ^ 2 : ℝ) / e) * h i x
          ∧ iop h i x = e / (∑ c, k c ^ 2 : ℝ) * h i x)
      ∧ ∀ h, op (iop h) = -h ∧ iop (op h) = -h := by
  obtain ⟨n, hn, hx⟩ := nAll_regular k0 G hr
  choose op hop h0 h1 using maxwell_eq k0 G hn (eps := fun _ _ => e) (fun _ _ => he)
  have hmag : ∀ x : Idx sh, kMag k0 G x ≠ 0 := fun x hc => hk x _ (kxyz_isWave k0 G x) (norm3_eq_zero.1 hc)
  have hinv : ∀ h : Hmn sh, ∃ a, inverseMaxwellOperatorApprox k0 G (fun _ _ => e) h = some a
      ∧ (∀ x, a 0 x = (∑ c, fftn (fun y => ifftn (fun x => (n x c * h 0 x - mVec k0 G x c * h 1 x) / kMag k0 G x) y * e) x * n x c)
          / (kMag k0 G x : ℂ))
      ∧ ∀ x, a 1 x = (∑ c, fftn (fun y => ifftn (fun x => (n x c * h 0 x - mVec k0 G x c * h 1 x) / kMag k0 G x) y * e) x * mVec k0 G x c)
          / -(kMag k0 G x : ℂ) := by
    intro h
    unfold inverseMaxwellOperatorApprox
    rw [if_neg (by push Not; exact hmag), hn]
    refine ⟨_, rfl, ?_, ?_⟩
    · exact fun x => if_pos rfl
    · exact fun x => if_neg one_ne_zero
  choose iop hiop i0 i1 using hinv
  have hmm : ∀ x : Idx sh, (mVec k0 G x 0 : ℂ) ^ 2 + (mVec k0 G x 1 : ℂ) ^ 2 + (mVec k0 G x 2 : ℂ) ^ 2 = 1 := fun x => by
    exact_mod_cast mVec_unit k0 G x
  have hnn : ∀ x : Idx sh, (n x 0 : ℂ) ^ 2 + (n x 1 : ℂ) ^ 2 + (n x 2 : ℂ) ^ 2 = 1 := fun x => by
    exact_mod_cast (nVec_some k0 G (hx x)).1
  have hmn : ∀ x : Idx sh, (mVec k0 G x 0 : ℂ) * n x 0 + (mVec k0 G x 1 : ℂ) * n x 1 + (mVec k0 G x 2 : ℂ) * n x 2 = 0 := fun x => by
    exact_mod_cast (nVec_some k0 G (hx x)).2.1
  have hmag' : ∀ x : Idx sh, (kMag k0 G x : ℂ) ≠ 0 := fun x => by exact_mod_cast hmag x
  have hsum : ∀ x : Idx sh, (∑ c, kxyz k0 G x c ^ 2 : ℝ) = kMag k0 G x ^ 2 := fun x => by
    rw [kMag, norm3_sq, Fin.sum_univ_three]
  have hf1 : ∀ g : Arr sh ℂ, fftn (fun y => ifftn g y / e) = fun x => g x / e := fun g => by
    have : (fun y => ifftn g y / e) = fun y => e⁻¹ * ifftn g y := by funext y; ring
    rw [this, fftn_smul, fftn_ifftn]
    funext x; ring
  have hf2 : ∀ g : Arr sh ℂ, fftn (fun y => ifftn g y * e) = fun x => g x * e := fun g => by
    have : (fun y => ifftn g y * e) = fun y => e * ifftn g y := by funext y; ring
    rw [this, fftn_smul, fftn_ifftn]
    funext x; ring
  have hA : ∀ h i x, op h i x = -((kMag k0 G x : ℂ) ^ 2 / e) * h i x := by
    intro h i x
    have a := hmm x; have b := hnn x; have c := hmn x
    fin_cases i
    · show op h 0 x = -((kMag k0 G x : ℂ) ^ 2 / e) * h 0 x
      rw [h0]
      simp only [hf1, Fin.sum_univ_three, dXyz]
      linear_combination -((kMag k0 G x : ℂ) ^ 2 / e) * (h 0 x * b - h 1 x * c)
    · show op h 1 x = -((kMag k0 G x : ℂ) ^ 2 / e) * h 1 x
      rw [h1]
      simp only [hf1, Fin.sum_univ_three, dXyz]
      linear_combination ((kMag k0 G x : ℂ) ^ 2 / e) * (-h 1 x * a + h 0 x * c)
  have hB : ∀ h i x, iop h i x = e / (kMag k0 G x : ℂ) ^ 2 * h i x := by
    intro h i x
    have a := hmm x; have b := hnn x; have c := hmn x
    have q := hmag' x
    fin_cases i
    · show iop h 0 x = e / (kMag k0 G x : ℂ) ^ 2 * h 0 x
      rw [i0]
      simp only [hf2, Fin.sum_univ_three]
      field_simp
      linear_combination h 0 x * b - h 1 x * c
    · show iop h 1 x = e / (kMag k0 G x : ℂ) ^ 2 * h 1 x
      rw [i1]
      simp only [hf2, Fin.sum_univ_three]
      field_simp
      linear_combination h 1 x * a - h 0 x * c
  refine ⟨op, iop, hop, hiop, ?_, ?_⟩
  · intro h i x k hw
    obtain rfl := hw.eq
    rw [hsum, hA, hB]
    push_cast
    exact ⟨rfl, rfl⟩
  · intro h
    constructor <;> funext i x <;> have q := hmag' x
    · rw [hA, hB]; simp only [Pi.neg_apply]; field_simp
    · rw [hB, hA]; simp only [Pi.neg_apply]; field_simp

/-- **C61.** If no wave vector of the grid has `kx = 0, ky ≠ 0`, the fields returned for any coefficients have `k · H = 0` and `k · (epsilon E) = 0`
in every plane wave. -/
theorem C61_transverse_partial (hg : Good k0 G sh) {eps : VField sh ℂ} (he : ∀ c x, eps c x ≠ 0) (h : Hmn sh) :
    ∃ H E, hmn2hxyz k0 G h = some H ∧ hmn2exyz k0 G eps h = some E
      ∧ ∀ (x : Idx sh) (k : Fin 3 → ℝ), IsWave k0 G k x →
        ∑ c, (k c : ℂ) * fftn (H c) x = 0 ∧ ∑ c, (k c : ℂ) * fftn (fun y => eps c y * E c y) x = 0 := by
  obtain ⟨n, hn, hx⟩ := nAll_regular k0 G (hg.regular k0 G)
  refine ⟨fun c => ifftn fun x => mVec k0 G x c * h 0 x + n x c * h 1 x, fun c x => ifftn (dXyz k0 G n h c) x / eps c x, ?_, ?_, ?_⟩
  · unfold hmn2hxyz; rw [hn]; rfl
  · unfold hmn2exyz; rw [if_neg (by push Not; exact he), hn]; rfl
  · intro x k hw
    have hd : ∀ c, (fun y => eps c y * (ifftn (dXyz k0 G n h c) y / eps c y)) = ifftn (dXyz k0 G n h c) := by
      intro c; funext y
      exact mul_div_cancel₀ _ (he c y)
    simp only [hd, fftn_ifftn]
    obtain rfl := hw.eq
    have a : (mVec k0 G x 0 : ℂ) * kxyz k0 G x 0 + (mVec k0 G x 1 : ℂ) * kxyz k0 G x 1 + (mVec k0 G x 2 : ℂ) * kxyz k0 G x 2 = 0 := by
      exact_mod_cast mVec_k k0 G x (hg x _ hw)
    have b : (n x 0 : ℂ) * kxyz k0 G x 0 + (n x 1 : ℂ) * kxyz k0 G x 1 + (n x 2 : ℂ) * kxyz k0 G x 2 = 0 := by
      exact_mod_cast (nVec_some k0 G (hx x)).2.2
    simp only [Fin.sum_univ_three, dXyz]
    constructor
    · linear_combination h 0 x * a + h 1 x * b
    · linear_combination (kMag k0 G x : ℂ) * h 0 x * b - (kMag k0 G x : ℂ) * h 1 x * a

/-- **C61, disagreement.** If some wave vector of the grid has `kx = 0, ky ≠ 0`, then either everything is NaN or there are coefficients for which the
returned magnetic field, and others for which the displacement field, has a divergence. -/
theorem C61_fails_partial (hr : Regular k0 G sh) {eps : VField sh ℂ} (he : ∀ c x, eps c x ≠ 0)
    {x : Idx sh} {k : Fin 3 → ℝ} (hw : IsWave k0 G k x) (hk0 : k 0 = 0) (hk1 : k 1 ≠ 0) :
    (∃ h H, hmn2hxyz k0 G h = some H ∧ ∑ c, (k c : ℂ) * fftn (H c) x ≠ 0)
      ∧ ∃ h E, hmn2exyz k0 G eps h = some E ∧ ∑ c, (k c : ℂ) * fftn (fun y => eps c y * E c y) x ≠ 0 := by
  obtain ⟨n, hn, hx⟩ := nAll_regular k0 G hr
  have hm : mVec k0 G x = ey := mVec_neg k0 G (by rw [← hw.eq]; exact hk0)
  have hk1' : (k 1 : ℂ) ≠ 0 := by exact_mod_cast hk1
  constructor
  · refine ⟨fun i _ => if i = 0 then 1 else 0, fun c => ifftn fun x => mVec k0 G x c * 1 + n x c * 0, ?_, ?_⟩
    · unfold hmn2hxyz; rw [hn]; simp
    · simp only [fftn_ifftn, hm, Fin.sum_univ_three, hk0]
      simp [ey, hk1]
  · refine ⟨fun i _ => if i = 0 then 0 else 1, fun c x => ifftn (dXyz k0 G n (fun i _ => if i = 0 then 0 else 1) c) x / eps c x, ?_, ?_⟩
    · unfold hmn2exyz; rw [if_neg (by push Not; exact he), hn]; rfl
    · have hd : ∀ c, (fun y => eps c y * (ifftn (dXyz k0 G n (fun i _ => if i = 0 then 0 else 1) c) y / eps c y))
          = ifftn (dXyz k0 G n (fun i _ => if i = 0 then 0 else 1) c) := by
        intro c; funext y
        exact mul_div_cancel₀ _ (he c y)
      have hmag : kMag k0 G x ≠ 0 := fun hc => by
        have := norm3_eq_zero.1 hc
        rw [← hw.eq] at this
        exact hk1 (congrFun this 1)
      simp only [hd, fftn_ifftn, dXyz, hm, Fin.sum_univ_three, hk0]
      simp [ey, hk1, hmag]

/-- **C75.** If no wave vector of the grid has `kx = 0, ky ≠ 0`, the Maxwell operator takes the coefficients of a magnetic field `H` to those of
`k × (conv(1/epsilon, k × H))`, minus the curl of `1/epsilon` times the curl of `H`. -/
theorem C75_curl_curl_partial (hg : Good k0 G sh) {eps : VField sh ℂ} (he : ∀ c x, eps c x ≠ 0) (h : Hmn sh) :
    ∃ (b : Hmn sh) (H B : VField sh ℂ), maxwellOperator k0 G eps h = some b
      ∧ hmn2hxyz k0 G h = some H ∧ hmn2hxyz k0 G b = some B
      ∧ ∀ (x : Idx sh) (k : Idx sh → Fin 3 → ℝ), (∀ y, IsWave k0 G (k y) y) → ∀ c,
        fftn (B c) x = cross (fun a => (k x a : ℂ)) (fun a => fftn (fun y =>
          ifftn (fun l => cross (fun a => (k l a : ℂ)) (fun a => fftn (H a) l) a) y / eps a y) x) c := by
  obtain ⟨n, hn, hx⟩ := nAll_regular k0 G (hg.regular k0 G)
  obtain ⟨b, hb, b0, b1⟩ := maxwell_eq k0 G hn he h
  refine ⟨b, _, _, hb, (by unfold hmn2hxyz; rw [hn]; rfl), (by unfold hmn2hxyz; rw [hn]; rfl), ?_⟩
  intro x k hk c
  have hk' : k = fun y => kxyz k0 G y := funext fun y => (hk y).eq
  subst hk'
  have hcr : ∀ (l : Idx sh) (c : Fin 3), cross (fun a => (kxyz k0 G l a : ℂ)) (fun a => (mVec k0 G l a : ℂ)) c = kMag k0 G l * n l c
      ∧ cross (fun a => (kxyz k0 G l a : ℂ)) (fun a => (n l a : ℂ)) c = -(kMag k0 G l * mVec k0 G l c) := by
    intro l c
    obtain ⟨f1, f2⟩ := frame_cross k0 G (hx l) (hg l _ (kxyz_isWave k0 G l)) c
    constructor
    · rw [← ofReal_mul, ← f1]
      fin_cases c <;> simp [cross]
    · rw [← ofReal_mul, ← ofReal_neg, ← f2]
      fin_cases c <;> simp [cross]
  have hin : ∀ (l : Idx sh) (c : Fin 3), cross (fun a => (kxyz k0 G l a : ℂ)) (fun a => mVec k0 G l a * h 0 l + n l a * h 1 l) c
      = dXyz k0 G n h c l := by
    intro l c
    obtain ⟨f1, f2⟩ := hcr l c
    have : cross (fun a => (kxyz k0 G l a : ℂ)) (fun a => mVec k0 G l a * h 0 l + n l a * h 1 l) c
        = cross (fun a => (kxyz k0 G l a : ℂ)) (fun a => (mVec k0 G l a : ℂ)) c * h 0 l
          + cross (fun a => (kxyz k0 G l a : ℂ)) (fun a => (n l a : ℂ)) c * h 1 l := by
      fin_cases c <;> simp only [cross, Fin.zero_eta, Fin.mk_one, Fin.reduceFinMk] <;> ring
    rw [this, f1, f2, dXyz]
    ring
  simp only [fftn_ifftn, hin]
  rw [b0, b1]
  generalize hE : (fun a => fftn (fun y => ifftn (fun l => dXyz k0 G n h a l) y / eps a y) x) = E
  have hEc : ∀ a, fftn (fun y => ifftn (dXyz k0 G n h a) y / eps a y) x = E a := fun a => by rw [← hE]
  simp only [hEc, Fin.sum_univ_three]
  have hm1 : (mVec k0 G x 0 : ℂ) ^ 2 + (mVec k0 G x 1 : ℂ) ^ 2 + (mVec k0 G x 2 : ℂ) ^ 2 = 1 := by exact_mod_cast mVec_unit k0 G x
  have hmk : (mVec k0 G x 0 : ℂ) * kxyz k0 G x 0 + (mVec k0 G x 1 : ℂ) * kxyz k0 G x 1 + (mVec k0 G x 2 : ℂ) * kxyz k0 G x 2 = 0 := by
    exact_mod_cast mVec_k k0 G x (hg x _ (hk x))
  have g0 := (hcr x 0).1
  have g1 := (hcr x 1).1
  have g2 := (hcr x 2).1
  simp only [cross] at g0 g1 g2
  generalize (kMag k0 G x : ℂ) = q at *
  have K0 : q * (mVec k0 G x 1 * n x 2 - mVec k0 G x 2 * n x 1) = kxyz k0 G x 0 := by
    linear_combination -(mVec k0 G x 1 : ℂ) * g2 + (mVec k0 G x 2 : ℂ) * g1 + (kxyz k0 G x 0 : ℂ) * hm1 - (mVec k0 G x 0 : ℂ) * hmk
  have K1 : q * (mVec k0 G x 2 * n x 0 - mVec k0 G x 0 * n x 2) = kxyz k0 G x 1 := by
    linear_combination -(mVec k0 G x 2 : ℂ) * g0 + (mVec k0 G x 0 : ℂ) * g2 + (kxyz k0 G x 1 : ℂ) * hm1 - (mVec k0 G x 1 : ℂ) * hmk
  have K2 : q * (mVec k0 G x 0 * n x 1 - mVec k0 G x 1 * n x 0) = kxyz k0 G x 2 := by
    linear_combination -(mVec k0 G x 0 : ℂ) * g1 + (mVec k0 G x 1 : ℂ) * g0 + (kxyz k0 G x 2 : ℂ) * hm1 - (mVec k0 G x 2 : ℂ) * hmk
  fin_cases c <;> simp only [cross, Fin.zero_eta, Fin.mk_one, Fin.reduceFinMk]
  · linear_combination E 2 * K1 - E 1 * K2
  · linear_combination E 0 * K2 - E 2 * K0
  · linear_combination E 1 * K0 - E 0 * K1

/-! ### The hypotheses can be met -/

/-- On every grid of a cubic lattice, a Bloch vector `(1/4, 0, 0)` meets the hypotheses of C59, C60, C61 and C75. -/
example : Good (fun c => if c = 0 then (1 / 4 : ℝ) else 0) 1 sh
    ∧ ∀ (x : Idx sh) (k : Fin 3 → ℝ), IsWave (fun c => if c = 0 then (1 / 4 : ℝ) else 0) 1 k x → k ≠ 0 := by
  have key : ∀ (x : Idx sh) (k : Fin 3 → ℝ), IsWave (fun c => if c = 0 then (1 / 4 : ℝ) else 0) 1 k x → k 0 ≠ 0 := by
    rintro x k ⟨g, -, -, -, hk⟩ h0
    have h := hk 0
    rw [h0, Fin.sum_univ_three] at h
    simp only [one_apply] at h
    simp +decide at h
    have h4 : ((4 * g 0 : ℤ) : ℝ) = ((1 : ℤ) : ℝ) := by push_cast; linarith
    have := Int.cast_injective h4
    omega
  exact ⟨fun x k hw hc => key x k hw hc.1, fun x k hw hc => key x k hw (congrFun hc 0)⟩

/-- On every grid of a cubic lattice with at least two cells along y, the Bloch vector `(0, 0, 1/4)` meets the hypotheses of C59, C60 and
C61_fails_partial. -/
example (hx : 0 < sh 0) (hy : 1 < sh 1) (hz : 0 < sh 2) : Regular (fun c => if c = 2 then (1 / 4 : ℝ) else 0) 1 sh
    ∧ ∃ (x : Idx sh) (k : Fin 3 → ℝ), IsWave (fun c => if c = 2 then (1 / 4 : ℝ) else 0) 1 k x ∧ k 0 = 0 ∧ k 1 ≠ 0 := by
  refine ⟨?_, ?_⟩
  · rintro x k ⟨g, -, -, -, hk⟩ ⟨-, -, h0⟩
    have h := hk 2
    rw [h0, Fin.sum_univ_three] at h
    simp only [one_apply] at h
    simp +decide at h
    have h4 : ((4 * g 2 : ℤ) : ℝ) = ((1 : ℤ) : ℝ) := by push_cast; linarith
    have := Int.cast_injective h4
    omega
  · obtain ⟨x, k, hw, h1, hf, -⟩ := C58_cubic_partial hx hy hz (1 / 4)
    refine ⟨x, k, hw, ?_, h1⟩
    by_contra h0
    exact hf (C58_frame_partial _ _ hw (.inl h0)).2

end Meanas.Props
