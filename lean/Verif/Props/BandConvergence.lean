/-
C164: the bands of `maxwell_operator` converge to the bands of Maxwell's equations, at the rate at which the Fourier series of the fields converge.
-/
import Verif.Props.BandLipschitz
import Mathlib.Topology.Algebra.InfiniteSum.Module
import Mathlib.Analysis.Normed.Group.InfiniteSum
import Mathlib.Analysis.Normed.Module.FiniteDimension

namespace Meanas.Props

open Complex Matrix Meanas.Bloch LipAux
open scoped ComplexOrder

/-! ### Specification: modes of the crystal in continuous space -/

/-- The wave vector of the plane wave `g` of the reciprocal lattice `G` at the Bloch vector `k0`. -/
noncomputable def waveVec (k0 : Fin 3 → ℝ) (G : Matrix (Fin 3) (Fin 3) ℝ) (g : Fin 3 → ℤ) : Fin 3 → ℝ := fun c => ∑ a, G c a * (k0 a - g a)

/-- The plane wave `g` (without the Bloch phase) at the point with the coordinates `s` along the lattice vectors. -/
noncomputable def bandWave (g : Fin 3 → ℤ) (s : Fin 3 → ℝ) : ℂ := exp (2 * Real.pi * I * ∑ a, (g a : ℂ) * (s a : ℂ))

/-- A mode of Maxwell's equations in the crystal `eps` at the Bloch vector `k0`, with the squared frequency `lam`: `h g`, `e g` are the coefficients of
absolutely convergent Fourier series of the magnetic and the electric field. -/
structure BandMode (k0 : Fin 3 → ℝ) (G : Matrix (Fin 3) (Fin 3) ℝ) (eps : Fin 3 → (Fin 3 → ℝ) → ℝ) (lam : ℝ) (h e : (Fin 3 → ℤ) → Fin 3 → ℂ) : Prop where
  summable_d : ∀ c, Summable fun g => ‖cross (fun a => (waveVec k0 G g a : ℂ)) (h g) c‖
  summable_e : ∀ c, Summable fun g => ‖e g c‖
  /-- `eps E = k × H`, at every point. -/
  ampere : ∀ c s, (eps c s : ℂ) * ∑' g, e g c * bandWave g s = ∑' g, cross (fun a => (waveVec k0 G g a : ℂ)) (h g) c * bandWave g s
  /-- `k × E = -lam H`, for every plane wave. -/
  faraday : ∀ g c, cross (fun a => (waveVec k0 G g a : ℂ)) (e g) c = -(lam : ℂ) * h g c

/-- The permittivity at the cells of the grid. -/
noncomputable def sampleEps (eps : Fin 3 → (Fin 3 → ℝ) → ℝ) (sh : Fin 3 → ℕ) : VField sh ℂ := fun c y => (eps c (fun a => (y a : ℕ) / (sh a : ℝ)) : ℂ)

/-- The plane waves that the grid represents. -/
def InGrid (sh : Fin 3 → ℕ) (g : Fin 3 → ℤ) : Prop := ∀ a, -(sh a : ℤ) ≤ 2 * g a ∧ 2 * g a < sh a

open Classical in
/-- The sum of the moduli of the coefficients that the grid does not represent. -/
noncomputable def tail (sh : Fin 3 → ℕ) (f : (Fin 3 → ℤ) → ℂ) : ℝ := ∑' g, if InGrid sh g then 0 else ‖f g‖

/-! ### Sampling and aliasing -/

section
variable {sh : Fin 3 → ℕ}

/-- The plane wave stored at a cell. -/
def freqOf (x : Idx sh) : Fin 3 → ℤ := fun a => fftfreq (sh a) (x a)

theorem freqOf_inGrid (x : Idx sh) : InGrid sh (freqOf x) := by
  intro a
  have := (x a).2
  simp only [freqOf, fftfreq]
  split_ifs <;> constructor <;> omega

theorem freqOf_dvd (x : Idx sh) (a : Fin 3) : (sh a : ℤ) ∣ freqOf x a - (x a : ℕ) := by
  have := (x a).2
  simp only [freqOf, fftfreq]
  split_ifs <;> simp

/-- The cell at which a plane wave appears. -/
def cellFor (hs : ∀ a, 0 < sh a) (g : Fin 3 → ℤ) : Idx sh := fun a => ⟨(g a % (sh a : ℤ)).toNat, by
  have h1 := Int.emod_nonneg (g a) (b := (sh a : ℤ)) (by have := hs a; omega)
  have h2 := Int.emod_lt_of_pos (g a) (b := (sh a : ℤ)) (by have := hs a; omega)
  omega⟩

theorem cellFor_dvd (hs : ∀ a, 0 < sh a) (g : Fin 3 → ℤ) (a : Fin 3) : (sh a : ℤ) ∣ g a - (cellFor hs g a : ℕ) := by
  have h1 := Int.emod_nonneg (g a) (b := (sh a : ℤ)) (by have := hs a; omega)
  have e : ((cellFor hs g a : ℕ) : ℤ) = g a % (sh a : ℤ) := by
    show (((g a % (sh a : ℤ)).toNat : ℕ) : ℤ) = _
    omega
  rw [e]
  exact Int.dvd_self_sub_emod

theorem cellFor_freqOf (hs : ∀ a, 0 < sh a) (x : Idx sh) : cellFor hs (freqOf x) = x := by
  funext a
  apply Fin.ext
  have h1 := dvd_sub (cellFor_dvd hs (freqOf x) a) (freqOf_dvd x a)
  have h2 := (cellFor hs (freqOf x) a).2
  have h3 := (x a).2
  have h4 : (sh a : ℤ) ∣ ((x a : ℕ) : ℤ) - ((cellFor hs (freqOf x) a : ℕ) : ℤ) := by
    have e : freqOf x a - ((cellFor hs (freqOf x) a : ℕ) : ℤ) - (freqOf x a - ((x a : ℕ) : ℤ)) = ((x a : ℕ) : ℤ) - ((cellFor hs (freqOf x) a : ℕ) : ℤ) := by ring
    rwa [e] at h1
  have := Int.eq_zero_of_abs_lt_dvd h4 (by rw [abs_lt]; omega)
  omega

theorem freqOf_cellFor (hs : ∀ a, 0 < sh a) {g : Fin 3 → ℤ} (hg : InGrid sh g) : freqOf (cellFor hs g) = g := by
  funext a
  have h1 := dvd_sub (freqOf_dvd (cellFor hs g) a) (cellFor_dvd hs g a)
  rw [sub_sub_sub_cancel_right] at h1
  have h2 := freqOf_inGrid (cellFor hs g) a
  have h3 := hg a
  have := Int.eq_zero_of_abs_lt_dvd h1 (by rw [abs_lt]; omega)
  omega

/-- At the cells of the grid a plane wave is the one stored at its cell. -/
theorem bandWave_cell (hs : ∀ a, 0 < sh a) (g : Fin 3 → ℤ) (y : Idx sh) :
    bandWave g (fun a => (y a : ℕ) / (sh a : ℝ)) = chi (cellFor hs g) y := by
  unfold bandWave chi
  rw [Finset.mul_sum, exp_sum]
  refine Finset.prod_congr rfl fun a _ => ?_
  obtain ⟨m, hm⟩ := cellFor_dvd hs g a
  have hg : (g a : ℂ) = ((cellFor hs g a : ℕ) : ℂ) + (sh a : ℂ) * m := by
    have : g a = ((cellFor hs g a : ℕ) : ℤ) + (sh a : ℤ) * m := by omega
    rw [this]
    push_cast
    ring
  have hsa : (sh a : ℂ) ≠ 0 := Nat.cast_ne_zero.2 (hs a).ne'
  rw [hg, exp_eq_exp_iff_exists_int]
  refine ⟨m * (y a : ℕ), ?_⟩
  push_cast
  field_simp

open Classical in
/-- The coefficients that the grid sees: those of all plane waves that look alike on it. -/
noncomputable def aliased (hs : ∀ a, 0 < sh a) (f : (Fin 3 → ℤ) → ℂ) (x : Idx sh) : ℂ := ∑' g, if cellFor hs g = x then f g else 0

theorem samples_eq (hs : ∀ a, 0 < sh a) {f : (Fin 3 → ℤ) → ℂ} (hf : Summable fun g => ‖f g‖) (y : Idx sh) :
    ∑' g, f g * bandWave g (fun a => (y a : ℕ) / (sh a : ℝ)) = (Fintype.card (Idx sh) : ℂ) * ifftn (aliased hs f) y := by
  classical
  have hN := card_ne_zero y
  unfold ifftn
  rw [mul_div_cancel₀ _ hN]
  have h1 : ∀ x : Idx sh, chi x y * aliased hs f x = ∑' g, if cellFor hs g = x then f g * chi x y else 0 := by
    intro x
    unfold aliased
    rw [← tsum_mul_left]
    refine tsum_congr fun g => ?_
    split_ifs
    · ring
    · rw [mul_zero]
  simp only [h1]
  rw [← Summable.tsum_finsetSum]
  · refine tsum_congr fun g => ?_
    rw [Finset.sum_ite_eq Finset.univ (cellFor hs g) fun x => f g * chi x y, if_pos (Finset.mem_univ _), bandWave_cell hs]
  · intro x _
    refine Summable.of_norm_bounded (g := fun g => ‖f g‖ * ‖chi x y‖) (hf.mul_right _) fun g => ?_
    split_ifs
    · rw [norm_mul]
    · rw [norm_zero]; positivity

/-- The aliased part of the coefficients is at most the tail. -/
theorem alias_tail (hs : ∀ a, 0 < sh a) {f : (Fin 3 → ℤ) → ℂ} (hf : Summable fun g => ‖f g‖) : ∑ x : Idx sh, ‖aliased hs f x - f (freqOf x)‖ ≤ tail sh f := by
  classical
  have hsm : ∀ x : Idx sh, Summable fun g => if cellFor hs g = x then f g else 0 := fun x => by
    refine Summable.of_norm_bounded hf fun g => ?_
    split_ifs
    · rfl
    · rw [norm_zero]; positivity
  have hst : ∀ x : Idx sh, Summable fun g => if cellFor hs g = x ∧ ¬ InGrid sh g then ‖f g‖ else 0 := fun x => by
    refine Summable.of_norm_bounded hf fun g => ?_
    split_ifs
    · rw [norm_norm]
    · rw [norm_zero]; positivity
  have h1 : ∀ x : Idx sh, ‖aliased hs f x - f (freqOf x)‖ ≤ ∑' g, if cellFor hs g = x ∧ ¬ InGrid sh g then ‖f g‖ else 0 := by
    intro x
    have e : aliased hs f x - f (freqOf x) = ∑' g, if cellFor hs g = x ∧ ¬ InGrid sh g then f g else 0 := by
      unfold aliased
      rw [(hsm x).tsum_eq_add_tsum_ite (freqOf x), if_pos (cellFor_freqOf hs x), add_sub_cancel_left]
      refine tsum_congr fun g => ?_
      by_cases hg : g = freqOf x
      · rw [if_pos hg, if_neg fun h => h.2 (by rw [hg]; exact freqOf_inGrid x)]
      · rw [if_neg hg]
        by_cases hc : cellFor hs g = x
        · rw [if_pos hc, if_pos ⟨hc, fun hi => hg (by rw [← freqOf_cellFor hs hi, hc])⟩]
        · rw [if_neg hc, if_neg fun h => hc h.1]
    rw [e]
    refine tsum_of_norm_bounded (hst x).hasSum fun g => ?_
    split_ifs
    · rfl
    · rw [norm_zero]
  refine (Finset.sum_le_sum fun x _ => h1 x).trans ?_
  rw [← Summable.tsum_finsetSum fun x _ => hst x]
  refine le_of_eq (tsum_congr fun g => ?_)
  by_cases hi : InGrid sh g
  · simp [hi]
  · simp [hi]

theorem l2_le_l1 {ι : Type*} [Fintype ι] (f : ι → ℂ) : √(∑ x, normSq (f x)) ≤ ∑ x, ‖f x‖ := by
  rw [Real.sqrt_le_left (Finset.sum_nonneg fun _ _ => norm_nonneg _)]
  simp only [normSq_eq_norm_sq]
  exact Finset.sum_sq_le_sq_sum_of_nonneg fun _ _ => norm_nonneg _

end

/-! ### Consistency -/

section
variable {sh : Fin 3 → ℕ} (k0 : Fin 3 → ℝ) (G : Matrix (Fin 3) (Fin 3) ℝ)

theorem waveVec_freqOf (x : Idx sh) : waveVec k0 G (freqOf x) = kxyz k0 G x := rfl

/-- The coefficients along `m` and `n` of the magnetic field of a mode, at the plane waves of the grid. -/
noncomputable def modeCoeff (n : Idx sh → Fin 3 → ℝ) (lam : ℝ) (e : (Fin 3 → ℤ) → Fin 3 → ℂ) : Hmn sh := fun i x =>
  if i = 0 then (lam : ℂ)⁻¹ * (kMag k0 G x * ∑ a, (n x a : ℂ) * e (freqOf x) a)
  else -((lam : ℂ)⁻¹ * (kMag k0 G x * ∑ a, (mVec k0 G x a : ℂ) * e (freqOf x) a))

variable {k0 G}

/-- What the coefficients are coefficients of. -/
theorem modeCoeff_spec (hg : Good k0 G sh) {n : Idx sh → Fin 3 → ℝ} (hx : ∀ x, nVec k0 G x = some (n x)) {lam : ℝ} (hl : lam ≠ 0)
    {h e : (Fin 3 → ℤ) → Fin 3 → ℂ} (hf : ∀ g c, cross (fun a => (waveVec k0 G g a : ℂ)) (e g) c = -(lam : ℂ) * h g c) (x : Idx sh) (c : Fin 3) :
    (mVec k0 G x c : ℂ) * modeCoeff k0 G n lam e 0 x + n x c * modeCoeff k0 G n lam e 1 x = h (freqOf x) c
      ∧ dXyz k0 G n (modeCoeff k0 G n lam e) c x = cross (fun a => (waveVec k0 G (freqOf x) a : ℂ)) (h (freqOf x)) c := by
  have hl' : (lam : ℂ) ≠ 0 := ofReal_ne_zero.2 hl
  have hcr : ∀ c : Fin 3, cross (fun a => (kxyz k0 G x a : ℂ)) (fun a => (mVec k0 G x a : ℂ)) c = kMag k0 G x * n x c := by
    intro c
    obtain ⟨f1, -⟩ := frame_cross k0 G (hx x) (hg x _ (kxyz_isWave k0 G x)) c
    rw [← ofReal_mul, ← f1]
    fin_cases c <;> simp [cross]
  have hm1 : (mVec k0 G x 0 : ℂ) ^ 2 + (mVec k0 G x 1 : ℂ) ^ 2 + (mVec k0 G x 2 : ℂ) ^ 2 = 1 := by exact_mod_cast mVec_unit k0 G x
  have hmk : (mVec k0 G x 0 : ℂ) * kxyz k0 G x 0 + (mVec k0 G x 1 : ℂ) * kxyz k0 G x 1 + (mVec k0 G x 2 : ℂ) * kxyz k0 G x 2 = 0 := by
    exact_mod_cast mVec_k k0 G x (hg x _ (kxyz_isWave k0 G x))
  have key := fun w c => cross_frame (fun a => (kxyz k0 G x a : ℂ)) (fun a => (mVec k0 G x a : ℂ)) (fun a => (n x a : ℂ)) (kMag k0 G x) hm1 hmk hcr w c
  have h1 : ∀ c, (mVec k0 G x c : ℂ) * modeCoeff k0 G n lam e 0 x + n x c * modeCoeff k0 G n lam e 1 x = h (freqOf x) c := by
    intro c
    have h2 := hf (freqOf x) c
    rw [waveVec_freqOf, key] at h2
    simp only [modeCoeff, if_true, one_ne_zero, if_false]
    have h3 : h (freqOf x) c = -((lam : ℂ)⁻¹ * (-(lam : ℂ) * h (freqOf x) c)) := by field_simp
    rw [h3, ← h2]
    ring
  refine ⟨h1 c, ?_⟩
  rw [waveVec_freqOf, key]
  have hnn := (nVec_some k0 G (hx x))
  have a1 : (n x 0 : ℂ) ^ 2 + (n x 1 : ℂ) ^ 2 + (n x 2 : ℂ) ^ 2 = 1 := by exact_mod_cast hnn.1
  have a2 : (mVec k0 G x 0 : ℂ) * n x 0 + (mVec k0 G x 1 : ℂ) * n x 1 + (mVec k0 G x 2 : ℂ) * n x 2 = 0 := by exact_mod_cast hnn.2.1
  have hma : ∑ a, (mVec k0 G x a : ℂ) * h (freqOf x) a = modeCoeff k0 G n lam e 0 x := by
    simp only [← h1, Fin.sum_univ_three]
    linear_combination (modeCoeff k0 G n lam e 0 x) * hm1 + (modeCoeff k0 G n lam e 1 x) * a2
  have hna : ∑ a, (n x a : ℂ) * h (freqOf x) a = modeCoeff k0 G n lam e 1 x := by
    simp only [← h1, Fin.sum_univ_three]
    linear_combination (modeCoeff k0 G n lam e 1 x) * a1 + (modeCoeff k0 G n lam e 0 x) * a2
  rw [hma, hna, dXyz]

/-- The electric field that the grid computes differs from the true one by the parts of the series that the grid does not represent. -/
theorem field_error (hs : ∀ a, 0 < sh a) {e0 : ℝ} (he0 : 0 < e0) {E : Arr sh ℂ} (hE : ∀ y, ∃ r : ℝ, e0 ≤ r ∧ E y = r) {d f : (Fin 3 → ℤ) → ℂ}
    (hd : Summable fun g => ‖d g‖) (hf : Summable fun g => ‖f g‖)
    (hm : ∀ y : Idx sh, E y * ∑' g, f g * bandWave g (fun a => (y a : ℕ) / (sh a : ℝ)) = ∑' g, d g * bandWave g (fun a => (y a : ℕ) / (sh a : ℝ))) :
    √(∑ x : Idx sh, normSq (fftn (fun y => ifftn (fun l => d (freqOf l)) y / E y) x - f (freqOf x))) ≤ tail sh f + tail sh d / e0 := by
  have hE0 : ∀ y, E y ≠ 0 := fun y => by
    obtain ⟨r, hr, h⟩ := hE y
    rw [h]
    exact ofReal_ne_zero.2 (by linarith)
  have h1 : ∀ y, ifftn (aliased hs d) y / E y = ifftn (aliased hs f) y := by
    intro y
    have h2 := hm y
    rw [samples_eq hs hf, samples_eq hs hd] at h2
    have hN := card_ne_zero y
    rw [div_eq_iff (hE0 y)]
    apply mul_left_cancel₀ hN
    rw [← h2]
    ring
  set R : Arr sh ℂ := fun x => aliased hs d x - d (freqOf x) with hR
  set Q : Arr sh ℂ := fun x => aliased hs f x - f (freqOf x) with hQ
  have hlin : ∀ x, fftn (fun y => ifftn (fun l => d (freqOf l)) y / E y) x - f (freqOf x) = 1 * Q x + (-fftn (fun y => ifftn R y / E y) x) := by
    intro x
    have e1 : (fun y => ifftn (fun l => d (freqOf l)) y / E y) = fun y => ifftn (aliased hs f) y - ifftn R y / E y := by
      funext y
      rw [← h1 y, ← sub_div]
      congr 1
      simp only [ifftn, hR, ← sub_div, ← Finset.sum_sub_distrib]
      congr 1
      exact Finset.sum_congr rfl fun l _ => by ring
    have e2 : fftn (fun y => ifftn (aliased hs f) y - ifftn R y / E y) x = aliased hs f x - fftn (fun y => ifftn R y / E y) x := by
      have := congrFun (fftn_ifftn (aliased hs f)) x
      rw [← this]
      simp only [fftn, ← Finset.sum_sub_distrib, mul_sub]
    rw [e1, e2, hQ]
    ring
  have htri := wnorm_add (n := Idx sh) (w := fun _ => 1) (fun _ => zero_le_one) Q fun x => -fftn (fun y => ifftn R y / E y) x
  simp only [one_mul, normSq_neg] at htri
  simp only [hlin, one_mul]
  refine htri.trans (add_le_add ((l2_le_l1 Q).trans (alias_tail hs hf)) ?_)
  have hpar : ∑ x, normSq (fftn (fun y => ifftn R y / E y) x) = (Fintype.card (Idx sh) : ℝ) * ∑ y, normSq (ifftn R y / E y) := by
    rw [← parseval (fftn fun y => ifftn R y / E y), ifftn_fftn]
  have hle : ∑ y, normSq (ifftn R y / E y) ≤ (∑ y, normSq (ifftn R y)) / e0 ^ 2 := by
    rw [Finset.sum_div]
    refine Finset.sum_le_sum fun y _ => ?_
    obtain ⟨r, hr, h⟩ := hE y
    rw [normSq_div, h, normSq_ofReal, ← pow_two]
    exact div_le_div_of_nonneg_left (normSq_nonneg _) (by positivity) (pow_le_pow_left₀ he0.le hr 2)
  have hb : ∑ x, normSq (fftn (fun y => ifftn R y / E y) x) ≤ (∑ x, normSq (R x)) / e0 ^ 2 := by
    rw [hpar, ← parseval R, mul_div_assoc]
    exact mul_le_mul_of_nonneg_left hle (Nat.cast_nonneg _)
  calc √(∑ x, normSq (fftn (fun y => ifftn R y / E y) x)) ≤ √((∑ x, normSq (R x)) / e0 ^ 2) := Real.sqrt_le_sqrt hb
    _ = √(∑ x, normSq (R x)) / e0 := by rw [Real.sqrt_div' _ (sq_nonneg _), Real.sqrt_sq he0.le]
    _ ≤ tail sh d / e0 := div_le_div_of_nonneg_right ((l2_le_l1 R).trans (alias_tail hs hd)) he0.le

/-- The parts of the series of a mode that the grid does not represent. -/
noncomputable def modeTail (k0 : Fin 3 → ℝ) (G : Matrix (Fin 3) (Fin 3) ℝ) (sh : Fin 3 → ℕ) (e0 : ℝ) (h e : (Fin 3 → ℤ) → Fin 3 → ℂ) : ℝ :=
  ∑ c, (tail sh (fun g => e g c) + tail sh (fun g => cross (fun a => (waveVec k0 G g a : ℂ)) (h g) c) / e0)

/-- The coefficients of a mode solve the equation of the grid up to the tail. -/
theorem mode_residual (hs : ∀ a, 0 < sh a) (hg : Good k0 G sh) {n : Idx sh → Fin 3 → ℝ} (hn : nAll k0 G sh = some n) (hx : ∀ x, nVec k0 G x = some (n x))
    {eps : Fin 3 → (Fin 3 → ℝ) → ℝ} {e0 : ℝ} (he0 : 0 < e0) (heps : ∀ c s, e0 ≤ eps c s) {lam : ℝ} (hl : lam ≠ 0) {h e : (Fin 3 → ℤ) → Fin 3 → ℂ}
    (hmode : BandMode k0 G eps lam h e) {K : ℝ} (hK : ∀ x : Idx sh, norm3 (kxyz k0 G x) ≤ K) {b : Hmn sh}
    (hb : maxwellOperator k0 G (sampleEps eps sh) (modeCoeff k0 G n lam e) = some b) :
    ∑ i, ∑ x, normSq (b i x + lam * modeCoeff k0 G n lam e i x) ≤ (K * modeTail k0 G sh e0 h e) ^ 2
      ∧ ∑ i, ∑ x, normSq (modeCoeff k0 G n lam e i x) = ∑ x : Idx sh, ∑ c, normSq (h (freqOf x) c) := by
  have hl' : (lam : ℂ) ≠ 0 := ofReal_ne_zero.2 hl
  have hne : ∀ c x, sampleEps eps sh c x ≠ 0 := fun c x => ofReal_ne_zero.2 (by have := heps c fun a => (x a : ℕ) / (sh a : ℝ); linarith)
  obtain ⟨b', hb', b0, b1⟩ := maxwell_eq k0 G hn hne (modeCoeff k0 G n lam e)
  rw [hb] at hb'
  obtain rfl := Option.some.inj hb'
  have hK0 : 0 ≤ K := (norm3_nonneg _).trans (hK fun a => ⟨0, hs a⟩)
  constructor
  · set t : Fin 3 → ℝ := fun c => tail sh (fun g => e g c) + tail sh (fun g => cross (fun a => (waveVec k0 G g a : ℂ)) (h g) c) / e0 with ht
    set w : Fin 3 → Idx sh → ℂ := fun c x => fftn (fun y => ifftn (dXyz k0 G n (modeCoeff k0 G n lam e) c) y / sampleEps eps sh c y) x - e (freqOf x) c with hw
    have hwt : ∀ c, √(∑ x, normSq (w c x)) ≤ t c := by
      intro c
      have h1 := field_error hs he0 (E := sampleEps eps sh c) (fun y => ⟨_, heps c _, rfl⟩) (hmode.summable_d c) (hmode.summable_e c)
        (fun y => hmode.ampere c fun a => (y a : ℕ) / (sh a : ℝ))
      have e1 : dXyz k0 G n (modeCoeff k0 G n lam e) c = fun l => cross (fun a => (waveVec k0 G (freqOf l) a : ℂ)) (h (freqOf l)) c := by
        funext l
        exact (modeCoeff_spec hg hx hl hmode.faraday l c).2
      simp only [hw, e1]
      exact h1
    have ht0 : ∀ c, 0 ≤ t c := fun c => (Real.sqrt_nonneg _).trans (hwt c)
    have hws : ∑ x, ∑ c, normSq (w c x) ≤ (∑ c, t c) ^ 2 := by
      rw [Finset.sum_comm]
      calc ∑ c, ∑ x, normSq (w c x) ≤ ∑ c, t c ^ 2 := Finset.sum_le_sum fun c _ => (Real.sqrt_le_left (ht0 c)).1 (hwt c)
        _ ≤ (∑ c, t c) ^ 2 := Finset.sum_sq_le_sq_sum_of_nonneg fun c _ => ht0 c
    have hpt : ∀ x, normSq (b 0 x + lam * modeCoeff k0 G n lam e 0 x) + normSq (b 1 x + lam * modeCoeff k0 G n lam e 1 x) ≤ K ^ 2 * ∑ c, normSq (w c x) := by
      intro x
      have r0 : b 0 x + lam * modeCoeff k0 G n lam e 0 x = -(kMag k0 G x : ℂ) * ∑ c, (n x c : ℂ) * w c x := by
        rw [b0]
        simp only [modeCoeff, if_true, hw, mul_sub, Finset.sum_sub_distrib]
        have : ∀ S : ℂ, (lam : ℂ) * ((lam : ℂ)⁻¹ * S) = S := fun S => by field_simp
        rw [this]
        simp only [mul_comm (n x _ : ℂ)]
        ring
      have r1 : b 1 x + lam * modeCoeff k0 G n lam e 1 x = (kMag k0 G x : ℂ) * ∑ c, (mVec k0 G x c : ℂ) * w c x := by
        rw [b1]
        simp only [modeCoeff, one_ne_zero, if_false, hw, mul_sub, Finset.sum_sub_distrib]
        have : ∀ S : ℂ, (lam : ℂ) * -((lam : ℂ)⁻¹ * S) = -S := fun S => by field_simp
        rw [this]
        simp only [mul_comm (mVec k0 G x _ : ℂ)]
        ring
      obtain ⟨n1, n2, -⟩ := nVec_some k0 G (hx x)
      have hbes := bessel (mVec_unit k0 G x) n1 n2 fun c => w c x
      rw [r0, r1, normSq_mul, normSq_mul, normSq_neg, normSq_ofReal, ← mul_add, ← pow_two]
      refine mul_le_mul (pow_le_pow_left₀ (norm3_nonneg _) (hK x) 2) ?_ (add_nonneg (normSq_nonneg _) (normSq_nonneg _)) (sq_nonneg _)
      rw [add_comm]
      exact hbes
    rw [Fin.sum_univ_two, ← Finset.sum_add_distrib]
    refine (Finset.sum_le_sum fun x _ => hpt x).trans ?_
    rw [← Finset.mul_sum, mul_pow]
    exact mul_le_mul_of_nonneg_left hws (sq_nonneg _)
  · rw [Fin.sum_univ_two, ← Finset.sum_add_distrib]
    refine Finset.sum_congr rfl fun x _ => ?_
    obtain ⟨n1, n2, -⟩ := nVec_some k0 G (hx x)
    rw [← pythagoras (mVec_unit k0 G x) n1 n2]
    exact Finset.sum_congr rfl fun c _ => by rw [(modeCoeff_spec hg hx hl hmode.faraday x c).1]

end

/-! ### From residuals to bands -/

/-- A Hermitian matrix has as many eigenvalues within `η` of `l` as there are independent vectors with residuals within `η`. -/
theorem eigen_cluster {ι : Type*} [Fintype ι] [DecidableEq ι] {A : Matrix ι ι ℂ} (hA : A.IsHermitian) (l : ℝ) {η : ℝ} (hη : 0 ≤ η) {m : ℕ} (v : Fin m → ι → ℂ)
    (hv : ∀ c : Fin m → ℂ, c ≠ 0 → ∑ j, c j • v j ≠ 0)
    (hr : ∀ c : Fin m → ℂ, ∑ p, normSq ((A *ᵥ ∑ j, c j • v j) p - l * (∑ j, c j • v j) p) ≤ η ^ 2 * ∑ p, normSq ((∑ j, c j • v j) p)) :
    m ≤ (Finset.univ.filter fun i => |hA.eigenvalues i - l| ≤ η).card := by
  classical
  by_contra hc
  push Not at hc
  set S := Finset.univ.filter fun i => |hA.eigenvalues i - l| ≤ η with hS
  set b := hA.eigenvectorBasis with hb
  let L : (Fin m → ℂ) →ₗ[ℂ] (S → ℂ) :=
    { toFun := fun c i => b.repr (WithLp.toLp 2 (∑ j, c j • v j)) i.1
      map_add' := fun x y => by
        funext i
        simp only [Pi.add_apply, add_smul, Finset.sum_add_distrib, WithLp.toLp_add, map_add, PiLp.add_apply]
      map_smul' := fun r y => by
        funext i
        simp only [Pi.smul_apply, smul_eq_mul, mul_smul, ← Finset.smul_sum, WithLp.toLp_smul, map_smul, PiLp.smul_apply, RingHom.id_apply] }
  have hdim : Module.finrank ℂ (S → ℂ) < Module.finrank ℂ (Fin m → ℂ) := by
    rw [Module.finrank_fintype_fun_eq_card, Module.finrank_fintype_fun_eq_card, Fintype.card_fin, Fintype.card_coe]
    exact hc
  obtain ⟨c, hcm, hc0⟩ := (Submodule.ne_bot_iff _).1 (LinearMap.ker_ne_bot_of_finrank_lt (f := L) hdim)
  rw [LinearMap.mem_ker] at hcm
  set u := ∑ j, c j • v j with hu
  let x : EuclideanSpace ℂ ι := WithLp.toLp 2 u
  let r : EuclideanSpace ℂ ι := WithLp.toLp 2 (A *ᵥ u - (l : ℂ) • u)
  have hsum : ∀ y : EuclideanSpace ℂ ι, ∑ p, normSq (y.ofLp p) = ∑ i, normSq (b.repr y i) := by
    intro y
    simp only [normSq_eq_norm_sq]
    rw [← EuclideanSpace.norm_sq_eq, ← b.repr.norm_map y, EuclideanSpace.norm_sq_eq]
  have hcoord : ∀ (y : EuclideanSpace ℂ ι) i, b.repr y i = star (b i).ofLp ⬝ᵥ y.ofLp := by
    intro y i
    rw [b.repr_apply_apply, PiLp.inner_apply, dotProduct]
    refine Finset.sum_congr rfl fun p _ => ?_
    rw [RCLike.inner_apply, mul_comm]
    rfl
  have hrr : ∀ i, b.repr r i = ((hA.eigenvalues i - l : ℝ) : ℂ) * b.repr x i := by
    intro i
    rw [hcoord, hcoord]
    show star (b i).ofLp ⬝ᵥ (A *ᵥ u - (l : ℂ) • u) = _ * (star (b i).ofLp ⬝ᵥ u)
    have h1 : star (b i).ofLp ⬝ᵥ (A *ᵥ u) = (hA.eigenvalues i : ℂ) * (star (b i).ofLp ⬝ᵥ u) := by
      have h2 : star (A *ᵥ (b i).ofLp) = star (b i).ofLp ᵥ* A := by rw [star_mulVec, hA]
      rw [dotProduct_mulVec, ← h2, hA.mulVec_eigenvectorBasis i, star_smul, smul_dotProduct]
      simp [Complex.real_smul]
      exact Or.inl rfl
    rw [dotProduct_sub, h1, dotProduct_smul, smul_eq_mul, ofReal_sub, sub_mul]
  have hz : ∀ i, |hA.eigenvalues i - l| ≤ η → b.repr x i = 0 := fun i hi => congrFun hcm ⟨i, by rw [hS]; simpa using hi⟩
  have h1 := hr c
  have e1 : ∑ p, normSq ((A *ᵥ u) p - l * u p) = ∑ i, normSq (b.repr r i) := by
    rw [← hsum r]
    rfl
  have e2 : ∑ p, normSq (u p) = ∑ i, normSq (b.repr x i) := by rw [← hsum x]
  rw [e1, e2, Finset.mul_sum] at h1
  have hx0 : ∃ i, b.repr x i ≠ 0 := by
    by_contra hn
    push Not at hn
    have : ∑ p, normSq (u p) = 0 := by rw [e2]; simp [hn]
    apply hv c hc0
    funext p
    exact normSq_eq_zero.1 ((Finset.sum_eq_zero_iff_of_nonneg fun p _ => normSq_nonneg (u p)).1 this p (Finset.mem_univ _))
  obtain ⟨i0, hi0⟩ := hx0
  refine absurd h1 (not_le.2 (Finset.sum_lt_sum (fun i _ => ?_) ⟨i0, Finset.mem_univ _, ?_⟩))
  · by_cases hi : |hA.eigenvalues i - l| ≤ η
    · rw [hrr, hz i hi]; simp
    · rw [hrr, normSq_mul, normSq_ofReal, ← pow_two]
      push Not at hi
      refine mul_le_mul_of_nonneg_right ?_ (normSq_nonneg _)
      rw [← sq_abs (hA.eigenvalues i - l)]
      exact pow_le_pow_left₀ hη hi.le 2
  · have hi : ¬ |hA.eigenvalues i0 - l| ≤ η := fun h => hi0 (hz i0 h)
    rw [hrr, normSq_mul, normSq_ofReal, ← pow_two]
    push Not at hi
    refine mul_lt_mul_of_pos_right ?_ (normSq_pos.2 hi0)
    rw [← sq_abs (hA.eigenvalues i0 - l)]
    exact pow_lt_pow_left₀ hi hη two_ne_zero

section
variable {sh : Fin 3 → ℕ} {k0 : Fin 3 → ℝ} {G : Matrix (Fin 3) (Fin 3) ℝ}

/-- **C164, on a given grid.** Take `m` modes of Maxwell's equations with the same squared frequency. On every grid where no plane wave has `kx = 0, ky ≠ 0`
the operator has at least `m` bands (counted with multiplicity) within `K T / σ` of it: `K` bounds the wave vectors of the grid, `T` is the sum of the
coefficients of the fields that the grid does not represent, and `σ` measures how independent the modes are on the grid. -/
theorem C164_grid (hs : ∀ a, 0 < sh a) (hg : Good k0 G sh) {eps : Fin 3 → (Fin 3 → ℝ) → ℝ} {e0 : ℝ} (he0 : 0 < e0) (heps : ∀ c s, e0 ≤ eps c s) {lam : ℝ} (hl : lam ≠ 0)
    {m : ℕ} {h e : Fin m → (Fin 3 → ℤ) → Fin 3 → ℂ} (hmode : ∀ j, BandMode k0 G eps lam (h j) (e j)) {K : ℝ} (hK : ∀ x : Idx sh, norm3 (kxyz k0 G x) ≤ K)
    {σ : ℝ} (hσ : 0 < σ) (hind : ∀ c : Fin m → ℂ, σ * ∑ j, ‖c j‖ ≤ √(∑ x : Idx sh, ∑ a, normSq (∑ j, c j * h j (freqOf x) a)))
    {A : Matrix (Fin 2 × Idx sh) (Fin 2 × Idx sh) ℂ} (hA : IsMatrixOf k0 G (sampleEps eps sh) A) :
    ∃ H : (-A).IsHermitian, m ≤ (Finset.univ.filter fun i => |H.eigenvalues i - lam| ≤ K * (∑ j, modeTail k0 G sh e0 (h j) (e j)) / σ).card := by
  classical
  have hp : PosReal (sampleEps eps sh) := fun c x => ⟨_, he0.trans_le (heps c _), rfl⟩
  obtain ⟨n, hn, hx⟩ := nAll_regular k0 G (hg.regular k0 G)
  have H := (hA.negHermitian k0 G (hg.regular k0 G) hp).1
  refine ⟨H, ?_⟩
  have hK0 : 0 ≤ K := (norm3_nonneg _).trans (hK fun a => ⟨0, hs a⟩)
  let v : Fin m → Fin 2 × Idx sh → ℂ := fun j p => modeCoeff k0 G n lam (e j) p.1 p.2
  have hres := fun j => mode_residual hs hg hn hx he0 heps hl (hmode j) hK (hA (modeCoeff k0 G n lam (e j)))
  have hT : ∀ j, 0 ≤ modeTail k0 G sh e0 (h j) (e j) := fun j => Finset.sum_nonneg fun c _ =>
    add_nonneg (tsum_nonneg fun g => by split_ifs <;> positivity) (div_nonneg (tsum_nonneg fun g => by split_ifs <;> positivity) he0.le)
  -- the norm of a combination
  have hnorm : ∀ c : Fin m → ℂ, ∑ p, normSq ((∑ j, c j • v j) p) = ∑ x : Idx sh, ∑ a, normSq (∑ j, c j * h j (freqOf x) a) := by
    intro c
    rw [Fintype.sum_prod_type, Fin.sum_univ_two, ← Finset.sum_add_distrib]
    refine Finset.sum_congr rfl fun x _ => ?_
    obtain ⟨n1, n2, -⟩ := nVec_some k0 G (hx x)
    rw [← pythagoras (mVec_unit k0 G x) n1 n2]
    refine Finset.sum_congr rfl fun a _ => ?_
    congr 1
    simp only [Finset.sum_apply, Pi.smul_apply, smul_eq_mul, Finset.mul_sum, ← Finset.sum_add_distrib]
    refine Finset.sum_congr rfl fun j _ => ?_
    rw [← (modeCoeff_spec hg hx hl (hmode j).faraday x a).1]
    simp only [v]
    ring
  -- the residual of a combination
  have hcomb : ∀ c : Fin m → ℂ, √(∑ p, normSq ((-A *ᵥ ∑ j, c j • v j) p - lam * (∑ j, c j • v j) p)) ≤ (∑ j, ‖c j‖) * (K * ∑ j, modeTail k0 G sh e0 (h j) (e j)) := by
    intro c
    let r : Fin m → EuclideanSpace ℂ (Fin 2 × Idx sh) := fun j => WithLp.toLp 2 (-A *ᵥ v j - (lam : ℂ) • v j)
    have e1 : √(∑ p, normSq ((-A *ᵥ ∑ j, c j • v j) p - lam * (∑ j, c j • v j) p)) = ‖∑ j, c j • r j‖ := by
      rw [norm_eq_sqrt]
      congr 1
      refine Finset.sum_congr rfl fun p _ => ?_
      congr 1
      have : (∑ j, c j • r j).ofLp = -A *ᵥ (∑ j, c j • v j) - (lam : ℂ) • ∑ j, c j • v j := by
        rw [mulVec_sum, Finset.smul_sum, ← Finset.sum_sub_distrib, WithLp.ofLp_sum]
        refine Finset.sum_congr rfl fun j _ => ?_
        rw [mulVec_smul, smul_comm (lam : ℂ), ← smul_sub]
        rfl
      rw [this]
      rfl
    have e2 : ∀ j, ‖r j‖ ≤ K * modeTail k0 G sh e0 (h j) (e j) := by
      intro j
      rw [norm_eq_sqrt, Real.sqrt_le_left (mul_nonneg hK0 (hT j))]
      refine le_trans (le_of_eq ?_) (hres j).1
      rw [Fintype.sum_prod_type]
      refine Finset.sum_congr rfl fun i _ => Finset.sum_congr rfl fun x _ => ?_
      rw [← normSq_neg]
      congr 1
      show -((-A *ᵥ v j) (i, x) - (lam : ℂ) * v j (i, x)) = _
      rw [neg_mulVec, Pi.neg_apply]
      simp only [v]
      ring
    rw [e1]
    refine (norm_sum_le _ _).trans ?_
    rw [Finset.sum_mul]
    refine Finset.sum_le_sum fun j _ => ?_
    rw [norm_smul]
    refine mul_le_mul_of_nonneg_left ((e2 j).trans ?_) (norm_nonneg _)
    exact mul_le_mul_of_nonneg_left (Finset.single_le_sum (fun j _ => hT j) (Finset.mem_univ j)) hK0
  have hη : 0 ≤ K * (∑ j, modeTail k0 G sh e0 (h j) (e j)) / σ := div_nonneg (mul_nonneg hK0 (Finset.sum_nonneg fun j _ => hT j)) hσ.le
  refine eigen_cluster H lam hη v (fun c hc hz => ?_) fun c => ?_
  · have h1 := hind c
    rw [← hnorm, hz] at h1
    simp only [Pi.zero_apply, map_zero, Finset.sum_const_zero, Real.sqrt_zero] at h1
    have h2 : ∑ j, ‖c j‖ ≤ 0 := by
      by_contra hcc
      push Not at hcc
      exact absurd h1 (not_le.2 (mul_pos hσ hcc))
    apply hc
    funext j
    have := (Finset.sum_eq_zero_iff_of_nonneg fun j _ => norm_nonneg (c j)).1 (le_antisymm h2 (Finset.sum_nonneg fun j _ => norm_nonneg _)) j (Finset.mem_univ _)
    exact norm_eq_zero.1 this
  · have h1 := hcomb c
    have h2 := hind c
    rw [← hnorm] at h2
    set X := ∑ p, normSq ((∑ j, c j • v j) p)
    have hX : 0 ≤ X := Finset.sum_nonneg fun p _ => normSq_nonneg _
    have h3 : √(∑ p, normSq ((-A *ᵥ ∑ j, c j • v j) p - lam * (∑ j, c j • v j) p)) ≤ K * (∑ j, modeTail k0 G sh e0 (h j) (e j)) / σ * √X := by
      refine h1.trans ?_
      have h4 : ∑ j, ‖c j‖ ≤ √X / σ := by rw [le_div_iff₀ hσ, mul_comm]; exact h2
      calc (∑ j, ‖c j‖) * (K * ∑ j, modeTail k0 G sh e0 (h j) (e j)) ≤ √X / σ * (K * ∑ j, modeTail k0 G sh e0 (h j) (e j)) :=
            mul_le_mul_of_nonneg_right h4 (mul_nonneg hK0 (Finset.sum_nonneg fun j _ => hT j))
        _ = _ := by ring
    have h5 := (Real.sqrt_le_left (mul_nonneg hη (Real.sqrt_nonneg X))).1 h3
    rw [mul_pow, Real.sq_sqrt hX] at h5
    exact h5

end

/-! ### Rates -/

/-- The size of a reciprocal lattice vector. -/
def gMax (g : Fin 3 → ℤ) : ℕ := Finset.univ.sup fun a => (g a).natAbs

theorem gMax_of_not_inGrid {sh : Fin 3 → ℕ} {n : ℕ} (hn : ∀ a, n ≤ sh a) {g : Fin 3 → ℤ} (hg : ¬ InGrid sh g) : n / 2 ≤ gMax g := by
  unfold InGrid at hg
  push Not at hg
  obtain ⟨a, ha⟩ := hg
  have h1 : (g a).natAbs ≤ gMax g := Finset.le_sup (f := fun a => (g a).natAbs) (Finset.mem_univ a)
  have := hn a
  by_cases h2 : -(sh a : ℤ) ≤ 2 * g a
  · have := ha h2
    omega
  · omega

theorem inGrid_of_gMax {sh : Fin 3 → ℕ} {g : Fin 3 → ℤ} (hg : ∀ a, 2 * gMax g < sh a) : InGrid sh g := by
  intro a
  have h1 : (g a).natAbs ≤ gMax g := Finset.le_sup (f := fun a => (g a).natAbs) (Finset.mem_univ a)
  have := hg a
  omega

/-- The tail decays at least as fast as the weights grow for which the series still converges. -/
theorem tail_le {sh : Fin 3 → ℕ} {n : ℕ} (hn : ∀ a, n ≤ sh a) {w : ℕ → ℝ} (hw : Monotone w) (hw0 : ∀ k, 0 < w k) {f : (Fin 3 → ℤ) → ℂ}
    (hf : Summable fun g => w (gMax g) * ‖f g‖) : tail sh f ≤ (∑' g, w (gMax g) * ‖f g‖) / w (n / 2) := by
  classical
  rw [le_div_iff₀ (hw0 _), tail, ← tsum_mul_right]
  have hle : ∀ g, (if InGrid sh g then 0 else ‖f g‖) * w (n / 2) ≤ w (gMax g) * ‖f g‖ := by
    intro g
    split_ifs with hg
    · rw [zero_mul]
      exact mul_nonneg (hw0 _).le (norm_nonneg _)
    · rw [mul_comm]
      exact mul_le_mul_of_nonneg_right (hw (gMax_of_not_inGrid hn hg)) (norm_nonneg _)
  refine Summable.tsum_le_tsum hle (Summable.of_nonneg_of_le (fun g => ?_) hle hf) hf
  split_ifs
  · rw [zero_mul]
  · exact mul_nonneg (norm_nonneg _) (hw0 _).le

/-- The wave vectors of a grid grow in proportion to its number of cells. -/
theorem kxyz_le (k0 : Fin 3 → ℝ) (G : Matrix (Fin 3) (Fin 3) ℝ) {sh : Fin 3 → ℕ} {n ρ : ℝ} (h1 : 1 ≤ n) (hn : ∀ a, (sh a : ℝ) ≤ ρ * n) (x : Idx sh) :
    norm3 (kxyz k0 G x) ≤ (∑ c, ∑ a, |G c a| * (|k0 a| + ρ)) * n := by
  have hc : ∀ c, |kxyz k0 G x c| ≤ (∑ a, |G c a| * (|k0 a| + ρ)) * n := by
    intro c
    show |∑ a, G c a * (k0 a - fftfreq (sh a) (x a))| ≤ _
    rw [Finset.sum_mul]
    refine (Finset.abs_sum_le_sum_abs _ _).trans (Finset.sum_le_sum fun a _ => ?_)
    rw [abs_mul, mul_assoc]
    refine mul_le_mul_of_nonneg_left ?_ (abs_nonneg _)
    have h2 : |(fftfreq (sh a) (x a) : ℝ)| ≤ sh a := by
      have h3 := freqOf_inGrid x a
      simp only [freqOf] at h3
      have h4 : |fftfreq (sh a) (x a)| ≤ sh a := by rw [abs_le]; omega
      exact_mod_cast h4
    have h5 := abs_sub (k0 a) (fftfreq (sh a) (x a) : ℝ)
    have h6 : |k0 a| ≤ |k0 a| * n := le_mul_of_one_le_right (abs_nonneg _) h1
    have := hn a
    calc |k0 a - (fftfreq (sh a) (x a) : ℝ)| ≤ |k0 a| + |(fftfreq (sh a) (x a) : ℝ)| := h5
      _ ≤ |k0 a| * n + ρ * n := by linarith
      _ = (|k0 a| + ρ) * n := by ring
  rw [Finset.sum_mul]
  refine le_trans ?_ (Finset.sum_le_sum fun c _ => hc c)
  rw [norm3, Real.sqrt_le_left (Finset.sum_nonneg fun _ _ => abs_nonneg _)]
  simp only [← sq_abs (kxyz k0 G x _)]
  exact Finset.sum_sq_le_sq_sum_of_nonneg fun _ _ => abs_nonneg _

/-- Independent fields are independent on finitely many plane waves. -/
theorem independent_finite {m : ℕ} {h : Fin m → (Fin 3 → ℤ) → Fin 3 → ℂ} (hind : LinearIndependent ℂ h) :
    ∃ (S : Finset (Fin 3 → ℤ)) (σ : ℝ), 0 < σ ∧ ∀ c : Fin m → ℂ, σ * ∑ j, ‖c j‖ ≤ √(∑ g ∈ S, ∑ a, normSq (∑ j, c j * h j g a)) := by
  classical
  let L : (S : Finset (Fin 3 → ℤ)) → (Fin m → ℂ) →ₗ[ℂ] (S → Fin 3 → ℂ) := fun S =>
    { toFun := fun c g a => ∑ j, c j * h j g.1 a
      map_add' := fun x y => by
        funext g a
        simp only [Pi.add_apply, add_mul, Finset.sum_add_distrib]
      map_smul' := fun r y => by
        funext g a
        simp only [Pi.smul_apply, smul_eq_mul, Finset.mul_sum, mul_assoc, RingHom.id_apply] }
  have hex : ∃ k, ∃ S, Module.finrank ℂ (LinearMap.ker (L S)) = k := ⟨_, ∅, rfl⟩
  obtain ⟨S, hS⟩ := Nat.find_spec hex
  have hker : LinearMap.ker (L S) = ⊥ := by
    by_contra hc
    obtain ⟨c, hcm, hc0⟩ := (Submodule.ne_bot_iff _).1 hc
    have hg : ∃ g a, ∑ j, c j * h j g a ≠ 0 := by
      by_contra hn
      push Not at hn
      apply hc0
      funext j
      refine Fintype.linearIndependent_iff.1 hind c ?_ j
      funext g a
      simp only [Finset.sum_apply, Pi.smul_apply, smul_eq_mul]
      exact hn g a
    obtain ⟨g, a, hga⟩ := hg
    have hlt : LinearMap.ker (L (insert g S)) < LinearMap.ker (L S) := by
      refine lt_of_le_of_ne (fun u hu => ?_) fun heq => ?_
      · rw [LinearMap.mem_ker] at hu ⊢
        funext y b
        exact congrFun (congrFun hu ⟨y.1, Finset.mem_insert_of_mem y.2⟩) b
      · have : c ∈ LinearMap.ker (L (insert g S)) := by rw [heq]; exact hcm
        rw [LinearMap.mem_ker] at this
        exact hga (congrFun (congrFun this ⟨g, Finset.mem_insert_self g S⟩) a)
    have h1 := Submodule.finrank_lt_finrank_of_lt hlt
    have h2 := Nat.find_min' hex ⟨insert g S, rfl⟩
    omega
  obtain ⟨k, hk, hanti⟩ := (L S).exists_antilipschitzWith hker
  have hk' : (0 : ℝ) < k := hk
  refine ⟨S, 1 / ((m + 1) * k), by positivity, fun c => ?_⟩
  have h1 : ‖c‖ ≤ k * ‖L S c‖ := by
    have := hanti.le_mul_dist c 0
    rwa [map_zero, dist_zero_right, dist_zero_right] at this
  have h2 : ∑ j, ‖c j‖ ≤ (m + 1) * ‖c‖ := by
    calc ∑ j, ‖c j‖ ≤ ∑ _j : Fin m, ‖c‖ := Finset.sum_le_sum fun j _ => norm_le_pi_norm c j
      _ = m * ‖c‖ := by rw [Finset.sum_const, Finset.card_univ, Fintype.card_fin, nsmul_eq_mul]
      _ ≤ (m + 1) * ‖c‖ := by nlinarith [norm_nonneg c]
  have h3 : ‖L S c‖ ≤ √(∑ g ∈ S, ∑ a, normSq (∑ j, c j * h j g a)) := by
    refine (pi_norm_le_iff_of_nonneg (Real.sqrt_nonneg _)).2 fun g => (pi_norm_le_iff_of_nonneg (Real.sqrt_nonneg _)).2 fun a => ?_
    refine Real.le_sqrt_of_sq_le ?_
    rw [← normSq_eq_norm_sq]
    show normSq (∑ j, c j * h j g.1 a) ≤ _
    refine le_trans ?_ (Finset.single_le_sum (f := fun g => ∑ a, normSq (∑ j, c j * h j g a)) (fun g _ => Finset.sum_nonneg fun a _ => normSq_nonneg _) g.2)
    exact Finset.single_le_sum (f := fun a => normSq (∑ j, c j * h j g.1 a)) (fun a _ => normSq_nonneg _) (Finset.mem_univ a)
  rw [one_div, inv_mul_le_iff₀ (by positivity)]
  calc ∑ j, ‖c j‖ ≤ (m + 1) * ‖c‖ := h2
    _ ≤ (m + 1) * (k * ‖L S c‖) := by gcongr
    _ ≤ (m + 1) * (k * √(∑ g ∈ S, ∑ a, normSq (∑ j, c j * h j g a))) := by gcongr
    _ = _ := by ring

/-- **C164.** Take `m` independent modes of Maxwell's equations in a crystal with `eps ≥ e0 > 0`, with the same squared frequency `lam`, at a Bloch vector for
which no plane wave has `kx = 0, ky ≠ 0`. If the Fourier series of their fields `E` and `D` converge absolutely even with the weights `w (|g|)`, there is a `C`
such that on every fine enough grid, with `n` to `ρ n` cells along each axis, the operator built from the sampled permittivity has at least `m` bands (counted
with multiplicity) within `C n / w (n/2)` of `lam`. -/
theorem C164_bands {k0 : Fin 3 → ℝ} {G : Matrix (Fin 3) (Fin 3) ℝ} (hgood : ∀ g, ¬ (waveVec k0 G g 0 = 0 ∧ waveVec k0 G g 1 ≠ 0)) {eps : Fin 3 → (Fin 3 → ℝ) → ℝ}
    {e0 : ℝ} (he0 : 0 < e0) (heps : ∀ c s, e0 ≤ eps c s) {lam : ℝ} (hl : lam ≠ 0) {m : ℕ} {h e : Fin m → (Fin 3 → ℤ) → Fin 3 → ℂ}
    (hmode : ∀ j, BandMode k0 G eps lam (h j) (e j)) (hind : LinearIndependent ℂ h) {w : ℕ → ℝ} (hw : Monotone w) (hw0 : ∀ k, 0 < w k)
    (hwe : ∀ j c, Summable fun g => w (gMax g) * ‖e j g c‖)
    (hwd : ∀ j c, Summable fun g => w (gMax g) * ‖cross (fun a => (waveVec k0 G g a : ℂ)) (h j g) c‖) (ρ : ℝ) :
    ∃ (C : ℝ) (n0 : ℕ), ∀ (n : ℕ) (sh : Fin 3 → ℕ), n0 ≤ n → (∀ a, n ≤ sh a) → (∀ a, (sh a : ℝ) ≤ ρ * n) →
      ∃ A : Matrix (Fin 2 × Idx sh) (Fin 2 × Idx sh) ℂ, IsMatrixOf k0 G (sampleEps eps sh) A ∧ ∃ H : (-A).IsHermitian,
        m ≤ (Finset.univ.filter fun i => |H.eigenvalues i - lam| ≤ C * n / w (n / 2)).card := by
  classical
  obtain ⟨S, σ, hσ, hS⟩ := independent_finite hind
  set CK := ∑ c, ∑ a, |G c a| * (|k0 a| + ρ) with hCK
  set CT := ∑ j, ∑ c, ((∑' g, w (gMax g) * ‖e j g c‖) + (∑' g, w (gMax g) * ‖cross (fun a => (waveVec k0 G g a : ℂ)) (h j g) c‖) / e0) with hCT
  refine ⟨CK * CT / σ, 2 * S.sup gMax + 1, fun n sh hn0 hn hρ => ?_⟩
  have hs : ∀ a, 0 < sh a := fun a => by have := hn a; omega
  have hg : Good k0 G sh := by
    rintro x k hw' hc
    rw [hw'.eq] at hc
    exact hgood (freqOf x) hc
  have hp : PosReal (sampleEps eps sh) := fun c x => ⟨_, he0.trans_le (heps c _), rfl⟩
  obtain ⟨A, -, hA⟩ := C59_matrix_partial k0 G (hg.regular k0 G) hp
  refine ⟨A, hA, ?_⟩
  have h1n : (1 : ℝ) ≤ n := by
    have : 1 ≤ n := by omega
    exact_mod_cast this
  have hK := kxyz_le k0 G (sh := sh) h1n hρ
  have hS' : ∀ g ∈ S, InGrid sh g := fun g hgS => inGrid_of_gMax fun a => by
    have := Finset.le_sup (f := gMax) hgS
    have := hn a
    omega
  have hindg : ∀ c : Fin m → ℂ, σ * ∑ j, ‖c j‖ ≤ √(∑ x : Idx sh, ∑ a, normSq (∑ j, c j * h j (freqOf x) a)) := by
    intro c
    refine (hS c).trans (Real.sqrt_le_sqrt ?_)
    have e1 : ∑ g ∈ S, ∑ a, normSq (∑ j, c j * h j g a) = ∑ x ∈ S.image (cellFor hs), ∑ a, normSq (∑ j, c j * h j (freqOf x) a) := by
      rw [Finset.sum_image fun g hgS g' hgS' hgg => by rw [← freqOf_cellFor hs (hS' g hgS), hgg, freqOf_cellFor hs (hS' g' hgS')]]
      exact Finset.sum_congr rfl fun g hgS => by rw [freqOf_cellFor hs (hS' g hgS)]
    rw [e1]
    exact Finset.sum_le_sum_of_subset_of_nonneg (Finset.subset_univ _) fun x _ _ => Finset.sum_nonneg fun a _ => normSq_nonneg _
  obtain ⟨H, hH⟩ := C164_grid hs hg he0 heps hl hmode hK hσ hindg hA
  refine ⟨H, hH.trans (Finset.card_le_card fun i hi => ?_)⟩
  rw [Finset.mem_filter] at hi ⊢
  refine ⟨hi.1, hi.2.trans ?_⟩
  have hw' := hw0 (n / 2)
  have hTle : ∑ j, modeTail k0 G sh e0 (h j) (e j) ≤ CT / w (n / 2) := by
    rw [hCT, Finset.sum_div]
    refine Finset.sum_le_sum fun j _ => ?_
    rw [modeTail, Finset.sum_div]
    refine Finset.sum_le_sum fun c _ => ?_
    rw [add_div, div_right_comm]
    exact add_le_add (tail_le hn hw hw0 (hwe j c)) (div_le_div_of_nonneg_right (tail_le hn hw hw0 (hwd j c)) he0.le)
  have hρ0 : 0 ≤ ρ := by
    have h3 := hρ 0
    have h4 : (0 : ℝ) ≤ sh 0 := Nat.cast_nonneg _
    by_contra hc
    push Not at hc
    have : ρ * n < 0 := mul_neg_of_neg_of_pos hc (by linarith)
    linarith
  have hCK0 : 0 ≤ CK := Finset.sum_nonneg fun c _ => Finset.sum_nonneg fun a _ => mul_nonneg (abs_nonneg _) (by positivity)
  calc CK * n * (∑ j, modeTail k0 G sh e0 (h j) (e j)) / σ ≤ CK * n * (CT / w (n / 2)) / σ := by gcongr
    _ = CK * CT / σ * n / w (n / 2) := by ring

/-- Smooth fields: if the coefficients decay fast enough for the series to converge with the weights `|g|^(p+1)`, the error is at most `C / n^p`. -/
theorem C164_algebraic {k0 : Fin 3 → ℝ} {G : Matrix (Fin 3) (Fin 3) ℝ} (hgood : ∀ g, ¬ (waveVec k0 G g 0 = 0 ∧ waveVec k0 G g 1 ≠ 0)) {eps : Fin 3 → (Fin 3 → ℝ) → ℝ}
    {e0 : ℝ} (he0 : 0 < e0) (heps : ∀ c s, e0 ≤ eps c s) {lam : ℝ} (hl : lam ≠ 0) {m : ℕ} {h e : Fin m → (Fin 3 → ℤ) → Fin 3 → ℂ}
    (hmode : ∀ j, BandMode k0 G eps lam (h j) (e j)) (hind : LinearIndependent ℂ h) (p : ℕ)
    (hwe : ∀ j c, Summable fun g => ((gMax g : ℝ) + 1) ^ (p + 1) * ‖e j g c‖)
    (hwd : ∀ j c, Summable fun g => ((gMax g : ℝ) + 1) ^ (p + 1) * ‖cross (fun a => (waveVec k0 G g a : ℂ)) (h j g) c‖) (ρ : ℝ) :
    ∃ (C : ℝ) (n0 : ℕ), ∀ (n : ℕ) (sh : Fin 3 → ℕ), n0 ≤ n → (∀ a, n ≤ sh a) → (∀ a, (sh a : ℝ) ≤ ρ * n) →
      ∃ A : Matrix (Fin 2 × Idx sh) (Fin 2 × Idx sh) ℂ, IsMatrixOf k0 G (sampleEps eps sh) A ∧ ∃ H : (-A).IsHermitian,
        m ≤ (Finset.univ.filter fun i => |H.eigenvalues i - lam| ≤ C / (n : ℝ) ^ p).card := by
  obtain ⟨C, n0, hC⟩ := C164_bands hgood he0 heps hl hmode hind (w := fun k => ((k : ℝ) + 1) ^ (p + 1))
    (fun a b hab => by
      have : (a : ℝ) ≤ b := by exact_mod_cast hab
      show ((a : ℝ) + 1) ^ (p + 1) ≤ ((b : ℝ) + 1) ^ (p + 1)
      gcongr) (fun k => by positivity) hwe hwd ρ
  refine ⟨|C| * 2 ^ (p + 1), n0 + 1, fun n sh hn h1 h2 => ?_⟩
  obtain ⟨A, hA, H, hH⟩ := hC n sh (by omega) h1 h2
  refine ⟨A, hA, H, hH.trans (Finset.card_le_card fun i hi => ?_)⟩
  rw [Finset.mem_filter] at hi ⊢
  refine ⟨hi.1, hi.2.trans ?_⟩
  have hn0 : (0 : ℝ) < n := by
    have : 0 < n := by omega
    exact_mod_cast this
  have hhalf : (n : ℝ) / 2 ≤ ((n / 2 : ℕ) : ℝ) + 1 := by
    have : n ≤ 2 * (n / 2) + 2 := by omega
    have : (n : ℝ) ≤ 2 * ((n / 2 : ℕ) : ℝ) + 2 := by exact_mod_cast this
    linarith
  calc C * n / (((n / 2 : ℕ) : ℝ) + 1) ^ (p + 1) ≤ |C| * n / (((n / 2 : ℕ) : ℝ) + 1) ^ (p + 1) := by gcongr; exact le_abs_self C
    _ ≤ |C| * n / ((n : ℝ) / 2) ^ (p + 1) := by gcongr
    _ = |C| * 2 ^ (p + 1) / (n : ℝ) ^ p := by
      rw [div_pow, pow_succ (n : ℝ) p]
      field_simp

/-! ### A case: a crystal modulated along `y` -/

/-- The permittivity `9/4 + cos / (2 + cos)` along `z`, modulated along `y`. -/
noncomputable def modulated (c : Fin 3) (s : Fin 3 → ℝ) : ℝ :=
  if c = 2 then 9 / 4 + Real.cos (2 * Real.pi * s 1) / (2 + Real.cos (2 * Real.pi * s 1)) else 2

/-- The electric field `2 + cos (2 pi y)` along `z`. -/
noncomputable def modE (g : Fin 3 → ℤ) (c : Fin 3) : ℂ :=
  if c = 2 then (if g = 0 then 2 else if g = ![0, 1, 0] ∨ g = ![0, -1, 0] then 1 / 2 else 0) else 0

/-- Its magnetic field. -/
noncomputable def modH (g : Fin 3 → ℤ) (c : Fin 3) : ℂ := -cross (fun a => (waveVec ![3 / 2, 0, 0] 1 g a : ℂ)) (modE g) c

theorem waveVec_mod (g : Fin 3 → ℤ) : waveVec ![3 / 2, 0, 0] 1 g = ![3 / 2 - (g 0 : ℝ), -(g 1 : ℝ), -(g 2 : ℝ)] := by
  funext c
  simp only [waveVec, Fin.sum_univ_three, Matrix.one_apply]
  fin_cases c <;> simp

theorem modE_support {g : Fin 3 → ℤ} (hg : g ∉ ({0, ![0, 1, 0], ![0, -1, 0]} : Finset (Fin 3 → ℤ))) (c : Fin 3) : modE g c = 0 := by
  simp only [Finset.mem_insert, Finset.mem_singleton, not_or] at hg
  simp [modE, hg.1, hg.2.1, hg.2.2]

theorem modD_support {g : Fin 3 → ℤ} (hg : g ∉ ({0, ![0, 1, 0], ![0, -1, 0]} : Finset (Fin 3 → ℤ))) (c : Fin 3) :
    cross (fun a => (waveVec ![3 / 2, 0, 0] 1 g a : ℂ)) (modH g) c = 0 := by
  have h1 : modE g = 0 := funext (modE_support hg)
  have h2 : modH g = 0 := by
    funext c
    rw [modH, h1]
    fin_cases c <;> simp [cross]
  rw [h2]
  fin_cases c <;> simp [cross]

theorem mod_sum {f : (Fin 3 → ℤ) → ℂ} (hf : ∀ g, g ∉ ({0, ![0, 1, 0], ![0, -1, 0]} : Finset (Fin 3 → ℤ)) → f g = 0) :
    ∑' g, f g = f 0 + (f ![0, 1, 0] + f ![0, -1, 0]) := by
  rw [tsum_eq_sum hf, Finset.sum_insert, Finset.sum_insert, Finset.sum_singleton]
  · decide
  · decide

theorem modulated_mode : BandMode ![3 / 2, 0, 0] 1 modulated 1 modH modE where
  summable_d c := summable_of_ne_finset_zero fun g hg => by rw [modD_support hg, norm_zero]
  summable_e c := summable_of_ne_finset_zero fun g hg => by rw [modE_support hg, norm_zero]
  ampere c s := by
    rw [mod_sum fun g hg => by rw [modE_support hg, zero_mul], mod_sum fun g hg => by rw [modD_support hg, zero_mul]]
    have hne : (![0, 1, 0] : Fin 3 → ℤ) ≠ 0 := by decide
    have hne' : (![0, -1, 0] : Fin 3 → ℤ) ≠ 0 := by decide
    have hcos : (Real.cos (2 * Real.pi * s 1) : ℂ) = (bandWave ![0, 1, 0] s + bandWave ![0, -1, 0] s) / 2 := by
      rw [Complex.ofReal_cos, Complex.cos]
      simp only [bandWave, Fin.sum_univ_three]
      congr 2
      · congr 1; push_cast; simp; ring
      · congr 1; push_cast; simp; ring
    have h0 : bandWave 0 s = 1 := by simp [bandWave]
    have hpos : (2 : ℂ) + Real.cos (2 * Real.pi * s 1) ≠ 0 := by
      have h1 := Real.neg_one_le_cos (2 * Real.pi * s 1)
      have : (2 : ℝ) + Real.cos (2 * Real.pi * s 1) ≠ 0 := by linarith
      exact_mod_cast this
    have hE : ∀ c, modE 0 c = if c = 2 then 2 else 0 := fun c => by simp [modE]
    have hE1 : ∀ c, modE ![0, 1, 0] c = if c = 2 then 1 / 2 else 0 := fun c => by simp [modE, hne]
    have hE2 : ∀ c, modE ![0, -1, 0] c = if c = 2 then 1 / 2 else 0 := fun c => by simp [modE, hne']
    by_cases hc : c = 2
    · subst hc
      simp only [h0, hE, hE1, hE2, cross, modH, waveVec_mod, modulated]
      simp
      push_cast at hcos hpos
      generalize bandWave ![0, 1, 0] s = u at *
      generalize bandWave ![0, -1, 0] s = v at *
      have hv : v = 2 * cos (2 * Real.pi * s 1) - u := by rw [hcos]; ring
      generalize cos (2 * Real.pi * s 1 : ℂ) = t at *
      rw [hv]
      field_simp
      ring
    · fin_cases c
      · simp [h0, hE, hE1, hE2, cross, modH, waveVec_mod]
      · simp [h0, hE, hE1, hE2, cross, modH, waveVec_mod]
      · exact absurd rfl hc
  faraday g c := by rw [modH]; simp

theorem C164_case (ρ : ℝ) : ∃ (C : ℝ) (n0 : ℕ), ∀ (n : ℕ) (sh : Fin 3 → ℕ), n0 ≤ n → (∀ a, n ≤ sh a) → (∀ a, (sh a : ℝ) ≤ ρ * n) →
    ∃ A : Matrix (Fin 2 × Idx sh) (Fin 2 × Idx sh) ℂ, IsMatrixOf ![3 / 2, 0, 0] 1 (sampleEps modulated sh) A ∧ ∃ H : (-A).IsHermitian,
      1 ≤ (Finset.univ.filter fun i => |H.eigenvalues i - 1| ≤ C * n / 3 ^ (n / 2)).card := by
  refine C164_bands (m := 1) (h := fun _ => modH) (e := fun _ => modE) (w := fun k => 3 ^ k) (fun g hg => ?_) (e0 := 5 / 4) (by norm_num) (fun c s => ?_) one_ne_zero
    (fun _ => modulated_mode) ?_ (fun a b hab => pow_le_pow_right₀ (by norm_num) hab) (fun k => by positivity)
    (fun _ c => summable_of_ne_finset_zero fun g hg => by rw [modE_support hg, norm_zero, mul_zero])
    (fun _ c => summable_of_ne_finset_zero fun g hg => by rw [modD_support hg, norm_zero, mul_zero]) ρ
  · rw [waveVec_mod] at hg
    have h1 : (3 / 2 : ℝ) - g 0 = 0 := hg.1
    have h2 : (3 : ℝ) = 2 * g 0 := by linarith
    have h3 : (3 : ℤ) = 2 * g 0 := by exact_mod_cast h2
    omega
  · have h1 := Real.neg_one_le_cos (2 * Real.pi * s 1)
    rw [modulated]
    split_ifs
    · have h2 : -1 ≤ Real.cos (2 * Real.pi * s 1) / (2 + Real.cos (2 * Real.pi * s 1)) := by
        rw [le_div_iff₀ (by linarith)]
        linarith
      linarith
    · norm_num
  · refine linearIndependent_unique_iff.2 fun h0 => ?_
    have h1 := congrFun (congrFun h0 0) 1
    simp [modH, cross, waveVec_mod, modE] at h1

end Meanas.Props
