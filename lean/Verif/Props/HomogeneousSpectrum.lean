/-
C131: exact spectra of homogeneous media, for meanas/fdfd/operators.py:40-96 (`e_full`), meanas/fdfd/waveguide_2d.py:151-296 (`operator_e`, `operator_h`) and
meanas/fdfd/bloch.py:183-273 (`maxwell_operator`).
-/
import Verif.Props.BlochInvariance
import Verif.Props.Resonances
import Verif.Props.FdfdWaves
import Verif.Props.Waveguide2d
import Verif.Props.Bloch

namespace Meanas.Props

open Matrix Complex Spec

section fourier
variable {d : ℕ} {sh : Fin d → ℕ}

open Meanas.Bloch

/-- Fourier multiplier of the forward difference. -/
noncomputable def symF (a : Fin d) (δ : ℂ) (k : Idx sh) : ℂ := (cellPhase a 1 k - 1) / δ
/-- Fourier multiplier of the backward difference. -/
noncomputable def symB (a : Fin d) (δ : ℂ) (k : Idx sh) : ℂ := (1 - (cellPhase a 1 k)⁻¹) / δ

theorem fftn_add (f g : Arr sh ℂ) (k : Idx sh) : fftn (fun x => f x + g x) k = fftn f k + fftn g k := by
  simp only [fftn, mul_add, Finset.sum_add_distrib]
theorem fftn_sub (f g : Arr sh ℂ) (k : Idx sh) : fftn (fun x => f x - g x) k = fftn f k - fftn g k := by
  simp only [fftn, mul_sub, Finset.sum_sub_distrib]
theorem fftn_mul (c : ℂ) (f : Arr sh ℂ) (k : Idx sh) : fftn (fun x => c * f x) k = c * fftn f k := congrFun (fftn_smul c f) k
theorem fftn_div (c : ℂ) (f : Arr sh ℂ) (k : Idx sh) : fftn (fun x => f x / c) k = fftn f k / c := by
  simp only [div_eq_inv_mul]; exact fftn_mul _ _ _

theorem fftn_fwd (a : Fin d) (δ : ℂ) (f : Arr sh ℂ) (k : Idx sh) : fftn (fun x => (f (shiftIdx a 1 x) - f x) / δ) k = symF a δ k * fftn f k := by
  rw [fftn_div, fftn_sub, fftn_shift, symF]; ring
theorem fftn_bwd (a : Fin d) (δ : ℂ) (f : Arr sh ℂ) (k : Idx sh) : fftn (fun x => (f x - f (shiftIdx a (-1) x)) / δ) k = symB a δ k * fftn f k := by
  rw [fftn_div, fftn_sub, fftn_shift, symB, phase_neg]; ring

theorem fftn_ne {f : Arr sh ℂ} (hf : f ≠ 0) : ∃ k, fftn f k ≠ 0 := by
  by_contra h
  push Not at h
  apply hf
  rw [← ifftn_fftn f, show fftn f = 0 from funext h]
  funext x; simp [ifftn]

/-- Squared discrete wavenumber along one axis. -/
noncomputable def sinSq (a : Fin d) (δ : ℂ) (k : Idx sh) : ℂ := (2 * Complex.sin (Real.pi * (k a : ℕ) / (sh a : ℕ)) / δ) ^ 2

theorem sym_mul (a : Fin d) (δ : ℂ) (k : Idx sh) : symB a δ k * symF a δ k = -sinSq a δ k := by
  have hz := phase_ne_zero a 1 k
  set t : ℂ := Real.pi * (k a : ℕ) / (sh a : ℕ) with ht
  have e1 : cellPhase a 1 k = exp (t * I) * exp (t * I) := by
    rw [← exp_add, cellPhase, ht]; congr 1; push_cast; ring
  have e2 : exp (-t * I) = (exp (t * I))⁻¹ := by rw [← exp_neg]; congr 1; ring
  rw [symB, symF, sinSq, Complex.sin, e2, e1]
  have hx : exp (t * I) ≠ 0 := exp_ne_zero _
  generalize exp (t * I) = z at hx
  by_cases hδ : δ = 0
  · subst hδ; simp
  · field_simp
    linear_combination (z ^ 2 - 1) ^ 2 * I_sq

end fourier

section box
variable {sh : Fin 3 → ℕ}

open Fdfd Solvers

theorem exists_transverse (K : Fin 3 → ℂ) : ∃ v : Fin 3 → ℂ, v ≠ 0 ∧ ∑ a, K a * v a = 0 := by
  by_cases h0 : K 0 = 0
  · refine ⟨![1, 0, 0], fun h => one_ne_zero (congrFun h 0), ?_⟩
    simp [Fin.sum_univ_three, h0]
  · refine ⟨![-K 1, K 0, 0], fun h => h0 (congrFun h 1), ?_⟩
    simp [Fin.sum_univ_three]; ring

/-- C131: the resonances of a homogeneous periodic box are those of its plane waves, and no others: `ω² ε μ = Σ_a (2 sin(π n_a / N_a) / d_a)²`. -/
theorem C131_box (ε μ : ℂ) (hε : ε ≠ 0) (hμ : μ ≠ 0) (d : Fin 3 → ℂ) (hd : ∀ a, d a ≠ 0) (ω : ℂ) :
    ω ∈ resonances (uniDx d) (fun _ : Pos sh => ε) (some fun _ => μ) none none ↔
      ∃ n : Idx sh, ω ^ 2 * ε * μ = ∑ a, (2 * Complex.sin (Real.pi * (n a : ℕ) / (sh a : ℕ)) / d a) ^ 2 := by
  constructor
  · rintro ⟨F, hF0, -, hF⟩
    obtain ⟨p₀, hp₀⟩ : ∃ p, F p ≠ 0 := by by_contra h; push Not at h; exact hF0 (funext h)
    have hpos : ∀ a, 0 < sh a := fun a => (p₀.2 a).pos
    by_cases hω : ω = 0
    · refine ⟨fun a => ⟨0, hpos a⟩, ?_⟩
      simp [hω]
    · have hne : (fun x => F (p₀.1, x)) ≠ 0 := fun h => hp₀ (congrFun h p₀.2)
      obtain ⟨k, hk⟩ := fftn_ne hne
      have eq : ∀ p, cH (uniDx d) (cE (uniDx d) F) p = ω ^ 2 * ε * μ * F p := by
        intro p
        have h := congrFun hF p
        rw [eFull_mulVec, Pi.zero_apply, sub_eq_zero] at h
        have e : (fun q => cE (uniDx d) F q / muV (some fun _ => μ) q) = fun q => μ⁻¹ * cE (uniDx d) F q := by
          funext q; rw [muV_some, div_eq_inv_mul]
        rw [e, cH_smul] at h
        field_simp at h
        linear_combination h
      set T : Fin 3 → ℂ := fun c => Meanas.Bloch.fftn (fun x => F (c, x)) k with hT
      obtain ⟨f, hf⟩ : ∃ f : Fin 3 → ℂ, ∀ a, f a = symF a (d a) k := ⟨_, fun _ => rfl⟩
      obtain ⟨b, hb⟩ : ∃ b : Fin 3 → ℂ, ∀ a, b a = symB a (d a) k := ⟨_, fun _ => rfl⟩
      have gF : ∀ (g : Arr sh ℂ) a, Meanas.Bloch.fftn (fun x => Functional.derivForward (some (uniDx (sh := sh) d).1) a g x) k = f a * Meanas.Bloch.fftn g k := by
        intro g a
        rw [hf, ← fftn_fwd]; congr 1
      have gB : ∀ (g : Arr sh ℂ) a, Meanas.Bloch.fftn (fun x => Functional.derivBack (some (uniDx (sh := sh) d).2) a g x) k = b a * Meanas.Bloch.fftn g k := by
        intro g a
        rw [hb, ← fftn_bwd]; congr 1
      have cEh : ∀ c, Meanas.Bloch.fftn (fun x => cE (uniDx d) F (c, x)) k = f (c + 1) * T (c + 2) - f (c + 2) * T (c + 1) := by
        refine forall_fin3 ?_ ?_ ?_
        · have : (fun x => cE (uniDx d) F (0, x)) = fun x => Functional.derivForward (some (uniDx d).1) 1 (fun y => F (2, y)) x
              - Functional.derivForward (some (uniDx d).1) 2 (fun y => F (1, y)) x := by funext x; exact curlForward_0 _ _ x
          rw [this, fftn_sub, gF, gF]; rfl
        · have : (fun x => cE (uniDx d) F (1, x)) = fun x => Functional.derivForward (some (uniDx d).1) 2 (fun y => F (0, y)) x
              - Functional.derivForward (some (uniDx d).1) 0 (fun y => F (2, y)) x := by funext x; exact curlForward_1 _ _ x
          rw [this, fftn_sub, gF, gF]; rfl
        · have : (fun x => cE (uniDx d) F (2, x)) = fun x => Functional.derivForward (some (uniDx d).1) 0 (fun y => F (1, y)) x
              - Functional.derivForward (some (uniDx d).1) 1 (fun y => F (0, y)) x := by funext x; exact curlForward_2 _ _ x
          rw [this, fftn_sub, gF, gF]; rfl
      obtain ⟨U, hU⟩ : ∃ U : Fin 3 → ℂ, ∀ c, U c = Meanas.Bloch.fftn (fun x => cE (uniDx d) F (c, x)) k := ⟨_, fun _ => rfl⟩
      have cHh : ∀ c, Meanas.Bloch.fftn (fun x => cH (uniDx d) (cE (uniDx d) F) (c, x)) k = b (c + 1) * U (c + 2) - b (c + 2) * U (c + 1) := by
        refine forall_fin3 ?_ ?_ ?_
        · have : (fun x => cH (uniDx d) (cE (uniDx d) F) (0, x)) = fun x => Functional.derivBack (some (uniDx d).2) 1 (fun y => cE (uniDx d) F (2, y)) x
              - Functional.derivBack (some (uniDx d).2) 2 (fun y => cE (uniDx d) F (1, y)) x := by funext x; exact curlBack_0 _ _ x
          rw [this, fftn_sub, gB, gB, hU, hU]; rfl
        · have : (fun x => cH (uniDx d) (cE (uniDx d) F) (1, x)) = fun x => Functional.derivBack (some (uniDx d).2) 2 (fun y => cE (uniDx d) F (0, y)) x
              - Functional.derivBack (some (uniDx d).2) 0 (fun y => cE (uniDx d) F (2, y)) x := by funext x; exact curlBack_1 _ _ x
          rw [this, fftn_sub, gB, gB, hU, hU]; rfl
        · have : (fun x => cH (uniDx d) (cE (uniDx d) F) (2, x)) = fun x => Functional.derivBack (some (uniDx d).2) 0 (fun y => cE (uniDx d) F (1, y)) x
              - Functional.derivBack (some (uniDx d).2) 1 (fun y => cE (uniDx d) F (0, y)) x := by funext x; exact curlBack_2 _ _ x
          rw [this, fftn_sub, gB, gB, hU, hU]; rfl
      have main : ∀ c, b (c + 1) * U (c + 2) - b (c + 2) * U (c + 1) = ω ^ 2 * ε * μ * T c := by
        intro c
        rw [← cHh, hT, ← fftn_mul]
        congr 1; funext x; exact eq _
      have m0 := main 0
      have m1 := main 1
      have m2 := main 2
      have u0 := (hU 0).trans (cEh 0)
      have u1 := (hU 1).trans (cEh 1)
      have u2 := (hU 2).trans (cEh 2)
      simp only [show (0 : Fin 3) + 1 = 1 from rfl, show (0 : Fin 3) + 2 = 2 from rfl, show (1 : Fin 3) + 1 = 2 from rfl, show (1 : Fin 3) + 2 = 0 from rfl,
        show (2 : Fin 3) + 1 = 0 from rfl, show (2 : Fin 3) + 2 = 1 from rfl] at m0 m1 m2 u0 u1 u2
      have hW : ω ^ 2 * ε * μ ≠ 0 := mul_ne_zero (mul_ne_zero (pow_ne_zero 2 hω) hε) hμ
      have div0 : b 0 * T 0 + b 1 * T 1 + b 2 * T 2 = 0 := by
        refine (mul_eq_zero.1 ?_).resolve_left hW
        linear_combination -(b 0) * m0 - b 1 * m1 - b 2 * m2
      refine ⟨k, ?_⟩
      have hs : ∀ a, (2 * Complex.sin (Real.pi * (k a : ℕ) / (sh a : ℕ)) / d a) ^ 2 = -(b a * f a) := fun a => by
        rw [hb, hf, sym_mul, neg_neg]; rfl
      have key : ∀ c, (ω ^ 2 * ε * μ - ∑ a, (2 * Complex.sin (Real.pi * (k a : ℕ) / (sh a : ℕ)) / d a) ^ 2) * T c = 0 := by
        simp only [hs, Fin.sum_univ_three]
        rw [u2, u1] at m0
        rw [u0, u2] at m1
        rw [u1, u0] at m2
        refine forall_fin3 ?_ ?_ ?_
        · linear_combination -m0 + f 0 * div0
        · linear_combination -m1 + f 1 * div0
        · linear_combination -m2 + f 2 * div0
      exact sub_eq_zero.1 ((mul_eq_zero.1 (key p₀.1)).resolve_right hk)
  · rintro ⟨n, hn⟩
    have hpos : ∀ a, 0 < sh a := fun a => (n a).pos
    set k : Fin 3 → ℂ := fun a => 2 * Real.pi * (n a : ℕ) / ((sh a : ℕ) * d a) with hk
    have hN : ∀ a, ((sh a : ℕ) : ℂ) ≠ 0 := fun a => Nat.cast_ne_zero.2 (hpos a).ne'
    have hf : Fits sh k d := by
      intro a
      rw [show I * (k a * d a * (sh a : ℕ)) = (n a : ℕ) * (2 * Real.pi * I) by
        have := hd a; have := hN a; simp only [hk]; field_simp]
      exact_mod_cast Complex.exp_int_mul_two_pi_mul_I (n a : ℕ)
    have hkd : ∀ a, k a * d a / 2 = Real.pi * (n a : ℕ) / (sh a : ℕ) := fun a => by
      have := hd a; have := hN a; simp only [hk]; field_simp
    obtain ⟨v, hv, htr⟩ := exists_transverse (Kd k d)
    have := (C36_dispersion (sh := sh) ω ε μ hμ k d v hf hd hv htr hpos).2 (by rw [hn]; exact Finset.sum_congr rfl fun a _ => by rw [hkd])
    refine ⟨_, fun h => ?_, fun m hm => by simp at hm, this⟩
    obtain ⟨c0, hc0⟩ : ∃ c, v c ≠ 0 := by
      by_contra h; push Not at h; exact hv (funext h)
    have h1 := congrFun h (c0, n)
    exact mul_ne_zero (mul_ne_zero hc0 (exp_ne_zero _)) (exp_ne_zero _) h1

/-- The hypotheses are met by the vacuum; a box of 2-by-1-by-1 unit cells rings at `0` and `±2` only. -/
example (ω : ℂ) : ω ∈ resonances (sh := ![2, 1, 1]) (uniDx fun _ => 1) (fun _ => 1) (some fun _ => 1) none none ↔ ω ^ 2 = 0 ∨ ω ^ 2 = 4 := by
  rw [C131_box (sh := ![2, 1, 1]) 1 1 one_ne_zero one_ne_zero (fun _ => 1) (fun _ => one_ne_zero)]
  have h2 : Complex.sin (Real.pi * 1 / 2) = 1 := by rw [mul_one]; exact Complex.sin_pi_div_two
  have e1 : ∀ n : Idx ![2, 1, 1], (n 1 : ℕ) = 0 := fun n => Nat.lt_one_iff.1 (n 1).2
  have e2 : ∀ n : Idx ![2, 1, 1], (n 2 : ℕ) = 0 := fun n => Nat.lt_one_iff.1 (n 2).2
  have hk : ∀ n : Idx ![2, 1, 1], ∑ a, (2 * Complex.sin (Real.pi * (n a : ℕ) / ((![2, 1, 1] : Fin 3 → ℕ) a : ℕ)) / 1) ^ 2
      = 4 * Complex.sin (Real.pi * (n 0 : ℕ) / 2) ^ 2 := by
    intro n
    rw [Fin.sum_univ_three, e1 n, e2 n]; simp; ring
  simp only [hk, mul_one]
  constructor
  · rintro ⟨n, h⟩
    have : (n 0 : ℕ) < 2 := (n 0).2
    rw [h]
    interval_cases (n 0 : ℕ)
    · left; simp
    · right; push_cast; rw [h2]; ring
  · rintro (h | h)
    · exact ⟨fun a => match a with | 0 => (0 : Fin 2) | 1 => (0 : Fin 1) | 2 => (0 : Fin 1), by simp [h]⟩
    · refine ⟨fun a => match a with | 0 => (1 : Fin 2) | 1 => (0 : Fin 1) | 2 => (0 : Fin 1), ?_⟩
      have : (((1 : Fin 2) : ℕ) : ℂ) = 1 := by norm_num
      show _ = 4 * Complex.sin (Real.pi * (((1 : Fin 2) : ℕ) : ℂ) / 2) ^ 2
      rw [this, h2, h]; ring

end box

section waveguide
variable {sh : Fin 2 → ℕ}

open Wg2

/-- A cross-section with the same cell everywhere. -/
def uniDx2 (d : Fin 2 → ℂ) : Dx2 sh := (fun a _ => d a, fun a _ => d a)

theorem fftn_fw (d : Fin 2 → ℂ) (a : Fin 2) (f : Arr sh ℂ) (k : Idx sh) :
    Meanas.Bloch.fftn (fun x => fw (uniDx2 d) a f x) k = symF a (d a) k * Meanas.Bloch.fftn f k := by
  rw [← fftn_fwd]; congr 1
theorem fftn_bw (d : Fin 2 → ℂ) (a : Fin 2) (f : Arr sh ℂ) (k : Idx sh) :
    Meanas.Bloch.fftn (fun x => bw (uniDx2 d) a f x) k = symB a (d a) k * Meanas.Bloch.fftn f k := by
  rw [← fftn_bwd]; congr 1

/-- The squared propagation constant of the plane wave `n` in a medium `ε, μ`. -/
noncomputable def planeBetaSq (ω ε μ : ℂ) (d : Fin 2 → ℂ) (n : Idx sh) : ℂ :=
  ω ^ 2 * ε * μ - ∑ a, (2 * Complex.sin (Real.pi * (n a : ℕ) / (sh a : ℕ)) / d a) ^ 2

theorem planeBetaSq_sym (ω ε μ : ℂ) (d : Fin 2 → ℂ) (n : Idx sh) :
    planeBetaSq ω ε μ d n = ω ^ 2 * ε * μ + symB 0 (d 0) n * symF 0 (d 0) n + symB 1 (d 1) n * symF 1 (d 1) n := by
  rw [planeBetaSq, Fin.sum_univ_two, sym_mul, sym_mul]; simp only [sinSq]; ring

theorem forall_fin2 {P : Fin 2 → Prop} (h0 : P 0) (h1 : P 1) (c : Fin 2) : P c := by
  fin_cases c <;> assumption

variable (ω ε μ : ℂ) (hε : ε ≠ 0) (hμ : μ ≠ 0) (d : Fin 2 → ℂ) (mu : Option (V 3 sh)) (hmu : ∀ p, mu.getD 1 p = μ)
include hε hμ hmu

/-- In Fourier space `operator_e` is multiplication by the squared propagation constants. -/
theorem fftn_operatorE (v : V 2 sh) (c : Fin 2) (k : Idx sh) :
    Meanas.Bloch.fftn (fun x => (operatorE ω (uniDx2 d) (fun _ => ε) mu *ᵥ v) (c, x)) k
      = planeBetaSq ω ε μ d k * Meanas.Bloch.fftn (fun x => v (c, x)) k := by
  rw [planeBetaSq_sym]
  revert c
  refine forall_fin2 ?_ ?_
  · simp only [operatorE_0, hmu]
    rw [fftn_add, fftn_sub, fftn_mul, fftn_mul, fftn_mul, fftn_mul, fftn_bw, fftn_div, fftn_sub, fftn_fw, fftn_fw, fftn_fw, fftn_div, fftn_add, fftn_bw, fftn_bw, fftn_mul, fftn_mul]
    unfold part
    field_simp
    ring
  · simp only [operatorE_1, hmu]
    rw [fftn_add, fftn_add, fftn_mul, fftn_mul, fftn_mul, fftn_mul, fftn_bw, fftn_div, fftn_sub, fftn_fw, fftn_fw, fftn_fw, fftn_div, fftn_add, fftn_bw, fftn_bw, fftn_mul, fftn_mul]
    unfold part
    field_simp
    ring

/-- In Fourier space `operator_h` is multiplication by the squared propagation constants. -/
theorem fftn_operatorH (v : V 2 sh) (c : Fin 2) (k : Idx sh) :
    Meanas.Bloch.fftn (fun x => (operatorH ω (uniDx2 d) (fun _ => ε) mu *ᵥ v) (c, x)) k
      = planeBetaSq ω ε μ d k * Meanas.Bloch.fftn (fun x => v (c, x)) k := by
  rw [planeBetaSq_sym]
  revert c
  refine forall_fin2 ?_ ?_
  · simp only [operatorH_0, hmu]
    rw [fftn_add, fftn_sub, fftn_mul, fftn_mul, fftn_mul, fftn_mul, fftn_fw, fftn_div, fftn_sub, fftn_bw, fftn_bw, fftn_bw, fftn_div, fftn_add, fftn_fw, fftn_fw, fftn_mul, fftn_mul]
    unfold part
    field_simp
    ring
  · simp only [operatorH_1, hmu]
    rw [fftn_add, fftn_add, fftn_mul, fftn_mul, fftn_mul, fftn_mul, fftn_fw, fftn_div, fftn_sub, fftn_bw, fftn_bw, fftn_bw, fftn_div, fftn_add, fftn_fw, fftn_fw, fftn_mul, fftn_mul]
    unfold part
    field_simp
    ring

omit hε hμ hmu in
/-- An operator which multiplies Fourier coefficients by `σ` has the plane waves as eigenvectors and the values of `σ` as eigenvalues. -/
theorem multiplier_spectrum (A : M 2 2 sh) (σ : Idx sh → ℂ)
    (hA : ∀ v c k, Meanas.Bloch.fftn (fun x => (A *ᵥ v) (c, x)) k = σ k * Meanas.Bloch.fftn (fun x => v (c, x)) k) :
    (∀ (n : Idx sh) (p : Fin 2 → ℂ), A *ᵥ (fun q => p q.1 * exp (2 * Real.pi * I * ∑ a, ((n a : ℕ) : ℂ) * (q.2 a : ℕ) / (sh a : ℕ)))
        = σ n • fun q => p q.1 * exp (2 * Real.pi * I * ∑ a, ((n a : ℕ) : ℂ) * (q.2 a : ℕ) / (sh a : ℕ)))
      ∧ ∀ lam, IsEigenvalue A lam ↔ ∃ n, lam = σ n := by
  have hchi : ∀ n x : Idx sh, exp (2 * Real.pi * I * ∑ a, ((n a : ℕ) : ℂ) * (x a : ℕ) / (sh a : ℕ)) = Meanas.Bloch.chi n x := fun n x => by
    rw [Meanas.Bloch.chi, ← exp_sum, Finset.mul_sum]; congr 1
    exact Finset.sum_congr rfl fun a _ => by ring
  have hw : ∀ (n : Idx sh) (p : Fin 2 → ℂ), A *ᵥ (fun q => p q.1 * exp (2 * Real.pi * I * ∑ a, ((n a : ℕ) : ℂ) * (q.2 a : ℕ) / (sh a : ℕ)))
        = σ n • fun q => p q.1 * exp (2 * Real.pi * I * ∑ a, ((n a : ℕ) : ℂ) * (q.2 a : ℕ) / (sh a : ℕ)) := by
    intro n p
    set w : V 2 sh := fun q => p q.1 * exp (2 * Real.pi * I * ∑ a, ((n a : ℕ) : ℂ) * (q.2 a : ℕ) / (sh a : ℕ)) with hwd
    have hz : ∀ c k, k ≠ n → Meanas.Bloch.fftn (fun x => w (c, x)) k = 0 := by
      intro c k hk
      have e : (fun x => w (c, x)) = fun x => p c * Meanas.Bloch.chi n x := by funext x; rw [← hchi]
      rw [e, fftn_mul, Meanas.Bloch.fftn]
      have := Meanas.Bloch.sum_chi n k
      rw [if_neg fun h => hk h.symm] at this
      rw [mul_eq_zero]; right
      rw [← this]
      exact Finset.sum_congr rfl fun x _ => by rw [Meanas.Bloch.chi_comm x n, Meanas.Bloch.chi_comm x k, mul_comm]
    funext q
    have e2 : Meanas.Bloch.fftn (fun x => (A *ᵥ w) (q.1, x)) = Meanas.Bloch.fftn (fun x => σ n * w (q.1, x)) := by
      funext k
      rw [hA, fftn_mul]
      by_cases hk : k = n
      · rw [hk]
      · rw [hz _ _ hk, mul_zero, mul_zero]
    have e3 := congrArg Meanas.Bloch.ifftn e2
    rw [Meanas.Bloch.ifftn_fftn, Meanas.Bloch.ifftn_fftn] at e3
    exact congrFun e3 q.2
  refine ⟨hw, fun lam => ⟨?_, ?_⟩⟩
  · rintro ⟨v, hv, he⟩
    obtain ⟨q, hq⟩ : ∃ q, v q ≠ 0 := by by_contra h; push Not at h; exact hv (funext h)
    obtain ⟨k, hk⟩ := fftn_ne (f := fun x => v (q.1, x)) fun h => hq (congrFun h q.2)
    refine ⟨k, mul_right_cancel₀ hk ?_⟩
    rw [← hA, he, ← fftn_mul]; rfl
  · rintro ⟨n, rfl⟩
    refine ⟨_, fun h => ?_, hw n fun _ => 1⟩
    have := congrFun h (0, n)
    simp at this

/-- C131: a homogeneous cross-section has exactly the plane waves as modes, of any transverse polarisation, with `β² = ω² ε μ - Σ_a (2 sin(π n_a / N_a) / d_a)²`. -/
theorem C131_waveguide :
    (∀ (n : Idx sh) (p : Fin 2 → ℂ),
      operatorE ω (uniDx2 d) (fun _ => ε) mu *ᵥ (fun q => p q.1 * exp (2 * Real.pi * I * ∑ a, ((n a : ℕ) : ℂ) * (q.2 a : ℕ) / (sh a : ℕ)))
          = planeBetaSq ω ε μ d n • (fun q => p q.1 * exp (2 * Real.pi * I * ∑ a, ((n a : ℕ) : ℂ) * (q.2 a : ℕ) / (sh a : ℕ)))
        ∧ operatorH ω (uniDx2 d) (fun _ => ε) mu *ᵥ (fun q => p q.1 * exp (2 * Real.pi * I * ∑ a, ((n a : ℕ) : ℂ) * (q.2 a : ℕ) / (sh a : ℕ)))
          = planeBetaSq ω ε μ d n • (fun q => p q.1 * exp (2 * Real.pi * I * ∑ a, ((n a : ℕ) : ℂ) * (q.2 a : ℕ) / (sh a : ℕ))))
      ∧ ∀ lam, (IsEigenvalue (operatorE ω (uniDx2 d) (fun _ => ε) mu) lam
            ↔ ∃ n : Idx sh, lam = ω ^ 2 * ε * μ - ∑ a, (2 * Complex.sin (Real.pi * (n a : ℕ) / (sh a : ℕ)) / d a) ^ 2)
        ∧ (IsEigenvalue (operatorH ω (uniDx2 d) (fun _ => ε) mu) lam
            ↔ ∃ n : Idx sh, lam = ω ^ 2 * ε * μ - ∑ a, (2 * Complex.sin (Real.pi * (n a : ℕ) / (sh a : ℕ)) / d a) ^ 2) := by
  have hE := multiplier_spectrum _ _ (fftn_operatorE ω ε μ hε hμ d mu hmu)
  have hH := multiplier_spectrum _ _ (fftn_operatorH ω ε μ hε hμ d mu hmu)
  exact ⟨fun n p => ⟨hE.1 n p, hH.1 n p⟩, fun lam => ⟨hE.2 lam, hH.2 lam⟩⟩

omit hε hμ hmu in
/-- The hypotheses are met by the vacuum; a 3-by-1 cross-section has the `β²` values `ω²` and `ω² - 3`. -/
example (lam : ℂ) : IsEigenvalue (operatorE (sh := ![3, 1]) ω (uniDx2 fun _ => 1) (fun _ => 1) none) lam ↔ lam = ω ^ 2 ∨ lam = ω ^ 2 - 3 := by
  rw [((C131_waveguide (sh := ![3, 1]) ω 1 1 one_ne_zero one_ne_zero (fun _ => 1) none (fun _ => rfl)).2 lam).1]
  have h3 : (Complex.sin (Real.pi * 1 / 3)) ^ 2 = 3 / 4 := by
    rw [show (Real.pi * 1 / 3 : ℂ) = ((Real.pi / 3 : ℝ) : ℂ) by push_cast; ring, ← ofReal_sin, Real.sin_pi_div_three]
    norm_cast
    rw [div_pow, Real.sq_sqrt (by norm_num)]; norm_num
  have h4 : (Complex.sin (Real.pi * 2 / 3)) ^ 2 = 3 / 4 := by
    rw [← h3, show (Real.pi * 2 / 3 : ℂ) = Real.pi - Real.pi * 1 / 3 by ring, Complex.sin_pi_sub]
  have e : ∀ n : Idx ![3, 1], (n 1 : ℕ) = 0 := fun n => Nat.lt_one_iff.1 (n 1).2
  have hk : ∀ n : Idx ![3, 1], ω ^ 2 * 1 * 1 - ∑ a, (2 * Complex.sin (Real.pi * (n a : ℕ) / ((![3, 1] : Fin 2 → ℕ) a : ℕ)) / 1) ^ 2
      = ω ^ 2 - 4 * Complex.sin (Real.pi * (n 0 : ℕ) / 3) ^ 2 := by
    intro n
    rw [Fin.sum_univ_two, e n]; simp; ring
  simp only [hk]
  constructor
  · rintro ⟨n, rfl⟩
    have : (n 0 : ℕ) < 3 := (n 0).2
    interval_cases (n 0 : ℕ)
    · left; simp
    · right; push_cast; rw [h3]; ring
    · right; push_cast; rw [h4]; ring
  · rintro (rfl | rfl)
    · exact ⟨fun a => match a with | 0 => (0 : Fin 3) | 1 => (0 : Fin 1), by simp⟩
    · refine ⟨fun a => match a with | 0 => (1 : Fin 3) | 1 => (0 : Fin 1), ?_⟩
      have : (((1 : Fin 3) : ℕ) : ℂ) = 1 := by norm_num
      show _ = ω ^ 2 - 4 * Complex.sin (Real.pi * (((1 : Fin 3) : ℕ) : ℂ) / 3) ^ 2
      rw [this, h3]; ring

end waveguide

section bloch
variable {sh : Fin 3 → ℕ}

open Meanas.Bloch

/-- C131: in a homogeneous medium the eigenvalues of the Bloch operator are exactly `-|k|²/ε` for the wave vectors `k` of the grid, so there is no numerical dispersion. -/
theorem C131_bloch (k0 : Fin 3 → ℝ) (G : Matrix (Fin 3) (Fin 3) ℝ) (hr : Regular k0 G sh)
    (hk : ∀ (x : Idx sh) (k : Fin 3 → ℝ), IsWave k0 G k x → k ≠ 0) {e : ℂ} (he : e ≠ 0) (lam : ℂ) :
    (∃ h : Hmn sh, h ≠ 0 ∧ maxwellOperator k0 G (fun _ _ => e) h = some (lam • h))
      ↔ ∃ (x : Idx sh) (k : Fin 3 → ℝ), IsWave k0 G k x ∧ lam = -((∑ c, k c ^ 2 : ℝ) / e) := by
  obtain ⟨op, iop, h1, -, h3, -⟩ := C60_uniform_partial k0 G hr hk he
  constructor
  · rintro ⟨h, hh, ho⟩
    obtain ⟨i, x, hx⟩ : ∃ i x, h i x ≠ 0 := by
      by_contra hc; push Not at hc; exact hh (funext fun i => funext (hc i))
    refine ⟨x, _, kxyz_isWave k0 G x, mul_right_cancel₀ hx ?_⟩
    rw [← (h3 h i x _ (kxyz_isWave k0 G x)).1]
    rw [h1, Option.some_inj] at ho
    rw [ho]; rfl
  · rintro ⟨x, k, hw, rfl⟩
    refine ⟨fun i y => if y = x then 1 else 0, fun h => ?_, ?_⟩
    · have := congrFun (congrFun h 0) x
      simp at this
    · rw [h1, Option.some_inj]
      funext i y
      by_cases hy : y = x
      · subst hy
        rw [(h3 _ i y k hw).1]; rfl
      · rw [(h3 _ i y _ (kxyz_isWave k0 G y)).1, if_neg hy, mul_zero, Pi.smul_apply, Pi.smul_apply, if_neg hy, smul_zero]

/-- The hypotheses are met on every grid, by the Bloch vector `(1/3, 0, 0)` in a cubic lattice. -/
example : Regular (fun c => if c = 0 then 1 / 3 else 0) 1 sh
    ∧ ∀ (x : Idx sh) (k : Fin 3 → ℝ), IsWave (fun c => if c = 0 then 1 / 3 else 0) 1 k x → k ≠ 0 := by
  have hk : ∀ (x : Idx sh) (k : Fin 3 → ℝ), IsWave (fun c => if c = 0 then 1 / 3 else 0) 1 k x → k 0 ≠ 0 := by
    rintro x k ⟨g, -, -, -, h4⟩ hc
    rw [h4 0, Fin.sum_univ_three] at hc
    simp at hc
    have : (3 * g 0 : ℝ) = 1 := by linarith
    have h5 : 3 * g 0 = 1 := by exact_mod_cast this
    omega
  exact ⟨fun x k hw hc => hk x k hw hc.1, fun x k hw hc => hk x k hw (by rw [hc]; rfl)⟩

end bloch
end Meanas.Props
