/-
C153 (oblique incidence on SCPML layers, three-dimensional grids). Same code as C152: the grids of `stretch_with_scpml` (meanas/fdfd/scpml.py:98-163)
with a profile of `prepare_s_function` (scpml.py:18-38) in `fdfd.operators.e_full` (meanas/fdfd/operators.py:40-96), now with any number of cells
across the axis of the layers. The grid is uniform across, so a field is a sum of transverse Fourier components; each component that propagates
sees the layers under an angle with cosine `κ / k`.
-/
import Verif.Props.ScpmlOpen
import Verif.Props.GridInvariance
import Mathlib.LinearAlgebra.Eigenspace.Triangularizable
import Mathlib.Analysis.Complex.Polynomial.Basic

namespace Meanas.Props

open Matrix Complex Fdfd Spec Solvers Scpml ScpmlLossy ScpmlOpen

variable {sh : Fin 3 → ℕ}

namespace ScpmlOblique

/-- The solution of `(f' - 2 f + f'') / w² + k² f = s` on all integers that moves outward from `s`. -/
noncomputable def lattice {n : ℕ} (k w : ℝ) (s : Fin n → ℂ) (i : ℤ) : ℂ :=
  ∑ y : Fin n, I * (w / (2 * k * Real.sqrt (1 - (k * w / 2) ^ 2)) : ℝ) * s y * hop (k * w / 2) ^ (2 * (i - (y : ℕ)).natAbs)

theorem seq_open {k₀ ρ₀ D m : ℝ} (hk₀ : 0 ≤ k₀) (hρ₀ : 0 ≤ ρ₀) (hD : 0 < D) (hm : 2 ≤ m) : ∃ C : ℝ, 0 ≤ C ∧
    ∀ (k ρ : ℝ), 0 < k → k ≤ k₀ → 0 ≤ ρ → ρ ≤ ρ₀ → ∀ (n t : ℕ) (w : ℝ) (g1 g2 e s : Fin n → ℂ), 0 < w → t * w = D → k * w ≤ 1 → Real.exp (-2 * ρ) + C * w ^ 2 < 1 → 2 * t < n →
      LayerWidths k ρ D m n t w g1 g2 → (∀ i : Fin n, WaveAt k g1 g2 e (s i) i) → (∀ i : Fin n, (i : ℕ) ≤ t ∨ n - t ≤ (i : ℕ) → s i = 0) →
      ∀ i : Fin n, t ≤ (i : ℕ) → (i : ℕ) ≤ n - t →
        ‖e i - lattice k w s (i : ℕ)‖ ≤ (Real.exp (-2 * ρ) + C * w ^ 2) / (1 - (Real.exp (-2 * ρ) + C * w ^ 2)) * (‖lattice k w s (n - t : ℕ)‖ + ‖lattice k w s t‖) := by
  obtain ⟨C, hC, key⟩ := seq_layers hk₀ hρ₀ hD hm
  refine ⟨2 * C, by positivity, ?_⟩
  intro k ρ hk hk0 hρ hρ0 n t w g1 g2 e s hw ht hkw hη h2t W hwave hs
  have hexp := Real.exp_pos (-2 * ρ)
  have ht0 : 0 < t := by
    rcases Nat.eq_zero_or_pos t with rfl | h
    · simp at ht; linarith
    · exact h
  have hIk : I * (k : ℂ) ≠ 0 := mul_ne_zero I_ne_zero (by exact_mod_cast hk.ne')
  have hw' : (w : ℂ) ≠ 0 := by exact_mod_cast hw.ne'
  have hkw0 : 0 < k * w := mul_pos hk hw
  have hθ : (k * w / 2) ^ 2 ≤ 1 / 4 := by nlinarith
  set u := hop (k * w / 2) with hu
  set v := (starRingEnd ℂ) u with hv
  have uv : u * v = 1 := hop_mul_conj (by linarith)
  have nu : ‖u‖ = 1 := norm_hop (by linarith)
  have nv : ‖v‖ = 1 := by rw [hv, RCLike.norm_conj, nu]
  have udiff : u - v = -(I * (k * w)) := by rw [hv, hu, hop_conj, hop]; push_cast; ring
  set σ := Real.sqrt (1 - (k * w / 2) ^ 2) with hσ
  have hσ0 : 0 < σ := Real.sqrt_pos.2 (by linarith)
  have usum : u + v = 2 * σ := by rw [hv, hu, hop_conj, hop]; push_cast; ring
  have u2 : u ^ 2 - v ^ 2 = -(I * (k * w)) * (2 * σ) := by rw [← udiff, ← usum]; ring
  have hne : u ^ 2 - v ^ 2 ≠ 0 := by
    rw [u2]
    refine mul_ne_zero (neg_ne_zero.2 ?_) (mul_ne_zero two_ne_zero (by exact_mod_cast hσ0.ne'))
    rw [← mul_assoc]; exact mul_ne_zero hIk hw'
  have u2s : u ^ 2 + v ^ 2 = 2 - k ^ 2 * w ^ 2 := by
    have h1 : (u - v) ^ 2 = -(k ^ 2 * w ^ 2) := by rw [udiff]; linear_combination ((k : ℂ) ^ 2 * w ^ 2) * I_sq
    linear_combination h1 + 2 * uv
  -- widths between the layers
  have gw1 : ∀ i : Fin n, t ≤ (i : ℕ) → (i : ℕ) < n - t → g1 i = w := by
    intro i h1 h2
    have := (W i).1
    rw [depA, if_neg (by omega), if_neg (by omega), lam1_zero hm, mul_comm (w : ℂ)] at this
    exact mul_left_cancel₀ hIk this
  have gw2 : ∀ i : Fin n, t ≤ (i : ℕ) → (i : ℕ) < n - t → g2 i = w := by
    intro i h1 h2
    have := (W i).2
    rw [depB, if_neg (by omega), if_neg (by omega), lam1_zero hm, mul_comm (w : ℂ)] at this
    exact mul_left_cancel₀ hIk this
  let xs : ℕ → Fin n := fun j => wrap ⟨t, by omega⟩ j
  have xval : ∀ j, j ≤ n - 2 * t → (xs j : ℕ) = t + j := fun j hj => shift_val _ _ _ (by omega) (by simp)
  have xsucc : ∀ j, wrap (xs j) 1 = xs (j + 1) := fun j => by simp only [xs]; rw [wrap_wrap]; push_cast; rfl
  have xpred : ∀ j, wrap (xs (j + 1)) (-1) = xs j := fun j => by simp only [xs]; rw [wrap_wrap]; push_cast; rw [add_neg_cancel_right]
  have recE : ∀ j, j + 2 ≤ n - 2 * t → e (xs (j + 2)) + e (xs j) - (u ^ 2 + v ^ 2) * e (xs (j + 1)) = w ^ 2 * s (xs (j + 1)) := by
    intro j hj
    have h1 := hwave (xs (j + 1))
    have x0 := xval j (by omega); have x1 := xval (j + 1) (by omega)
    rw [WaveAt, xpred, xsucc, gw1 _ (by rw [x1]; omega) (by rw [x1]; omega), gw1 _ (by rw [x0]; omega) (by rw [x0]; omega), gw2 _ (by rw [x1]; omega) (by rw [x1]; omega)] at h1
    field_simp at h1
    rw [u2s]
    linear_combination h1
  let A : ℂ := I * ((w / (2 * k * σ) : ℝ) : ℂ)
  have hA : A * (u ^ 2 - v ^ 2) = w ^ 2 := by
    have h1 : (k : ℂ) ≠ 0 := by exact_mod_cast hk.ne'
    have h2 : (σ : ℂ) ≠ 0 := by exact_mod_cast hσ0.ne'
    simp only [A]
    rw [u2]
    push_cast
    field_simp
    linear_combination -I_sq
  have recF : ∀ j, j + 2 ≤ n - 2 * t → lattice k w s (t + (j + 2) : ℕ) + lattice k w s (t + j : ℕ) - (u ^ 2 + v ^ 2) * lattice k w s (t + (j + 1) : ℕ) = w ^ 2 * s (xs (j + 1)) := by
    intro j hj
    simp only [lattice]
    rw [Finset.mul_sum, ← Finset.sum_add_distrib, ← Finset.sum_sub_distrib, Finset.sum_eq_single (xs (j + 1))]
    · have h1 := pw uv 0
      rw [if_pos rfl] at h1
      rw [xval (j + 1) (by omega)]
      rw [show (((t + (j + 2) : ℕ) : ℤ) - (t + (j + 1) : ℕ)) = 0 + 1 by push_cast; ring, show (((t + j : ℕ) : ℤ) - (t + (j + 1) : ℕ)) = 0 - 1 by push_cast; ring, sub_self]
      rw [← hA]
      simp only [A]
      linear_combination (I * ((w / (2 * k * σ) : ℝ) : ℂ) * s (xs (j + 1))) * h1
    · intro y _ hy
      have h1 := pw uv (((t + (j + 1) : ℕ) : ℤ) - (y : ℕ))
      rw [if_neg (fun h => hy (Fin.ext (by rw [xval (j + 1) (by omega)]; omega)))] at h1
      rw [show (((t + (j + 2) : ℕ) : ℤ) - (y : ℕ)) = ((t + (j + 1) : ℕ) : ℤ) - (y : ℕ) + 1 by push_cast; ring,
        show (((t + j : ℕ) : ℤ) - (y : ℕ)) = ((t + (j + 1) : ℕ) : ℤ) - (y : ℕ) - 1 by push_cast; ring]
      linear_combination (I * ((w / (2 * k * σ) : ℝ) : ℂ) * s y) * h1
    · intro h; exact absurd (Finset.mem_univ _) h
  obtain ⟨p, q, hpq⟩ := two_waves (d := fun j => e (xs j) - lattice k w s (t + j : ℕ)) (N := n - 2 * t) uv hne (by
    intro j hj
    linear_combination recE j hj - recF j hj)
  -- the waves of the sources at the two faces
  have fL : lattice k w s (t + 1 : ℕ) = lattice k w s (t : ℕ) * v ^ 2 := by
    simp only [lattice]
    rw [Finset.sum_mul]
    refine Finset.sum_congr rfl fun y _ => ?_
    by_cases hy : (y : ℕ) ≤ t
    · rw [hs y (Or.inl hy)]; ring
    · obtain ⟨l, hn⟩ : ∃ l : ℕ, (y : ℕ) = t + 1 + l := ⟨(y : ℕ) - (t + 1), by omega⟩
      rw [hn, show (((t + 1 : ℕ) : ℤ) - (t + 1 + l : ℕ)).natAbs = l by push_cast; omega, show (((t : ℕ) : ℤ) - (t + 1 + l : ℕ)).natAbs = l + 1 by push_cast; omega,
        show 2 * (l + 1) = 2 * l + 2 by ring, pow_add]
      linear_combination (-(I * ((w / (2 * k * σ) : ℝ) : ℂ) * s y * u ^ (2 * l)) * (u * v + 1)) * uv
  have fR : lattice k w s (n - t - 1 : ℕ) = lattice k w s (n - t : ℕ) * v ^ 2 := by
    simp only [lattice]
    rw [Finset.sum_mul]
    refine Finset.sum_congr rfl fun y _ => ?_
    by_cases hy : n - t ≤ (y : ℕ)
    · rw [hs y (Or.inr hy)]; ring
    · obtain ⟨l, hn⟩ : ∃ l : ℕ, n - t = (y : ℕ) + 1 + l := ⟨n - t - ((y : ℕ) + 1), by omega⟩
      rw [hn, show ((((y : ℕ) + 1 + l - 1 : ℕ) : ℤ) - (y : ℕ)).natAbs = l by omega, show ((((y : ℕ) + 1 + l : ℕ) : ℤ) - (y : ℕ)).natAbs = l + 1 by push_cast; omega,
        show 2 * (l + 1) = 2 * l + 2 by ring, pow_add]
      linear_combination (-(I * ((w / (2 * k * σ) : ℝ) : ℂ) * s y * u ^ (2 * l)) * (u * v + 1)) * uv
  set N := n - 2 * t with hNdef
  have cell : ∀ i : Fin n, t ≤ (i : ℕ) → (i : ℕ) ≤ n - t → e i = lattice k w s (i : ℕ) + (p * u ^ (2 * ((i : ℕ) - t)) + q * v ^ (2 * ((i : ℕ) - t))) := by
    intro i h1 h2
    have h3 := hpq ((i : ℕ) - t) (by omega)
    have h4 : xs ((i : ℕ) - t) = i := Fin.ext (by rw [xval _ (by omega)]; omega)
    rw [h4, show t + ((i : ℕ) - t) = (i : ℕ) by omega] at h3
    rw [← h3]; ring
  have K := key k ρ hk hk0 hρ hρ0 n t w g1 g2 e (p * u ^ (2 * N) + lattice k w s (n - t : ℕ)) (q * v ^ (2 * N)) p (q + lattice k w s (t : ℕ)) hw ht hkw (by linarith) h2t W
    (fun i hi => by have := hwave i; rwa [hs i hi] at this) ⟨?_, ?_, ?_, ?_⟩
  · have hT : ‖Complex.exp (-2 * ρ - 2 * I * (k * D))‖ = Real.exp (-2 * ρ) := by
      rw [Complex.norm_exp]; congr 1
      have : (-2 * ρ - 2 * I * (k * D) : ℂ) = ((-2 * ρ : ℝ) : ℂ) - ((2 * (k * D) : ℝ) : ℂ) * I := by push_cast; ring
      rw [this]; simp
    intro i h1 h2
    have L := close_loop (p := p) (q := q) rfl rfl hT (show 0 ≤ C * w ^ 2 by positivity) (x := p * u ^ (2 * N)) (y := q * v ^ (2 * N)) (by rw [norm_mul, norm_pow, nu]; simp)
      (by rw [norm_mul, norm_pow, nv]; simp) rfl rfl K.1 K.2 (by linarith)
    rw [cell i h1 h2, add_sub_cancel_left]
    have e : Real.exp (-2 * ρ) + 2 * (C * w ^ 2) = Real.exp (-2 * ρ) + 2 * C * w ^ 2 := by ring
    rw [e] at L
    refine le_trans ?_ L
    refine (norm_add_le _ _).trans ?_
    rw [norm_mul, norm_mul, norm_pow, norm_pow, nu, nv]; simp
  · intro i hi
    rw [cell i (by omega) (by omega), hi, show n - t - t = N by omega]; ring
  · intro i hi
    have hx1 : (i : ℕ) = n - t - 1 := by omega
    rw [cell i (by omega) (by omega), hx1, fR, show n - t - 1 - t = N - 1 by omega]
    obtain ⟨M, hM⟩ : ∃ M, N = M + 1 := ⟨N - 1, by omega⟩
    rw [hM, Nat.add_sub_cancel, show 2 * (M + 1) = 2 * M + 2 by ring, pow_add, pow_add]
    linear_combination (-(p * u ^ (2 * M) + q * v ^ (2 * M)) * (u * v + 1)) * uv
  · intro i hi
    rw [cell i (by omega) (by omega), hi, Nat.sub_self]; ring
  · intro i hi
    rw [cell i (by omega) (by omega), hi, fL, Nat.add_sub_cancel_left]
    ring

/-- `curl curl = grad div - div grad` for one component, on a grid that is uniform along that component. -/
theorem curl_curl (g : Dx sh) (F : VField sh ℂ) (c : Fin 3) (wc : ℂ) (hc : ∀ i, g.1 c i = wc ∧ g.2 c i = wc) (x : Idx sh) :
    Functional.curlBack (some g.2) (Functional.curlForward (some g.1) F) c x
      = Functional.derivForward (some g.1) c (Spec.divBack (some g.2) F) x - ∑ b, Functional.derivBack (some g.2) b (Functional.derivForward (some g.1) b (F c)) x := by
  have hd : Spec.divBack (some g.2) F = fun y => Functional.derivBack (some g.2) 0 (F 0) y + Functional.derivBack (some g.2) 1 (F 1) y + Functional.derivBack (some g.2) 2 (F 2) y := by
    funext y; rw [divBack_eq, Fin.sum_univ_three]
  have e0 : Functional.curlForward (some g.1) F 0 = fun y => Functional.derivForward (some g.1) 1 (F 2) y - Functional.derivForward (some g.1) 2 (F 1) y := rfl
  have e1 : Functional.curlForward (some g.1) F 1 = fun y => Functional.derivForward (some g.1) 2 (F 0) y - Functional.derivForward (some g.1) 0 (F 2) y := rfl
  have e2 : Functional.curlForward (some g.1) F 2 = fun y => Functional.derivForward (some g.1) 0 (F 1) y - Functional.derivForward (some g.1) 1 (F 0) y := rfl
  have same : Functional.derivForward (some g.1) c (Functional.derivBack (some g.2) c (F c)) x = Functional.derivBack (some g.2) c (Functional.derivForward (some g.1) c (F c)) x := by
    rw [derivForward_eq, derivBack_eq, derivBack_eq, derivBack_eq, derivForward_eq, derivForward_eq]
    simp only [wOf, (hc _).1, (hc _).2, shiftIdx_shiftIdx]
    rw [show (1 : ℤ) + -1 = 0 by norm_num, show (-1 : ℤ) + 1 = 0 by norm_num, shiftIdx_zero]
  rw [hd, derivForward_add, derivForward_add, Fin.sum_univ_three]
  revert c
  refine forall_fin3 ?_ ?_ ?_ <;> intro hc same
  · rw [curlBack_0, e1, e2, derivBack_sub, derivBack_sub, derivForward_derivBack_comm _ _ (show (0 : Fin 3) ≠ 1 by decide), derivForward_derivBack_comm _ _ (show (0 : Fin 3) ≠ 2 by decide), same]
    ring
  · rw [curlBack_1, e0, e2, derivBack_sub, derivBack_sub, derivForward_derivBack_comm _ _ (show (1 : Fin 3) ≠ 0 by decide), derivForward_derivBack_comm _ _ (show (1 : Fin 3) ≠ 2 by decide), same]
    ring
  · rw [curlBack_2, e0, e1, derivBack_sub, derivBack_sub, derivForward_derivBack_comm _ _ (show (2 : Fin 3) ≠ 0 by decide), derivForward_derivBack_comm _ _ (show (2 : Fin 3) ≠ 1 by decide), same]
    ring

/-- One transverse Fourier component of a grid function, as a function of the index along `a`. -/
noncomputable def mode (a : Fin 3) (χ : Idx sh → ℂ) (f : Idx sh → ℂ) (i : Fin (sh a)) : ℂ := ∑ x : Idx sh, if x a = i then χ x * f x else 0

/-- A transverse Fourier factor `χ` on a grid that is uniform across `a`: it changes by the phases `ζ` per cell. -/
structure PlaneMode (a : Fin 3) (g : Dx sh) (wb : Fin 3 → ℝ) (ζ : Fin 3 → ℂ) (χ : Idx sh → ℂ) : Prop where
  width : ∀ b, b ≠ a → 0 < wb b ∧ ∀ i, g.1 b i = wb b ∧ g.2 b i = wb b
  unit : ∀ b, ‖ζ b‖ = 1
  along : ζ a = 1
  char : ∀ b x, χ (shiftIdx b 1 x) = ζ b * χ x

/-- The square of the transverse wave number on the lattice, `∑ (2 sin(kᵦ wᵦ / 2) / wᵦ)²`. -/
noncomputable def transverse (a : Fin 3) (wb : Fin 3 → ℝ) (ζ : Fin 3 → ℂ) : ℝ := ∑ b, if b = a then 0 else (2 - 2 * (ζ b).re) / wb b ^ 2

section
variable {a : Fin 3} {g : Dx sh} {wb : Fin 3 → ℝ} {ζ : Fin 3 → ℂ} {χ : Idx sh → ℂ}

theorem char_neg (P : PlaneMode a g wb ζ χ) (b : Fin 3) (x : Idx sh) : ζ b * χ (shiftIdx b (-1) x) = χ x := by
  rw [← P.char, shiftIdx_shiftIdx, neg_add_cancel, shiftIdx_zero]

theorem mode_add (f h : Idx sh → ℂ) (i : Fin (sh a)) : mode a χ (fun x => f x + h x) i = mode a χ f i + mode a χ h i := by
  simp only [mode]
  rw [← Finset.sum_add_distrib]
  exact Finset.sum_congr rfl fun x _ => by split_ifs <;> ring

theorem mode_smul (z : ℂ) (f : Idx sh → ℂ) (i : Fin (sh a)) : mode a χ (fun x => z * f x) i = z * mode a χ f i := by
  simp only [mode]
  rw [Finset.mul_sum]
  exact Finset.sum_congr rfl fun x _ => by split_ifs <;> ring

theorem mode_congr {f h : Idx sh → ℂ} {i : Fin (sh a)} (H : ∀ x : Idx sh, x a = i → f x = h x) : mode a χ f i = mode a χ h i :=
  Finset.sum_congr rfl fun x _ => by
    by_cases hx : x a = i
    · rw [if_pos hx, if_pos hx, H x hx]
    · rw [if_neg hx, if_neg hx]

theorem mode_shift_along (P : PlaneMode a g wb ζ χ) (f : Idx sh → ℂ) (i : Fin (sh a)) :
    mode a χ (fun x => f (shiftIdx a 1 x)) i = mode a χ f (wrap i 1) ∧ mode a χ (fun x => f (shiftIdx a (-1) x)) i = mode a χ f (wrap i (-1)) := by
  have inj : ∀ (s : ℤ) (x : Idx sh), shiftIdx a s x a = wrap i s ↔ x a = i := fun s x => by
    rw [shift_self]; exact (wrap_injective s).eq_iff
  constructor
  · simp only [mode]
    rw [← sum_shiftIdx a 1 (fun x => if x a = wrap i 1 then χ x * f x else 0)]
    refine Finset.sum_congr rfl fun x _ => ?_
    simp only [inj, P.char, P.along, one_mul]
  · simp only [mode]
    rw [← sum_shiftIdx a (-1) (fun x => if x a = wrap i (-1) then χ x * f x else 0)]
    refine Finset.sum_congr rfl fun x _ => ?_
    have := char_neg P a x
    rw [P.along, one_mul] at this
    simp only [inj, this]

theorem mode_shift_across (P : PlaneMode a g wb ζ χ) {b : Fin 3} (hb : b ≠ a) (f : Idx sh → ℂ) (i : Fin (sh a)) :
    mode a χ (fun x => f (shiftIdx b 1 x)) i + mode a χ (fun x => f (shiftIdx b (-1) x)) i = 2 * (ζ b).re * mode a χ f i := by
  have hz : ζ b * (starRingEnd ℂ) (ζ b) = 1 := by rw [Complex.mul_conj, Complex.normSq_eq_norm_sq, P.unit b]; simp
  have stay : ∀ (s : ℤ) (x : Idx sh), shiftIdx b s x a = x a := fun s x => shiftIdx_of_ne hb.symm s x
  have h1 : mode a χ (fun x => f (shiftIdx b 1 x)) i = (starRingEnd ℂ) (ζ b) * mode a χ f i := by
    simp only [mode]
    rw [Finset.mul_sum, ← sum_shiftIdx b 1 (fun x => (starRingEnd ℂ) (ζ b) * if x a = i then χ x * f x else 0)]
    refine Finset.sum_congr rfl fun x _ => ?_
    simp only [stay, P.char]
    split_ifs
    · linear_combination (-(χ x * f (shiftIdx b 1 x))) * hz
    · ring
  have h2 : mode a χ (fun x => f (shiftIdx b (-1) x)) i = ζ b * mode a χ f i := by
    simp only [mode]
    rw [Finset.mul_sum, ← sum_shiftIdx b (-1) (fun x => ζ b * if x a = i then χ x * f x else 0)]
    refine Finset.sum_congr rfl fun x _ => ?_
    simp only [stay]
    split_ifs
    · rw [← char_neg P b x]; ring
    · ring
  rw [h1, h2, ← add_mul, add_comm, Complex.add_conj]
  push_cast; ring

theorem mode_dd_along (P : PlaneMode a g wb ζ χ) (f : Idx sh → ℂ) (i : Fin (sh a)) :
    mode a χ (fun x => Functional.derivBack (some g.2) a (Functional.derivForward (some g.1) a f) x) i
      = ((mode a χ f (wrap i 1) - mode a χ f i) / g.1 a i - (mode a χ f i - mode a χ f (wrap i (-1))) / g.1 a (wrap i (-1))) / g.2 a i := by
  obtain ⟨h1, h2⟩ := mode_shift_along P f i
  rw [← h1, ← h2]
  have e : mode a χ (fun x => Functional.derivBack (some g.2) a (Functional.derivForward (some g.1) a f) x) i
      = mode a χ (fun x => 1 / g.1 a i / g.2 a i * f (shiftIdx a 1 x) + ((-1 / g.1 a i - 1 / g.1 a (wrap i (-1))) / g.2 a i * f x + 1 / g.1 a (wrap i (-1)) / g.2 a i * f (shiftIdx a (-1) x))) i := by
    refine mode_congr fun x hx => ?_
    rw [derivBack_eq, derivForward_eq, derivForward_eq]
    simp only [wOf, shiftIdx_shiftIdx, shift_self, hx]
    rw [show (-1 : ℤ) + 1 = 0 by norm_num, shiftIdx_zero]
    ring
  rw [e, mode_add, mode_add, mode_smul, mode_smul, mode_smul]
  ring

theorem mode_dd_across (P : PlaneMode a g wb ζ χ) {b : Fin 3} (hb : b ≠ a) (f : Idx sh → ℂ) (i : Fin (sh a)) :
    mode a χ (fun x => Functional.derivBack (some g.2) b (Functional.derivForward (some g.1) b f) x) i = -(((2 - 2 * (ζ b).re) / wb b ^ 2 : ℝ) : ℂ) * mode a χ f i := by
  have hw : (wb b : ℂ) ≠ 0 := by exact_mod_cast (P.width b hb).1.ne'
  have e : mode a χ (fun x => Functional.derivBack (some g.2) b (Functional.derivForward (some g.1) b f) x) i
      = mode a χ (fun x => 1 / (wb b : ℂ) ^ 2 * f (shiftIdx b 1 x) + (-2 / (wb b : ℂ) ^ 2 * f x + 1 / (wb b : ℂ) ^ 2 * f (shiftIdx b (-1) x))) i := by
    refine mode_congr fun x hx => ?_
    rw [derivBack_eq, derivForward_eq, derivForward_eq]
    simp only [wOf, shiftIdx_shiftIdx, ((P.width b hb).2 _).1, ((P.width b hb).2 _).2]
    rw [show (-1 : ℤ) + 1 = 0 by norm_num, shiftIdx_zero]
    field_simp
    ring
  rw [e, mode_add, mode_add, mode_smul, mode_smul, mode_smul]
  have := mode_shift_across P hb f i
  push_cast
  linear_combination (1 / (wb b : ℂ) ^ 2) * this

/-- The wave equation of a transverse Fourier component of `E_c`, `c ≠ a`, at an index around which the medium is homogeneous. -/
theorem mode_wave (P : PlaneMode a g wb ζ χ) {c : Fin 3} (hc : c ≠ a) {ω ε κ : ℝ} (hω : 0 < ω) (hε : 0 < ε) (hκ : κ ^ 2 + transverse a wb ζ = ω ^ 2 * ε) (hg : ∀ i, g.2 a i ≠ 0)
    {eps : Vec sh} {mu : Option (Vec sh)} {E J : Vec sh} (hE : eFull ω g eps mu none none *ᵥ E = (-I * ω) • J) (i : Fin (sh a))
    (hm : ∀ (d : Fin 3) (x : Idx sh), x a = i ∨ x a = wrap i (-1) → eps (d, x) = ε ∧ muV mu (d, x) = 1) :
    WaveAt κ (g.1 a) (g.2 a) (mode a χ (fun x => E (c, x)))
      (mode a χ (fun x => I * ω * J (c, x) + I / (ω * ε) * Functional.derivForward (some g.1) c (Spec.divBack (some g.2) (unS J)) x) i) i := by
  have hω' : (ω : ℂ) ≠ 0 := by exact_mod_cast hω.ne'
  have hε' : (ε : ℂ) ≠ 0 := by exact_mod_cast hε.ne'
  have near : ∀ (b : Fin 3) (x : Idx sh), x a = i → (shiftIdx b (-1) x a = i ∨ shiftIdx b (-1) x a = wrap i (-1)) := by
    intro b x hx
    by_cases hb : b = a
    · subst hb; right; rw [shift_self, hx]
    · left; rw [shiftIdx_of_ne (Ne.symm hb), hx]
  -- the equation, component by component
  have row : ∀ (d : Fin 3) (x : Idx sh), Functional.curlBack (some g.2) (unS fun q => cE g E q / muV mu q) d x - ω ^ 2 * (eps (d, x) * E (d, x)) = -I * ω * J (d, x) := by
    intro d x
    have := congrFun hE (d, x)
    rw [eFull_mulVec] at this
    exact this
  -- divergence
  have hdiv : ∀ x : Idx sh, x a = i → Spec.divBack (some g.2) (unS E) x = I / (ω * ε) * Spec.divBack (some g.2) (unS J) x := by
    intro x hx
    have h0 := divBack_curlBack (some g.2) (unS fun q => cE g E q / muV mu q) x
    have h1 : Spec.divBack (some g.2) (Functional.curlBack (some g.2) (unS fun q => cE g E q / muV mu q)) x
        = ω ^ 2 * ε * Spec.divBack (some g.2) (unS E) x - I * ω * Spec.divBack (some g.2) (unS J) x := by
      rw [divBack_eq, divBack_eq, divBack_eq, Finset.mul_sum, Finset.mul_sum, ← Finset.sum_sub_distrib]
      refine Finset.sum_congr rfl fun b _ => ?_
      rw [derivBack_eq, derivBack_eq, derivBack_eq]
      have r1 := row b x; have r2 := row b (shiftIdx b (-1) x)
      rw [(hm b x (Or.inl hx)).1] at r1
      rw [(hm b _ (near b x hx)).1] at r2
      rw [eq_add_of_sub_eq r1, eq_add_of_sub_eq r2]
      change (-I * ω * J (b, x) + ω ^ 2 * (ε * E (b, x)) - (-I * ω * J (b, shiftIdx b (-1) x) + ω ^ 2 * (ε * E (b, shiftIdx b (-1) x)))) / _
        = ω ^ 2 * ε * ((E (b, x) - E (b, shiftIdx b (-1) x)) / _) - I * ω * ((J (b, x) - J (b, shiftIdx b (-1) x)) / _)
      ring
    rw [h0] at h1
    field_simp
    apply mul_left_cancel₀ hω'
    linear_combination -h1
  -- curl curl
  have hcc : ∀ x : Idx sh, x a = i → Functional.curlBack (some g.2) (unS fun q => cE g E q / muV mu q) c x = Functional.curlBack (some g.2) (Functional.curlForward (some g.1) (unS E)) c x := by
    intro x hx
    have hv : ∀ (d : Fin 3) (y : Idx sh), y a = i ∨ y a = wrap i (-1) → (unS fun q => cE g E q / muV mu q) d y = Functional.curlForward (some g.1) (unS E) d y := by
      intro d y hy
      show cE g E (d, y) / muV mu (d, y) = _
      rw [(hm d y hy).2, div_one]; rfl
    have hb : ∀ (b d : Fin 3), Functional.derivBack (some g.2) b ((unS fun q => cE g E q / muV mu q) d) x = Functional.derivBack (some g.2) b (Functional.curlForward (some g.1) (unS E) d) x := by
      intro b d
      rw [derivBack_eq, derivBack_eq, hv d x (Or.inl hx), hv d _ (near b x hx)]
    refine forall_fin3 (P := fun c => Functional.curlBack (some g.2) (unS fun q => cE g E q / muV mu q) c x = Functional.curlBack (some g.2) (Functional.curlForward (some g.1) (unS E)) c x) ?_ ?_ ?_ c
    · rw [curlBack_0, curlBack_0, hb, hb]
    · rw [curlBack_1, curlBack_1, hb, hb]
    · rw [curlBack_2, curlBack_2, hb, hb]
  have hx : ∀ x : Idx sh, x a = i → ∑ b, Functional.derivBack (some g.2) b (Functional.derivForward (some g.1) b (fun y => E (c, y))) x + ω ^ 2 * ε * E (c, x)
      = I * ω * J (c, x) + I / (ω * ε) * Functional.derivForward (some g.1) c (Spec.divBack (some g.2) (unS J)) x := by
    intro x hx
    have r := row c x
    rw [hcc x hx, curl_curl g _ c _ ((P.width c hc).2), (hm c x (Or.inl hx)).1, derivForward_eq, hdiv x hx, hdiv _ (by rw [shiftIdx_of_ne (Ne.symm hc), hx])] at r
    rw [derivForward_eq]
    change _ - ∑ b, Functional.derivBack (some g.2) b (Functional.derivForward (some g.1) b (fun y => E (c, y))) x - _ = _ at r
    linear_combination -r
  have hsum := mode_congr (χ := χ) hx
  have e : mode a χ (fun x => ∑ b, Functional.derivBack (some g.2) b (Functional.derivForward (some g.1) b (fun y => E (c, y))) x + ω ^ 2 * ε * E (c, x)) i
      = ∑ b, mode a χ (fun x => Functional.derivBack (some g.2) b (Functional.derivForward (some g.1) b (fun y => E (c, y))) x) i + ω ^ 2 * ε * mode a χ (fun x => E (c, x)) i := by
    rw [mode_add, mode_smul]
    congr 1
    rw [Fin.sum_univ_three, ← mode_add, ← mode_add]
    simp only [Fin.sum_univ_three]
  have e2 : ∑ b, mode a χ (fun x => Functional.derivBack (some g.2) b (Functional.derivForward (some g.1) b (fun y => E (c, y))) x) i
      = ((mode a χ (fun x => E (c, x)) (wrap i 1) - mode a χ (fun x => E (c, x)) i) / g.1 a i
        - (mode a χ (fun x => E (c, x)) i - mode a χ (fun x => E (c, x)) (wrap i (-1))) / g.1 a (wrap i (-1))) / g.2 a i - transverse a wb ζ * mode a χ (fun x => E (c, x)) i := by
    rw [transverse, ← mode_dd_along P]
    push_cast
    rw [Finset.sum_mul, ← Finset.sum_add_sum_compl {a}, Finset.sum_singleton, ← Finset.sum_add_sum_compl {a} (fun b => _ * mode a χ (fun x => E (c, x)) i), Finset.sum_singleton, if_pos rfl, Complex.ofReal_zero, zero_mul, zero_add,
      sub_eq_add_neg, ← Finset.sum_neg_distrib]
    congr 1
    refine Finset.sum_congr rfl fun b hb => ?_
    have hb' : b ≠ a := by simpa using hb
    rw [mode_dd_across P hb', if_neg hb']
    push_cast; ring
  rw [← hsum, e, e2, WaveAt]
  have hκ' : (κ : ℂ) ^ 2 + transverse a wb ζ = ω ^ 2 * ε := by exact_mod_cast hκ
  rw [← hκ', mul_add, mul_sub, mul_div_cancel₀ _ (hg i)]
  ring

end

/-- The widths seen by a wave with wave number κ along the axis. -/
theorem oblique_widths {k ρ D m κ : ℝ} (hk : 0 < k) {n t : ℕ} {w : ℝ} {g1 g2 : Fin n → ℂ}
    (W : LayerWidths k ρ D m n t w g1 g2) : LayerWidths κ (ρ * (κ / k)) D m n t w g1 g2 := by
  have hk' : (k : ℂ) ≠ 0 := by exact_mod_cast hk.ne'
  have e : ∀ y, lam1 κ (ρ * (κ / k)) D m y = κ / k * lam1 k ρ D m y := by
    intro y; simp only [lam1]; push_cast; field_simp
  intro i
  obtain ⟨h1, h2⟩ := W i
  rw [e, e]
  constructor
  · rw [show (w : ℂ) * (κ / k * lam1 k ρ D m (depA n t w i)) = κ / k * (w * lam1 k ρ D m (depA n t w i)) by ring, ← h1]; field_simp
  · rw [show (w : ℂ) * (κ / k * lam1 k ρ D m (depB n t w i)) = κ / k * (w * lam1 k ρ D m (depB n t w i)) by ring, ← h2]; field_simp

theorem transverse_nonneg {a : Fin 3} {g : Dx sh} {wb : Fin 3 → ℝ} {ζ : Fin 3 → ℂ} {χ : Idx sh → ℂ} (P : PlaneMode a g wb ζ χ) : 0 ≤ transverse a wb ζ := by
  refine Finset.sum_nonneg fun b _ => ?_
  split_ifs
  · exact le_rfl
  · have := (Complex.abs_re_le_norm (ζ b)).trans_eq (P.unit b)
    have := abs_le.1 this
    exact div_nonneg (by linarith [this.2]) (by positivity)

/-- What drives the component `c` of `E`: the current and the gradient of its divergence. -/
noncomputable def source (ω ε : ℝ) (g : Dx sh) (J : Vec sh) (c : Fin 3) (x : Idx sh) : ℂ :=
  I * ω * J (c, x) + I / (ω * ε) * Functional.derivForward (some g.1) c (Spec.divBack (some g.2) (unS J)) x

theorem source_zero {a c : Fin 3} (hc : c ≠ a) {ω ε : ℝ} {g : Dx sh} {J : Vec sh} {t : ℕ} (ht : 0 < t) (h2t : 2 * t < sh a)
    (hJ : ∀ (d : Fin 3) (x : Idx sh), (x a : ℕ) ≤ t ∨ sh a - t ≤ (x a : ℕ) + 1 → J (d, x) = 0) (x : Idx sh) (hx : (x a : ℕ) ≤ t ∨ sh a - t ≤ (x a : ℕ)) : source ω ε g J c x = 0 := by
  have nb : ∀ (b : Fin 3) (y : Idx sh), ((y a : ℕ) ≤ t ∨ sh a - t ≤ (y a : ℕ)) → ((shiftIdx b (-1) y a : ℕ) ≤ t ∨ sh a - t ≤ (shiftIdx b (-1) y a : ℕ) + 1) := by
    intro b y hy
    by_cases hb : b = a
    · subst hb
      rw [shift_self]
      have := (y b).isLt
      rcases Nat.eq_zero_or_pos (y b : ℕ) with h0 | h0
      · rw [shift_val (y b) (-1) (sh b - 1) (by omega) (by omega)]; omega
      · rw [shift_val (y b) (-1) ((y b : ℕ) - 1) (by omega) (by omega)]; omega
    · rw [shiftIdx_of_ne (Ne.symm hb)]; omega
  have hd : ∀ y : Idx sh, ((y a : ℕ) ≤ t ∨ sh a - t ≤ (y a : ℕ)) → Spec.divBack (some g.2) (unS J) y = 0 := by
    intro y hy
    rw [divBack_eq]
    refine Finset.sum_eq_zero fun b _ => ?_
    rw [derivBack_eq]
    change (J (b, y) - J (b, shiftIdx b (-1) y)) / _ = 0
    rw [hJ b y (by omega), hJ b _ (nb b y hy), sub_zero, zero_div]
  rw [source, hJ c x (by omega), derivForward_eq, hd x hx, hd _ (by rw [shiftIdx_of_ne (Ne.symm hc)]; exact hx)]
  ring

end ScpmlOblique

open ScpmlOblique

/-- C153: what comes out of the layers for one transverse Fourier component of a component of `E` across the axis. With `κ / k` the cosine of the angle
to the axis, the outgoing waves are the entering waves of the opposite ends times `exp((ln_R - 2 i k D) κ / k)`, up to `C w²`. The constant is the same
for all components, grids, and media and currents between the layers. -/
theorem C153_layers {ω ε lnR m D : ℝ} (hω : 0 < ω) (hε : 0 < ε) (hR : lnR ≤ 0) (hm : 2 ≤ m) (hD : 0 < D) :
    ∃ C : ℝ, 0 ≤ C ∧ ∀ (sh : Fin 3 → ℕ) (a c : Fin 3) (w : ℝ) (t : ℕ) (g : Dx sh) (eps : Vec sh) (mu : Option (Vec sh)) (E J : Vec sh)
      (wb : Fin 3 → ℝ) (ζ : Fin 3 → ℂ) (χ : Idx sh → ℂ) (κ : ℝ) (pR qR pL qL : ℂ),
      c ≠ a → 0 < w → t * w = D → Real.sqrt ε * ω * w ≤ 1 → C * w ^ 2 ≤ 1 / 2 → 2 * t < sh a → Layers a w t ω ε lnR m g →
      PlaneMode a g wb ζ χ → 0 < κ → κ ^ 2 + transverse a wb ζ = ω ^ 2 * ε →
      eFull ω g eps mu none none *ᵥ E = (-I * ω) • J →
      (∀ (d : Fin 3) (x : Idx sh), (x a : ℕ) ≤ t ∨ sh a - t ≤ (x a : ℕ) + 1 → eps (d, x) = ε ∧ (mu.getD 1) (d, x) = 1 ∧ J (d, x) = 0) →
      Amps (hop (κ * w / 2)) t (mode a χ fun x => E (c, x)) pR qR pL qL →
      ‖pL - Complex.exp ((lnR - 2 * I * (Real.sqrt ε * ω * D)) * (κ / (Real.sqrt ε * ω))) * pR‖ ≤ C * w ^ 2 * (‖pR‖ + ‖qL‖) ∧
      ‖qR - Complex.exp ((lnR - 2 * I * (Real.sqrt ε * ω * D)) * (κ / (Real.sqrt ε * ω))) * qL‖ ≤ C * w ^ 2 * (‖pR‖ + ‖qL‖) := by
  set k := Real.sqrt ε * ω with hkdef
  have hk : 0 < k := mul_pos (Real.sqrt_pos.2 hε) hω
  have hk2 : k ^ 2 = ω ^ 2 * ε := by rw [hkdef, mul_pow, Real.sq_sqrt hε.le]; ring
  obtain ⟨C, hC, key⟩ := seq_layers hk.le (show 0 ≤ -lnR / 2 by linarith) hD hm
  refine ⟨C, hC, ?_⟩
  intro sh a c w t g eps mu E J wb ζ χ κ pR qR pL qL hc hw ht hkw hsmall h2t hg P hκ hκ2 hE hhom hamp
  have ht0 : 0 < t := by
    rcases Nat.eq_zero_or_pos t with rfl | h
    · simp at ht; linarith
    · exact h
  have W := widths hk hkdef hw ht0 h2t.le ht hm hg
  have hw' : (w : ℂ) ≠ 0 := by exact_mod_cast hw.ne'
  have hne2 : ∀ i, g.2 a i ≠ 0 := fun i h0 => by
    have := (W i).2; rw [h0, mul_zero] at this
    exact mul_ne_zero hw' (lam1_ne hk) this.symm
  have hκk : κ ≤ k := by
    have := transverse_nonneg P
    exact abs_le_of_sq_le_sq' (by nlinarith) hk.le |>.2
  have hq : κ / k ≤ 1 := (div_le_one hk).2 hκk
  have hq0 : 0 < κ / k := div_pos hκ hk
  have hmuV : ∀ p, muV mu p = (mu.getD 1) p := by intro p; cases mu <;> rfl
  have eT : ((lnR - 2 * I * ((Real.sqrt ε : ℂ) * ω * D)) * (κ / ((Real.sqrt ε : ℂ) * ω)) : ℂ) = -2 * ((-lnR / 2 * (κ / k) : ℝ) : ℂ) - 2 * I * (κ * D) := by
    have e1 : ((Real.sqrt ε : ℂ) * ω) = k := by rw [hkdef]; push_cast; rfl
    have hk' : (k : ℂ) ≠ 0 := by exact_mod_cast hk.ne'
    rw [e1]; push_cast; field_simp
  rw [eT]
  refine key κ (-lnR / 2 * (κ / k)) hκ hκk (mul_nonneg (by linarith) hq0.le) (mul_le_of_le_one_right (by linarith) hq) (sh a) t w (g.1 a) (g.2 a) _ pR qR pL qL hw ht
    (le_trans (by gcongr) hkw) hsmall h2t (oblique_widths hk W) (fun i hi => ?_) hamp
  have hv : ((wrap i (-1) : Fin (sh a)) : ℕ) ≤ t ∨ sh a - t ≤ ((wrap i (-1) : Fin (sh a)) : ℕ) + 1 := by
    rcases Nat.eq_zero_or_pos (i : ℕ) with h0 | h0
    · rw [shift_val i (-1) (sh a - 1) (by omega) (by omega)]; omega
    · rw [shift_val i (-1) ((i : ℕ) - 1) (by omega) (by omega)]; omega
  have h1 := mode_wave P hc hω hε hκ2 hne2 hE i fun d x hx => by
    rcases hx with h | h
    · exact ⟨(hhom d x (by rw [h]; omega)).1, by rw [hmuV]; exact (hhom d x (by rw [h]; omega)).2.1⟩
    · exact ⟨(hhom d x (by rw [h]; exact hv)).1, by rw [hmuV]; exact (hhom d x (by rw [h]; exact hv)).2.1⟩
  have h2 : mode a χ (source ω ε g J c) i = 0 := by
    rw [mode_congr (h := fun x => 0 * 0) (fun x hx => by rw [source_zero hc ht0 h2t (fun d x h => (hhom d x h).2.2) x (by rw [hx]; exact hi), zero_mul]), mode_smul, zero_mul]
  change WaveAt _ _ _ _ (mode a χ (source ω ε g J c) i) i at h1
  rwa [h2] at h1

/-- C153: currents in a homogeneous medium between the layers: every propagating transverse component of the field is that of open space, up to a part
`η / (1 - η)` of the waves that reach the layers, `η = exp(ln_R κ / k) + C w²`. -/
theorem C153_open {ω ε lnR m D : ℝ} (hω : 0 < ω) (hε : 0 < ε) (hR : lnR ≤ 0) (hm : 2 ≤ m) (hD : 0 < D) :
    ∃ C : ℝ, 0 ≤ C ∧ ∀ (sh : Fin 3 → ℕ) (a c : Fin 3) (w : ℝ) (t : ℕ) (g : Dx sh) (eps : Vec sh) (mu : Option (Vec sh)) (E J : Vec sh)
      (wb : Fin 3 → ℝ) (ζ : Fin 3 → ℂ) (χ : Idx sh → ℂ) (κ η : ℝ),
      c ≠ a → 0 < w → t * w = D → Real.sqrt ε * ω * w ≤ 1 → 2 * t < sh a → Layers a w t ω ε lnR m g →
      PlaneMode a g wb ζ χ → 0 < κ → κ ^ 2 + transverse a wb ζ = ω ^ 2 * ε → η = Real.exp (lnR * (κ / (Real.sqrt ε * ω))) + C * w ^ 2 → η < 1 →
      eFull ω g eps mu none none *ᵥ E = (-I * ω) • J →
      (∀ p, eps p = ε ∧ (mu.getD 1) p = 1) → (∀ (d : Fin 3) (x : Idx sh), (x a : ℕ) ≤ t ∨ sh a - t ≤ (x a : ℕ) + 1 → J (d, x) = 0) →
      ∀ i : Fin (sh a), t ≤ (i : ℕ) → (i : ℕ) ≤ sh a - t →
        ‖mode a χ (fun x => E (c, x)) i - lattice κ w (mode a χ (source ω ε g J c)) (i : ℕ)‖
          ≤ η / (1 - η) * (‖lattice κ w (mode a χ (source ω ε g J c)) (sh a - t : ℕ)‖ + ‖lattice κ w (mode a χ (source ω ε g J c)) t‖) := by
  set k := Real.sqrt ε * ω with hkdef
  have hk : 0 < k := mul_pos (Real.sqrt_pos.2 hε) hω
  have hk2 : k ^ 2 = ω ^ 2 * ε := by rw [hkdef, mul_pow, Real.sq_sqrt hε.le]; ring
  obtain ⟨C, hC, key⟩ := seq_open hk.le (show 0 ≤ -lnR / 2 by linarith) hD hm
  refine ⟨C, hC, ?_⟩
  intro sh a c w t g eps mu E J wb ζ χ κ η hc hw ht hkw h2t hg P hκ hκ2 hη hη1 hE hhom hJ
  have ht0 : 0 < t := by
    rcases Nat.eq_zero_or_pos t with rfl | h
    · simp at ht; linarith
    · exact h
  have W := widths hk hkdef hw ht0 h2t.le ht hm hg
  have hw' : (w : ℂ) ≠ 0 := by exact_mod_cast hw.ne'
  have hne2 : ∀ i, g.2 a i ≠ 0 := fun i h0 => by
    have := (W i).2; rw [h0, mul_zero] at this
    exact mul_ne_zero hw' (lam1_ne hk) this.symm
  have hκk : κ ≤ k := by
    have := transverse_nonneg P
    exact abs_le_of_sq_le_sq' (by nlinarith) hk.le |>.2
  have hq : κ / k ≤ 1 := (div_le_one hk).2 hκk
  have hq0 : 0 < κ / k := div_pos hκ hk
  have hmuV : ∀ p, muV mu p = (mu.getD 1) p := by intro p; cases mu <;> rfl
  have eT : lnR * (κ / k) = -2 * (-lnR / 2 * (κ / k)) := by ring
  rw [eT] at hη
  rw [hη] at hη1 ⊢
  refine key κ (-lnR / 2 * (κ / k)) hκ hκk (mul_nonneg (by linarith) hq0.le) (mul_le_of_le_one_right (by linarith) hq) (sh a) t w (g.1 a) (g.2 a) _ _ hw ht
    (le_trans (by gcongr) hkw) hη1 h2t (oblique_widths hk W) (fun i => ?_) (fun i hi => ?_)
  · exact mode_wave P hc hω hε hκ2 hne2 hE i fun d x _ => ⟨(hhom _).1, by rw [hmuV]; exact (hhom _).2⟩
  · rw [mode_congr (h := fun x => 0 * 0) (fun x hx => by rw [source_zero hc ht0 h2t hJ x (by rw [hx]; exact hi), zero_mul]), mode_smul, zero_mul]

/-- C153: `lattice` is the open-space field of the component: it solves the wave equation at every integer position and moves outward on both sides of
the currents. -/
theorem C153_free {n : ℕ} {κ w : ℝ} (hκ : 0 < κ) (hw : 0 < w) (hkw : κ * w ≤ 1) (s : Fin n → ℂ) :
    (∀ i : ℤ, ((lattice κ w s (i + 1) - lattice κ w s i) / w - (lattice κ w s i - lattice κ w s (i - 1)) / w) / w + κ ^ 2 * lattice κ w s i
        = ∑ y : Fin n, if ((y : ℕ) : ℤ) = i then s y else 0)
    ∧ (∀ i : ℤ, (∀ y : Fin n, s y ≠ 0 → ((y : ℕ) : ℤ) ≤ i) → ∀ j : ℕ, lattice κ w s (i + j) = lattice κ w s i * (hop (κ * w / 2) ^ 2) ^ j)
    ∧ (∀ i : ℤ, (∀ y : Fin n, s y ≠ 0 → i ≤ ((y : ℕ) : ℤ)) → ∀ j : ℕ, lattice κ w s (i - j) = lattice κ w s i * (hop (κ * w / 2) ^ 2) ^ j) := by
  have hκw0 : 0 < κ * w := mul_pos hκ hw
  have hθ : (κ * w / 2) ^ 2 ≤ 1 / 4 := by nlinarith
  set u := hop (κ * w / 2) with hu
  set v := (starRingEnd ℂ) u with hv
  have uv : u * v = 1 := hop_mul_conj (by linarith)
  have udiff : u - v = -(I * (κ * w)) := by rw [hv, hu, hop_conj, hop]; push_cast; ring
  set σ := Real.sqrt (1 - (κ * w / 2) ^ 2) with hσ
  have hσ0 : 0 < σ := Real.sqrt_pos.2 (by linarith)
  have usum : u + v = 2 * σ := by rw [hv, hu, hop_conj, hop]; push_cast; ring
  have u2 : u ^ 2 - v ^ 2 = -(I * (κ * w)) * (2 * σ) := by rw [← udiff, ← usum]; ring
  have u2s : u ^ 2 + v ^ 2 = 2 - κ ^ 2 * w ^ 2 := by
    have h1 : (u - v) ^ 2 = -(κ ^ 2 * w ^ 2) := by rw [udiff]; linear_combination ((κ : ℂ) ^ 2 * w ^ 2) * I_sq
    linear_combination h1 + 2 * uv
  have hA : I * ((w / (2 * κ * σ) : ℝ) : ℂ) * (u ^ 2 - v ^ 2) = w ^ 2 := by
    have h1 : (κ : ℂ) ≠ 0 := by exact_mod_cast hκ.ne'
    have h2 : (σ : ℂ) ≠ 0 := by exact_mod_cast hσ0.ne'
    rw [u2]
    push_cast
    field_simp
    linear_combination (-(w : ℂ) ^ 2) * I_sq
  refine ⟨fun i => ?_, fun i hi n => ?_, fun i hi n => ?_⟩
  · have h : lattice κ w s (i + 1) + lattice κ w s (i - 1) - (u ^ 2 + v ^ 2) * lattice κ w s i = w ^ 2 * ∑ y : Fin n, if ((y : ℕ) : ℤ) = i then s y else 0 := by
      simp only [lattice]
      rw [Finset.mul_sum, Finset.mul_sum, ← Finset.sum_add_distrib, ← Finset.sum_sub_distrib]
      refine Finset.sum_congr rfl fun y _ => ?_
      have h1 := pw uv (i - (y : ℕ))
      rw [show i + 1 - ((y : ℕ) : ℤ) = i - (y : ℕ) + 1 by ring, show i - 1 - ((y : ℕ) : ℤ) = i - (y : ℕ) - 1 by ring]
      by_cases hy : ((y : ℕ) : ℤ) = i
      · rw [if_pos (by omega)] at h1
        rw [if_pos hy, ← hA]
        linear_combination (I * ((w / (2 * κ * σ) : ℝ) : ℂ) * s y) * h1
      · rw [if_neg (by omega)] at h1
        rw [if_neg hy]
        linear_combination (I * ((w / (2 * κ * σ) : ℝ) : ℂ) * s y) * h1
    have hw' : (w : ℂ) ≠ 0 := by exact_mod_cast hw.ne'
    rw [u2s] at h
    field_simp
    linear_combination h
  · simp only [lattice]
    rw [Finset.sum_mul]
    refine Finset.sum_congr rfl fun y _ => ?_
    by_cases hy : s y = 0
    · rw [hy]; ring
    · have := hi y hy
      rw [← pow_mul, mul_assoc _ (u ^ _), ← pow_add, show 2 * (i + n - ((y : ℕ) : ℤ)).natAbs = 2 * (i - ((y : ℕ) : ℤ)).natAbs + 2 * n by omega]
  · simp only [lattice]
    rw [Finset.sum_mul]
    refine Finset.sum_congr rfl fun y _ => ?_
    by_cases hy : s y = 0
    · rw [hy]; ring
    · have := hi y hy
      rw [← pow_mul, mul_assoc _ (u ^ _), ← pow_add, show 2 * (i - n - ((y : ℕ) : ℤ)).natAbs = 2 * (i - ((y : ℕ) : ℤ)).natAbs + 2 * n by omega]



namespace ScpmlOblique

/-- Grids that are uniform and real across `a`. -/
def Across (a : Fin 3) (wb : Fin 3 → ℝ) (g : Dx sh) : Prop := ∀ b, b ≠ a → 0 < wb b ∧ ∀ i, g.1 b i = wb b ∧ g.2 b i = wb b

/-- A field that changes by the phases `ζ` from cell to cell across `a`. -/
def Wave (a : Fin 3) (ζ : Fin 3 → ℂ) (f : Idx sh → ℂ) : Prop := ∀ b, b ≠ a → ∀ x, f (shiftIdx b 1 x) = ζ b * f x

theorem exists_eigen {V : Type*} [AddCommGroup V] [Module ℂ V] [FiniteDimensional ℂ V] (f : V →ₗ[ℂ] V) (K : Submodule ℂ V) {v : V} (hv : v ∈ K) (hv0 : v ≠ 0)
    (hf : ∀ v ∈ K, f v ∈ K) : ∃ (ζ : ℂ) (v : V), v ∈ K ∧ v ≠ 0 ∧ f v = ζ • v := by
  have : Nontrivial K := ⟨⟨⟨v, hv⟩, 0, fun h => hv0 (congrArg Subtype.val h)⟩⟩
  obtain ⟨ζ, hζ⟩ := Module.End.exists_eigenvalue (f.restrict hf)
  obtain ⟨u, hu⟩ := hζ.exists_hasEigenvector
  refine ⟨ζ, u, u.2, fun h => hu.2 (Subtype.ext h), ?_⟩
  have := congrArg Subtype.val hu.apply_eq_smul
  simpa using this

/-- Moving a field by one cell across, as a linear map. -/
def move (b : Fin 3) : Vec sh →ₗ[ℂ] Vec sh where
  toFun := trVec b 1
  map_add' _ _ := rfl
  map_smul' _ _ := rfl

theorem eFull_move {a b : Fin 3} (hb : b ≠ a) {wb : Fin 3 → ℝ} {g : Dx sh} (hg : Across a wb g) (ω : ℂ) (ε : ℂ) (E : Vec sh) :
    eFull ω g (fun _ => ε) none none none *ᵥ move b E = move b (eFull ω g (fun _ => ε) none none none *ᵥ E) := by
  have h := C86_e_full b 1 ω g (fun _ => ε) none none none E
  have e1 : trDx b 1 g.1 = g.1 := by
    funext d i
    by_cases hd : d = b
    · subst hd; simp only [trDx]; rw [((hg d hb).2 _).1, ((hg d hb).2 _).1]
    · simp only [trDx, if_neg hd]
  have e2 : trDx b 1 g.2 = g.2 := by
    funext d i
    by_cases hd : d = b
    · subst hd; simp only [trDx]; rw [((hg d hb).2 _).2, ((hg d hb).2 _).2]
    · simp only [trDx, if_neg hd]
  rw [e1, e2] at h
  exact h

/-- If the kernel has a nonzero field, it has one made of one transverse wave. -/
theorem exists_wave {a : Fin 3} {wb : Fin 3 → ℝ} {g : Dx sh} (hg : Across a wb g) {ω ε : ℂ} {E : Vec sh} (hE : eFull ω g (fun _ => ε) none none none *ᵥ E = 0) (h0 : E ≠ 0) :
    ∃ (ζ : Fin 3 → ℂ) (F : Vec sh), F ≠ 0 ∧ eFull ω g (fun _ => ε) none none none *ᵥ F = 0 ∧ ζ a = 1 ∧ ∀ d, Wave a ζ fun x => F (d, x) := by
  let L : Vec sh →ₗ[ℂ] Vec sh := (eFull ω g (fun _ => ε) none none none).mulVecLin
  obtain ⟨b, c, hb, hc, hbc, hall⟩ : ∃ b c : Fin 3, b ≠ a ∧ c ≠ a ∧ b ≠ c ∧ ∀ d, d ≠ a → d = b ∨ d = c := by
    have : ∀ a : Fin 3, ∃ b c : Fin 3, b ≠ a ∧ c ≠ a ∧ b ≠ c ∧ ∀ d, d ≠ a → d = b ∨ d = c := by decide
    exact this a
  obtain ⟨z, F, hF, hF0, hz⟩ := exists_eigen (move b) (LinearMap.ker L) (v := E) hE h0 fun v hv => by
    rw [LinearMap.mem_ker] at hv ⊢
    show eFull _ _ _ _ _ _ *ᵥ move b v = 0
    rw [eFull_move hb hg]
    have : eFull ω g (fun _ => ε) none none none *ᵥ v = 0 := hv
    rw [this]; exact map_zero _
  obtain ⟨z', F', hF', hF0', hz'⟩ := exists_eigen (move c) (LinearMap.ker L ⊓ LinearMap.ker (move b - z • LinearMap.id)) (v := F)
    ⟨hF, by rw [SetLike.mem_coe, LinearMap.mem_ker]; simp [hz]⟩ hF0 fun v hv => by
      obtain ⟨h1, h2⟩ := hv
      rw [SetLike.mem_coe, LinearMap.mem_ker] at h1 h2
      refine ⟨?_, ?_⟩
      · rw [SetLike.mem_coe, LinearMap.mem_ker]
        show eFull _ _ _ _ _ _ *ᵥ move c v = 0
        rw [eFull_move hc hg]
        have : eFull ω g (fun _ => ε) none none none *ᵥ v = 0 := h1
        rw [this]; exact map_zero _
      · rw [SetLike.mem_coe, LinearMap.mem_ker]
        have hcomm : move b (move c v) = move c (move b v) := by
          funext p
          show v (p.1, shiftIdx c 1 (shiftIdx b 1 p.2)) = v (p.1, shiftIdx b 1 (shiftIdx c 1 p.2))
          rw [shiftIdx_comm]
        simp only [LinearMap.sub_apply, LinearMap.smul_apply, LinearMap.id_apply] at h2 ⊢
        rw [hcomm, ← map_smul, ← map_sub, h2, map_zero]
  refine ⟨fun d => if d = a then 1 else if d = b then z else z', F', hF0', hF'.1, if_pos rfl, fun d e he x => ?_⟩
  have h2 := hF'.2
  rw [SetLike.mem_coe, LinearMap.mem_ker] at h2
  simp only [LinearMap.sub_apply, LinearMap.smul_apply, LinearMap.id_apply] at h2
  rcases hall e he with rfl | rfl
  · simp only [if_neg he, if_pos]
    exact congrFun (sub_eq_zero.1 h2) (d, x)
  · simp only [if_neg he, if_neg hbc.symm]
    exact congrFun hz' (d, x)

/-- The phases are roots of unity. -/
theorem wave_root {a : Fin 3} {ζ : Fin 3 → ℂ} {f : Idx sh → ℂ} (h : Wave a ζ f) {x : Idx sh} (hx : f x ≠ 0) {b : Fin 3} (hb : b ≠ a) : ζ b ^ sh b = 1 := by
  have key : ∀ n : ℕ, f (shiftIdx b n x) = ζ b ^ n * f x := by
    intro n
    induction n with
    | zero => simp
    | succ n ih =>
      rw [show shiftIdx b ((n + 1 : ℕ) : ℤ) x = shiftIdx b 1 (shiftIdx b n x) by rw [shiftIdx_shiftIdx]; push_cast; rfl, h b hb, ih, pow_succ]; ring
  have h1 := key (sh b)
  have h2 := shiftIdx_add_mul b 0 1 x
  rw [zero_add, one_mul, shiftIdx_zero] at h2
  rw [h2] at h1
  exact (mul_right_cancel₀ hx (by rw [one_mul]; exact h1)).symm

/-- Second differences of a wave. -/
theorem wave_dd {a b : Fin 3} (hb : b ≠ a) {wb : Fin 3 → ℝ} {g : Dx sh} (hg : Across a wb g) {ζ : Fin 3 → ℂ} {f : Idx sh → ℂ} (h : Wave a ζ f) (hz : ‖ζ b‖ = 1) (x : Idx sh) :
    Functional.derivBack (some g.2) b (Functional.derivForward (some g.1) b f) x = -(((2 - 2 * (ζ b).re) / wb b ^ 2 : ℝ) : ℂ) * f x := by
  have hw : (wb b : ℂ) ≠ 0 := by exact_mod_cast (hg b hb).1.ne'
  have hz' : ζ b * (starRingEnd ℂ) (ζ b) = 1 := by rw [Complex.mul_conj, Complex.normSq_eq_norm_sq, hz]; simp
  have hb' : f (shiftIdx b (-1) x) = (starRingEnd ℂ) (ζ b) * f x := by
    have := h b hb (shiftIdx b (-1) x)
    rw [shiftIdx_shiftIdx, neg_add_cancel, shiftIdx_zero] at this
    rw [this]; linear_combination (-f (shiftIdx b (-1) x)) * hz'
  have hsum : ζ b + (starRingEnd ℂ) (ζ b) = 2 * (ζ b).re := by rw [Complex.add_conj]; push_cast; ring
  rw [derivBack_eq, derivForward_eq, derivForward_eq]
  simp only [wOf, shiftIdx_shiftIdx, ((hg b hb).2 _).1, ((hg b hb).2 _).2]
  rw [show (-1 : ℤ) + 1 = 0 by norm_num, shiftIdx_zero, h b hb, hb']
  push_cast
  field_simp
  linear_combination (f x) * hsum

/-- `curl curl` with nothing commuted. -/
theorem curl_curl' (g : Dx sh) (F : VField sh ℂ) (c : Fin 3) (x : Idx sh) :
    Functional.curlBack (some g.2) (Functional.curlForward (some g.1) F) c x
      = ∑ b, if b = c then 0 else Functional.derivBack (some g.2) b (Functional.derivForward (some g.1) c (F b)) x - Functional.derivBack (some g.2) b (Functional.derivForward (some g.1) b (F c)) x := by
  have e0 : Functional.curlForward (some g.1) F 0 = fun y => Functional.derivForward (some g.1) 1 (F 2) y - Functional.derivForward (some g.1) 2 (F 1) y := rfl
  have e1 : Functional.curlForward (some g.1) F 1 = fun y => Functional.derivForward (some g.1) 2 (F 0) y - Functional.derivForward (some g.1) 0 (F 2) y := rfl
  have e2 : Functional.curlForward (some g.1) F 2 = fun y => Functional.derivForward (some g.1) 0 (F 1) y - Functional.derivForward (some g.1) 1 (F 0) y := rfl
  rw [Fin.sum_univ_three]
  revert c
  refine forall_fin3 ?_ ?_ ?_
  · rw [curlBack_0, e1, e2, derivBack_sub, derivBack_sub, if_pos rfl, if_neg (by decide), if_neg (by decide)]; ring
  · rw [curlBack_1, e0, e2, derivBack_sub, derivBack_sub, if_pos rfl, if_neg (by decide), if_neg (by decide)]; ring
  · rw [curlBack_2, e0, e1, derivBack_sub, derivBack_sub, if_pos rfl, if_neg (by decide), if_neg (by decide)]; ring

theorem eFull_row (ω : ℂ) (g : Dx sh) (ε : ℂ) (E : Vec sh) (c : Fin 3) (x : Idx sh) :
    (eFull ω g (fun _ => ε) none none none *ᵥ E) (c, x) = Functional.curlBack (some g.2) (Functional.curlForward (some g.1) (unS E)) c x - ω ^ 2 * (ε * E (c, x)) := by
  rw [eFull_mulVec]
  have : (fun q => cE g E q / muV none q) = cE g E := by funext q; show cE g E q / 1 = _; rw [div_one]
  rw [this]; rfl

/-- The one-dimensional equation of a wave has only the zero solution. -/
theorem line_zero {a : Fin 3} {g : Dx sh} (hA : Absorbing (g.1 a) (g.2 a)) {q : ℝ} (hq : q ≠ 0) {f : Idx sh → ℂ}
    (h : ∀ x, Functional.derivBack (some g.2) a (Functional.derivForward (some g.1) a f) x + q * f x = 0) : f = 0 := by
  have h1 : ∀ i, g.1 a i ≠ 0 := fun i => ne_of_re (hA.reH i)
  have h2 : ∀ i, g.2 a i ≠ 0 := fun i => ne_of_re (hA.reE i)
  let F : Idx sh → ℂ := fun x => (f (shiftIdx a 1 x) - f x) / g.1 a (x a)
  have step : ∀ x, F x = F (shiftIdx a (-1) x) - g.2 a (x a) * (q * f x) := by
    intro x
    have := h x
    rw [derivBack_eq] at this
    have e : ∀ y, Functional.derivForward (some g.1) a f y = F y := fun y => derivForward_eq ..
    rw [e, e] at this
    simp only [wOf] at this
    field_simp [h2 (x a)] at this
    linear_combination this
  have hform : ∑ x, g.1 a (x a) * (normSq (F x) : ℂ) = q * ∑ x, (starRingEnd ℂ) (g.2 a (x a)) * (normSq (f x) : ℂ) := by
    have l1 : ∀ x, g.1 a (x a) * (normSq (F x) : ℂ) = (starRingEnd ℂ) (F x) * (f (shiftIdx a 1 x) - f x) := by
      intro x
      rw [normSq_eq_conj_mul_self]
      have : g.1 a (x a) * F x = f (shiftIdx a 1 x) - f x := mul_div_cancel₀ _ (h1 _)
      linear_combination ((starRingEnd ℂ) (F x)) * this
    have l2 : ∑ x, (starRingEnd ℂ) (F x) * f (shiftIdx a 1 x) = ∑ x, (starRingEnd ℂ) (F (shiftIdx a (-1) x)) * f x := by
      rw [← sum_shiftIdx a (-1)]
      refine Finset.sum_congr rfl fun x _ => ?_
      rw [shiftIdx_shiftIdx, neg_add_cancel, shiftIdx_zero]
    simp only [l1, mul_sub]
    rw [Finset.sum_sub_distrib, l2, ← Finset.sum_sub_distrib, Finset.mul_sum]
    refine Finset.sum_congr rfl fun x _ => ?_
    rw [step x, map_sub, map_mul, map_mul, Complex.conj_ofReal, normSq_eq_conj_mul_self]
    ring
  rcases lt_or_gt_of_ne hq with hneg | hpos
  · -- evanescent
    have hre := congrArg Complex.re hform
    rw [re_sum, show ((q : ℝ) : ℂ) * ∑ x, (starRingEnd ℂ) (g.2 a (x a)) * (normSq (f x) : ℂ) = (q : ℂ) * ∑ x, (starRingEnd ℂ) (g.2 a (x a)) * (normSq (f x) : ℂ) from rfl, re_ofReal_mul, re_sum] at hre
    simp only [re_mul_ofReal, conj_re] at hre
    have s1 := Finset.sum_nonneg fun (x : Idx sh) (_ : x ∈ Finset.univ) => mul_nonneg (hA.reH (x a)).le (normSq_nonneg (F x))
    have n2 : ∀ x : Idx sh, 0 ≤ (g.2 a (x a)).re * normSq (f x) := fun x => mul_nonneg (hA.reE (x a)).le (normSq_nonneg (f x))
    have s2 := Finset.sum_nonneg fun (x : Idx sh) (_ : x ∈ Finset.univ) => n2 x
    have z2 : ∑ x : Idx sh, (g.2 a (x a)).re * normSq (f x) = 0 := by nlinarith
    rw [Finset.sum_eq_zero_iff_of_nonneg fun x _ => n2 x] at z2
    funext x
    exact normSq_eq_zero.1 ((mul_eq_zero.1 (z2 x (Finset.mem_univ _))).resolve_left (hA.reE _).ne')
  · have him := congrArg Complex.im hform
    rw [im_sum, im_ofReal_mul, im_sum] at him
    simp only [im_mul_ofReal, conj_im] at him
    have nF : ∀ x : Idx sh, (g.1 a (x a)).im * normSq (F x) ≤ 0 := fun x => mul_nonpos_of_nonpos_of_nonneg (hA.imH _) (normSq_nonneg _)
    have nE : ∀ x : Idx sh, 0 ≤ -(g.2 a (x a)).im * normSq (f x) := fun x => mul_nonneg (by linarith [hA.imE (x a)]) (normSq_nonneg _)
    have sF := Finset.sum_nonpos fun x (_ : x ∈ Finset.univ) => nF x
    have sE := Finset.sum_nonneg fun x (_ : x ∈ Finset.univ) => nE x
    have zE : ∑ x : Idx sh, -(g.2 a (x a)).im * normSq (f x) = 0 := by nlinarith
    have zF : ∑ x : Idx sh, (g.1 a (x a)).im * normSq (F x) = 0 := by rw [him, zE, mul_zero]
    rw [Finset.sum_eq_zero_iff_of_nonpos fun x _ => nF x] at zF
    rw [Finset.sum_eq_zero_iff_of_nonneg fun x _ => nE x] at zE
    obtain ⟨i, hi1, hi2⟩ := hA.some_cell
    funext y
    let x₀ : Idx sh := Function.update y a i
    have hx₀ : x₀ a = i := Function.update_self ..
    have E0 : f x₀ = 0 := normSq_eq_zero.1 ((mul_eq_zero.1 (zE x₀ (Finset.mem_univ _))).resolve_left (by rw [hx₀]; exact neg_ne_zero.2 hi2.ne))
    have F0 : F x₀ = 0 := normSq_eq_zero.1 ((mul_eq_zero.1 (zF x₀ (Finset.mem_univ _))).resolve_left (by rw [hx₀]; exact hi1.ne))
    have key : ∀ n : ℕ, f (shiftIdx a n x₀) = 0 ∧ F (shiftIdx a n x₀) = 0 := by
      intro n
      induction n with
      | zero => simpa using ⟨E0, F0⟩
      | succ n ih =>
        obtain ⟨i1, i2⟩ := ih
        have hs : shiftIdx a ((n + 1 : ℕ) : ℤ) x₀ = shiftIdx a 1 (shiftIdx a n x₀) := by rw [shiftIdx_shiftIdx]; push_cast; rfl
        have e1 : f (shiftIdx a 1 (shiftIdx a n x₀)) = 0 := by
          have := i2
          simp only [F] at this
          rw [i1, sub_zero] at this
          exact (div_eq_zero_iff.1 this).resolve_right (h1 _)
        refine ⟨by rw [hs]; exact e1, ?_⟩
        rw [hs, step, e1, mul_zero, mul_zero, sub_zero, shiftIdx_shiftIdx a 1 (-1), show (1 : ℤ) + -1 = 0 by norm_num, shiftIdx_zero, i2]
    have hy : shiftIdx a (((y a : ℕ) + (sh a - i) : ℕ) : ℤ) x₀ = y := by
      funext b
      by_cases hb : b = a
      · subst hb
        apply Fin.ext
        have b1 := (y b).isLt; have b2 := i.isLt
        rw [shiftIdx_same, hx₀]
        zify
        rw [wrap_val, show ((i : ℕ) : ℤ) + ((y b : ℕ) + ((sh b - i : ℕ) : ℤ)) = (y b : ℕ) + (sh b : ℤ) by omega, Int.add_emod_right, Int.emod_eq_of_lt (by omega) (by omega)]
      · rw [shiftIdx_of_ne hb]; exact Function.update_of_ne hb ..
    rw [← hy]; exact (key _).1

/-- The plane wave with phases `ζ`. -/
def plane (ζ : Fin 3 → ℂ) (x : Idx sh) : ℂ := ∏ b, ζ b ^ (x b : ℕ)

theorem plane_shift {ζ : Fin 3 → ℂ} {b : Fin 3} (hb : ζ b ^ sh b = 1) (x : Idx sh) : plane ζ (shiftIdx b 1 x) = ζ b * plane ζ x := by
  have e : ∀ y : Idx sh, plane ζ y = ζ b ^ (y b : ℕ) * ∏ d ∈ Finset.univ.erase b, ζ d ^ (y d : ℕ) := fun y => (Finset.mul_prod_erase _ _ (Finset.mem_univ b)).symm
  rw [e, e, ← mul_assoc]
  have h1 : ∏ d ∈ Finset.univ.erase b, ζ d ^ (shiftIdx b 1 x d : ℕ) = ∏ d ∈ Finset.univ.erase b, ζ d ^ (x d : ℕ) :=
    Finset.prod_congr rfl fun d hd => by rw [shiftIdx_of_ne (Finset.ne_of_mem_erase hd)]
  rw [h1]
  congr 1
  rw [shift_self, ← pow_succ']
  have := (x b).isLt
  rcases Nat.lt_or_ge ((x b : ℕ) + 1) (sh b) with h | h
  · rw [shift_val (x b) 1 ((x b : ℕ) + 1) h (by omega)]
  · have hn : (x b : ℕ) + 1 = sh b := by omega
    rw [shift_val (x b) 1 0 (by omega) (by omega), pow_zero, hn, hb]

theorem norm_root {z : ℂ} {n : ℕ} (hn : 0 < n) (h : z ^ n = 1) : ‖z‖ = 1 := by
  have := congrArg norm h
  rw [norm_pow, norm_one] at this
  exact (pow_eq_one_iff_of_nonneg (norm_nonneg _) hn.ne').1 this

end ScpmlOblique

/-- C153: when the equation has a solution for every current. In a homogeneous medium with absorbing layers along one axis it has exactly one, unless the
frequency is a cut-off frequency of the periodic grid across (a wave exactly along the layers); then the matrix is singular. -/
theorem C153_regular {ω ε : ℝ} (hω : 0 < ω) (hε : 0 < ε) (a : Fin 3) (wb : Fin 3 → ℝ) (g : Dx sh) (hsh : ∀ b, 0 < sh b) (hg : Across a wb g) (hA : Absorbing (g.1 a) (g.2 a)) :
    (∀ J, ∃! E, eFull ω g (fun _ => (ε : ℂ)) none none none *ᵥ E = (-I * ω) • J)
      ↔ ∀ ζ : Fin 3 → ℂ, (∀ b, ζ b ^ sh b = 1) → ζ a = 1 → transverse a wb ζ ≠ ω ^ 2 * ε := by
  have tsum : ∀ (ζ : Fin 3 → ℂ) (f : Idx sh → ℂ), (∀ b, b ≠ a → ‖ζ b‖ = 1) → Wave a ζ f → ∀ x,
      (∑ b, if b = a then 0 else Functional.derivBack (some g.2) b (Functional.derivForward (some g.1) b f) x) = -(transverse a wb ζ : ℂ) * f x := by
    intro ζ f hz hf x
    rw [transverse]
    push_cast
    rw [← Finset.sum_neg_distrib, Finset.sum_mul]
    refine Finset.sum_congr rfl fun b _ => ?_
    by_cases hb : b = a
    · rw [if_pos hb, if_pos hb]; simp
    · rw [if_neg hb, if_neg hb, wave_dd hb hg hf (hz b hb)]
  constructor
  · intro h ζ hζ hζa heq
    have hz : ∀ b, ‖ζ b‖ = 1 := fun b => norm_root (hsh b) (hζ b)
    let E : Vec sh := fun p => if p.1 = a then plane ζ p.2 else 0
    have hw : Wave a ζ (plane ζ : Idx sh → ℂ) := fun b _ x => plane_shift (hζ b) x
    have hEa : unS E a = plane ζ := by funext x; exact if_pos rfl
    have hEd : ∀ d, d ≠ a → unS E d = fun _ => 0 := fun d hd => by funext x; exact if_neg hd
    have ker : eFull ω g (fun _ => (ε : ℂ)) none none none *ᵥ E = (-I * ω) • (0 : Vec sh) := by
      rw [smul_zero]
      funext p
      obtain ⟨d, x⟩ := p
      rw [eFull_row, curl_curl', Pi.zero_apply]
      by_cases hd : d = a
      · subst hd
        have e1 : (∑ b, if b = d then 0 else Functional.derivBack (some g.2) b (Functional.derivForward (some g.1) d (unS E b)) x
            - Functional.derivBack (some g.2) b (Functional.derivForward (some g.1) b (unS E d)) x) = -(-(transverse d wb ζ : ℂ) * plane ζ x) := by
          rw [← tsum ζ _ (fun b _ => hz b) hw, ← Finset.sum_neg_distrib]
          refine Finset.sum_congr rfl fun b _ => ?_
          by_cases hb : b = d
          · rw [if_pos hb, if_pos hb, neg_zero]
          · rw [if_neg hb, if_neg hb, hEa, hEd b hb, derivBack_eq, derivForward_eq, derivForward_eq]; simp
        rw [e1, show E (d, x) = plane ζ x from if_pos rfl, heq]
        push_cast; ring
      · rw [show E (d, x) = 0 from if_neg hd, mul_zero, mul_zero, sub_zero]
        refine Finset.sum_eq_zero fun b _ => ?_
        by_cases hb : b = d
        · rw [if_pos hb]
        · rw [if_neg hb, hEd d hd, show Functional.derivBack (some g.2) b (Functional.derivForward (some g.1) b fun _ => (0 : ℂ)) x = 0 by rw [derivBack_eq, derivForward_eq, derivForward_eq]; simp, sub_zero]
          by_cases hba : b = a
          · subst hba
            have hc : ∀ y, Functional.derivForward (some g.1) d (unS E b) (shiftIdx b (-1) y) = Functional.derivForward (some g.1) d (unS E b) y := by
              intro y
              have hp : ∀ y : Idx sh, plane ζ (shiftIdx b (-1) y) = plane ζ y := fun y => by
                have := plane_shift (hζ b) (shiftIdx b (-1) y)
                rw [shiftIdx_shiftIdx, neg_add_cancel, shiftIdx_zero, hζa, one_mul] at this
                exact this.symm
              rw [derivForward_eq, derivForward_eq, hEa, shiftIdx_comm d b, hp, hp, shiftIdx_of_ne hd]
            rw [derivBack_eq, hc, sub_self, zero_div]
          · rw [derivBack_eq, derivForward_eq, derivForward_eq, hEd b hba]; simp
    obtain ⟨E', -, hu⟩ := h 0
    have h1 := hu E ker
    have h2 := hu 0 (by show _ *ᵥ (0 : Vec sh) = _; rw [mulVec_zero, smul_zero])
    have h3 := congrFun (h1.trans h2.symm) (a, fun b => ⟨0, hsh b⟩)
    simp [E, plane] at h3
  · intro h
    have inj : ∀ E, eFull ω g (fun _ => (ε : ℂ)) none none none *ᵥ E = 0 → E = 0 := by
      intro E hE
      by_contra h0
      obtain ⟨ζ, F, hF0, hF, hζa, hW⟩ := exists_wave hg hE h0
      obtain ⟨⟨d, x⟩, hx⟩ := Function.ne_iff.1 hF0
      have hroot : ∀ b, ζ b ^ sh b = 1 := fun b => by
        by_cases hb : b = a
        · rw [hb, hζa, one_pow]
        · exact wave_root (hW d) hx hb
      have hz : ∀ b, ‖ζ b‖ = 1 := fun b => norm_root (hsh b) (hroot b)
      have hq : ω ^ 2 * ε - transverse a wb ζ ≠ 0 := sub_ne_zero.2 (h ζ hroot hζa).symm
      have hdiv : ∀ x, Spec.divBack (some g.2) (unS F) x = 0 := by
        intro x
        have h0 := divBack_curlBack (some g.2) (Functional.curlForward (some g.1) (unS F)) x
        have h1 : Functional.curlBack (some g.2) (Functional.curlForward (some g.1) (unS F)) = fun d y => ω ^ 2 * ε * unS F d y := by
          funext d y
          have := congrFun hF (d, y)
          rw [eFull_row, Pi.zero_apply] at this
          show _ = ω ^ 2 * ε * F (d, y)
          linear_combination this
        rw [h1, divBack_eq] at h0
        rw [divBack_eq]
        have h2 : ∑ b, Functional.derivBack (some g.2) b (fun y => (ω : ℂ) ^ 2 * ε * unS F b y) x = ω ^ 2 * ε * ∑ b, Functional.derivBack (some g.2) b (unS F b) x := by
          rw [Finset.mul_sum]
          refine Finset.sum_congr rfl fun b _ => ?_
          rw [derivBack_eq, derivBack_eq]; ring
        rw [h2] at h0
        have hne : (ω : ℂ) ^ 2 * ε ≠ 0 := mul_ne_zero (pow_ne_zero 2 (by exact_mod_cast hω.ne')) (by exact_mod_cast hε.ne')
        exact (mul_eq_zero.1 h0).resolve_left hne
      have hzero : ∀ c, c ≠ a → unS F c = 0 := by
        intro c hc
        refine line_zero hA hq fun x => ?_
        have r := congrFun hF (c, x)
        rw [eFull_row, curl_curl g _ c _ (hg c hc).2, derivForward_eq, hdiv, hdiv, sub_zero, zero_div, zero_sub, Pi.zero_apply] at r
        have hs := tsum ζ _ (fun b _ => hz b) (hW c) x
        have e : ∑ b, Functional.derivBack (some g.2) b (Functional.derivForward (some g.1) b (unS F c)) x = Functional.derivBack (some g.2) a (Functional.derivForward (some g.1) a (unS F c)) x
            + ∑ b, if b = a then 0 else Functional.derivBack (some g.2) b (Functional.derivForward (some g.1) b (unS F c)) x := by
          rw [← Finset.add_sum_erase _ _ (Finset.mem_univ a), ← Finset.add_sum_erase _ (fun b => if b = a then 0 else _) (Finset.mem_univ a), if_pos rfl, zero_add]
          congr 1
          exact Finset.sum_congr rfl fun b hb => by rw [if_neg (Finset.ne_of_mem_erase hb)]
        rw [e] at r
        change _ = -(transverse a wb ζ : ℂ) * F (c, x) at hs
        rw [show (∑ b, if b = a then 0 else Functional.derivBack (some g.2) b (Functional.derivForward (some g.1) b (unS F c)) x) = -(transverse a wb ζ : ℂ) * F (c, x) from hs] at r
        push_cast
        show _ + (ω ^ 2 * ε - (transverse a wb ζ : ℂ)) * F (c, x) = 0
        linear_combination -r
      have ha : unS F a = 0 := by
        funext x
        have r := congrFun hF (a, x)
        rw [eFull_row, curl_curl', Pi.zero_apply] at r
        have hs := tsum ζ _ (fun b _ => hz b) (hW a) x
        have e : (∑ b, if b = a then 0 else Functional.derivBack (some g.2) b (Functional.derivForward (some g.1) a (unS F b)) x
            - Functional.derivBack (some g.2) b (Functional.derivForward (some g.1) b (unS F a)) x) = -(-(transverse a wb ζ : ℂ) * F (a, x)) := by
          rw [← hs, ← Finset.sum_neg_distrib]
          refine Finset.sum_congr rfl fun b _ => ?_
          by_cases hb : b = a
          · rw [if_pos hb, if_pos hb, neg_zero]
          · rw [if_neg hb, if_neg hb, hzero b hb, derivBack_eq, derivForward_eq, derivForward_eq]
            simp only [Pi.zero_apply, sub_self, zero_div, zero_sub]; rfl
        rw [e] at r
        have : ((ω ^ 2 * ε - transverse a wb ζ : ℝ) : ℂ) * F (a, x) = 0 := by push_cast; linear_combination -r
        exact (mul_eq_zero.1 this).resolve_left (by exact_mod_cast hq)
      apply hx
      by_cases hd : d = a
      · subst hd; exact congrFun ha x
      · exact congrFun (hzero d hd) x
    intro J
    have hinj : Function.Injective (eFull (ω : ℂ) g (fun _ => (ε : ℂ)) none none none).mulVec := fun E E' h => sub_eq_zero.1 (inj _ (by rw [mulVec_sub]; exact sub_eq_zero.2 h))
    have hu := Matrix.mulVec_injective_iff_isUnit.1 hinj
    obtain ⟨E, hE⟩ := Matrix.mulVec_surjective_iff_isUnit.2 hu ((-I * (ω : ℂ)) • J)
    exact ⟨E, hE, fun E' hE' => hinj (hE'.trans hE.symm)⟩

/-- C153: cells that are small enough: all components up to a given angle are those of open space within the designed amplitude `exp(ln_R κ / k)`
over `1 -` that amplitude, plus any `δ`. -/
theorem C153_converges {ω ε lnR m D : ℝ} (hω : 0 < ω) (hε : 0 < ε) (hR : lnR < 0) (hm : 2 ≤ m) (hD : 0 < D) {κ₀ δ : ℝ} (hκ₀ : 0 < κ₀) (hδ : 0 < δ) :
    ∃ h : ℝ, 0 < h ∧ ∀ (sh : Fin 3 → ℕ) (a c : Fin 3) (w : ℝ) (t : ℕ) (g : Dx sh) (eps : Vec sh) (mu : Option (Vec sh)) (E J : Vec sh)
      (wb : Fin 3 → ℝ) (ζ : Fin 3 → ℂ) (χ : Idx sh → ℂ) (κ τ : ℝ),
      c ≠ a → 0 < w → w ≤ h → t * w = D → 2 * t < sh a → Layers a w t ω ε lnR m g →
      PlaneMode a g wb ζ χ → κ₀ ≤ κ → κ ^ 2 + transverse a wb ζ = ω ^ 2 * ε → τ = Real.exp (lnR * (κ / (Real.sqrt ε * ω))) →
      eFull ω g eps mu none none *ᵥ E = (-I * ω) • J →
      (∀ p, eps p = ε ∧ (mu.getD 1) p = 1) → (∀ (d : Fin 3) (x : Idx sh), (x a : ℕ) ≤ t ∨ sh a - t ≤ (x a : ℕ) + 1 → J (d, x) = 0) →
      ∀ i : Fin (sh a), t ≤ (i : ℕ) → (i : ℕ) ≤ sh a - t →
        ‖mode a χ (fun x => E (c, x)) i - lattice κ w (mode a χ (source ω ε g J c)) (i : ℕ)‖
          ≤ (τ / (1 - τ) + δ) * (‖lattice κ w (mode a χ (source ω ε g J c)) (sh a - t : ℕ)‖ + ‖lattice κ w (mode a χ (source ω ε g J c)) t‖) := by
  obtain ⟨C, hC, key⟩ := C153_open hω hε hR.le hm hD
  have hk : 0 < Real.sqrt ε * ω := mul_pos (Real.sqrt_pos.2 hε) hω
  set τ₀ := Real.exp (lnR * (κ₀ / (Real.sqrt ε * ω))) with hτ₀
  have h1 : τ₀ < 1 := by
    rw [← Real.exp_zero]; exact Real.exp_lt_exp.2 (mul_neg_of_neg_of_pos hR (div_pos hκ₀ hk))
  set u := 1 - τ₀ with hu
  have hu0 : 0 < u := by linarith
  have e1 : ∀ᶠ w in nhds (0 : ℝ), C * w ^ 2 < u / 2 := ContinuousAt.eventually_lt (by fun_prop) continuousAt_const (by simpa using hu0)
  have e2 : ∀ᶠ w in nhds (0 : ℝ), C * w ^ 2 < δ * u ^ 2 / 2 := ContinuousAt.eventually_lt (by fun_prop) continuousAt_const (by simp; positivity)
  have e4 : ∀ᶠ w in nhds (0 : ℝ), Real.sqrt ε * ω * w < 1 := ContinuousAt.eventually_lt (by fun_prop) continuousAt_const (by simp)
  obtain ⟨h, h0, hh⟩ := Metric.eventually_nhds_iff.1 ((e1.and e2).and e4)
  refine ⟨h / 2, by positivity, ?_⟩
  intro sh a c w t g eps mu E J wb ζ χ κ τ hc hw hwh ht h2t hg P hκ hκ2 hτ hE hhom hJ i hi1 hi2
  obtain ⟨⟨k1, k2⟩, k4⟩ := hh (y := w) (by rw [Real.dist_eq, sub_zero, abs_of_pos hw]; linarith)
  have hττ : τ ≤ τ₀ := by
    rw [hτ, hτ₀]
    refine Real.exp_le_exp.2 (mul_le_mul_of_nonpos_left ?_ hR.le)
    gcongr
  have hτ0 : 0 < τ := by rw [hτ]; exact Real.exp_pos _
  set d := C * w ^ 2 with hd
  have hd0 : 0 ≤ d := by positivity
  refine (key sh a c w t g eps mu E J wb ζ χ κ (τ + d) hc hw ht k4.le h2t hg P (hκ₀.trans_le hκ) hκ2 (by rw [hτ]) (by linarith) hE hhom hJ i hi1 hi2).trans ?_
  refine mul_le_mul_of_nonneg_right ?_ (by positivity)
  have p1 : 0 < 1 - τ := by linarith
  have p2 : u / 2 ≤ 1 - (τ + d) := by linarith
  have p3 : 0 < 1 - (τ + d) := by linarith
  have e : (τ + d) / (1 - (τ + d)) = τ / (1 - τ) + d / ((1 - (τ + d)) * (1 - τ)) := by field_simp; ring
  rw [e]
  have : d / ((1 - (τ + d)) * (1 - τ)) ≤ δ := by
    rw [div_le_iff₀ (by positivity)]
    have : u / 2 * u ≤ (1 - (τ + d)) * (1 - τ) := mul_le_mul p2 (by linarith) hu0.le p3.le
    nlinarith
  linarith

/-- C153: grids with such layers, transverse waves and fields exist: for every frequency that is not a cut-off frequency of the grid, every current has exactly one field. -/
theorem C153_meets {ω ε lnR m w : ℝ} (hω : 0 < ω) (hε : 0 < ε) (hR : lnR < 0) (hm : 2 ≤ m) (hw : 0 < w) (a : Fin 3) (wb : Fin 3 → ℝ) (hwb : ∀ b, 0 < wb b) (hsh : ∀ b, 0 < sh b)
    {t : ℕ} (ht : 0 < t) (h2t : 2 * t < sh a) :
    ∃ g : Dx sh, Layers a w t ω ε lnR m g ∧ (∀ ζ : Fin 3 → ℂ, (∀ b, ζ b ^ sh b = 1) → ζ a = 1 → PlaneMode a g wb ζ (plane ζ)) ∧
      ((∀ ζ : Fin 3 → ℂ, (∀ b, ζ b ^ sh b = 1) → ζ a = 1 → transverse a wb ζ ≠ ω ^ 2 * ε) →
        ∀ J, ∃! E, eFull ω g (fun _ => (ε : ℂ)) none none none *ᵥ E = (-I * ω) • J) := by
  have hP : PreparedC (some (sFactorC lnR m)) := Or.inr ⟨lnR, m, hR, by linarith, rfl⟩
  have pos : ∀ b (_ : Fin (sh b)), 0 < (if b = a then w else wb b) := fun b _ => by split_ifs; exacts [hw, hwb b]
  obtain ⟨g₁, g, h1, h2, h3, h4⟩ := C144_stretch_both (sh := sh) (fun b _ => if b = a then w else wb b) (fun b _ => if b = a then w else wb b) pos pos a 1 (-1) one_pos (by norm_num) ω
    (by simpa using hω) ε hε t t ht ht (by omega) _ _ hP hP
  have hac : Across a wb g := fun b hb => ⟨hwb b, fun i => by have := h4 b hb i; simpa only [if_neg hb] using this⟩
  refine ⟨g, ⟨_, g₁, some (sFactorC lnR m), 1, -1, fun i => ⟨by simp, by simp⟩, Or.inl rfl, one_pos, by norm_num, Or.inl ⟨h1, h2⟩⟩, fun ζ hζ hζa => ?_, fun h => ?_⟩
  · exact ⟨hac, fun b => norm_root (hsh b) (hζ b), hζa, fun b x => plane_shift (hζ b) x⟩
  · exact (C153_regular hω hε a wb g hsh hac h3).2 h

/-- A wave that changes sign from one row to the next (`ζ₀ = -1`, `k = 2`, `κ = √3`: 30° from the axis of the layers), with the default layers: the sheet current `J` gives the field of open
space, up to `exp(-16·√3/2) / (1 - exp(-16·√3/2)) + 1e-6` of what reaches the layers. -/
example : ∃ r₀ : ℕ, ∀ r : ℕ, r₀ ≤ r → 0 < r → ∃ (g : Dx ![2, 40 * r, 1]) (E J : Vec ![2, 40 * r, 1]) (ζ : Fin 3 → ℂ), J ≠ 0 ∧ ζ 0 = -1 ∧
    Layers 1 (1 / (10 * r)) (10 * r) 2 1 (-16) 4 g ∧ eFull (2 : ℝ) g (fun _ => ((1 : ℝ) : ℂ)) none none none *ᵥ E = (-I * (2 : ℝ)) • J ∧
    (∃ i, mode 1 (plane ζ) (source 2 1 g J 2) i ≠ 0) ∧
    ∀ i : Fin (40 * r), 10 * r ≤ (i : ℕ) → (i : ℕ) ≤ 40 * r - 10 * r →
      ‖mode 1 (plane ζ) (fun x => E (2, x)) i - lattice (Real.sqrt 3) (1 / (10 * r)) (mode 1 (plane ζ) (source 2 1 g J 2)) (i : ℕ)‖
        ≤ (Real.exp (-16 * (Real.sqrt 3 / 2)) / (1 - Real.exp (-16 * (Real.sqrt 3 / 2))) + 1 / 1000000)
          * (‖lattice (Real.sqrt 3) (1 / (10 * r)) (mode 1 (plane ζ) (source 2 1 g J 2)) (40 * r - 10 * r : ℕ)‖ + ‖lattice (Real.sqrt 3) (1 / (10 * r)) (mode 1 (plane ζ) (source 2 1 g J 2)) (10 * r : ℕ)‖) := by
  obtain ⟨h, h0, key⟩ := C153_converges (ω := 2) (ε := 1) (lnR := -16) (m := 4) (D := 1) (by norm_num) one_pos (by norm_num) (by norm_num) one_pos (κ₀ := Real.sqrt 3) (δ := 1 / 1000000)
    (Real.sqrt_pos.2 (by norm_num)) (by norm_num)
  obtain ⟨r₀, hr₀⟩ := exists_nat_gt (1 / h)
  refine ⟨r₀, fun r hr hr0 => ?_⟩
  have hrr : (0 : ℝ) < r := by exact_mod_cast hr0
  have hsh : ∀ b, 0 < (![2, 40 * r, 1] : Fin 3 → ℕ) b := forall_fin3 (by simp) (show 0 < 40 * r by omega) (by simp)
  obtain ⟨g, hg, hmode, hreg⟩ := C153_meets (sh := ![2, 40 * r, 1]) (ω := 2) (ε := 1) (lnR := -16) (m := 4) (w := 1 / (10 * r)) (by norm_num) one_pos (by norm_num) (by norm_num) (by positivity) 1
    (fun _ => 2) (fun _ => by norm_num) hsh (t := 10 * r) (by omega) (show 2 * (10 * r) < 40 * r by omega)
  have htr : ∀ ζ : Fin 3 → ℂ, (∀ b, ζ b ^ (![2, 40 * r, 1] : Fin 3 → ℕ) b = 1) → ζ 1 = 1 → transverse 1 (fun _ => 2) ζ ≠ (2 : ℝ) ^ 2 * 1 := by
    intro ζ hζ _
    have h2 : ζ 2 = 1 := by simpa using hζ 2
    have h00 : ζ 0 ^ 2 = 1 := by simpa using hζ 0
    rw [transverse, Fin.sum_univ_three, if_neg (by decide), if_pos rfl, if_neg (by decide), h2]
    rcases (mul_self_eq_one_iff.1 ((sq (ζ 0)).symm.trans h00)) with h | h <;> rw [h] <;> norm_num
  let ζ : Fin 3 → ℂ := ![-1, 1, 1]
  have hζ : ∀ b, ζ b ^ (![2, 40 * r, 1] : Fin 3 → ℕ) b = 1 := forall_fin3 (by simp [ζ]) (by simp [ζ]) (by simp [ζ])
  let J : Vec ![2, 40 * r, 1] := fun p => if p.1 = 2 ∧ (p.2 1 : ℕ) = 20 * r then plane ζ p.2 else 0
  obtain ⟨E, hE, -⟩ := hreg htr J
  have hwh : 1 / (10 * (r : ℝ)) ≤ h := by
    have h1 : 1 / h < r := hr₀.trans_le (by exact_mod_cast hr)
    rw [div_lt_iff₀ h0] at h1
    rw [div_le_iff₀ (by positivity)]
    nlinarith
  let z : Idx ![2, 40 * r, 1] := fun b => ⟨(![0, 20 * r, 0] : Fin 3 → ℕ) b, by revert b; exact forall_fin3 (by simp) (show 20 * r < 40 * r by omega) (by simp)⟩
  have hz1 : (z 1 : ℕ) = 20 * r := rfl
  have hpl : ∀ x : Idx ![2, 40 * r, 1], plane ζ x * plane ζ x = 1 := by
    intro x
    have : plane ζ x = (-1) ^ (x 0 : ℕ) := by simp [plane, Fin.prod_univ_three, ζ]
    rw [this, ← mul_pow]; norm_num
  have hsrc : ∀ x : Idx ![2, 40 * r, 1], source 2 1 g J 2 x = I * (2 : ℝ) * J (2, x) := by
    intro x
    rw [source, derivForward_eq, shiftIdx_single (show (![2, 40 * r, 1] : Fin 3 → ℕ) 2 = 1 from rfl), sub_self, zero_div, mul_zero, add_zero]
  refine ⟨g, E, J, ζ, fun hJ => ?_, rfl, hg, hE, ⟨z 1, fun h0 => ?_⟩, fun i hi1 hi2 => ?_⟩
  · have h1 := congrFun hJ (2, z)
    have h2 := hpl z
    simp only [J, hz1, and_self, if_true] at h1
    rw [h1] at h2
    simp at h2
  · have him := congrArg Complex.im h0
    have e : mode 1 (plane ζ) (source 2 1 g J 2) (z 1) = ∑ x : Idx ![2, 40 * r, 1], if x 1 = z 1 then I * (2 : ℝ) else 0 := by
      refine Finset.sum_congr rfl fun x _ => ?_
      by_cases hx : x 1 = z 1
      · rw [if_pos hx, if_pos hx, hsrc]
        have : J (2, x) = plane ζ x := if_pos ⟨rfl, by show (x 1 : ℕ) = _; rw [hx]; rfl⟩
        rw [this]; linear_combination (I * (2 : ℝ)) * hpl x
      · rw [if_neg hx, if_neg hx]
    rw [e, im_sum] at him
    have hpos : 0 < ∑ x : Idx ![2, 40 * r, 1], (if x 1 = z 1 then I * ((2 : ℝ) : ℂ) else 0).im :=
      Finset.sum_pos' (fun x _ => by split_ifs; exacts [by simp, le_rfl]) ⟨z, Finset.mem_univ _, by rw [if_pos rfl]; simp⟩
    rw [him] at hpos
    simp at hpos
  · refine key _ 1 2 (1 / (10 * r)) (10 * r) g (fun _ => ((1 : ℝ) : ℂ)) none E J (fun _ => 2) ζ (plane ζ) (Real.sqrt 3) _ (by decide) (by positivity) hwh (by push_cast; field_simp)
      (show 2 * (10 * r) < 40 * r by omega) hg (hmode ζ hζ rfl) le_rfl ?_ ?_ hE (fun p => ⟨rfl, rfl⟩) (fun d x hx => if_neg fun h => ?_) i hi1 hi2
    · rw [Real.sq_sqrt (by norm_num), transverse, Fin.sum_univ_three, if_neg (by decide), if_pos rfl, if_neg (by decide)]
      simp [ζ]; norm_num
    · rw [Real.sqrt_one, one_mul]
    · have := h.2
      change (x 1 : ℕ) ≤ 10 * r ∨ 40 * r - 10 * r ≤ (x 1 : ℕ) + 1 at hx
      change (x 1 : ℕ) = 20 * r at this
      omega

end Meanas.Props
