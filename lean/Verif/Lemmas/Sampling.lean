/-
Samples of periodic functions on lattices: a function that does not vanish keeps a positive norm on fine grids.
-/
import Verif.Model.NdArray
import Mathlib.Analysis.Complex.Basic

namespace Meanas.Sampling

/-- `f` periodic with periods `L`, Lipschitz in the largest distance along the axes, and not zero: the norm of its samples is bounded below. -/
theorem lower {d : ℕ} {L : Fin (d + 1) → ℝ} (hL : ∀ a, 0 < L a) {f : (Fin (d + 1) → ℝ) → ℂ} (hp : ∀ (k : Fin (d + 1) → ℤ) r, f (fun a => r a + k a * L a) = f r)
    {D : ℝ} (hlip : ∀ r r' ρ, (∀ a, |r a - r' a| ≤ ρ) → ‖f r - f r'‖ ≤ D * ρ) {r₀ : Fin (d + 1) → ℝ}
    (h0 : f r₀ ≠ 0) : ∃ m > 0, ∃ h₀ > 0, ∀ (sh : Fin (d + 1) → ℕ) (h o : Fin (d + 1) → ℝ), (∀ a, L a = sh a * h a) → (∀ a, 0 < h a) → (∀ a, h a ≤ h₀) →
      m ≤ ∑ x : Idx sh, (∏ a, h a) * ‖f (fun a => h a * ((x a : ℕ) + o a))‖ ^ 2 := by
  classical
  set z := ‖f r₀‖ with hz
  have z0 : 0 < z := norm_pos_iff.2 h0
  have D0 : 0 ≤ D := by
    have := (norm_nonneg _).trans (hlip r₀ r₀ 1 fun a => by simp)
    linarith
  obtain ⟨ρ, ρ0, hρz, hρL⟩ : ∃ ρ > 0, D * ρ ≤ z / 2 ∧ ∀ a, ρ ≤ L a := by
    refine ⟨min (z / (2 * (D + 1))) (Finset.univ.inf' Finset.univ_nonempty L), ?_, ?_, ?_⟩
    · exact lt_min (by positivity) ((Finset.lt_inf'_iff _).2 fun a _ => hL a)
    · refine (mul_le_mul_of_nonneg_left (min_le_left _ _) D0).trans ?_
      rw [mul_div_assoc', div_le_div_iff₀ (by positivity) two_pos]
      nlinarith
    · intro a
      exact (min_le_right _ _).trans (Finset.inf'_le _ (Finset.mem_univ a))
  refine ⟨(ρ / 2) ^ (d + 1) * (z / 2) ^ 2, by positivity, ρ / 2, by positivity, ?_⟩
  intro sh h o hsh hh hle
  have shpos : ∀ a, 0 < sh a := fun a => by
    rcases Nat.eq_zero_or_pos (sh a) with h0 | h0
    · have := hL a; rw [hsh a, h0] at this; simp at this
    · exact h0
  set N : Fin (d + 1) → ℕ := fun a => ⌊ρ / h a⌋₊ with hN
  have N1 : ∀ a, (N a : ℝ) * h a ≤ ρ := fun a => by
    have := Nat.floor_le (div_nonneg ρ0.le (hh a).le)
    rwa [le_div_iff₀ (hh a)] at this
  have N2 : ∀ a, ρ / 2 ≤ (N a : ℝ) * h a := fun a => by
    have := Nat.lt_floor_add_one (ρ / h a)
    rw [div_lt_iff₀ (hh a)] at this
    have := hle a
    simp only [hN]; nlinarith
  have N3 : ∀ a, N a ≤ sh a := fun a => by
    have h1 : (N a : ℝ) * h a ≤ sh a * h a := (N1 a).trans ((hρL a).trans (le_of_eq (hsh a)))
    exact_mod_cast le_of_mul_le_mul_right h1 (hh a)
  set n0 : Fin (d + 1) → ℤ := fun a => ⌈r₀ a / h a - o a⌉ with hn0
  let φ : (∀ a, Fin (N a)) → Idx sh := fun t a => wrap ⟨0, shpos a⟩ (n0 a + (t a : ℕ))
  have φval : ∀ t a, ((φ t a : ℕ) : ℤ) = (n0 a + (t a : ℕ)) % (sh a : ℤ) := by
    intro t a
    have hp : (0 : ℤ) < sh a := by exact_mod_cast shpos a
    have := Int.emod_nonneg (n0 a + (t a : ℕ)) hp.ne'
    simp only [φ, wrap]
    push_cast
    rw [zero_add, Int.toNat_of_nonneg this]
  have φinj : Function.Injective φ := by
    intro t t' htt
    funext a
    have h1 := φval t a
    rw [htt, φval t' a] at h1
    have h2 : ((t' a : ℕ) : ℤ) % (sh a : ℤ) = ((t a : ℕ) : ℤ) % (sh a : ℤ) := (Int.emod_add_cancel_left).1 h1
    have l1 := (t a).2; have l2 := (t' a).2; have l3 := N3 a
    rw [Int.emod_eq_of_lt (by omega) (by omega), Int.emod_eq_of_lt (by omega) (by omega)] at h2
    exact Fin.ext (by exact_mod_cast h2.symm)
  have φclose : ∀ t, z / 2 ≤ ‖f (fun a => h a * ((φ t a : ℕ) + o a))‖ := by
    intro t
    have e : f (fun a => h a * ((φ t a : ℕ) + o a)) = f (fun a => h a * ((n0 a : ℝ) + (t a : ℕ) + o a)) := by
      rw [← hp (fun a => (n0 a + (t a : ℕ)) / (sh a : ℤ)) (fun a => h a * ((φ t a : ℕ) + o a))]
      congr 1
      funext a
      have h1 := φval t a
      have h2 := Int.emod_add_mul_ediv (n0 a + (t a : ℕ)) (sh a : ℤ)
      rw [← h1] at h2
      have h3 : ((φ t a : ℕ) : ℝ) + (sh a : ℝ) * (((n0 a + (t a : ℕ)) / (sh a : ℤ) : ℤ) : ℝ) = (n0 a : ℝ) + (t a : ℕ) := by exact_mod_cast h2
      rw [← h3, hsh a]; ring
    rw [e]
    have h2 : ∀ a, |r₀ a - h a * ((n0 a : ℝ) + (t a : ℕ) + o a)| ≤ ρ := by
      intro a
      have c1 := Int.le_ceil (r₀ a / h a - o a)
      have c2 := Int.ceil_lt_add_one (r₀ a / h a - o a)
      have c3 : r₀ a ≤ h a * ((n0 a : ℝ) + o a) := by
        have : r₀ a / h a ≤ (n0 a : ℝ) + o a := by simp only [hn0]; linarith
        rw [div_le_iff₀ (hh a)] at this; linarith
      have c4 : h a * ((n0 a : ℝ) + o a) ≤ r₀ a + h a := by
        have : (n0 a : ℝ) + o a - 1 ≤ r₀ a / h a := by simp only [hn0]; linarith
        rw [le_div_iff₀ (hh a)] at this; linarith
      have c5 : ((t a : ℕ) : ℝ) + 1 ≤ N a := by exact_mod_cast (t a).2
      have c6 := N1 a
      have c7 : 0 ≤ h a * ((t a : ℕ) : ℝ) := mul_nonneg (hh a).le (Nat.cast_nonneg _)
      have c8 : h a * (((t a : ℕ) : ℝ) + 1) ≤ h a * N a := mul_le_mul_of_nonneg_left c5 (hh a).le
      rw [abs_le]; constructor <;> linarith
    have h1 := hlip _ _ ρ h2
    have h4 := norm_sub_norm_le (f r₀) (f fun a => h a * ((n0 a : ℝ) + (t a : ℕ) + o a))
    linarith
  have P0 : 0 < ∏ a, h a := Finset.prod_pos fun a _ => hh a
  calc (ρ / 2) ^ (d + 1) * (z / 2) ^ 2 ≤ (∏ a, (N a : ℝ) * h a) * (z / 2) ^ 2 := by
        refine mul_le_mul_of_nonneg_right ?_ (sq_nonneg _)
        have := Finset.prod_le_prod (s := Finset.univ) (f := fun _ : Fin (d + 1) => ρ / 2) (g := fun a => (N a : ℝ) * h a) (fun a _ => by positivity) fun a _ => N2 a
        rwa [Finset.prod_const, Finset.card_univ, Fintype.card_fin] at this
    _ = ∑ _t : ∀ a, Fin (N a), (∏ a, h a) * (z / 2) ^ 2 := by
        rw [Finset.sum_const, Finset.card_univ, Fintype.card_pi, nsmul_eq_mul, Finset.prod_mul_distrib]
        push_cast
        simp only [Fintype.card_fin]; ring
    _ ≤ ∑ t : ∀ a, Fin (N a), (∏ a, h a) * ‖f (fun a => h a * ((φ t a : ℕ) + o a))‖ ^ 2 :=
        Finset.sum_le_sum fun t _ => mul_le_mul_of_nonneg_left (pow_le_pow_left₀ (by positivity) (φclose t) 2) P0.le
    _ = ∑ x ∈ Finset.univ.image φ, (∏ a, h a) * ‖f (fun a => h a * ((x a : ℕ) + o a))‖ ^ 2 := by
        rw [Finset.sum_image fun _ _ _ _ hab => φinj hab]
    _ ≤ _ := Finset.sum_le_univ_sum_of_nonneg fun x => mul_nonneg P0.le (sq_nonneg _)



end Meanas.Sampling
