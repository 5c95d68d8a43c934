/-
C172 (scattering parameters of a device between two waveguides: reciprocity, power balance, unitarity).
-/
import Verif.Props.Lorentz
import Verif.Props.FdtdRun
import Verif.Props.Waveguide3dExamples

namespace Meanas.Props

open Matrix Complex Fdfd Spec Fdtd

variable {sh : Fin 3 → ℕ}

/-- The H field that `e2h` gives for E. -/
noncomputable def hField (ω : ℂ) (dxes : Dx sh) (mu : Option (VField sh ℂ)) (E : VField sh ℂ) : VField sh ℂ :=
  unS (Fdfd.e2h ω dxes (mu.map vecS) none *ᵥ vecS E)

theorem hField_apply (ω : ℂ) (dxes : Dx sh) (mu : Option (VField sh ℂ)) (E : VField sh ℂ) (c : Fin 3) (x : Idx sh) :
    hField ω dxes mu E c x = Functional.curlForward (some dxes.1) E c x / (-I * ω) / mu.getD 1 c x := by
  have hmuv : muV (mu.map vecS) (c, x) = mu.getD 1 c x := by cases mu <;> rfl
  show (Fdfd.e2h ω dxes (mu.map vecS) none *ᵥ vecS E) (c, x) = _
  rw [e2h_mulVec, hmuv]; rfl

/-- A wave of a lead: near plane `i` the field solves the source-free equation and is multiplied by `lam` from each plane to the next (E from plane `i + 1`, H from
plane `i`). Guided, leaky and evanescent modes of a uniform guide are such waves (`C172_mode`), and so are Bloch waves of a lead with a period of one cell. -/
structure LeadWave (ω : ℂ) (dxes : Dx sh) (eps : VField sh ℂ) (mu : Option (VField sh ℂ)) (a : Fin 3) (i : ℕ) (lam : ℂ) (W : VField sh ℂ) : Prop where
  free : ∀ c (x : Idx sh), (x a : ℕ) = i + 1 → (eFull ω dxes (vecS eps) (mu.map vecS) none none *ᵥ vecS W) (c, x) = 0
  stepE : ∀ c (x : Idx sh), (x a : ℕ) = i + 1 → W c (shiftIdx a 1 x) = lam * W c x
  stepH : ∀ c (x : Idx sh), (x a : ℕ) = i → hField ω dxes mu W c (shiftIdx a 1 x) = lam * hField ω dxes mu W c x

/-- On the two planes `i`, `i + 1` the field is the sum of the waves `W n` with amplitudes `c n`. -/
def SumOfWaves {ι : Type*} [Fintype ι] (a : Fin 3) (i : ℕ) (W : ι → VField sh ℂ) (c : ι → ℂ) (E : VField sh ℂ) : Prop :=
  ∀ b (x : Idx sh), (x a : ℕ) = i ∨ (x a : ℕ) = i + 1 → E b x = ∑ n, c n * W n b x

theorem plane_shift_val {a : Fin 3} {x : Idx sh} (h : (x a : ℕ) + 1 < sh a) : ((shiftIdx a 1 x a : Fin (sh a)) : ℕ) = (x a : ℕ) + 1 := by
  have h1 := wrap_val (x a) 1
  rw [shiftIdx, Function.update_self]
  rw [Int.emod_eq_of_lt (by omega) (by omega)] at h1; omega

/-- Cross product of a plane from tangential fields on it. -/
theorem cross_plane (dxes : Dx sh) (E H E' H' : VField sh ℂ) (a : Fin 3) (x x' : Idx sh) (u v : ℂ) (hx : ∀ b, b ≠ a → x' b = x b)
    (hE : ∀ c, E' c (shiftIdx a 1 x') = u * E c (shiftIdx a 1 x)) (hH : ∀ c, H' c x' = v * H c x) :
    FdfdF.poyntingECrossH dxes E' H' a x' = u * v * FdfdF.poyntingECrossH dxes E H a x := by
  have hs : ∀ b y, b ≠ a → (shiftIdx a 1 y : Idx sh) b = y b := fun b y hb => shiftIdx_of_ne hb 1 y
  fin_cases a
  · have w1 := hx 1 (by decide); have w2 := hx 2 (by decide)
    simp only [Fin.zero_eta, Fin.isValue] at hE w1 w2 hs ⊢
    show roll (fun x => E' 1 x * dxes.1 1 (x 1)) (-1) 0 x' * (H' 2 x' * dxes.2 2 (x' 2)) - roll (fun x => E' 2 x * dxes.1 2 (x 2)) (-1) 0 x' * (H' 1 x' * dxes.2 1 (x' 1))
      = u * v * (roll (fun x => E 1 x * dxes.1 1 (x 1)) (-1) 0 x * (H 2 x * dxes.2 2 (x 2)) - roll (fun x => E 2 x * dxes.1 2 (x 2)) (-1) 0 x * (H 1 x * dxes.2 1 (x 1)))
    simp only [roll_apply, neg_neg, hE, hH, w1, w2, hs 1 _ (by decide), hs 2 _ (by decide)]
    ring
  · have w1 := hx 0 (by decide); have w2 := hx 2 (by decide)
    simp only [Fin.mk_one, Fin.isValue] at hE w1 w2 hs ⊢
    show roll (fun x => E' 2 x * dxes.1 2 (x 2)) (-1) 1 x' * (H' 0 x' * dxes.2 0 (x' 0)) - roll (fun x => E' 0 x * dxes.1 0 (x 0)) (-1) 1 x' * (H' 2 x' * dxes.2 2 (x' 2))
      = u * v * (roll (fun x => E 2 x * dxes.1 2 (x 2)) (-1) 1 x * (H 0 x * dxes.2 0 (x 0)) - roll (fun x => E 0 x * dxes.1 0 (x 0)) (-1) 1 x * (H 2 x * dxes.2 2 (x 2)))
    simp only [roll_apply, neg_neg, hE, hH, w1, w2, hs 0 _ (by decide), hs 2 _ (by decide)]
    ring
  · have w1 := hx 0 (by decide); have w2 := hx 1 (by decide)
    simp only [Fin.reduceFinMk, Fin.isValue] at hE w1 w2 hs ⊢
    show roll (fun x => E' 0 x * dxes.1 0 (x 0)) (-1) 2 x' * (H' 1 x' * dxes.2 1 (x' 1)) - roll (fun x => E' 1 x * dxes.1 1 (x 1)) (-1) 2 x' * (H' 0 x' * dxes.2 0 (x' 0))
      = u * v * (roll (fun x => E 0 x * dxes.1 0 (x 0)) (-1) 2 x * (H 1 x * dxes.2 1 (x 1)) - roll (fun x => E 1 x * dxes.1 1 (x 1)) (-1) 2 x * (H 0 x * dxes.2 0 (x 0)))
    simp only [roll_apply, neg_neg, hE, hH, w1, w2, hs 0 _ (by decide), hs 1 _ (by decide)]
    ring

/-- The cross product of sums. -/
theorem cross_sum {ι κ : Type*} [Fintype ι] [Fintype κ] (dxes : Dx sh) (a : Fin 3) (x : Idx sh) (E H : VField sh ℂ) (F : ι → VField sh ℂ) (G : κ → VField sh ℂ)
    (u : ι → ℂ) (v : κ → ℂ) (hE : ∀ c, E c (shiftIdx a 1 x) = ∑ n, u n * F n c (shiftIdx a 1 x)) (hH : ∀ c, H c x = ∑ m, v m * G m c x) :
    FdfdF.poyntingECrossH dxes E H a x = ∑ n, ∑ m, u n * v m * FdfdF.poyntingECrossH dxes (F n) (G m) a x := by
  have key : ∀ p q r s : Fin 3, ∀ A B C D : ℂ,
      (∑ n, u n * F n p (shiftIdx a 1 x)) * A * ((∑ m, v m * G m q x) * B) - (∑ n, u n * F n r (shiftIdx a 1 x)) * C * ((∑ m, v m * G m s x) * D)
        = ∑ n, ∑ m, u n * v m * (F n p (shiftIdx a 1 x) * A * (G m q x * B) - F n r (shiftIdx a 1 x) * C * (G m s x * D)) := by
    intro p q r s A B C D
    have : ∀ (f : ι → ℂ) (g : κ → ℂ) (A B : ℂ), (∑ n, f n) * A * ((∑ m, g m) * B) = ∑ n, ∑ m, f n * g m * (A * B) := by
      intro f g A B
      rw [show (∑ n, f n) * A * ((∑ m, g m) * B) = (∑ n, f n) * (∑ m, g m) * (A * B) by ring, Finset.sum_mul_sum, Finset.sum_mul]
      exact Finset.sum_congr rfl fun n _ => Finset.sum_mul ..
    rw [this, this, ← Finset.sum_sub_distrib]
    refine Finset.sum_congr rfl fun n _ => ?_
    rw [← Finset.sum_sub_distrib]
    exact Finset.sum_congr rfl fun m _ => by ring
  fin_cases a
  · exact (show _ = _ from by
      show roll (fun x => E 1 x * dxes.1 1 (x 1)) (-1) 0 x * (H 2 x * dxes.2 2 (x 2)) - roll (fun x => E 2 x * dxes.1 2 (x 2)) (-1) 0 x * (H 1 x * dxes.2 1 (x 1)) = _
      simp only [roll_apply, neg_neg, Fin.zero_eta, Fin.isValue] at hE key ⊢
      rw [hE, hE, hH, hH, key]
      refine Finset.sum_congr rfl fun n _ => Finset.sum_congr rfl fun m _ => ?_
      show _ = u n * v m * (roll (fun x => F n 1 x * dxes.1 1 (x 1)) (-1) 0 x * (G m 2 x * dxes.2 2 (x 2)) - roll (fun x => F n 2 x * dxes.1 2 (x 2)) (-1) 0 x * (G m 1 x * dxes.2 1 (x 1)))
      simp only [roll_apply, neg_neg])
  · exact (show _ = _ from by
      show roll (fun x => E 2 x * dxes.1 2 (x 2)) (-1) 1 x * (H 0 x * dxes.2 0 (x 0)) - roll (fun x => E 0 x * dxes.1 0 (x 0)) (-1) 1 x * (H 2 x * dxes.2 2 (x 2)) = _
      simp only [roll_apply, neg_neg, Fin.mk_one, Fin.isValue] at hE key ⊢
      rw [hE, hE, hH, hH, key]
      refine Finset.sum_congr rfl fun n _ => Finset.sum_congr rfl fun m _ => ?_
      show _ = u n * v m * (roll (fun x => F n 2 x * dxes.1 2 (x 2)) (-1) 1 x * (G m 0 x * dxes.2 0 (x 0)) - roll (fun x => F n 0 x * dxes.1 0 (x 0)) (-1) 1 x * (G m 2 x * dxes.2 2 (x 2)))
      simp only [roll_apply, neg_neg])
  · exact (show _ = _ from by
      show roll (fun x => E 0 x * dxes.1 0 (x 0)) (-1) 2 x * (H 1 x * dxes.2 1 (x 1)) - roll (fun x => E 1 x * dxes.1 1 (x 1)) (-1) 2 x * (H 0 x * dxes.2 0 (x 0)) = _
      simp only [roll_apply, neg_neg, Fin.reduceFinMk, Fin.isValue] at hE key ⊢
      rw [hE, hE, hH, hH, key]
      refine Finset.sum_congr rfl fun n _ => Finset.sum_congr rfl fun m _ => ?_
      show _ = u n * v m * (roll (fun x => F n 0 x * dxes.1 0 (x 0)) (-1) 2 x * (G m 1 x * dxes.2 1 (x 1)) - roll (fun x => F n 1 x * dxes.1 1 (x 1)) (-1) 2 x * (G m 0 x * dxes.2 0 (x 0)))
      simp only [roll_apply, neg_neg])

/-- A sum over a plane, cell by cell on the plane before it. -/
theorem planeFlux_next (S : VField sh ℂ) (a : Fin 3) {i : ℕ} (hi : i + 1 < sh a) :
    planeFlux S a (i + 1) = ∑ x : Idx sh with (x a : ℕ) = i, S a (shiftIdx a 1 x) := by
  symm
  refine Finset.sum_bij' (fun x _ => shiftIdx a 1 x) (fun y _ => shiftIdx a (-1) y) ?_ ?_ ?_ ?_ fun _ _ => rfl
  · intro x hx
    have hx := (Finset.mem_filter.1 hx).2
    simp only [Finset.mem_filter, Finset.mem_univ, true_and]
    rw [plane_shift_val (by omega), hx]
  · intro y hy
    have hy := (Finset.mem_filter.1 hy).2
    simp only [Finset.mem_filter, Finset.mem_univ, true_and]
    rw [shiftIdx_same]
    have := Meanas.Wg3.wrap_neg_one (i := y a) (by omega)
    omega
  · intro x _; simp
  · intro y _; simp

/-- `Σ (E₁ × H₂ - E₂ × H₁)` over the faces after plane `i`, the H fields from `e2h`. -/
noncomputable def lorentzAt (ω : ℂ) (dxes : Dx sh) (mu : Option (VField sh ℂ)) (a : Fin 3) (i : ℕ) (E₁ E₂ : VField sh ℂ) : ℂ :=
  planeFlux (lorentzCross dxes E₁ (hField ω dxes mu E₁) E₂ (hField ω dxes mu E₂)) a i

/-- `Σ (E₁ × H₂* + E₂* × H₁)` over the faces after plane `i`; for one field this is four times the time-averaged power. -/
noncomputable def powerAt (ω : ℂ) (dxes : Dx sh) (mu : Option (VField sh ℂ)) (a : Fin 3) (i : ℕ) (E₁ E₂ : VField sh ℂ) : ℂ :=
  planeFlux (crossPower dxes E₁ (hField ω dxes mu E₁) E₂ (hField ω dxes mu E₂)) a i

theorem lorentzAt_swap (ω : ℂ) (dxes : Dx sh) (mu : Option (VField sh ℂ)) (a : Fin 3) (i : ℕ) (E₁ E₂ : VField sh ℂ) :
    lorentzAt ω dxes mu a i E₂ E₁ = -lorentzAt ω dxes mu a i E₁ E₂ := by
  simp only [lorentzAt, planeFlux, lorentzCross, ← Finset.sum_neg_distrib, neg_sub]

theorem curlForward_waves {ι : Type*} [Fintype ι] (dx : DxList sh ℂ) (W : ι → VField sh ℂ) (u : ι → ℂ) (c : Fin 3) (x : Idx sh) :
    Functional.curlForward (some dx) (fun b y => ∑ n, u n * W n b y) c x = ∑ n, u n * Functional.curlForward (some dx) (W n) c x := by
  revert c
  apply forall_fin3 <;>
  · simp only [curlForward_0, curlForward_1, curlForward_2, derivForward_eq, ← Finset.sum_sub_distrib, Finset.sum_div]
    exact Finset.sum_congr rfl fun n _ => by ring

section Sums
variable {ι κ : Type*} [Fintype ι] [Fintype κ] {a : Fin 3} {i : ℕ} {W : ι → VField sh ℂ} {V : κ → VField sh ℂ} {u : ι → ℂ} {v : κ → ℂ} {E F : VField sh ℂ}

theorem SumOfWaves.hField (h : SumOfWaves a i W u E) (hi : i + 1 < sh a) (ω : ℂ) (dxes : Dx sh) (mu : Option (VField sh ℂ)) (c : Fin 3) {x : Idx sh}
    (hx : (x a : ℕ) = i) : hField ω dxes mu E c x = ∑ n, u n * Props.hField ω dxes mu (W n) c x := by
  rw [hField_apply, curlForward_local (some dxes.1) (some dxes.1) E (fun b y => ∑ n, u n * W n b y) x (fun _ => rfl) (fun c => h c x (Or.inl hx))
    (fun c b => h c _ ?_), curlForward_waves, Finset.sum_div, Finset.sum_div]
  · exact Finset.sum_congr rfl fun n _ => by rw [hField_apply]; ring
  · by_cases hb : b = a
    · subst hb; right; rw [plane_shift_val (by omega), hx]
    · left; rw [shiftIdx_of_ne (Ne.symm hb), hx]

theorem SumOfWaves.next (h : SumOfWaves a i W u E) (hi : i + 1 < sh a) (c : Fin 3) {x : Idx sh} (hx : (x a : ℕ) = i) :
    E c (shiftIdx a 1 x) = ∑ n, u n * W n c (shiftIdx a 1 x) :=
  h c _ (Or.inr (by rw [plane_shift_val (by omega), hx]))

theorem planeFlux_sum (S : VField sh ℂ) (T : ι → κ → VField sh ℂ) (w : ι → κ → ℂ)
    (h : ∀ x : Idx sh, (x a : ℕ) = i → S a x = ∑ n, ∑ m, w n m * T n m a x) : planeFlux S a i = ∑ n, ∑ m, w n m * planeFlux (T n m) a i := by
  simp only [planeFlux, Finset.mul_sum]
  rw [Finset.sum_congr rfl fun x hx => h x (Finset.mem_filter.1 hx).2, Finset.sum_comm]
  exact Finset.sum_congr rfl fun n _ => Finset.sum_comm

/-- The reciprocity integral of two sums of waves. -/
theorem lorentzAt_sum (h : SumOfWaves a i W u E) (h' : SumOfWaves a i V v F) (hi : i + 1 < sh a) (ω : ℂ) (dxes : Dx sh) (mu : Option (VField sh ℂ)) :
    lorentzAt ω dxes mu a i E F = ∑ n, ∑ m, u n * v m * lorentzAt ω dxes mu a i (W n) (V m) := by
  refine planeFlux_sum _ _ _ fun x hx => ?_
  rw [lorentzCross, cross_sum dxes a x _ _ W _ u v (fun c => h.next hi c hx) (fun c => h'.hField hi ω dxes mu c hx),
    cross_sum dxes a x _ _ V _ v u (fun c => h'.next hi c hx) (fun c => h.hField hi ω dxes mu c hx), Finset.sum_comm (s := (Finset.univ : Finset κ)),
    ← Finset.sum_sub_distrib]
  refine Finset.sum_congr rfl fun n _ => ?_
  rw [← Finset.sum_sub_distrib]
  exact Finset.sum_congr rfl fun m _ => by rw [lorentzCross]; ring

/-- The cross power of two sums of waves. -/
theorem powerAt_sum (h : SumOfWaves a i W u E) (h' : SumOfWaves a i V v F) (hi : i + 1 < sh a) (ω : ℂ) (dxes : Dx sh) (mu : Option (VField sh ℂ)) :
    powerAt ω dxes mu a i E F = ∑ n, ∑ m, u n * (starRingEnd ℂ) (v m) * powerAt ω dxes mu a i (W n) (V m) := by
  refine planeFlux_sum _ _ (fun n m => u n * (starRingEnd ℂ) (v m)) fun x hx => ?_
  rw [crossPower, cross_sum dxes a x _ _ W (fun m c y => (starRingEnd ℂ) (Props.hField ω dxes mu (V m) c y)) u (fun m => (starRingEnd ℂ) (v m))
      (fun c => h.next hi c hx) (fun c => by rw [h'.hField hi ω dxes mu c hx, map_sum]; simp only [map_mul]),
    cross_sum dxes a x _ _ (fun m c y => (starRingEnd ℂ) (V m c y)) _ (fun m => (starRingEnd ℂ) (v m)) u
      (fun c => by rw [h'.next hi c hx, map_sum]; simp only [map_mul]) (fun c => h.hField hi ω dxes mu c hx), Finset.sum_comm (s := (Finset.univ : Finset κ)),
    ← Finset.sum_add_distrib]
  refine Finset.sum_congr rfl fun n _ => ?_
  rw [← Finset.sum_add_distrib]
  exact Finset.sum_congr rfl fun m _ => by rw [crossPower]; ring
end Sums

/-- The product of two waves of a lead is multiplied by both factors from one plane to the next. -/
theorem LeadWave.lorentz {ω : ℂ} {dxes : Dx sh} {eps : VField sh ℂ} {mu : Option (VField sh ℂ)} {a : Fin 3} {i : ℕ} {l₁ l₂ : ℂ} {W₁ W₂ : VField sh ℂ}
    (h₁ : LeadWave ω dxes eps mu a i l₁ W₁) (h₂ : LeadWave ω dxes eps mu a i l₂ W₂) (hi : i + 1 < sh a) :
    lorentzAt ω dxes mu a (i + 1) W₁ W₂ = l₁ * l₂ * lorentzAt ω dxes mu a i W₁ W₂ := by
  rw [lorentzAt, planeFlux_next _ _ hi, lorentzAt, planeFlux, Finset.mul_sum]
  refine Finset.sum_congr rfl fun x hx => ?_
  have hx := (Finset.mem_filter.1 hx).2
  have hs : ((shiftIdx a 1 x a : Fin (sh a)) : ℕ) = i + 1 := by rw [plane_shift_val (by omega), hx]
  have hb : ∀ b, b ≠ a → shiftIdx a 1 x b = x b := fun b hb => shiftIdx_of_ne hb 1 x
  rw [lorentzCross, lorentzCross, cross_plane dxes W₁ _ W₁ _ a x _ l₁ l₂ hb (fun c => h₁.stepE c _ hs) (fun c => h₂.stepH c x hx),
    cross_plane dxes W₂ _ W₂ _ a x _ l₂ l₁ hb (fun c => h₂.stepE c _ hs) (fun c => h₁.stepH c x hx)]
  ring

theorem LeadWave.power {ω : ℂ} {dxes : Dx sh} {eps : VField sh ℂ} {mu : Option (VField sh ℂ)} {a : Fin 3} {i : ℕ} {l₁ l₂ : ℂ} {W₁ W₂ : VField sh ℂ}
    (h₁ : LeadWave ω dxes eps mu a i l₁ W₁) (h₂ : LeadWave ω dxes eps mu a i l₂ W₂) (hi : i + 1 < sh a) :
    powerAt ω dxes mu a (i + 1) W₁ W₂ = l₁ * (starRingEnd ℂ) l₂ * powerAt ω dxes mu a i W₁ W₂ := by
  rw [powerAt, planeFlux_next _ _ hi, powerAt, planeFlux, Finset.mul_sum]
  refine Finset.sum_congr rfl fun x hx => ?_
  have hx := (Finset.mem_filter.1 hx).2
  have hs : ((shiftIdx a 1 x a : Fin (sh a)) : ℕ) = i + 1 := by rw [plane_shift_val (by omega), hx]
  have hb : ∀ b, b ≠ a → shiftIdx a 1 x b = x b := fun b hb => shiftIdx_of_ne hb 1 x
  rw [crossPower, crossPower, cross_plane dxes W₁ (fun c y => (starRingEnd ℂ) (hField ω dxes mu W₂ c y)) W₁ _ a x _ l₁ ((starRingEnd ℂ) l₂) hb
      (fun c => h₁.stepE c _ hs) (fun c => by rw [h₂.stepH c x hx, map_mul]),
    cross_plane dxes (fun c y => (starRingEnd ℂ) (W₂ c y)) _ (fun c y => (starRingEnd ℂ) (W₂ c y)) _ a x _ ((starRingEnd ℂ) l₂) l₁ hb
      (fun c => by rw [h₂.stepE c _ hs, map_mul]) (fun c => h₁.stepH c x hx)]
  ring

/-- **C172.** The waves of a lead are orthogonal without a mode solver being involved: `Σ (E₁ × H₂ - E₂ × H₁)` over a plane vanishes for two waves unless the
product of their factors is one, that is unless they are each other's reverse. Any medium, also lossy, magnetic or with complex-stretched widths. -/
theorem C172_orthogonal (ω : ℂ) (hω : ω ≠ 0) (dxes : Dx sh) (hd : Nonzero dxes.1 ∧ Nonzero dxes.2) (eps : VField sh ℂ) (mu : Option (VField sh ℂ))
    (hmu : ∀ m, mu = some m → ∀ c x, m c x ≠ 0) {a : Fin 3} {i : ℕ} (hi : i + 1 < sh a) {l₁ l₂ : ℂ} {W₁ W₂ : VField sh ℂ}
    (h₁ : LeadWave ω dxes eps mu a i l₁ W₁) (h₂ : LeadWave ω dxes eps mu a i l₂ W₂) (hl : l₁ * l₂ ≠ 1) : lorentzAt ω dxes mu a i W₁ W₂ = 0 := by
  have h := C134_planes ω hω dxes hd eps mu hmu (E₁ := W₁) (E₂ := W₂) a (Nat.le_succ i) hi (fun c x h1 h2 => h₁.free c x (by omega))
    (fun c x h1 h2 => h₂.free c x (by omega)) (H₁ := hField ω dxes mu W₁) (H₂ := hField ω dxes mu W₂) (vecS_unS _) (vecS_unS _)
  have h' : lorentzAt ω dxes mu a (i + 1) W₁ W₂ = lorentzAt ω dxes mu a i W₁ W₂ := h
  rw [h₁.lorentz h₂ hi] at h'
  have : (l₁ * l₂ - 1) * lorentzAt ω dxes mu a i W₁ W₂ = 0 := by linear_combination h'
  exact (mul_eq_zero.1 this).resolve_left (sub_ne_zero.2 hl)

/-- **C172.** In a lossless lead the powers of two waves add up unless the factor of one times the conjugate factor of the other is one; so evanescent waves carry
no power of their own, and travelling waves with different factors none together. -/
theorem C172_power_orthogonal (ω : ℝ) (hω : ω ≠ 0) (d : DxList sh ℝ × DxList sh ℝ) (hd : Nonzero d.1 ∧ Nonzero d.2) (eps : VField sh ℂ)
    (mu : Option (VField sh ℂ)) (hmu : ∀ m, mu = some m → ∀ c x, m c x ≠ 0) {a : Fin 3} {i : ℕ} (hi : i + 1 < sh a)
    (hreal : ∀ c (x : Idx sh), (x a : ℕ) = i + 1 → (eps c x).im = 0 ∧ (mu.getD 1 c x).im = 0) {l₁ l₂ : ℂ} {W₁ W₂ : VField sh ℂ}
    (h₁ : LeadWave ω (cDx d) eps mu a i l₁ W₁) (h₂ : LeadWave ω (cDx d) eps mu a i l₂ W₂) (hl : l₁ * (starRingEnd ℂ) l₂ ≠ 1) :
    powerAt ω (cDx d) mu a i W₁ W₂ = 0 := by
  have h := C134_power_planes ω hω d hd eps mu hmu (E₁ := W₁) (E₂ := W₂) a (Nat.le_succ i) hi (fun c x h1 h2 => hreal c x (by omega))
    (fun c x h1 h2 => h₁.free c x (by omega)) (fun c x h1 h2 => h₂.free c x (by omega))
    (H₁ := hField ω (cDx d) mu W₁) (H₂ := hField ω (cDx d) mu W₂) (vecS_unS _) (vecS_unS _)
  have h' : powerAt ω (cDx d) mu a (i + 1) W₁ W₂ = powerAt ω (cDx d) mu a i W₁ W₂ := h
  rw [h₁.power h₂ hi] at h'
  have : (l₁ * (starRingEnd ℂ) l₂ - 1) * powerAt ω (cDx d) mu a i W₁ W₂ = 0 := by linear_combination h'
  exact (mul_eq_zero.1 this).resolve_left (sub_ne_zero.2 hl)

/-- A port: pairs of waves of the lead at plane `i`, `inl n` coming in and `inr n` going out. Apart from the two of a pair, no two waves are each other's reverse
(or, where modes are degenerate, they have been made orthogonal). -/
structure IsPort (ω : ℂ) (dxes : Dx sh) (eps : VField sh ℂ) (mu : Option (VField sh ℂ)) (a : Fin 3) (i : ℕ) {κ : Type*} (lam : κ ⊕ κ → ℂ)
    (W : κ ⊕ κ → VField sh ℂ) : Prop where
  room : i + 1 < sh a
  wave : ∀ p, LeadWave ω dxes eps mu a i (lam p) (W p)
  pairs : ∀ p q, lam p * lam q = 1 → q = p.swap ∨ q = p ∨ lorentzAt ω dxes mu a i (W p) (W q) = 0

/-- The weight of channel `n`: `Σ (E × H' - E' × H)` over the faces after plane `i` for the incoming wave `E` and the outgoing wave `E'`. -/
noncomputable def portWeight (ω : ℂ) (dxes : Dx sh) (mu : Option (VField sh ℂ)) (a : Fin 3) (i : ℕ) {κ : Type*} (W : κ ⊕ κ → VField sh ℂ) (n : κ) : ℂ :=
  lorentzAt ω dxes mu a i (W (.inl n)) (W (.inr n))

section Device

variable {ω : ℂ} {dxes : Dx sh} {eps : VField sh ℂ} {mu : Option (VField sh ℂ)} {a : Fin 3} {i j : ℕ} {κ κ' : Type*} [Fintype κ] [Fintype κ']
  {lam : κ ⊕ κ → ℂ} {W : κ ⊕ κ → VField sh ℂ} {lam' : κ' ⊕ κ' → ℂ} {W' : κ' ⊕ κ' → VField sh ℂ}

theorem IsPort.lorentz (P : IsPort ω dxes eps mu a i lam W) (hω : ω ≠ 0) (hd : Nonzero dxes.1 ∧ Nonzero dxes.2)
    (hmu : ∀ m, mu = some m → ∀ c x, m c x ≠ 0) {E F : VField sh ℂ} {u v : κ ⊕ κ → ℂ} (hE : SumOfWaves a i W u E) (hF : SumOfWaves a i W v F) :
    lorentzAt ω dxes mu a i E F = ∑ n, portWeight ω dxes mu a i W n * (u (.inl n) * v (.inr n) - u (.inr n) * v (.inl n)) := by
  classical
  have hz : ∀ p q, q ≠ p.swap → lorentzAt ω dxes mu a i (W p) (W q) = 0 := by
    intro p q hq
    by_cases hl : lam p * lam q = 1
    · rcases P.pairs p q hl with h | h | h
      · exact absurd h hq
      · subst h
        have := lorentzAt_swap ω dxes mu a i (W q) (W q)
        linear_combination (1 / 2 : ℂ) * this
      · exact h
    · exact C172_orthogonal ω hω dxes hd eps mu hmu P.room (P.wave p) (P.wave q) hl
  rw [lorentzAt_sum hE hF P.room]
  have : ∀ p, (∑ q, u p * v q * lorentzAt ω dxes mu a i (W p) (W q)) = u p * v p.swap * lorentzAt ω dxes mu a i (W p) (W p.swap) := by
    intro p
    exact Finset.sum_eq_single _ (fun q _ hq => by rw [hz p q hq, mul_zero]) (by simp)
  rw [Finset.sum_congr rfl fun p _ => this p, Fintype.sum_sum_type, ← Finset.sum_add_distrib]
  refine Finset.sum_congr rfl fun n _ => ?_
  simp only [Sum.swap_inl, Sum.swap_inr, portWeight]
  rw [lorentzAt_swap ω dxes mu a i (W (.inl n)) (W (.inr n))]
  ring

/-- **C172.** Reciprocity of a device between two leads. Two fields without currents between port planes `i ≤ j`, with amplitudes `u`, `v` of the waves at the first port
and `u'`, `v'` at the second: `Σ N (in · out' - out · in')` is the same at both ports. The device may be anything: lossy, magnetic, on a non-uniform or
complex-stretched grid. -/
theorem C172_reciprocity (hω : ω ≠ 0) (hd : Nonzero dxes.1 ∧ Nonzero dxes.2) (hmu : ∀ m, mu = some m → ∀ c x, m c x ≠ 0)
    (P : IsPort ω dxes eps mu a i lam W) (Q : IsPort ω dxes eps mu a j lam' W') (hij : i ≤ j) {E F : VField sh ℂ} {u v : κ ⊕ κ → ℂ} {u' v' : κ' ⊕ κ' → ℂ}
    (hE : ∀ c (x : Idx sh), i < (x a : ℕ) → (x a : ℕ) ≤ j → (eFull ω dxes (vecS eps) (mu.map vecS) none none *ᵥ vecS E) (c, x) = 0)
    (hF : ∀ c (x : Idx sh), i < (x a : ℕ) → (x a : ℕ) ≤ j → (eFull ω dxes (vecS eps) (mu.map vecS) none none *ᵥ vecS F) (c, x) = 0)
    (hu : SumOfWaves a i W u E) (hv : SumOfWaves a i W v F) (hu' : SumOfWaves a j W' u' E) (hv' : SumOfWaves a j W' v' F) :
    ∑ n, portWeight ω dxes mu a i W n * (u (.inl n) * v (.inr n) - u (.inr n) * v (.inl n))
      = ∑ n, portWeight ω dxes mu a j W' n * (u' (.inl n) * v' (.inr n) - u' (.inr n) * v' (.inl n)) := by
  rw [← P.lorentz hω hd hmu hu hv, ← Q.lorentz hω hd hmu hu' hv']
  exact (C134_planes ω hω dxes hd eps mu hmu (E₁ := E) (E₂ := F) a hij (by have := Q.room; omega) hE hF (H₁ := hField ω dxes mu E) (H₂ := hField ω dxes mu F)
    (vecS_unS _) (vecS_unS _)).symm

/-- `S` is the scattering matrix of the device between the ports: for every channel `p` there is a field without currents between the ports whose incoming
wave is that of channel `p` alone, with amplitude one, and whose outgoing amplitudes are the column `p` of `S`. -/
def IsScatteringMatrix [DecidableEq κ] [DecidableEq κ'] (ω : ℂ) (dxes : Dx sh) (eps : VField sh ℂ) (mu : Option (VField sh ℂ)) (a : Fin 3) (i j : ℕ)
    (W : κ ⊕ κ → VField sh ℂ) (W' : κ' ⊕ κ' → VField sh ℂ) (S : Matrix (κ ⊕ κ') (κ ⊕ κ') ℂ) : Prop :=
  ∀ p, ∃ E : VField sh ℂ,
    (∀ c (x : Idx sh), i < (x a : ℕ) → (x a : ℕ) ≤ j → (eFull ω dxes (vecS eps) (mu.map vecS) none none *ᵥ vecS E) (c, x) = 0) ∧
    SumOfWaves a i W (Sum.elim (fun n => if p = .inl n then 1 else 0) fun n => S (.inl n) p) E ∧
    SumOfWaves a j W' (Sum.elim (fun n => if p = .inr n then 1 else 0) fun n => S (.inr n) p) E

/-- **C172.** So the scattering matrix is symmetric once the channels are weighted: `N_p S_pq = N_q S_qp`. (At the second port the weight is counted with the
other sign, since there the incoming wave travels towards the first port.) Transmission from p to q equals transmission from q to p for waves normalised to the
same weight. -/
theorem C172_symmetric [DecidableEq κ] [DecidableEq κ'] (hω : ω ≠ 0) (hd : Nonzero dxes.1 ∧ Nonzero dxes.2) (hmu : ∀ m, mu = some m → ∀ c x, m c x ≠ 0)
    (P : IsPort ω dxes eps mu a i lam W) (Q : IsPort ω dxes eps mu a j lam' W') (hij : i ≤ j) {S : Matrix (κ ⊕ κ') (κ ⊕ κ') ℂ}
    (hS : IsScatteringMatrix ω dxes eps mu a i j W W' S) (p q : κ ⊕ κ') :
    Sum.elim (portWeight ω dxes mu a i W) (fun n => -portWeight ω dxes mu a j W' n) p * S p q
      = Sum.elim (portWeight ω dxes mu a i W) (fun n => -portWeight ω dxes mu a j W' n) q * S q p := by
  obtain ⟨E, hE, hu, hu'⟩ := hS p
  obtain ⟨F, hF, hv, hv'⟩ := hS q
  have h := C172_reciprocity hω hd hmu P Q hij hE hF hu hv hu' hv'
  simp only [Sum.elim_inl, Sum.elim_inr, mul_sub, Finset.sum_sub_distrib, ite_mul, mul_ite, one_mul, mul_one, zero_mul, mul_zero] at h
  rcases p with p | p <;> rcases q with q | q <;>
    simp only [Sum.inl.injEq, Sum.inr.injEq, reduceCtorEq, if_false, Finset.sum_ite_eq, Finset.mem_univ, if_true, Finset.sum_const_zero, sub_zero, zero_sub,
      sub_self, Sum.elim_inl, Sum.elim_inr] at h ⊢
  · linear_combination h
  · linear_combination h
  · linear_combination h
  · linear_combination h

end Device

section Lossless

variable {ω : ℝ} {d : DxList sh ℝ × DxList sh ℝ} {eps : VField sh ℂ} {mu : Option (VField sh ℂ)} {a : Fin 3} {i j : ℕ} {ι ι' : Type*} [Fintype ι] [Fintype ι']
  {lam : ι → ℂ} {W : ι → VField sh ℂ} {lam' : ι' → ℂ} {W' : ι' → VField sh ℂ}

/-- Waves of a lossless lead at plane `i` of which no two carry power together. -/
structure IsLosslessPort (ω : ℝ) (d : DxList sh ℝ × DxList sh ℝ) (eps : VField sh ℂ) (mu : Option (VField sh ℂ)) (a : Fin 3) (i : ℕ) (lam : ι → ℂ)
    (W : ι → VField sh ℂ) : Prop where
  room : i + 1 < sh a
  wave : ∀ p, LeadWave ω (cDx d) eps mu a i (lam p) (W p)
  real : ∀ c (x : Idx sh), (x a : ℕ) = i + 1 → (eps c x).im = 0 ∧ (mu.getD 1 c x).im = 0
  apart : ∀ p q, lam p * (starRingEnd ℂ) (lam q) = 1 → q = p ∨ powerAt ω (cDx d) mu a i (W p) (W q) = 0

theorem IsLosslessPort.power (P : IsLosslessPort ω d eps mu a i lam W) (hω : ω ≠ 0) (hd : Nonzero d.1 ∧ Nonzero d.2)
    (hmu : ∀ m, mu = some m → ∀ c x, m c x ≠ 0) {E F : VField sh ℂ} {u v : ι → ℂ} (hE : SumOfWaves a i W u E) (hF : SumOfWaves a i W v F) :
    powerAt ω (cDx d) mu a i E F = ∑ n, powerAt ω (cDx d) mu a i (W n) (W n) * (u n * (starRingEnd ℂ) (v n)) := by
  classical
  rw [powerAt_sum hE hF P.room]
  refine Finset.sum_congr rfl fun n _ => ?_
  rw [Finset.sum_eq_single n]
  · ring
  · intro q _ hq
    suffices powerAt ω (cDx d) mu a i (W n) (W q) = 0 by rw [this, mul_zero]
    by_cases hl : lam n * (starRingEnd ℂ) (lam q) = 1
    · exact (P.apart n q hl).resolve_left hq
    · exact C172_power_orthogonal ω hω d hd eps mu hmu P.room P.real (P.wave n) (P.wave q) hl
  · simp

/-- **C172.** Power balance of a lossless device between two lossless leads: `Σ P |amplitude|²` over the waves is the same at both ports, each wave with the power it
carries by itself; waves whose factor is not of modulus one (evanescent ones) do not count. -/
theorem C172_power (hω : ω ≠ 0) (hd : Nonzero d.1 ∧ Nonzero d.2) (hmu : ∀ m, mu = some m → ∀ c x, m c x ≠ 0)
    (P : IsLosslessPort ω d eps mu a i lam W) (Q : IsLosslessPort ω d eps mu a j lam' W') (hij : i ≤ j)
    (hreal : ∀ c (x : Idx sh), i < (x a : ℕ) → (x a : ℕ) ≤ j → (eps c x).im = 0 ∧ (mu.getD 1 c x).im = 0) {E : VField sh ℂ} {u : ι → ℂ} {u' : ι' → ℂ}
    (hE : ∀ c (x : Idx sh), i < (x a : ℕ) → (x a : ℕ) ≤ j → (eFull ω (cDx d) (vecS eps) (mu.map vecS) none none *ᵥ vecS E) (c, x) = 0)
    (hu : SumOfWaves a i W u E) (hu' : SumOfWaves a j W' u' E) :
    ∑ n, (powerAt ω (cDx d) mu a i (W n) (W n)).re * ‖u n‖ ^ 2 = ∑ n, (powerAt ω (cDx d) mu a j (W' n) (W' n)).re * ‖u' n‖ ^ 2 ∧
    (∀ n, ‖lam n‖ ≠ 1 → powerAt ω (cDx d) mu a i (W n) (W n) = 0) ∧ (∀ n, ‖lam' n‖ ≠ 1 → powerAt ω (cDx d) mu a j (W' n) (W' n) = 0) := by
  have hn : ∀ z : ℂ, ‖z‖ ≠ 1 → z * (starRingEnd ℂ) z ≠ 1 := by
    intro z hz h
    rw [mul_conj, normSq_eq_norm_sq] at h
    have h' : ‖z‖ ^ 2 = 1 := by exact_mod_cast h
    exact hz (by have := norm_nonneg z; nlinarith)
  refine ⟨?_, fun n h => C172_power_orthogonal ω hω d hd eps mu hmu P.room P.real (P.wave n) (P.wave n) (hn _ h),
    fun n h => C172_power_orthogonal ω hω d hd eps mu hmu Q.room Q.real (Q.wave n) (Q.wave n) (hn _ h)⟩
  have h : powerAt ω (cDx d) mu a j E E = powerAt ω (cDx d) mu a i E E :=
    C134_power_planes ω hω d hd eps mu hmu (E₁ := E) (E₂ := E) a hij (by have := Q.room; omega) hreal hE hE
      (H₁ := hField ω (cDx d) mu E) (H₂ := hField ω (cDx d) mu E) (vecS_unS _) (vecS_unS _)
  rw [P.power hω hd hmu hu hu, Q.power hω hd hmu hu' hu'] at h
  have hr : ∀ z w : ℂ, (w * (z * (starRingEnd ℂ) z)).re = w.re * ‖z‖ ^ 2 := by
    intro z w
    rw [mul_conj, normSq_eq_norm_sq, re_mul_ofReal]
  have := congrArg re h.symm
  simpa only [re_sum, hr] using this

/-- **C172.** So the scattering matrix of a lossless device preserves power and keeps different excitations apart: with the powers of the waves counted towards the
device for the incoming and away from it for the outgoing ones, `Σ_n Pout_n S_np S_nq* = Pin_p` for `p = q` and zero otherwise. For waves of unit power
`S` is unitary. Evanescent outgoing waves may be present. -/
theorem C172_unitary {κ κ' : Type*} [Fintype κ] [Fintype κ'] [DecidableEq κ] [DecidableEq κ'] {lam : κ ⊕ κ → ℂ} {W : κ ⊕ κ → VField sh ℂ} {lam' : κ' ⊕ κ' → ℂ}
    {W' : κ' ⊕ κ' → VField sh ℂ} (hω : ω ≠ 0) (hd : Nonzero d.1 ∧ Nonzero d.2) (hmu : ∀ m, mu = some m → ∀ c x, m c x ≠ 0)
    (P : IsLosslessPort ω d eps mu a i lam W) (Q : IsLosslessPort ω d eps mu a j lam' W') (hij : i ≤ j)
    (hreal : ∀ c (x : Idx sh), i < (x a : ℕ) → (x a : ℕ) ≤ j → (eps c x).im = 0 ∧ (mu.getD 1 c x).im = 0) {S : Matrix (κ ⊕ κ') (κ ⊕ κ') ℂ}
    (hS : IsScatteringMatrix ω (cDx d) eps mu a i j W W' S) (p q : κ ⊕ κ') :
    ∑ n, Sum.elim (fun n => -powerAt ω (cDx d) mu a i (W (.inr n)) (W (.inr n))) (fun n => powerAt ω (cDx d) mu a j (W' (.inr n)) (W' (.inr n))) n
        * (S n p * (starRingEnd ℂ) (S n q))
      = if p = q then Sum.elim (fun n => powerAt ω (cDx d) mu a i (W (.inl n)) (W (.inl n)))
          (fun n => -powerAt ω (cDx d) mu a j (W' (.inl n)) (W' (.inl n))) p else 0 := by
  obtain ⟨E, hE, hu, hu'⟩ := hS p
  obtain ⟨F, hF, hv, hv'⟩ := hS q
  have h : powerAt ω (cDx d) mu a j E F = powerAt ω (cDx d) mu a i E F :=
    C134_power_planes ω hω d hd eps mu hmu (E₁ := E) (E₂ := F) a hij (by have := Q.room; omega) hreal hE hF
      (H₁ := hField ω (cDx d) mu E) (H₂ := hField ω (cDx d) mu F) (vecS_unS _) (vecS_unS _)
  rw [P.power hω hd hmu hu hv, Q.power hω hd hmu hu' hv', Fintype.sum_sum_type, Fintype.sum_sum_type] at h
  rw [Fintype.sum_sum_type]
  simp only [Sum.elim_inl, Sum.elim_inr, mul_ite, mul_one, mul_zero, apply_ite (starRingEnd ℂ), map_one, map_zero, neg_mul,
    Finset.sum_neg_distrib] at h ⊢
  rcases p with p | p <;> rcases q with q | q <;>
    simp only [Sum.inl.injEq, Sum.inr.injEq, reduceCtorEq, if_false, Finset.sum_ite_eq, Finset.mem_univ, if_true, Finset.sum_const_zero, zero_add,
      Sum.elim_inl, Sum.elim_inr] at h ⊢
  · by_cases hpq : p = q
    · subst hpq
      simp only [if_true] at h ⊢
      linear_combination h
    · simp only [if_neg hpq] at h ⊢
      linear_combination h
  · linear_combination h
  · linear_combination h
  · by_cases hpq : p = q
    · subst hpq
      simp only [if_true] at h ⊢
      linear_combination h
    · simp only [if_neg hpq] at h ⊢
      linear_combination h

end Lossless

/-- The device has the widths and the medium of another structure on planes `i` and `i + 1` (and the same widths along the other axes). -/
structure SameNear (a : Fin 3) (i : ℕ) (dxes : Dx sh) (eps : VField sh ℂ) (mu : Option (VField sh ℂ)) (dxes₀ : Dx sh) (eps₀ : VField sh ℂ)
    (mu₀ : Option (VField sh ℂ)) : Prop where
  other : ∀ b, b ≠ a → ∀ t, dxes.1 b t = dxes₀.1 b t ∧ dxes.2 b t = dxes₀.2 b t
  along : ∀ t : Fin (sh a), (t : ℕ) = i ∨ (t : ℕ) = i + 1 → dxes.1 a t = dxes₀.1 a t ∧ dxes.2 a t = dxes₀.2 a t
  medium : ∀ c (x : Idx sh), (x a : ℕ) = i ∨ (x a : ℕ) = i + 1 → eps c x = eps₀ c x ∧ mu.getD 1 c x = mu₀.getD 1 c x

theorem SameNear.width {a : Fin 3} {i : ℕ} {dxes dxes₀ : Dx sh} {eps eps₀ : VField sh ℂ} {mu mu₀ : Option (VField sh ℂ)}
    (M : SameNear a i dxes eps mu dxes₀ eps₀ mu₀) {x : Idx sh} (hx : (x a : ℕ) = i ∨ (x a : ℕ) = i + 1) (b : Fin 3) :
    dxes.1 b (x b) = dxes₀.1 b (x b) ∧ dxes.2 b (x b) = dxes₀.2 b (x b) := by
  by_cases hb : b = a
  · subst hb; exact M.along _ hx
  · exact M.other b hb _

/-- The waves of a lead only depend on the structure next to the port plane. -/
theorem LeadWave.congr {ω : ℂ} {a : Fin 3} {i : ℕ} {dxes dxes₀ : Dx sh} {eps eps₀ : VField sh ℂ} {mu mu₀ : Option (VField sh ℂ)}
    (M : SameNear a i dxes eps mu dxes₀ eps₀ mu₀) (hi : i + 1 < sh a) {lam : ℂ} {W : VField sh ℂ} (h : LeadWave ω dxes₀ eps₀ mu₀ a i lam W) :
    LeadWave ω dxes eps mu a i lam W := by
  have hc : ∀ c (x : Idx sh), (x a : ℕ) = i ∨ (x a : ℕ) = i + 1 → Functional.curlForward (some dxes.1) W c x = Functional.curlForward (some dxes₀.1) W c x :=
    fun c x hx => curlForward_local (some dxes.1) (some dxes₀.1) W W x (fun b => (M.width hx b).1) (fun _ => rfl) (fun _ _ => rfl) c
  have hf : ∀ c (x : Idx sh), (x a : ℕ) = i ∨ (x a : ℕ) = i + 1 → hField ω dxes mu W c x = hField ω dxes₀ mu₀ W c x := by
    intro c x hx
    rw [hField_apply, hField_apply, hc c x hx, (M.medium c x hx).2]
  have hmuv : ∀ (m : Option (VField sh ℂ)) c x, muV (m.map vecS) (c, x) = m.getD 1 c x := by intro m c x; cases m <;> rfl
  refine ⟨fun c x hx => ?_, h.stepE, fun c x hx => ?_⟩
  · rw [← h.free c x hx, eFull_mulVec, eFull_mulVec]
    congr 1
    · show Functional.curlBack (some dxes.2) (unS fun q => cE dxes (vecS W) q / muV (mu.map vecS) q) c x
        = Functional.curlBack (some dxes₀.2) (unS fun q => cE dxes₀ (vecS W) q / muV (mu₀.map vecS) q) c x
      have hq : ∀ c (y : Idx sh), (y a : ℕ) = i ∨ (y a : ℕ) = i + 1 → (unS fun q => cE dxes (vecS W) q / muV (mu.map vecS) q) c y
          = (unS fun q => cE dxes₀ (vecS W) q / muV (mu₀.map vecS) q) c y := by
        intro c y hy
        show Functional.curlForward (some dxes.1) W c y / muV (mu.map vecS) (c, y) = Functional.curlForward (some dxes₀.1) W c y / muV (mu₀.map vecS) (c, y)
        rw [hc c y hy, hmuv, hmuv, (M.medium c y hy).2]
      refine curlBack_local (some dxes.2) (some dxes₀.2) _ _ x (fun b => (M.width (Or.inr hx) b).2) (fun c => hq c x (Or.inr hx)) (fun c b => hq c _ ?_) c
      by_cases hb : b = a
      · subst hb; left
        have := Meanas.Wg3.wrap_neg_one (i := x b) (by omega)
        rw [shiftIdx_same]; omega
      · right; rw [shiftIdx_of_ne (Ne.symm hb), hx]
    · rw [vecS_apply, vecS_apply, vecS_apply, (M.medium c x (Or.inr hx)).1]
  · rw [hf c x (Or.inl hx), hf c _ (Or.inr (by rw [plane_shift_val (by omega), hx]))]
    exact h.stepH c x hx

/-- In a uniform structure H is multiplied from plane to plane as E is. -/
theorem LeadWave.of_steps {ω : ℂ} {a : Fin 3} {i : ℕ} {dxes : Dx sh} {eps : VField sh ℂ} {mu : Option (VField sh ℂ)} (hi : i + 1 < sh a) {lam : ℂ}
    {W : VField sh ℂ} (hw : ∀ s t, dxes.1 a s = dxes.1 a t) (hmu : Along a (mu.getD 1))
    (free : ∀ c (x : Idx sh), (x a : ℕ) = i + 1 → (eFull ω dxes (vecS eps) (mu.map vecS) none none *ᵥ vecS W) (c, x) = 0)
    (step : ∀ c (x : Idx sh), (x a : ℕ) = i ∨ (x a : ℕ) = i + 1 → W c (shiftIdx a 1 x) = lam * W c x) : LeadWave ω dxes eps mu a i lam W := by
  refine ⟨free, fun c x hx => step c x (Or.inr hx), fun c x hx => ?_⟩
  have hs : ∀ c b, W c (shiftIdx b 1 (shiftIdx a 1 x)) = lam * W c (shiftIdx b 1 x) := by
    intro c b
    rw [shiftIdx_comm]
    refine step c _ ?_
    by_cases hb : b = a
    · subst hb; right; rw [plane_shift_val (by omega), hx]
    · left; rw [shiftIdx_of_ne (Ne.symm hb), hx]
  have h0 : ∀ c, W c (shiftIdx a 1 x) = lam * W c x := fun c => step c x (Or.inl hx)
  have hw' : ∀ b, wOf (some dxes.1) b (shiftIdx a 1 x b) = wOf (some dxes.1) b (x b) := by
    intro b
    by_cases hb : b = a
    · subst hb; exact hw _ _
    · rw [shiftIdx_of_ne hb]
  have hc : Functional.curlForward (some dxes.1) W c (shiftIdx a 1 x) = lam * Functional.curlForward (some dxes.1) W c x := by
    revert c
    apply forall_fin3 <;>
    · simp only [curlForward_0, curlForward_1, curlForward_2, derivForward_eq, hs, h0, hw']
      ring
  rw [hField_apply, hField_apply, hc, hmu c (shiftIdx a 1 x) x fun b hb => shiftIdx_of_ne hb 1 x]
  ring

/-- The expansion of a mode is multiplied by the same factor from plane to plane. -/
theorem expandE_step {axis : Fin 3} (S : Wg3.Slices sh axis) (dxes : Dx sh) (pol : ℤ) (d : ℝ) (hE : ∀ i, dxes.1 axis i = d) (k : ℂ) (F : VField sh ℂ)
    (c : Fin 3) {x : Idx sh} (hx : (x axis : ℕ) + 1 < sh axis) :
    Wg3.expandE F k dxes pol S c (shiftIdx axis 1 x) = exp (-I * pol * k * d) * Wg3.expandE F k dxes pol S c x := by
  have hm : (∀ b, b ≠ axis → S.Mem b (shiftIdx axis 1 x b)) ↔ ∀ b, b ≠ axis → S.Mem b (x b) :=
    forall_congr' fun b => forall_congr' fun hb => by rw [shiftIdx_of_ne hb]
  have hu : Function.update (shiftIdx axis 1 x) axis S.plane = Function.update x axis S.plane := by
    rw [shiftIdx, Function.update_idem]
  rw [expandE_uniform F k dxes pol S d (fun i => by rw [hE]; rfl), expandE_uniform F k dxes pol S d (fun i => by rw [hE]; rfl), hu, plane_shift_val hx]
  by_cases h : ∀ b, b ≠ axis → S.Mem b (x b)
  · rw [if_pos h, if_pos (hm.2 h), ← mul_assoc (exp _) (exp _), ← exp_add]
    congr 2; push_cast; ring
  · rw [if_neg h, if_neg (mt hm.1 h), mul_zero]

open Wg3 in
/-- The mirror image of a mode computed with polarity -1 (the longitudinal E component reversed) solves the equations; C51 records that the mode as returned does not. -/
theorem mirrored_free {axis : Fin 3} {S : Wg3.Slices sh axis} {ω : ℂ} {dxes : Dx sh} {d : ℝ} {eps : VField sh ℂ} {mu : Option (VField sh ℂ)}
    {exy : Wg2.V 2 (Wg3.sh2 S)} {k2d : ℂ} (U : UniformGuide S ω dxes d eps mu exy k2d) {m : Wg3.Mode sh}
    (hm : Wg3.solveMode S ω dxes (-1) eps mu exy k2d = .ok m) (c : Fin 3) (x : Idx sh) (h0 : 0 < (x axis : ℕ)) (h1 : (x axis : ℕ) + 1 < sh axis) :
    (eFull ω dxes (vecS eps) (mu.map vecS) none none
      *ᵥ vecS fun c x => (if c = axis then -1 else 1) * Wg3.expandE m.E m.k dxes (-1) S c x) (c, x) = 0 := by
  obtain ⟨hk, e, h, him, hx⟩ := U.mode hm
  have hd : (d : ℂ) ≠ 0 := by exact_mod_cast U.hd
  have hp := halfPhase (-1) (Or.inr rfl) k2d d hd
  rw [← hk] at hp
  have hp' : exp (-I * (-1 : ℤ) * (m.k * d / 2)) ^ 2 - 1 = -I * (-k2d) * exp (-I * (-1 : ℤ) * (m.k * d / 2)) * d := by rw [hp]; push_cast; ring
  let E' : VField sh ℂ := fun c x => (if c = axis then -1 else 1) * Wg3.expandE m.E m.k dxes (-1) S c x
  let H' : VField sh ℂ := fun c x => (if c = axis then -1 else 1) * Wg3.expandE m.H m.k dxes (-1) S c x
  have hext : ∀ (F : VField sh ℂ) (c : Fin 3) (f : Arr (Wg3.sh2 S) ℂ), (∀ x y, AtCell S x y → F c x = f y) →
      Wg3.expandE F m.k dxes (-1) S c = extr (projT S U.full) (planePhase S (-1) m.k d) f :=
    fun F c f => expand_extr S U.full dxes (-1) d U.dE m.k F c f
  have n1 := (ne_1 axis).symm
  have n2 := (ne_2 axis).symm
  have ext : IsExtrusion axis (projT S U.full) (planePhase S (-1) m.k d) (exp (-I * (-1 : ℤ) * (m.k * d / 2)))
      (fun i y => (if i = 2 then -1 else 1) * e i y) (fun i y => (if i = 2 then 1 else -1) * h i y) E' H' := by
    refine ⟨?_, ?_, ?_, ?_, ?_, ?_⟩ <;> funext x <;> simp only [E', H', if_true, if_neg n1, if_neg n2]
    · rw [hext m.E axis _ fun x y h => (hx x y h).2.2.1]; unfold extr; ring
    · rw [hext m.E _ _ fun x y h => (hx x y h).1]; unfold extr; simp
    · rw [hext m.E _ _ fun x y h => (hx x y h).2.1]; unfold extr; simp
    · rw [hext m.H axis _ fun x y h => (hx x y h).2.2.2.2.2]; unfold extr; push_cast; ring
    · rw [hext m.H _ _ fun x y h => (hx x y h).2.2.2.1]; unfold extr; push_cast; simp
    · rw [hext m.H _ _ fun x y h => (hx x y h).2.2.2.2.1]; unfold extr; push_cast; simp
  have X := extruded S U.full dxes d U.dE U.dH
  have far := faraday3 X (isMode_mirror him) (planePhase_step S (-1) m.k d) hd hp' ext (mu := mu.getD fun _ _ => 1)
    (fun x => reduce_along S U.full U.muA x)
  have amp := ampere3 X (isMode_mirror him) (planePhase_step S (-1) m.k d) hd hp' ext (eps := eps)
    (fun x => reduce_along S U.full U.epsA x) (exp_ne_zero _)
  exact wave3 (axis := axis) U.hmu far amp c x h0 h1

/-- **C172.** Expanded modes are such waves. Where the device looks like a uniform guide on the two planes at the port, the expansion of a mode that `solve_mode` computes for
that guide is a wave of the lead with factor `exp (-i k d)`; and the mirror image of the mode computed with polarity -1 is one with factor `exp (i k d)`. -/
theorem C172_mode {axis : Fin 3} {S : Wg3.Slices sh axis} {ω : ℂ} {dxes₀ : Dx sh} {d : ℝ} {eps₀ : VField sh ℂ} {mu₀ : Option (VField sh ℂ)}
    {exy : Wg2.V 2 (Wg3.sh2 S)} {k2d : ℂ} (U : UniformGuide S ω dxes₀ d eps₀ mu₀ exy k2d) {dxes : Dx sh} {eps : VField sh ℂ} {mu : Option (VField sh ℂ)} {i : ℕ}
    (hi : i + 2 < sh axis) (M : SameNear axis i dxes eps mu dxes₀ eps₀ mu₀) {m : Wg3.Mode sh} :
    (Wg3.solveMode S ω dxes₀ 1 eps₀ mu₀ exy k2d = .ok m →
      LeadWave ω dxes eps mu axis i (exp (-I * m.k * d)) (Wg3.expandE m.E m.k dxes₀ 1 S)) ∧
    (Wg3.solveMode S ω dxes₀ (-1) eps₀ mu₀ exy k2d = .ok m →
      LeadWave ω dxes eps mu axis i (exp (I * m.k * d)) fun c x => (if c = axis then -1 else 1) * Wg3.expandE m.E m.k dxes₀ (-1) S c x) := by
  have hw : ∀ s t, dxes₀.1 axis s = dxes₀.1 axis t := fun s t => by rw [U.dE, U.dE]
  have hmu : Along axis (mu₀.getD 1) := U.muA
  refine ⟨fun hm => ?_, fun hm => ?_⟩
  · refine LeadWave.congr M (by omega) (LeadWave.of_steps (by omega) hw hmu (fun c x hx => (C51_forward_partial U hm).1 c x (by omega) (by omega)) fun c x hx => ?_)
    rw [expandE_step S dxes₀ 1 d U.dE m.k m.E c (by omega), show -I * ((1 : ℤ) : ℂ) * m.k * d = -I * m.k * d by push_cast; ring]
  · refine LeadWave.congr M (by omega) (LeadWave.of_steps (by omega) hw hmu (fun c x hx => mirrored_free U hm c x (by omega) (by omega)) fun c x hx => ?_)
    rw [expandE_step S dxes₀ (-1) d U.dE m.k m.E c (by omega), show -I * ((-1 : ℤ) : ℂ) * m.k * d = I * m.k * d by push_cast; ring]
    ring

/-- The uniform guide of `ex3_guide` (a mode with a longitudinal component) as a device between ports on planes 0 and 1: the hypotheses of the theorems are met, and
the scattering matrix is that of a through connection. -/
example : ∃ (f b : VField ex3Sh ℂ) (l : ℂ), f ≠ 0 ∧
    let W : Unit ⊕ Unit → VField ex3Sh ℂ := Sum.elim (fun _ => f) fun _ => b
    let W' : Unit ⊕ Unit → VField ex3Sh ℂ := Sum.elim (fun _ => b) fun _ => f
    let lam : Unit ⊕ Unit → ℂ := Sum.elim (fun _ => l) fun _ => l⁻¹
    let lam' : Unit ⊕ Unit → ℂ := Sum.elim (fun _ => l⁻¹) fun _ => l
    IsPort ((5 / 2 : ℝ) : ℂ) (cDx (fun _ _ => 1, fun _ _ => 1)) (fun _ _ => 1) none 2 0 lam W ∧
    IsPort ((5 / 2 : ℝ) : ℂ) (cDx (fun _ _ => 1, fun _ _ => 1)) (fun _ _ => 1) none 2 1 lam' W' ∧
    IsLosslessPort (5 / 2) (fun _ _ => 1, fun _ _ => 1) (fun _ _ => 1) none 2 0 lam W ∧
    IsLosslessPort (5 / 2) (fun _ _ => 1, fun _ _ => 1) (fun _ _ => 1) none 2 1 lam' W' ∧
    IsScatteringMatrix ((5 / 2 : ℝ) : ℂ) (cDx (fun _ _ => 1, fun _ _ => 1)) (fun _ _ => 1) none 2 0 1 W W'
      (fun p q => if p = q then 0 else 1) := by
  obtain ⟨U, hm⟩ := ex3_guide
  obtain ⟨m, hm1, x₀, hx₀⟩ := hm 1
  obtain ⟨n, hn1, -⟩ := hm (-1)
  have hω : ((5 / 2 : ℝ) : ℂ) = 5 / 2 := by push_cast; rfl
  have hdx : cDx ((fun _ _ => 1, fun _ _ => 1) : DxList ex3Sh ℝ × DxList ex3Sh ℝ) = (fun _ _ => 1, fun _ _ => 1) := by
    simp [cDx]
  have hk : m.k = Wg3.correct (3 / 2) 1 := by simpa using (U.mode hm1).1
  have hk' : n.k = Wg3.correct (3 / 2) 1 := by simpa using (U.mode hn1).1
  have hp := halfPhase 1 (Or.inl rfl) (3 / 2) 1 (by norm_num)
  simp only [ofReal_one, Int.cast_one, mul_one, one_mul, ← hk] at hp
  have hM : ∀ i, SameNear (sh := ex3Sh) 2 i (fun _ _ => 1, fun _ _ => 1) (fun _ _ => 1) none (fun _ _ => 1, fun _ _ => 1) (fun _ _ => 1) none :=
    fun i => ⟨fun _ _ _ => ⟨rfl, rfl⟩, fun _ _ => ⟨rfl, rfl⟩, fun _ _ _ => ⟨rfl, rfl⟩⟩
  let f := Wg3.expandE m.E m.k ((fun _ _ => 1, fun _ _ => 1) : Dx ex3Sh) 1 ex3S
  let b : VField ex3Sh ℂ := fun c x => (if c = 2 then -1 else 1) * Wg3.expandE n.E n.k ((fun _ _ => 1, fun _ _ => 1) : Dx ex3Sh) (-1) ex3S c x
  generalize hP : exp (-I * (m.k / 2)) = P at hp
  have hl : exp (-I * m.k * (1 : ℝ)) = P ^ 2 := by rw [← hP, ← exp_nat_mul]; congr 1; push_cast; ring
  have hl' : exp (I * n.k * (1 : ℝ)) = (P ^ 2)⁻¹ := by rw [← hl, ← exp_neg, hk, hk']; congr 1; ring
  have hP0 : P ≠ 0 := by rw [← hP]; exact exp_ne_zero _
  have hf : ∀ i, i < 2 → LeadWave ((5 / 2 : ℝ) : ℂ) (cDx (fun _ _ => 1, fun _ _ => 1)) (fun _ _ => 1) none 2 i (P ^ 2) f := by
    intro i hi
    rw [hω, hdx, ← hl]
    exact (C172_mode U (show i + 2 < 4 by omega) (hM i)).1 hm1
  have hb : ∀ i, i < 2 → LeadWave ((5 / 2 : ℝ) : ℂ) (cDx (fun _ _ => 1, fun _ _ => 1)) (fun _ _ => 1) none 2 i (P ^ 2)⁻¹ b := by
    intro i hi
    rw [hω, hdx, ← hl']
    exact (C172_mode U (show i + 2 < 4 by omega) (hM i)).2 hn1
  have hPn : P * (starRingEnd ℂ) P = 1 := by
    have h1 : (P + 3 / 4 * I) ^ 2 = ((Real.sqrt 7 / 4 : ℝ) : ℂ) ^ 2 := by
      have h7 : ((Real.sqrt 7 / 4 : ℝ) : ℂ) ^ 2 = 7 / 16 := by
        rw [← ofReal_pow, div_pow, Real.sq_sqrt (by norm_num)]; push_cast; norm_num
      rw [h7]; linear_combination hp + 9 / 16 * I_sq
    have hs : (Real.sqrt 7) ^ 2 = 7 := Real.sq_sqrt (by norm_num)
    rcases sq_eq_sq_iff_eq_or_eq_neg.1 h1 with h | h
    · rw [show P = ((Real.sqrt 7 / 4 : ℝ) : ℂ) + ((-3 / 4 : ℝ) : ℂ) * I by push_cast at h ⊢; linear_combination h, mul_conj, normSq_add_mul_I,
        show (Real.sqrt 7 / 4) ^ 2 + (-3 / 4) ^ 2 = 1 by nlinarith, ofReal_one]
    · rw [show P = ((-(Real.sqrt 7 / 4) : ℝ) : ℂ) + ((-3 / 4 : ℝ) : ℂ) * I by push_cast at h ⊢; linear_combination h, mul_conj, normSq_add_mul_I,
        show (-(Real.sqrt 7 / 4)) ^ 2 + (-3 / 4) ^ 2 = 1 by nlinarith, ofReal_one]
  have hP4 : P ^ 2 * P ^ 2 ≠ 1 := by
    intro h
    rcases mul_self_eq_one_iff.1 h with h | h
    · rw [h, sub_self] at hp
      have := I_ne_zero
      simp_all
    · rw [h] at hp
      have : P ^ 2 = -16 / 9 := by
        have h3 : P = -(4 / 3) * I := by linear_combination (-2 / 3 * I) * hp + P * I_sq
        rw [h3]; linear_combination 16 / 9 * I_sq
      rw [this] at h; norm_num at h
  have hc : (starRingEnd ℂ) (P ^ 2) = (P ^ 2)⁻¹ := by
    rw [map_pow, ← inv_pow]; congr 1
    exact eq_inv_of_mul_eq_one_right hPn
  refine ⟨f, b, P ^ 2, ?_, ⟨by decide, ?_, ?_⟩, ⟨by decide, ?_, ?_⟩, ⟨by decide, ?_, ?_, ?_⟩, ⟨by decide, ?_, ?_, ?_⟩, ?_⟩
  · intro h
    obtain ⟨-, -, ve, vh, -, hs⟩ := solve_mode_spec _ _ _ _ _ _ _ _ hm1
    by_cases hy : ∃ y, AtCell ex3S x₀ y
    · obtain ⟨y, hy⟩ := hy
      refine hx₀ ?_
      rw [← (C52_slice_and_window m.E m.k (fun _ _ => 1, fun _ _ => 1) 1 ex3S 2 x₀).1 fun b => ?_]
      · exact congrFun (congrFun h 2) x₀
      · have h2 : (x₀ 2 : ℕ) = 1 := hy.1
        have hlt := (x₀ b).isLt
        revert hlt
        fin_cases b
        · intro hlt; exact ⟨Nat.zero_le _, hlt⟩
        · intro hlt; exact ⟨Nat.zero_le _, hlt⟩
        · intro _; exact ⟨h2.ge, by show (x₀ 2 : ℕ) < 2; omega⟩
    · exact hx₀ ((hs x₀).2 (not_exists.1 hy) 2).1
  · rintro (_ | _)
    · exact hf 0 (by norm_num)
    · exact hb 0 (by norm_num)
  · rintro (_ | _) (_ | _) _ <;> simp
  · rintro (_ | _)
    · exact hb 1 (by norm_num)
    · exact hf 1 (by norm_num)
  · rintro (_ | _) (_ | _) _ <;> simp
  · rintro (_ | _)
    · exact hf 0 (by norm_num)
    · exact hb 0 (by norm_num)
  · intro c x _; simp
  · rintro (_ | _) (_ | _) h
    · exact Or.inl rfl
    · exact absurd h (by simp only [Sum.elim_inl, Sum.elim_inr, map_inv₀, hc, inv_inv]; exact hP4)
    · refine absurd h ?_
      simp only [Sum.elim_inl, Sum.elim_inr, hc]
      rw [← mul_inv, inv_eq_one]; exact hP4
    · exact Or.inl rfl
  · rintro (_ | _)
    · exact hb 1 (by norm_num)
    · exact hf 1 (by norm_num)
  · intro c x _; simp
  · rintro (_ | _) (_ | _) h
    · exact Or.inl rfl
    · refine absurd h ?_
      simp only [Sum.elim_inl, Sum.elim_inr, hc]
      rw [← mul_inv, inv_eq_one]; exact hP4
    · exact absurd h (by simp only [Sum.elim_inl, Sum.elim_inr, map_inv₀, hc, inv_inv]; exact hP4)
    · exact Or.inl rfl
  · rintro (_ | _)
    · refine ⟨f, fun c x h0 h1 => (hf 0 (by norm_num)).free c x (by omega), fun c x _ => ?_, fun c x _ => ?_⟩ <;> simp
    · refine ⟨b, fun c x h0 h1 => (hb 0 (by norm_num)).free c x (by omega), fun c x _ => ?_, fun c x _ => ?_⟩ <;> simp

end Meanas.Props
