/-
C12: the documented time-step bound gives stability of source-free FDTD runs (meanas/fdtd/base.py), on every grid.
-/
import Verif.Props.FdtdEnergy
import Verif.Props.FdtdRun
import Mathlib.Analysis.Real.Sqrt
import Mathlib.Tactic.Positivity

namespace Meanas.Props

open Functional Spec Fdtd

section norms
variable {d : ℕ} {sh : Fin d → ℕ}

theorem shiftIdx_back_fwd (a : Fin d) (x : Idx sh) : shiftIdx a (-1) (shiftIdx a 1 x) = x := by simp

/-- Norm bound of the forward difference. -/
theorem norm_derivForward (a : Fin d) (dE dH : DxList sh ℝ) (m : ℝ) (hm : 0 < m) (hE : ∀ i, m ≤ dE a i)
    (hH : ∀ i, m ≤ dH a i) (u f : Arr sh ℝ) (hu : ∀ x, 0 ≤ u x) (hu' : ∀ x, u (shiftIdx a 1 x) = u x) :
    ∑ x, dE a (x a) * u x * derivForward (some dE) a f x ^ 2 ≤ 4 / m ^ 2 * ∑ x, dH a (x a) * u x * f x ^ 2 := by
  have h1 : ∀ x : Idx sh, dE a (x a) * u x * derivForward (some dE) a f x ^ 2
      ≤ 2 / m * (u (shiftIdx a 1 x) * f (shiftIdx a 1 x) ^ 2) + 2 / m * (u x * f x ^ 2) := by
    intro x
    rw [derivForward_eq, hu', wOf_some]
    have hp : 0 < dE a (x a) := lt_of_lt_of_le hm (hE _)
    have e1 : dE a (x a) * u x * ((f (shiftIdx a 1 x) - f x) / dE a (x a)) ^ 2
        = u x * (f (shiftIdx a 1 x) - f x) ^ 2 / dE a (x a) := by field_simp
    rw [e1]
    have e2 : u x * (f (shiftIdx a 1 x) - f x) ^ 2 / dE a (x a) ≤ u x * (f (shiftIdx a 1 x) - f x) ^ 2 / m :=
      div_le_div_of_nonneg_left (mul_nonneg (hu x) (sq_nonneg _)) hm (hE _)
    refine e2.trans ?_
    have e3 : 2 / m * (u x * f (shiftIdx a 1 x) ^ 2) + 2 / m * (u x * f x ^ 2)
        - u x * (f (shiftIdx a 1 x) - f x) ^ 2 / m = u x * (f (shiftIdx a 1 x) + f x) ^ 2 / m := by
      field_simp; ring
    have : 0 ≤ u x * (f (shiftIdx a 1 x) + f x) ^ 2 / m := div_nonneg (mul_nonneg (hu x) (sq_nonneg _)) hm.le
    linarith
  calc _ ≤ ∑ x, (2 / m * (u (shiftIdx a 1 x) * f (shiftIdx a 1 x) ^ 2) + 2 / m * (u x * f x ^ 2)) :=
        Finset.sum_le_sum fun x _ => h1 x
    _ = ∑ x, 4 / m * (u x * f x ^ 2) := by
        rw [Finset.sum_add_distrib, ← Finset.mul_sum, ← Finset.mul_sum, ← Finset.mul_sum,
          sum_shiftIdx a 1 (fun x => u x * f x ^ 2)]
        ring
    _ ≤ ∑ x, 4 / m ^ 2 * (dH a (x a) * u x * f x ^ 2) := by
        refine Finset.sum_le_sum fun x _ => ?_
        have : 4 / m ^ 2 * (dH a (x a) * u x * f x ^ 2) - 4 / m * (u x * f x ^ 2)
            = 4 / m ^ 2 * ((dH a (x a) - m) * (u x * f x ^ 2)) := by field_simp
        have h2 : 0 ≤ 4 / m ^ 2 * ((dH a (x a) - m) * (u x * f x ^ 2)) :=
          mul_nonneg (by positivity) (mul_nonneg (sub_nonneg.2 (hH _)) (mul_nonneg (hu x) (sq_nonneg _)))
        linarith
    _ = _ := by rw [← Finset.mul_sum]

/-- Norm bound of the backward difference. -/
theorem norm_derivBack (a : Fin d) (dE dH : DxList sh ℝ) (m : ℝ) (hm : 0 < m) (hE : ∀ i, m ≤ dE a i)
    (hH : ∀ i, m ≤ dH a i) (u f : Arr sh ℝ) (hu : ∀ x, 0 ≤ u x) (hu' : ∀ x, u (shiftIdx a 1 x) = u x) :
    ∑ x, dH a (x a) * u x * derivBack (some dH) a f x ^ 2 ≤ 4 / m ^ 2 * ∑ x, dE a (x a) * u x * f x ^ 2 := by
  have hub : ∀ x, u (shiftIdx a (-1) x) = u x := fun x => by rw [← hu' (shiftIdx a (-1) x)]; simp
  have h1 : ∀ x : Idx sh, dH a (x a) * u x * derivBack (some dH) a f x ^ 2
      ≤ 2 / m * (u (shiftIdx a (-1) x) * f (shiftIdx a (-1) x) ^ 2) + 2 / m * (u x * f x ^ 2) := by
    intro x
    rw [derivBack_eq, hub, wOf_some]
    have hp : 0 < dH a (x a) := lt_of_lt_of_le hm (hH _)
    have e1 : dH a (x a) * u x * ((f x - f (shiftIdx a (-1) x)) / dH a (x a)) ^ 2
        = u x * (f x - f (shiftIdx a (-1) x)) ^ 2 / dH a (x a) := by field_simp
    rw [e1]
    have e2 : u x * (f x - f (shiftIdx a (-1) x)) ^ 2 / dH a (x a) ≤ u x * (f x - f (shiftIdx a (-1) x)) ^ 2 / m :=
      div_le_div_of_nonneg_left (mul_nonneg (hu x) (sq_nonneg _)) hm (hH _)
    refine e2.trans ?_
    have e3 : 2 / m * (u x * f (shiftIdx a (-1) x) ^ 2) + 2 / m * (u x * f x ^ 2)
        - u x * (f x - f (shiftIdx a (-1) x)) ^ 2 / m = u x * (f x + f (shiftIdx a (-1) x)) ^ 2 / m := by
      field_simp; ring
    have : 0 ≤ u x * (f x + f (shiftIdx a (-1) x)) ^ 2 / m := div_nonneg (mul_nonneg (hu x) (sq_nonneg _)) hm.le
    linarith
  calc _ ≤ ∑ x, (2 / m * (u (shiftIdx a (-1) x) * f (shiftIdx a (-1) x) ^ 2) + 2 / m * (u x * f x ^ 2)) :=
        Finset.sum_le_sum fun x _ => h1 x
    _ = ∑ x, 4 / m * (u x * f x ^ 2) := by
        rw [Finset.sum_add_distrib, ← Finset.mul_sum, ← Finset.mul_sum, ← Finset.mul_sum,
          sum_shiftIdx a (-1) (fun x => u x * f x ^ 2)]
        ring
    _ ≤ ∑ x, 4 / m ^ 2 * (dE a (x a) * u x * f x ^ 2) := by
        refine Finset.sum_le_sum fun x _ => ?_
        have : 4 / m ^ 2 * (dE a (x a) * u x * f x ^ 2) - 4 / m * (u x * f x ^ 2)
            = 4 / m ^ 2 * ((dE a (x a) - m) * (u x * f x ^ 2)) := by field_simp
        have h2 : 0 ≤ 4 / m ^ 2 * ((dE a (x a) - m) * (u x * f x ^ 2)) :=
          mul_nonneg (by positivity) (mul_nonneg (sub_nonneg.2 (hE _)) (mul_nonneg (hu x) (sq_nonneg _)))
        linarith
    _ = _ := by rw [← Finset.mul_sum]

/-- Cross terms: two forward derivatives along different axes can be traded for two backward derivatives. -/
theorem cross_term {a b : Fin d} (hab : a ≠ b) (dE dH : DxList sh ℝ) (hE : Nonzero dE) (hH : Nonzero dH)
    (u P Q : Arr sh ℝ) (hua : ∀ x, u (shiftIdx a 1 x) = u x) (hub : ∀ x, u (shiftIdx b 1 x) = u x) :
    ∑ x, dE a (x a) * dE b (x b) * u x * (derivForward (some dE) a P x * derivForward (some dE) b Q x)
      = ∑ x, dH a (x a) * dH b (x b) * u x * (derivBack (some dH) b P x * derivBack (some dH) a Q x) := by
  have h1 := sum_by_parts_weighted a dE dH hE hH (fun x => dE b (x b) * u x) (derivForward (some dE) b Q) P
    (fun x => by rw [shiftIdx_of_ne hab.symm, hua])
  have h2 := sum_by_parts_weighted b dE dH hE hH (fun x => dH a (x a) * u x) P (derivBack (some dH) a Q)
    (fun x => by rw [shiftIdx_of_ne hab, hub])
  simp only [← derivForward_derivBack_comm (some dE) (some dH) hab.symm] at h1
  have e1 : ∑ x, dE a (x a) * dE b (x b) * u x * (derivForward (some dE) a P x * derivForward (some dE) b Q x)
      = ∑ x, dE a (x a) * (dE b (x b) * u x) * (derivForward (some dE) b Q x * derivForward (some dE) a P x) :=
    Finset.sum_congr rfl fun x _ => by ring
  have e2 : ∑ x, dH a (x a) * (dE b (x b) * u x) * (P x * derivForward (some dE) b (derivBack (some dH) a Q) x)
      = ∑ x, dE b (x b) * (dH a (x a) * u x) * (P x * derivForward (some dE) b (derivBack (some dH) a Q) x) :=
    Finset.sum_congr rfl fun x _ => by ring
  have e3 : ∑ x, dH a (x a) * dH b (x b) * u x * (derivBack (some dH) b P x * derivBack (some dH) a Q x)
      = ∑ x, dH b (x b) * (dH a (x a) * u x) * (derivBack (some dH) a Q x * derivBack (some dH) b P x) :=
    Finset.sum_congr rfl fun x _ => by ring
  rw [e1, e3]
  linarith

end norms

variable {sh : Fin 3 → ℕ}

/-- Norm bound of the curl in the Yee-weighted norms. -/
theorem norm_curlForward (dE dH : DxList sh ℝ) (m : Fin 3 → ℝ) (hm : ∀ a, 0 < m a) (hE : ∀ a i, m a ≤ dE a i)
    (hH : ∀ a i, m a ≤ dH a i) (e : VField sh ℝ) :
    ∑ x, ∑ c, volH dE dH c x * curlForward (some dE) e c x ^ 2
      ≤ 4 * (∑ a, 1 / m a ^ 2) * ∑ x, ∑ c, volE dE dH c x * e c x ^ 2 := by
  have n01 : (0 : Fin 3) ≠ 1 := by decide
  have n02 : (0 : Fin 3) ≠ 2 := by decide
  have n12 : (1 : Fin 3) ≠ 2 := by decide
  have pE : ∀ a i, 0 < dE a i := fun a i => lt_of_lt_of_le (hm a) (hE a i)
  have pH : ∀ a i, 0 < dH a i := fun a i => lt_of_lt_of_le (hm a) (hH a i)
  have zE : Nonzero dE := fun a i => (pE a i).ne'
  have zH : Nonzero dH := fun a i => (pH a i).ne'
  -- cross terms
  have c12 := cross_term n12 dE dH zE zH (fun x => dH 0 (x 0)) (e 2) (e 1)
    (fun x => by simp only [shiftIdx_of_ne n01]) (fun x => by simp only [shiftIdx_of_ne n02])
  have c20 := cross_term n02.symm dE dH zE zH (fun x => dH 1 (x 1)) (e 0) (e 2)
    (fun x => by simp only [shiftIdx_of_ne n12]) (fun x => by simp only [shiftIdx_of_ne n01.symm])
  have c01 := cross_term n01 dE dH zE zH (fun x => dH 2 (x 2)) (e 1) (e 0)
    (fun x => by simp only [shiftIdx_of_ne n02.symm]) (fun x => by simp only [shiftIdx_of_ne n12.symm])
  have hpos : ∀ (f g : Idx sh → ℝ), (∀ x, 0 < f x) → (∀ x, 0 < g x) → ∀ x, 0 ≤ f x * g x :=
    fun f g hf hg x => (mul_pos (hf x) (hg x)).le
  -- forward derivative bounds
  have f10 := norm_derivForward 1 dE dH (m 1) (hm 1) (hE 1) (hH 1) (fun x => dE 0 (x 0) * dH 2 (x 2)) (e 0)
    (fun x => (mul_pos (pE _ _) (pH _ _)).le) (fun x => by simp only [shiftIdx_of_ne n01, shiftIdx_of_ne n12.symm])
  have f20 := norm_derivForward 2 dE dH (m 2) (hm 2) (hE 2) (hH 2) (fun x => dE 0 (x 0) * dH 1 (x 1)) (e 0)
    (fun x => (mul_pos (pE _ _) (pH _ _)).le) (fun x => by simp only [shiftIdx_of_ne n02, shiftIdx_of_ne n12])
  have f01 := norm_derivForward 0 dE dH (m 0) (hm 0) (hE 0) (hH 0) (fun x => dE 1 (x 1) * dH 2 (x 2)) (e 1)
    (fun x => (mul_pos (pE _ _) (pH _ _)).le) (fun x => by simp only [shiftIdx_of_ne n01.symm, shiftIdx_of_ne n02.symm])
  have f21 := norm_derivForward 2 dE dH (m 2) (hm 2) (hE 2) (hH 2) (fun x => dE 1 (x 1) * dH 0 (x 0)) (e 1)
    (fun x => (mul_pos (pE _ _) (pH _ _)).le) (fun x => by simp only [shiftIdx_of_ne n02, shiftIdx_of_ne n12])
  have f02 := norm_derivForward 0 dE dH (m 0) (hm 0) (hE 0) (hH 0) (fun x => dE 2 (x 2) * dH 1 (x 1)) (e 2)
    (fun x => (mul_pos (pE _ _) (pH _ _)).le) (fun x => by simp only [shiftIdx_of_ne n01.symm, shiftIdx_of_ne n02.symm])
  have f12 := norm_derivForward 1 dE dH (m 1) (hm 1) (hE 1) (hH 1) (fun x => dE 2 (x 2) * dH 0 (x 0)) (e 2)
    (fun x => (mul_pos (pE _ _) (pH _ _)).le) (fun x => by simp only [shiftIdx_of_ne n01, shiftIdx_of_ne n12.symm])
  -- backward derivative bounds
  have b0 := norm_derivBack 0 dE dH (m 0) (hm 0) (hE 0) (hH 0) (fun x => dH 1 (x 1) * dH 2 (x 2)) (e 0)
    (fun x => (mul_pos (pH _ _) (pH _ _)).le) (fun x => by simp only [shiftIdx_of_ne n01.symm, shiftIdx_of_ne n02.symm])
  have b1 := norm_derivBack 1 dE dH (m 1) (hm 1) (hE 1) (hH 1) (fun x => dH 0 (x 0) * dH 2 (x 2)) (e 1)
    (fun x => (mul_pos (pH _ _) (pH _ _)).le) (fun x => by simp only [shiftIdx_of_ne n01, shiftIdx_of_ne n12.symm])
  have b2 := norm_derivBack 2 dE dH (m 2) (hm 2) (hE 2) (hH 2) (fun x => dH 0 (x 0) * dH 1 (x 1)) (e 2)
    (fun x => (mul_pos (pH _ _) (pH _ _)).le) (fun x => by simp only [shiftIdx_of_ne n02, shiftIdx_of_ne n12])
  -- the divergence norm is nonnegative
  have hdiv : 0 ≤ ∑ x : Idx sh, dH 0 (x 0) * dH 1 (x 1) * dH 2 (x 2)
      * (derivBack (some dH) 0 (e 0) x + derivBack (some dH) 1 (e 1) x + derivBack (some dH) 2 (e 2) x) ^ 2 :=
    Finset.sum_nonneg fun x _ => mul_nonneg (mul_pos (mul_pos (pH _ _) (pH _ _)) (pH _ _)).le (sq_nonneg _)
  -- names for the squared norms
  set F := fun (a c : Fin 3) (x : Idx sh) => derivForward (some dE) a (e c) x with hF
  set B := fun (a c : Fin 3) (x : Idx sh) => derivBack (some dH) a (e c) x with hB
  have lhs : ∑ x, ∑ c, volH dE dH c x * curlForward (some dE) e c x ^ 2
      = (∑ x, dE 1 (x 1) * (dE 2 (x 2) * dH 0 (x 0)) * F 1 2 x ^ 2
        + ∑ x, dE 2 (x 2) * (dE 1 (x 1) * dH 0 (x 0)) * F 2 1 x ^ 2
        + ∑ x, dE 2 (x 2) * (dE 0 (x 0) * dH 1 (x 1)) * F 2 0 x ^ 2
        + ∑ x, dE 0 (x 0) * (dE 2 (x 2) * dH 1 (x 1)) * F 0 2 x ^ 2
        + ∑ x, dE 0 (x 0) * (dE 1 (x 1) * dH 2 (x 2)) * F 0 1 x ^ 2
        + ∑ x, dE 1 (x 1) * (dE 0 (x 0) * dH 2 (x 2)) * F 1 0 x ^ 2)
        - 2 * (∑ x, dE 1 (x 1) * dE 2 (x 2) * dH 0 (x 0) * (F 1 2 x * F 2 1 x)
          + ∑ x, dE 2 (x 2) * dE 0 (x 0) * dH 1 (x 1) * (F 2 0 x * F 0 2 x)
          + ∑ x, dE 0 (x 0) * dE 1 (x 1) * dH 2 (x 2) * (F 0 1 x * F 1 0 x)) := by
    simp only [← Finset.sum_add_distrib, Finset.mul_sum, ← Finset.sum_sub_distrib]
    refine Finset.sum_congr rfl fun x _ => ?_
    simp only [Fin.sum_univ_three, volH_0, volH_1, volH_2, curlForward_0, curlForward_1, curlForward_2, hF]
    ring
  have hdiv' : ∑ x : Idx sh, dH 0 (x 0) * dH 1 (x 1) * dH 2 (x 2) * (B 0 0 x + B 1 1 x + B 2 2 x) ^ 2
      = (∑ x, dH 0 (x 0) * (dH 1 (x 1) * dH 2 (x 2)) * B 0 0 x ^ 2
        + ∑ x, dH 1 (x 1) * (dH 0 (x 0) * dH 2 (x 2)) * B 1 1 x ^ 2
        + ∑ x, dH 2 (x 2) * (dH 0 (x 0) * dH 1 (x 1)) * B 2 2 x ^ 2)
        + 2 * (∑ x, dH 1 (x 1) * dH 2 (x 2) * dH 0 (x 0) * (B 2 2 x * B 1 1 x)
          + ∑ x, dH 2 (x 2) * dH 0 (x 0) * dH 1 (x 1) * (B 0 0 x * B 2 2 x)
          + ∑ x, dH 0 (x 0) * dH 1 (x 1) * dH 2 (x 2) * (B 1 1 x * B 0 0 x)) := by
    simp only [← Finset.sum_add_distrib, Finset.mul_sum]
    refine Finset.sum_congr rfl fun x _ => ?_
    ring
  have rhs : ∑ x, ∑ c, volE dE dH c x * e c x ^ 2
      = ∑ x, dE 0 (x 0) * (dH 1 (x 1) * dH 2 (x 2)) * e 0 x ^ 2
        + ∑ x, dE 1 (x 1) * (dH 0 (x 0) * dH 2 (x 2)) * e 1 x ^ 2
        + ∑ x, dE 2 (x 2) * (dH 0 (x 0) * dH 1 (x 1)) * e 2 x ^ 2 := by
    simp only [← Finset.sum_add_distrib]
    refine Finset.sum_congr rfl fun x _ => ?_
    simp only [Fin.sum_univ_three, volE_0, volE_1, volE_2]
    ring
  have r10 : ∑ x, dH 1 (x 1) * (dE 0 (x 0) * dH 2 (x 2)) * e 0 x ^ 2
      = ∑ x, dE 0 (x 0) * (dH 1 (x 1) * dH 2 (x 2)) * e 0 x ^ 2 := Finset.sum_congr rfl fun x _ => by ring
  have r20 : ∑ x, dH 2 (x 2) * (dE 0 (x 0) * dH 1 (x 1)) * e 0 x ^ 2
      = ∑ x, dE 0 (x 0) * (dH 1 (x 1) * dH 2 (x 2)) * e 0 x ^ 2 := Finset.sum_congr rfl fun x _ => by ring
  have r01 : ∑ x, dH 0 (x 0) * (dE 1 (x 1) * dH 2 (x 2)) * e 1 x ^ 2
      = ∑ x, dE 1 (x 1) * (dH 0 (x 0) * dH 2 (x 2)) * e 1 x ^ 2 := Finset.sum_congr rfl fun x _ => by ring
  have r21 : ∑ x, dH 2 (x 2) * (dE 1 (x 1) * dH 0 (x 0)) * e 1 x ^ 2
      = ∑ x, dE 1 (x 1) * (dH 0 (x 0) * dH 2 (x 2)) * e 1 x ^ 2 := Finset.sum_congr rfl fun x _ => by ring
  have r02 : ∑ x, dH 0 (x 0) * (dE 2 (x 2) * dH 1 (x 1)) * e 2 x ^ 2
      = ∑ x, dE 2 (x 2) * (dH 0 (x 0) * dH 1 (x 1)) * e 2 x ^ 2 := Finset.sum_congr rfl fun x _ => by ring
  have r12 : ∑ x, dH 1 (x 1) * (dE 2 (x 2) * dH 0 (x 0)) * e 2 x ^ 2
      = ∑ x, dE 2 (x 2) * (dH 0 (x 0) * dH 1 (x 1)) * e 2 x ^ 2 := Finset.sum_congr rfl fun x _ => by ring
  rw [r10] at f10; rw [r20] at f20; rw [r01] at f01; rw [r21] at f21; rw [r02] at f02; rw [r12] at f12
  rw [lhs, rhs, Fin.sum_univ_three]
  simp only [hF, hB] at *
  rw [hdiv'] at hdiv
  set N0 := ∑ x, dE 0 (x 0) * (dH 1 (x 1) * dH 2 (x 2)) * e 0 x ^ 2
  set N1 := ∑ x, dE 1 (x 1) * (dH 0 (x 0) * dH 2 (x 2)) * e 1 x ^ 2
  set N2 := ∑ x, dE 2 (x 2) * (dH 0 (x 0) * dH 1 (x 1)) * e 2 x ^ 2
  have e1 : 4 * (1 / m 0 ^ 2 + 1 / m 1 ^ 2 + 1 / m 2 ^ 2) * (N0 + N1 + N2)
      = (4 / m 0 ^ 2 * N0 + 4 / m 0 ^ 2 * N1 + 4 / m 0 ^ 2 * N2) + (4 / m 1 ^ 2 * N0 + 4 / m 1 ^ 2 * N1 + 4 / m 1 ^ 2 * N2)
        + (4 / m 2 ^ 2 * N0 + 4 / m 2 ^ 2 * N1 + 4 / m 2 ^ 2 * N2) := by ring
  rw [e1, c12, c20, c01]
  linarith

theorem curlForward_dxesOrOnes (dxes : Option (Dxes sh ℝ)) (e : VField sh ℝ) :
    curlForward (dxes.map (·.1)) e = curlForward (some (dxesOrOnes dxes).1) e := by
  funext c x
  revert c; apply forall_fin3 <;>
    simp only [curlForward_0, curlForward_1, curlForward_2, derivForward_eq, wOf_some, (wOf_dxesOrOnes dxes _ _).1]

/-- The quantity conserved by source-free stepping: Yee-weighted energy at an E time, for the state `t` before the
H update. -/
noncomputable def stateEnergy (S : Sys sh ℝ) (t : State sh ℝ) : ℝ :=
  ∑ x, yeeEnergy (dxesOrOnes S.dxes) S.eps (S.mu.getD fun _ _ => 1) (fun c x => t.e c x * t.e c x)
    (fun c x => t.h c x * (run S t [.stepH]).h c x) x

theorem run_inj_zero (S : Sys sh ℝ) (t : State sh ℝ) :
    run S t [.stepE, .injJ fun _ _ => 0] = run S t [.stepE] ∧ run S t [.stepH, .injM fun _ _ => 0] = run S t [.stepH] := by
  constructor <;> apply State.ext' <;> intro c x <;> simp only [run, List.foldl, step_injM_e, step_injM_h] <;> simp [step]

/-- The energy is conserved by an H update followed by an E update. -/
theorem stateEnergy_conserved (S : Sys sh ℝ) (hg : GridOk S) (hm : MatOk S) (t : State sh ℝ) :
    stateEnergy S (run S t [.stepH, .stepE]) = stateEnergy S t := by
  set t1 := run S t [.stepH] with ht1
  set t2 := run S t1 [.stepE] with ht2
  set t3 := run S t2 [.stepH] with ht3
  have h12 : run S t [.stepH, .stepE] = t2 := rfl
  have w0 : ∀ (e h : VField sh ℝ) x, yeeWork (dxesOrOnes S.dxes) (fun _ _ => 0) (fun _ _ => 0) e h x = 0 := by
    intro e h x; simp [yeeWork]
  have hd1 := poyntingDivergence_some (poynting t.e t1.h S.dxes) none none none
  have hd2 := poyntingDivergence_some (poynting t2.e t1.h S.dxes) none none none
  have a := fun x => C10_poynting_e2h_yee S hg hm t t1 t2 (fun _ _ => 0) (fun _ _ => 0)
    (by rw [(run_inj_zero S t).2]) (by rw [(run_inj_zero S t1).1]) _ hd1 x
  have b := fun x => C10_poynting_h2e_yee S hg hm t1 t2 t3 (fun _ _ => 0) (fun _ _ => 0)
    (by rw [(run_inj_zero S t1).1]) (by rw [(run_inj_zero S t2).2]) _ hd2 x
  have te1 : t1.e = t.e := rfl
  have th2 : t2.h = t1.h := rfl
  have sa := Finset.sum_congr (rfl : Finset.univ = Finset.univ) fun x _ => a x
  have sb := Finset.sum_congr (rfl : Finset.univ = Finset.univ) fun x _ => b x
  simp only [w0, add_zero, ← Finset.mul_sum, C17_sum_zero _ _ _ _ _ hd1, C17_sum_zero _ _ _ _ _ hd2, mul_zero,
    Finset.sum_sub_distrib] at sa sb
  rw [te1] at sb
  rw [h12]
  unfold stateEnergy
  rw [← ht3, ← ht1, th2]
  linarith

/-- The time-step condition of C12 (all minima as lower bounds): positive widths at least `m a` on both lattices,
`ε ≥ εm > 0`, `μ ≥ μm > 0` and `dt² Σ 1/m_a² < εm μm`. -/
structure Courant (S : Sys sh ℝ) (m : Fin 3 → ℝ) (εm μm : ℝ) : Prop where
  m_pos : ∀ a, 0 < m a
  dxE : ∀ a i, m a ≤ wOf (S.dxes.map (·.1)) a i
  dxH : ∀ a i, m a ≤ wOf (S.dxes.map (·.2)) a i
  eps_pos : 0 < εm
  mu_pos : 0 < μm
  eps : ∀ c x, εm ≤ S.eps c x
  mu : ∀ c x, μm ≤ (S.mu.getD fun _ _ => 1) c x
  dt : S.dt ^ 2 * (∑ a, 1 / m a ^ 2) < εm * μm

/-- C12, quantitative: below the bound, `q = dt² Σ 1/m² / (εm μm) < 1` and in every state of the run
`(1-q) Σ V_E ε e² + Σ V_H μ ((h+h')/2)² ≤ energy`, where `h'` is the next H field. -/
theorem energy_lower_bound (S : Sys sh ℝ) (m : Fin 3 → ℝ) (εm μm : ℝ) (hC : Courant S m εm μm) (t : State sh ℝ) :
    let d := dxesOrOnes S.dxes
    let mu := S.mu.getD fun _ _ => 1
    let h' := (run S t [.stepH]).h
    let q := S.dt ^ 2 * (∑ a, 1 / m a ^ 2) / (εm * μm)
    let A := ∑ x, ∑ c, volE d.1 d.2 c x * (S.eps c x * t.e c x ^ 2)
    let M := ∑ x, ∑ c, volH d.1 d.2 c x * (mu c x * ((t.h c x + h' c x) / 2) ^ 2)
    let D := ∑ x, ∑ c, volH d.1 d.2 c x * (mu c x * ((t.h c x - h' c x) / 2) ^ 2)
    stateEnergy S t = A + M - D ∧ D ≤ q * A ∧ q < 1 := by
  intro d mu h' q A M D
  have hmu : mu = muOr S.mu := by simp only [mu]; cases S.mu <;> rfl
  have hdE : ∀ a i, m a ≤ d.1 a i := fun a i => by rw [(wOf_dxesOrOnes S.dxes a i).1]; exact hC.dxE a i
  have hdH : ∀ a i, m a ≤ d.2 a i := fun a i => by rw [(wOf_dxesOrOnes S.dxes a i).2]; exact hC.dxH a i
  have pE : ∀ a i, 0 < d.1 a i := fun a i => lt_of_lt_of_le (hC.m_pos a) (hdE a i)
  have pH : ∀ a i, 0 < d.2 a i := fun a i => lt_of_lt_of_le (hC.m_pos a) (hdH a i)
  have vE : ∀ c x, 0 < volE d.1 d.2 c x := fun c x => Finset.prod_pos fun a _ => by split_ifs; exacts [pE _ _, pH _ _]
  have vH : ∀ c x, 0 < volH d.1 d.2 c x := fun c x => Finset.prod_pos fun a _ => by split_ifs; exacts [pH _ _, pE _ _]
  have pmu : ∀ c x, 0 < mu c x := fun c x => lt_of_lt_of_le hC.mu_pos (hC.mu c x)
  have hq : q < 1 := by
    simp only [q]; rw [div_lt_one (mul_pos hC.eps_pos hC.mu_pos)]; exact hC.dt
  refine ⟨?_, ?_, hq⟩
  · simp only [stateEnergy, yeeEnergy, A, M, D]
    rw [← Finset.sum_add_distrib, ← Finset.sum_sub_distrib]
    refine Finset.sum_congr rfl fun x _ => ?_
    simp only [Fin.sum_univ_three]
    ring
  · have hh : ∀ c x, t.h c x - h' c x = S.dt * curlForward (some d.1) t.e c x / mu c x := by
      intro c x
      simp only [h', run, List.foldl, step, maxwellH_eq, hmu, d, ← curlForward_dxesOrOnes]; ring
    have hκ : 0 ≤ ∑ a, 1 / m a ^ 2 := Finset.sum_nonneg fun a _ => by have := hC.m_pos a; positivity
    have h1 : D ≤ ∑ x, ∑ c, S.dt ^ 2 / (4 * μm) * (volH d.1 d.2 c x * curlForward (some d.1) t.e c x ^ 2) := by
      refine Finset.sum_le_sum fun x _ => Finset.sum_le_sum fun c _ => ?_
      rw [hh]
      have p := pmu c x
      have e1 : volH d.1 d.2 c x * (mu c x * (S.dt * curlForward (some d.1) t.e c x / mu c x / 2) ^ 2)
          = (S.dt ^ 2 * (volH d.1 d.2 c x * curlForward (some d.1) t.e c x ^ 2)) / (4 * mu c x) := by field_simp; ring
      rw [e1, div_mul_eq_mul_div]
      apply div_le_div_of_nonneg_left
      · exact mul_nonneg (sq_nonneg _) (mul_nonneg (vH c x).le (sq_nonneg _))
      · have := hC.mu_pos; positivity
      · have : μm ≤ mu c x := hC.mu c x
        linarith
    have h2 := norm_curlForward d.1 d.2 m hC.m_pos hdE hdH t.e
    have h3 : ∑ x, ∑ c, volE d.1 d.2 c x * t.e c x ^ 2 ≤ A / εm := by
      rw [le_div_iff₀ hC.eps_pos, Finset.sum_mul]
      refine Finset.sum_le_sum fun x _ => ?_
      rw [Finset.sum_mul]
      refine Finset.sum_le_sum fun c _ => ?_
      have := mul_le_mul_of_nonneg_left (hC.eps c x) (mul_nonneg (vE c x).le (sq_nonneg (t.e c x)))
      calc _ ≤ volE d.1 d.2 c x * t.e c x ^ 2 * S.eps c x := this
        _ = _ := by ring
    have hμ := hC.mu_pos
    have hε := hC.eps_pos
    calc D ≤ _ := h1
      _ = S.dt ^ 2 / (4 * μm) * ∑ x, ∑ c, volH d.1 d.2 c x * curlForward (some d.1) t.e c x ^ 2 := by
          simp only [Finset.mul_sum]
      _ ≤ S.dt ^ 2 / (4 * μm) * (4 * (∑ a, 1 / m a ^ 2) * ∑ x, ∑ c, volE d.1 d.2 c x * t.e c x ^ 2) :=
          mul_le_mul_of_nonneg_left h2 (by positivity)
      _ ≤ S.dt ^ 2 / (4 * μm) * (4 * (∑ a, 1 / m a ^ 2) * (A / εm)) :=
          mul_le_mul_of_nonneg_left (mul_le_mul_of_nonneg_left h3 (by positivity)) (by positivity)
      _ = q * A := by simp only [q]; field_simp

/-- C12: below the documented time-step bound every source-free run stays bounded forever. `st n` is the state after
`n` leapfrog steps. -/
theorem C12_stability (S : Sys sh ℝ) (m : Fin 3 → ℝ) (εm μm : ℝ) (hC : Courant S m εm μm) (s : State sh ℝ) :
    ∃ C : ℝ, ∀ n c x, |(run S s (leapfrog n)).e c x| ≤ C ∧ |(run S s (leapfrog n)).h c x| ≤ C := by
  have hdE : ∀ a i, m a ≤ (dxesOrOnes S.dxes).1 a i := fun a i => by
    rw [(wOf_dxesOrOnes S.dxes a i).1]; exact hC.dxE a i
  have hdH : ∀ a i, m a ≤ (dxesOrOnes S.dxes).2 a i := fun a i => by
    rw [(wOf_dxesOrOnes S.dxes a i).2]; exact hC.dxH a i
  have pE : ∀ a i, 0 < (dxesOrOnes S.dxes).1 a i := fun a i => lt_of_lt_of_le (hC.m_pos a) (hdE a i)
  have pH : ∀ a i, 0 < (dxesOrOnes S.dxes).2 a i := fun a i => lt_of_lt_of_le (hC.m_pos a) (hdH a i)
  have hg : GridOk S := fun d hd => by
    have : dxesOrOnes S.dxes = d := by rw [hd]; rfl
    rw [this] at pE pH
    exact ⟨fun a i => (pE a i).ne', fun a i => (pH a i).ne'⟩
  have hmat : MatOk S := ⟨fun c x => (lt_of_lt_of_le hC.eps_pos (hC.eps c x)).ne', fun mu hmu c x => by
    have := hC.mu c x
    rw [hmu] at this
    exact (lt_of_lt_of_le hC.mu_pos this).ne'⟩
  have hV : 0 < ∏ a, m a := Finset.prod_pos fun a _ => hC.m_pos a
  have vE : ∀ c x, ∏ a, m a ≤ volE (dxesOrOnes S.dxes).1 (dxesOrOnes S.dxes).2 c x := fun c x =>
    Finset.prod_le_prod (fun a _ => (hC.m_pos a).le) fun a _ => by split_ifs; exacts [hdE _ _, hdH _ _]
  have vH : ∀ c x, ∏ a, m a ≤ volH (dxesOrOnes S.dxes).1 (dxesOrOnes S.dxes).2 c x := fun c x =>
    Finset.prod_le_prod (fun a _ => (hC.m_pos a).le) fun a _ => by split_ifs; exacts [hdH _ _, hdE _ _]
  set V := ∏ a, m a with hVdef
  -- states between the E and the H update
  set t : ℕ → State sh ℝ := fun n => run S (run S s (leapfrog n)) [.stepE] with ht
  have leap' : ∀ n, leapfrog (sh := sh) (K := ℝ) (n + 1) = leapfrog n ++ [.stepE, .stepH] := fun n => by
    simp [leapfrog, List.replicate_succ']
  have hst : ∀ n, run S s (leapfrog (n + 1)) = run S (t n) [.stepH] := fun n => by
    rw [leap', run_append]; rfl
  have htn : ∀ n, t (n + 1) = run S (t n) [.stepH, .stepE] := fun n => by
    simp only [ht]; rw [leap', run_append]; rfl
  have hU : ∀ n, stateEnergy S (t n) = stateEnergy S (t 0) := fun n => by
    induction n with
    | zero => rfl
    | succ n ih => rw [htn, stateEnergy_conserved S hg hmat, ih]
  set U := stateEnergy S (t 0) with hUdef
  set q := S.dt ^ 2 * (∑ a, 1 / m a ^ 2) / (εm * μm) with hq
  have hq0 : 0 ≤ q := by
    have := hC.eps_pos; have := hC.mu_pos
    exact div_nonneg (mul_nonneg (sq_nonneg _) (Finset.sum_nonneg fun a _ => by have := hC.m_pos a; positivity)) (by positivity)
  -- one-cell bounds
  have single : ∀ (f : Idx sh → Fin 3 → ℝ), (∀ x c, 0 ≤ f x c) → ∀ x c, f x c ≤ ∑ x, ∑ c, f x c := fun f hf x c =>
    (Finset.single_le_sum (f := fun c => f x c) (fun c _ => hf x c) (Finset.mem_univ c)).trans
      (Finset.single_le_sum (f := fun x => ∑ c, f x c) (fun x _ => Finset.sum_nonneg fun c _ => hf x c) (Finset.mem_univ x))
  have bound : ∀ n, ∀ c x, (t n).e c x ^ 2 ≤ U / (1 - q) / (V * εm) ∧
      ((t n).h c x) ^ 2 ≤ 2 * (U / (V * μm)) + 2 * (U / (1 - q) / (V * μm)) := by
    intro n c x
    obtain ⟨h1, h2, h3⟩ := energy_lower_bound S m εm μm hC (t n)
    rw [hU] at h1
    have hε := hC.eps_pos
    have hμ := hC.mu_pos
    have fA : ∀ x c, 0 ≤ volE (dxesOrOnes S.dxes).1 (dxesOrOnes S.dxes).2 c x * (S.eps c x * (t n).e c x ^ 2) := fun x c =>
      mul_nonneg (hV.le.trans (vE c x)) (mul_nonneg (hε.le.trans (hC.eps c x)) (sq_nonneg _))
    have fH : ∀ (g : Fin 3 → Idx sh → ℝ) x c, 0 ≤ volH (dxesOrOnes S.dxes).1 (dxesOrOnes S.dxes).2 c x
        * ((S.mu.getD fun _ _ => 1) c x * g c x ^ 2) := fun g x c =>
      mul_nonneg (hV.le.trans (vH c x)) (mul_nonneg (hμ.le.trans (hC.mu c x)) (sq_nonneg _))
    have sA := single _ fA x c
    have sM := single _ (fH (fun c x => ((t n).h c x + (run S (t n) [.stepH]).h c x) / 2)) x c
    have sD := single _ (fH (fun c x => ((t n).h c x - (run S (t n) [.stepH]).h c x) / 2)) x c
    have A0 := (fA x c).trans sA
    have M0 := (fH (fun c x => ((t n).h c x + (run S (t n) [.stepH]).h c x) / 2) x c).trans sM
    set A := ∑ x, ∑ c, volE (dxesOrOnes S.dxes).1 (dxesOrOnes S.dxes).2 c x * (S.eps c x * (t n).e c x ^ 2)
    set M := ∑ x, ∑ c, volH (dxesOrOnes S.dxes).1 (dxesOrOnes S.dxes).2 c x
      * ((S.mu.getD fun _ _ => 1) c x * (((t n).h c x + (run S (t n) [.stepH]).h c x) / 2) ^ 2)
    set D := ∑ x, ∑ c, volH (dxesOrOnes S.dxes).1 (dxesOrOnes S.dxes).2 c x
      * ((S.mu.getD fun _ _ => 1) c x * (((t n).h c x - (run S (t n) [.stepH]).h c x) / 2) ^ 2)
    have h1q : 0 < 1 - q := by linarith
    have hA : A ≤ U / (1 - q) := by
      rw [le_div_iff₀ h1q]; nlinarith
    have hM : M ≤ U := by nlinarith
    have hD : D ≤ U / (1 - q) := by nlinarith
    have low : ∀ (v k y B : ℝ) (k0 : ℝ), 0 < k0 → k0 ≤ k → V ≤ v → v * (k * y ^ 2) ≤ B → y ^ 2 ≤ B / (V * k0) := by
      intro v k y B k0 hk0 hk hv hB
      rw [le_div_iff₀ (mul_pos hV hk0)]
      have : V * k0 ≤ v * k := mul_le_mul hv hk hk0.le (hV.le.trans hv)
      calc y ^ 2 * (V * k0) ≤ y ^ 2 * (v * k) := mul_le_mul_of_nonneg_left this (sq_nonneg _)
        _ = v * (k * y ^ 2) := by ring
        _ ≤ B := hB
    have lM := low _ _ _ U μm hμ (hC.mu c x) (vH c x) (sM.trans hM)
    have lD := low _ _ _ (U / (1 - q)) μm hμ (hC.mu c x) (vH c x) (sD.trans hD)
    refine ⟨low _ _ _ _ εm hε (hC.eps c x) (vE c x) (sA.trans hA), ?_⟩
    have : (t n).h c x = ((t n).h c x + (run S (t n) [.stepH]).h c x) / 2
        + ((t n).h c x - (run S (t n) [.stepH]).h c x) / 2 := by ring
    rw [this]
    nlinarith [sq_nonneg (((t n).h c x + (run S (t n) [.stepH]).h c x) / 2
      - ((t n).h c x - (run S (t n) [.stepH]).h c x) / 2)]
  refine ⟨√(U / (1 - q) / (V * εm)) + √(2 * (U / (V * μm)) + 2 * (U / (1 - q) / (V * μm)))
    + ∑ x, ∑ c, |s.e c x|, fun n c x => ?_⟩
  have s0 : |s.e c x| ≤ ∑ x, ∑ c, |s.e c x| := single (fun x c => |s.e c x|) (fun x c => abs_nonneg _) x c
  have s1 := Real.sqrt_nonneg (U / (1 - q) / (V * εm))
  have s2 := Real.sqrt_nonneg (2 * (U / (V * μm)) + 2 * (U / (1 - q) / (V * μm)))
  have s3 : 0 ≤ ∑ x, ∑ c, |s.e c x| := (abs_nonneg _).trans s0
  have hh : (run S s (leapfrog n)).h c x = (t n).h c x := rfl
  constructor
  · cases n with
    | zero =>
      have : (run S s (leapfrog 0)).e c x = s.e c x := rfl
      rw [this]; linarith
    | succ n =>
      have : (run S s (leapfrog (n+1))).e c x = (t n).e c x := by rw [hst]; rfl
      rw [this]
      have := Real.abs_le_sqrt (bound n c x).1
      linarith
  · rw [hh]
    have := Real.abs_le_sqrt (bound n c x).2
    linarith

-- Non-vacuous: a non-uniform grid with different E and H widths and inhomogeneous materials meets the condition.
example : Courant (sh := ![3, 2, 2]) ⟨1/4, some (fun _ i => (i : ℝ) + 1, fun _ i => (i : ℝ) + 1/2),
    fun _ x => 1 + (x 0 : ℕ), some fun _ x => 1 + (x 1 : ℕ)⟩ (fun _ => 1/2) 1 1 := by
  constructor
  · intro a; norm_num
  · intro a i; simp only [Option.map, wOf_some]; have : (0:ℝ) ≤ (i : ℕ) := Nat.cast_nonneg _; linarith
  · intro a i; simp only [Option.map, wOf_some]; have : (0:ℝ) ≤ (i : ℕ) := Nat.cast_nonneg _; linarith
  · norm_num
  · norm_num
  · intro c x; simp
  · intro c x; simp
  · simp; norm_num

end Meanas.Props
