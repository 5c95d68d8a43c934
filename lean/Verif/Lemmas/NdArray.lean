/-
Helper lemmas about indices, periodic shifts and C-order flattening.
-/
import Verif.Model.NdArray

namespace Meanas

variable {d : ℕ}

/-! ### `wrap` -/

theorem wrap_val {n : ℕ} (i : Fin n) (s : ℤ) : ((wrap i s : Fin n) : ℤ) = ((i : ℤ) + s) % (n : ℤ) := by
  have hn : (0 : ℤ) < (n : ℤ) := by exact_mod_cast i.pos
  have h1 := Int.emod_nonneg ((i : ℤ) + s) hn.ne'
  show (((((i : ℤ) + s) % (n : ℤ)).toNat : ℕ) : ℤ) = _
  omega

theorem fin_ext_int {n : ℕ} {i j : Fin n} (h : (i : ℤ) = (j : ℤ)) : i = j := by
  apply Fin.ext; exact_mod_cast h

@[simp] theorem wrap_zero {n : ℕ} (i : Fin n) : wrap i 0 = i := by
  apply fin_ext_int
  rw [wrap_val, add_zero]
  exact Int.emod_eq_of_lt (by omega) (by have := i.isLt; omega)

@[simp] theorem wrap_wrap {n : ℕ} (i : Fin n) (s t : ℤ) : wrap (wrap i s) t = wrap i (s + t) := by
  apply fin_ext_int
  rw [wrap_val, wrap_val, wrap_val, Int.emod_add_emod, add_assoc]

theorem wrap_add_mul {n : ℕ} (i : Fin n) (s k : ℤ) : wrap i (s + k * n) = wrap i s := by
  apply fin_ext_int
  rw [wrap_val, wrap_val, ← add_assoc, Int.add_mul_emod_self_right]

theorem wrap_neg_cancel {n : ℕ} (i : Fin n) (s : ℤ) : wrap (wrap i s) (-s) = i := by simp

theorem wrap_injective {n : ℕ} (s : ℤ) : Function.Injective (fun i : Fin n => wrap i s) := by
  intro i j h
  have := congrArg (fun k => wrap k (-s)) h
  simpa using this

/-! ### `shiftIdx` -/

variable {sh : Fin d → ℕ}

@[simp] theorem shiftIdx_same (a : Fin d) (s : ℤ) (x : Idx sh) : shiftIdx a s x a = wrap (x a) s := by
  simp [shiftIdx]

theorem shiftIdx_of_ne {a b : Fin d} (h : b ≠ a) (s : ℤ) (x : Idx sh) : shiftIdx a s x b = x b := by
  simp [shiftIdx, h]

@[simp] theorem shiftIdx_zero (a : Fin d) (x : Idx sh) : shiftIdx a 0 x = x := by
  simp [shiftIdx]

@[simp] theorem shiftIdx_shiftIdx (a : Fin d) (s t : ℤ) (x : Idx sh) :
    shiftIdx a t (shiftIdx a s x) = shiftIdx a (s + t) x := by
  simp [shiftIdx]

theorem shiftIdx_comm (a b : Fin d) (s t : ℤ) (x : Idx sh) :
    shiftIdx a s (shiftIdx b t x) = shiftIdx b t (shiftIdx a s x) := by
  by_cases h : a = b
  · subst h; simp [add_comm]
  · unfold shiftIdx
    rw [Function.update_of_ne h, Function.update_of_ne (Ne.symm h), Function.update_comm h]

theorem shiftIdx_add_mul (a : Fin d) (s k : ℤ) (x : Idx sh) :
    shiftIdx a (s + k * sh a) x = shiftIdx a s x := by
  unfold shiftIdx; rw [wrap_add_mul]

/-- The periodic shift is a bijection of the cells. -/
def shiftEquiv (a : Fin d) (s : ℤ) : Idx sh ≃ Idx sh where
  toFun := shiftIdx a s
  invFun := shiftIdx a (-s)
  left_inv x := by simp
  right_inv x := by simp

theorem shiftIdx_eq_iff (a : Fin d) (s : ℤ) (x y : Idx sh) : y = shiftIdx a s x ↔ x = shiftIdx a (-s) y := by
  constructor <;> rintro rfl <;> simp

theorem sum_shiftIdx {M : Type*} [AddCommMonoid M] (a : Fin d) (s : ℤ) (f : Idx sh → M) :
    ∑ x, f (shiftIdx a s x) = ∑ x, f x :=
  Equiv.sum_comp (shiftEquiv a s) f

/-! ### `roll` -/

theorem roll_apply {K : Type*} (f : Arr sh K) (s : ℤ) (a : Fin d) (x : Idx sh) :
    roll f s a x = f (shiftIdx a (-s) x) := rfl

/-! ### C-order flattening -/

theorem ravelIdx_val (x : Idx sh) : (ravelIdx sh x : ℕ) = ravelNat sh (fun a => (x a : ℕ)) := rfl

theorem unravelIdx_castSucc {d : ℕ} (sh : Fin (d + 1) → ℕ) (r : Fin (size sh)) (a : Fin d)
    (h : (r : ℕ) / sh (Fin.last d) < size (fun a : Fin d => sh a.castSucc)) :
    unravelIdx sh r a.castSucc = unravelIdx (fun a : Fin d => sh a.castSucc) ⟨(r : ℕ) / sh (Fin.last d), h⟩ a := by
  simp [unravelIdx]

theorem unravelIdx_last {d : ℕ} (sh : Fin (d + 1) → ℕ) (r : Fin (size sh)) :
    (unravelIdx sh r (Fin.last d) : ℕ) = (r : ℕ) % sh (Fin.last d) := by
  simp [unravelIdx]

theorem ravel_unravel : {d : ℕ} → (sh : Fin d → ℕ) → (r : Fin (size sh)) → ravelIdx sh (unravelIdx sh r) = r
  | 0, sh, r => by
      have : size sh = 1 := by simp [size]
      apply Fin.ext
      have := r.isLt
      simp only [ravelIdx_val, ravelNat]
      omega
  | d + 1, sh, r => by
      apply Fin.ext
      have hs : size sh = size (fun a : Fin d => sh a.castSucc) * sh (Fin.last d) := Fin.prod_univ_castSucc sh
      have hpos : 0 < sh (Fin.last d) := by
        have := r.pos
        rw [hs] at this
        exact Nat.pos_of_ne_zero (fun h => by simp [h] at this)
      have hlt : (r : ℕ) / sh (Fin.last d) < size (fun a : Fin d => sh a.castSucc) := by
        rw [Nat.div_lt_iff_lt_mul hpos, ← hs]; exact r.isLt
      have ih := ravel_unravel (fun a : Fin d => sh a.castSucc) ⟨(r : ℕ) / sh (Fin.last d), hlt⟩
      have ih' := congrArg (fun q : Fin _ => (q : ℕ)) ih
      simp only [ravelIdx_val] at ih'
      rw [ravelIdx_val]
      unfold ravelNat
      simp only [unravelIdx_castSucc sh r _ hlt, unravelIdx_last, ih']
      exact Nat.div_add_mod' _ _

theorem unravel_ravel : {d : ℕ} → (sh : Fin d → ℕ) → (x : Idx sh) → unravelIdx sh (ravelIdx sh x) = x
  | 0, sh, x => by funext a; exact a.elim0
  | d + 1, sh, x => by
      have hs : size sh = size (fun a : Fin d => sh a.castSucc) * sh (Fin.last d) := Fin.prod_univ_castSucc sh
      have hl := (x (Fin.last d)).isLt
      have hpos : 0 < sh (Fin.last d) := by omega
      have ih := unravel_ravel (fun a : Fin d => sh a.castSucc) (fun a => x a.castSucc)
      have hval : (ravelIdx sh x : ℕ) =
          ravelNat (fun a : Fin d => sh a.castSucc) (fun a => ((x a.castSucc : Fin _) : ℕ)) * sh (Fin.last d)
            + (x (Fin.last d) : ℕ) := rfl
      have hdiv : (ravelIdx sh x : ℕ) / sh (Fin.last d) =
          ravelNat (fun a : Fin d => sh a.castSucc) (fun a => ((x a.castSucc : Fin _) : ℕ)) := by
        rw [hval, mul_comm, Nat.mul_add_div hpos, Nat.div_eq_of_lt hl, add_zero]
      have hmod : (ravelIdx sh x : ℕ) % sh (Fin.last d) = (x (Fin.last d) : ℕ) := by
        rw [hval, mul_comm, Nat.mul_add_mod, Nat.mod_eq_of_lt hl]
      have hlt : (ravelIdx sh x : ℕ) / sh (Fin.last d) < size (fun a : Fin d => sh a.castSucc) := by
        rw [hdiv]; exact ravelNat_lt (fun a : Fin d => sh a.castSucc) (fun a => x a.castSucc)
      funext a
      refine Fin.lastCases ?_ (fun a => ?_) a
      · apply Fin.ext; rw [unravelIdx_last, hmod]
      · rw [unravelIdx_castSucc sh _ a hlt]
        have : (⟨(ravelIdx sh x : ℕ) / sh (Fin.last d), hlt⟩ : Fin (size (fun a : Fin d => sh a.castSucc)))
            = ravelIdx (fun a : Fin d => sh a.castSucc) (fun a => x a.castSucc) := Fin.ext hdiv
        rw [this, ih]

/-- C-order flattening is a bijection between multi-indices and positions. -/
def ravelEquiv (sh : Fin d → ℕ) : Idx sh ≃ Fin (size sh) where
  toFun := ravelIdx sh
  invFun := unravelIdx sh
  left_inv := unravel_ravel sh
  right_inv := ravel_unravel sh

@[simp] theorem ravelEquiv_apply (x : Idx sh) : ravelEquiv sh x = ravelIdx sh x := rfl
@[simp] theorem ravelEquiv_symm_apply (r : Fin (size sh)) : (ravelEquiv sh).symm r = unravelIdx sh r := rfl

theorem ravelIdx_injective (sh : Fin d → ℕ) : Function.Injective (ravelIdx sh) := (ravelEquiv sh).injective

theorem unravelIdx_inj {r c : Fin (size sh)} : unravelIdx sh r = unravelIdx sh c ↔ r = c :=
  (ravelEquiv sh).symm.injective.eq_iff

end Meanas
