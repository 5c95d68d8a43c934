/-
Helper lemmas: the flat sparse operators, their structured versions and the functional operators agree.
-/
import Verif.Model.Operators
import Verif.Model.OperatorsS
import Verif.Model.Functional
import Verif.Lemmas.NdArray
import Mathlib.Tactic.FieldSimp
import Mathlib.LinearAlgebra.Matrix.Reindex

namespace Meanas

open Matrix

variable {d : ℕ} {sh : Fin d → ℕ} {K : Type*} [Field K]

/-! ### Structured operators acting on fields -/

namespace OperatorsS

theorem shiftCirc_mulVec (a : Fin d) (s : ℤ) (f : Arr sh K) (x : Idx sh) :
    (shiftCirc a s *ᵥ f) x = f (shiftIdx a s x) := by
  simp [shiftCirc, mulVec, dotProduct]

theorem derivForward_mulVec (dx : DxList sh K) (a : Fin d) (f : Arr sh K) :
    derivForward dx a *ᵥ f = Functional.derivForward (some dx) a f := by
  funext x
  rw [derivForward, ← mulVec_mulVec, mulVec_diagonal, sub_mulVec, one_mulVec]
  simp only [Pi.sub_apply, shiftCirc_mulVec, Functional.derivForward, roll_apply, neg_neg]
  rw [one_div, div_eq_inv_mul]

theorem derivBack_mulVec (dx : DxList sh K) (a : Fin d) (f : Arr sh K) :
    derivBack dx a *ᵥ f = Functional.derivBack (some dx) a f := by
  funext x
  rw [derivBack, ← mulVec_mulVec, mulVec_diagonal, sub_mulVec, one_mulVec]
  simp only [Pi.sub_apply, shiftCirc_mulVec, Functional.derivBack, roll_apply]
  rw [neg_div, one_div, div_eq_inv_mul]; ring

theorem blockArray_mulVec {m : ℕ} {ι : Type*} [Fintype ι] (B : Fin m → Fin m → Matrix ι ι K)
    (F : Fin m × ι → K) (c : Fin m) (x : ι) :
    (blockArray B *ᵥ F) (c, x) = ∑ c', (B c c' *ᵥ fun y => F (c', y)) x := by
  simp only [blockArray, mulVec, dotProduct, Matrix.of_apply, Fintype.sum_prod_type]

end OperatorsS

/-! ### Flat operators -/

namespace Operators

theorem ravelNat_shift (a : Fin d) (s : ℕ) (x : Idx sh) :
    ravelNat sh (fun b => ((x b : ℕ) + (if (b : ℤ) = (a : ℤ) then s else 0)) % sh b)
      = ravelIdx sh (shiftIdx a s x) := by
  rw [ravelIdx_val]
  congr 1
  funext b
  by_cases h : b = a
  · subst h
    have := wrap_val (x b) (s : ℤ)
    rw [shiftIdx_same]
    simp only [if_true]
    exact_mod_cast this.symm
  · have h' : ¬ ((b : ℤ) = (a : ℤ)) := fun hh => h (Fin.ext (by exact_mod_cast hh))
    rw [shiftIdx_of_ne h, if_neg h', add_zero, Nat.mod_eq_of_lt (x b).isLt]

/-- `shift_circ` succeeds for 2D/3D shapes and valid axes, and is the structured shift in flat coordinates. -/
theorem shiftCirc_ok (hd : d = 2 ∨ d = 3) (a : Fin d) (s : ℤ) :
    (shiftCirc sh (a : ℤ) s : Except String (Matrix (Fin (size sh)) (Fin (size sh)) K))
      = .ok (Matrix.reindex (ravelEquiv sh) (ravelEquiv sh) (OperatorsS.shiftCirc a s)) := by
  have hax : (0 : ℤ) ≤ (a : ℤ) ∧ (a : ℤ) < d := by
    constructor
    · omega
    · exact_mod_cast a.isLt
  unfold shiftCirc
  rw [if_neg (not_not.mpr hd), if_neg (not_not.mpr hax)]
  simp only [ravelNat_shift]
  by_cases hs : s < 0
  · rw [if_pos hs]
    congr 1
    ext r c
    have hnat : ((s.natAbs : ℕ) : ℤ) = -s := by omega
    simp only [rowPick, transpose_apply, Matrix.of_apply, reindex_apply, submatrix_apply, OperatorsS.shiftCirc,
      ravelEquiv_symm_apply, hnat]
    congr 1
    rw [eq_iff_iff]
    constructor
    · intro h
      have h2 : r = ravelIdx sh (shiftIdx a (-s) (unravelIdx sh c)) := Fin.ext h
      rw [h2, unravel_ravel]; simp
    · intro h
      have h3 : unravelIdx sh r = shiftIdx a (-s) (unravelIdx sh c) := (shiftIdx_eq_iff a s _ _).mp h
      rw [← h3, ravel_unravel]
  · rw [if_neg hs]
    congr 1
    ext r c
    have hnat : ((s.natAbs : ℕ) : ℤ) = s := by omega
    simp only [rowPick, Matrix.of_apply, reindex_apply, submatrix_apply, OperatorsS.shiftCirc,
      ravelEquiv_symm_apply, hnat]
    congr 1
    rw [eq_iff_iff]
    constructor
    · intro h
      have h2 : c = ravelIdx sh (shiftIdx a s (unravelIdx sh r)) := Fin.ext h
      rw [h2, unravel_ravel]
    · intro h
      rw [← h, ravel_unravel]

theorem derivForward_ok (hd : d = 2 ∨ d = 3) (dx : DxList sh K) (a : Fin d) :
    derivForward dx a = .ok (Matrix.reindex (ravelEquiv sh) (ravelEquiv sh) (OperatorsS.derivForward dx a)) := by
  unfold derivForward
  rw [shiftCirc_ok hd]
  show Except.ok _ = Except.ok _
  congr 1
  rw [OperatorsS.derivForward]
  simp only [reindex_apply]
  rw [← submatrix_mul_equiv _ _ _ (ravelEquiv sh).symm]
  congr 1
  · ext r c; simp [diagonal_apply, unravelIdx_inj]
  · ext r c; simp [one_apply, unravelIdx_inj]

theorem derivBack_ok (hd : d = 2 ∨ d = 3) (dx : DxList sh K) (a : Fin d) :
    derivBack dx a = .ok (Matrix.reindex (ravelEquiv sh) (ravelEquiv sh) (OperatorsS.derivBack dx a)) := by
  unfold derivBack
  rw [shiftCirc_ok hd]
  show Except.ok _ = Except.ok _
  congr 1
  rw [OperatorsS.derivBack]
  simp only [reindex_apply]
  rw [← submatrix_mul_equiv _ _ _ (ravelEquiv sh).symm]
  congr 1
  · ext r c; simp [diagonal_apply, unravelIdx_inj]
  · ext r c; simp [one_apply, unravelIdx_inj]

/-- `(component, cell) ↔` position in the vectorised field. -/
def vecEquiv (m : ℕ) (sh : Fin d → ℕ) : Fin m × Idx sh ≃ Fin (m * size sh) :=
  (Equiv.prodCongr (Equiv.refl (Fin m)) (ravelEquiv sh)).trans finProdFinEquiv

theorem cross_reindex (B : Fin 3 → Matrix (Idx sh) (Idx sh) K) :
    cross (fun c => Matrix.reindex (ravelEquiv sh) (ravelEquiv sh) (B c))
      = Matrix.reindex (vecEquiv 3 sh) (vecEquiv 3 sh) (OperatorsS.cross B) := by
  ext r c
  obtain ⟨⟨r1, r2⟩, rfl⟩ := finProdFinEquiv.surjective r
  obtain ⟨⟨c1, c2⟩, rfl⟩ := finProdFinEquiv.surjective c
  simp only [cross, blockArray3, OperatorsS.cross, OperatorsS.blockArray, Matrix.of_apply, reindex_apply,
    submatrix_apply, vecEquiv, Equiv.symm_trans_apply, Equiv.symm_apply_apply, Equiv.prodCongr_symm,
    Equiv.prodCongr_apply, Prod.map]
  match r1, c1 with
  | 0, 0 => rfl
  | 0, 1 => rfl
  | 0, 2 => rfl
  | 1, 0 => rfl
  | 1, 1 => rfl
  | 1, 2 => rfl
  | 2, 0 => rfl
  | 2, 1 => rfl
  | 2, 2 => rfl

theorem curlForward_ok {sh : Fin 3 → ℕ} (dx : DxList sh K) :
    curlForward dx = .ok (Matrix.reindex (vecEquiv 3 sh) (vecEquiv 3 sh) (OperatorsS.curlForward dx)) := by
  unfold curlForward
  rw [derivForward_ok (Or.inr rfl), derivForward_ok (Or.inr rfl), derivForward_ok (Or.inr rfl)]
  show Except.ok _ = Except.ok _
  congr 1
  rw [OperatorsS.curlForward, ← cross_reindex]
  congr 1
  funext c
  fin_cases c <;> rfl

theorem curlBack_ok {sh : Fin 3 → ℕ} (dx : DxList sh K) :
    curlBack dx = .ok (Matrix.reindex (vecEquiv 3 sh) (vecEquiv 3 sh) (OperatorsS.curlBack dx)) := by
  unfold curlBack
  rw [derivBack_ok (Or.inr rfl), derivBack_ok (Or.inr rfl), derivBack_ok (Or.inr rfl)]
  show Except.ok _ = Except.ok _
  congr 1
  rw [OperatorsS.curlBack, ← cross_reindex]
  congr 1
  funext c
  fin_cases c <;> rfl

end Operators

theorem OperatorsS.curlForward_mulVec {sh : Fin 3 → ℕ} (dx : DxList sh K) (F : VField sh K) (c : Fin 3) (x : Idx sh) :
    (OperatorsS.curlForward dx *ᵥ fun p : Fin 3 × Idx sh => F p.1 p.2) (c, x) = Functional.curlForward (some dx) F c x := by
  rw [OperatorsS.curlForward, OperatorsS.cross, OperatorsS.blockArray_mulVec]
  fin_cases c <;>
    simp [Fin.sum_univ_three, OperatorsS.derivForward_mulVec, Functional.curlForward, neg_mulVec] <;> ring

theorem OperatorsS.curlBack_mulVec {sh : Fin 3 → ℕ} (dx : DxList sh K) (F : VField sh K) (c : Fin 3) (x : Idx sh) :
    (OperatorsS.curlBack dx *ᵥ fun p : Fin 3 × Idx sh => F p.1 p.2) (c, x) = Functional.curlBack (some dx) F c x := by
  rw [OperatorsS.curlBack, OperatorsS.cross, OperatorsS.blockArray_mulVec]
  fin_cases c <;>
    simp [Fin.sum_univ_three, OperatorsS.derivBack_mulVec, Functional.curlBack, neg_mulVec] <;> ring

omit [Field K] in
theorem vecField_eq {m : ℕ} (F : Fin m → Arr sh K) (p : Fin m × Idx sh) :
    vecField F (Operators.vecEquiv m sh p) = F p.1 p.2 := by
  simp [vecField, Operators.vecEquiv, unravel_ravel]

theorem unvec_mulVec_vec {m : ℕ} (M : Matrix (Fin m × Idx sh) (Fin m × Idx sh) K) (F : Fin m → Arr sh K)
    (c : Fin m) (x : Idx sh) :
    unvecField (Matrix.reindex (Operators.vecEquiv m sh) (Operators.vecEquiv m sh) M *ᵥ vecField F) c x
      = (M *ᵥ fun p => F p.1 p.2) (c, x) := by
  have h1 : finProdFinEquiv (c, ravelIdx sh x) = Operators.vecEquiv m sh (c, x) := rfl
  unfold unvecField
  rw [h1]
  simp only [mulVec, dotProduct, reindex_apply, submatrix_apply, Equiv.symm_apply_apply]
  rw [← Equiv.sum_comp (Operators.vecEquiv m sh)]
  simp only [Equiv.symm_apply_apply, vecField_eq]

theorem unvecField_vecField {m : ℕ} {K : Type*} (F : Fin m → Arr sh K) : unvecField (vecField F) = F := by
  funext c x
  simp [unvecField, vecField, unravel_ravel]

theorem vecField_unvecField {m : ℕ} {K : Type*} (v : Fin (m * size sh) → K) :
    vecField (unvecField v : Fin m → Arr sh K) = v := by
  funext r
  simp only [unvecField, vecField, ravel_unravel, Prod.mk.eta, Equiv.apply_symm_apply]

end Meanas
