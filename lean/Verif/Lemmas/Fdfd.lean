/-
Helper lemmas about the FDFD model.
-/
import Verif.Model.Fdfd
import Verif.Lemmas.Operators
import Verif.Lemmas.Functional

namespace Meanas.Fdfd

open Matrix Complex

variable {sh : Fin 3 → ℕ}

/-- Inverse of `vecS`. -/
def unS (v : Vec sh) : VField sh ℂ := fun c x => v (c, x)

@[simp] theorem vecS_unS (v : Vec sh) : vecS (unS v) = v := rfl
@[simp] theorem unS_vecS (f : VField sh ℂ) : unS (vecS f) = f := rfl
@[simp] theorem vecS_apply (f : VField sh ℂ) (c : Fin 3) (x : Idx sh) : vecS f (c, x) = f c x := rfl
@[simp] theorem unS_apply (v : Vec sh) (c : Fin 3) (x : Idx sh) : unS v c x = v (c, x) := rfl

/-- Permeability with default 1. -/
def muV (mu : Option (Vec sh)) : Vec sh :=
  match mu with
  | none => 1
  | some m => m

@[simp] theorem muV_none : muV (none : Option (Vec sh)) = 1 := rfl
@[simp] theorem muV_some (m : Vec sh) : muV (some m) = m := rfl

/-- Functional curls. -/
noncomputable abbrev cE (dxes : Dx sh) (v : Vec sh) : Vec sh := vecS (Functional.curlForward (some dxes.1) (unS v))
/-- Functional curls. -/
noncomputable abbrev cH (dxes : Dx sh) (v : Vec sh) : Vec sh := vecS (Functional.curlBack (some dxes.2) (unS v))

theorem curlForward_mulVec (dxes : Dx sh) (v : Vec sh) : OperatorsS.curlForward dxes.1 *ᵥ v = cE dxes v := by
  funext p; obtain ⟨c, x⟩ := p
  exact OperatorsS.curlForward_mulVec dxes.1 (unS v) c x

theorem curlBack_mulVec (dxes : Dx sh) (v : Vec sh) : OperatorsS.curlBack dxes.2 *ᵥ v = cH dxes v := by
  funext p; obtain ⟨c, x⟩ := p
  exact OperatorsS.curlBack_mulVec dxes.2 (unS v) c x

theorem muDiv_mulVec (mu : Option (Vec sh)) (v : Vec sh) : muDiv mu *ᵥ v = fun p => v p / muV mu p := by
  funext p
  cases mu with
  | none => simp [muDiv]
  | some m => simp [muDiv, mulVec_diagonal, div_eq_inv_mul]

theorem notMask_mulVec (m : Option (Pos sh → Bool)) (v : Vec sh) (p : Pos sh) :
    (notMask m *ᵥ v) p = match m with
      | none => v p
      | some m => if m p then 0 else v p := by
  cases m with
  | none => simp [notMask]
  | some m => simp [notMask, mulVec_diagonal]

theorem eFull_mulVec (ω : ℂ) (dxes : Dx sh) (eps : Vec sh) (mu : Option (Vec sh)) (v : Vec sh) (p : Pos sh) :
    (eFull ω dxes eps mu none none *ᵥ v) p = cH dxes (fun q => cE dxes v q / muV mu q) p - ω ^ 2 * (eps p * v p) := by
  simp only [eFull, notMask, Matrix.one_mul, Matrix.mul_one, sub_mulVec, ← mulVec_mulVec, curlForward_mulVec,
    muDiv_mulVec, curlBack_mulVec, Pi.sub_apply, smul_mulVec, Pi.smul_apply, mulVec_diagonal, smul_eq_mul]

theorem hFull_mulVec (ω : ℂ) (dxes : Dx sh) (eps : Vec sh) (mu : Option (Vec sh)) (v : Vec sh) (p : Pos sh) :
    (hFull ω dxes eps mu none none *ᵥ v) p = cE dxes (fun q => cH dxes v q / eps q) p - ω ^ 2 * (muV mu p * v p) := by
  have h1 : (diagonal (fun p => 1 / eps p) : Mat sh) *ᵥ cH dxes v = fun q => cH dxes v q / eps q := by
    funext q; rw [mulVec_diagonal]; ring
  simp only [hFull, notMask, Matrix.one_mul, Matrix.mul_one, sub_mulVec, ← mulVec_mulVec, curlBack_mulVec, h1,
    curlForward_mulVec, Pi.sub_apply, smul_mulVec, Pi.smul_apply, smul_eq_mul]
  cases mu <;> simp [mulVec_diagonal]

theorem e2h_mulVec (ω : ℂ) (dxes : Dx sh) (mu : Option (Vec sh)) (v : Vec sh) (p : Pos sh) :
    (e2h ω dxes mu none *ᵥ v) p = cE dxes v p / (-I * ω) / muV mu p := by
  cases mu with
  | none => simp only [e2h, smul_mulVec, curlForward_mulVec, Pi.smul_apply, smul_eq_mul, muV_none, Pi.one_apply]; ring
  | some m =>
    simp only [e2h, ← mulVec_mulVec, smul_mulVec, curlForward_mulVec, Pi.smul_apply, smul_eq_mul, muV_some, mulVec_diagonal]
    ring

theorem m2j_mulVec (ω : ℂ) (dxes : Dx sh) (mu : Option (Vec sh)) (v : Vec sh) (p : Pos sh) :
    (m2j ω dxes mu *ᵥ v) p = cH dxes (fun q => v q / muV mu q) p / (I * ω) := by
  cases mu with
  | none =>
    simp only [m2j, smul_mulVec, curlBack_mulVec, Pi.smul_apply, smul_eq_mul, muV_none, Pi.one_apply, div_one]; ring
  | some m =>
    have : (diagonal (fun p => 1 / m p) : Mat sh) *ᵥ v = fun q => v q / m q := by
      funext q; rw [mulVec_diagonal]; ring
    simp only [m2j, ← mulVec_mulVec, smul_mulVec, this, curlBack_mulVec, Pi.smul_apply, smul_eq_mul, muV_some]
    ring

theorem cE_add (dxes : Dx sh) (u v : Vec sh) (p : Pos sh) : cE dxes (fun q => u q + v q) p = cE dxes u p + cE dxes v p :=
  Meanas.curlForward_add (some dxes.1) (unS u) (unS v) p.1 p.2
theorem cH_add (dxes : Dx sh) (u v : Vec sh) (p : Pos sh) : cH dxes (fun q => u q + v q) p = cH dxes u p + cH dxes v p :=
  Meanas.curlBack_add (some dxes.2) (unS u) (unS v) p.1 p.2
theorem cE_smul (dxes : Dx sh) (k : ℂ) (u : Vec sh) (p : Pos sh) : cE dxes (fun q => k * u q) p = k * cE dxes u p :=
  Meanas.curlForward_smul (some dxes.1) k (unS u) p.1 p.2
theorem cH_smul (dxes : Dx sh) (k : ℂ) (u : Vec sh) (p : Pos sh) : cH dxes (fun q => k * u q) p = k * cH dxes u p :=
  Meanas.curlBack_smul (some dxes.2) k (unS u) p.1 p.2

end Meanas.Fdfd
