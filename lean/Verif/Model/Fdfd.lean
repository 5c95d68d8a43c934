/-
Model of meanas/fdfd/operators.py and meanas/fdfd/functional.py.

Sparse matrices act on vectorised fields; they are modelled as matrices indexed by (component, cell), built from the
structured operators of `Verif/Model/OperatorsS.lean` (C01/C02 relate these to the flat C-order indexing). Complex
numbers are exact. Masks (`pec`, `pmc`) are given by their truth values.
-/
import Verif.Model.OperatorsS
import Verif.Model.Functional
import Verif.Model.Fdtd
import Verif.Model.Operators
import Mathlib.Data.Matrix.Block
import Mathlib.Analysis.SpecialFunctions.Pow.Complex

namespace Meanas.Fdfd

open Matrix Complex

variable {sh : Fin 3 → ℕ}

/-- Positions in a vectorised field. -/
abbrev Pos (sh : Fin 3 → ℕ) := Fin 3 × Idx sh
/-- Vectorised complex field (`vcfdfield`). -/
abbrev Vec (sh : Fin 3 → ℕ) := Pos sh → ℂ
/-- Sparse operator on vectorised fields. -/
abbrev Mat (sh : Fin 3 → ℕ) := Matrix (Pos sh) (Pos sh) ℂ
/-- Grid widths. -/
abbrev Dx (sh : Fin 3 → ℕ) := Fdtd.Dxes sh ℂ

/-- `vec(f)` in the structured indexing. -/
def vecS (f : VField sh ℂ) : Vec sh := fun p => f p.1 p.2

/-- `sparse.eye_array(…)` or `sparse.diags_array(numpy.where(mask, 0, 1))` (operators.py:79-87, 163-171, 229-237). -/
def notMask (mask : Option (Pos sh → Bool)) : Mat sh :=
  match mask with
  | none => 1
  | some m => diagonal fun p => if m p then 0 else 1

/-- `sparse.eye_array(…)` or `sparse.diags_array(1 / mu)` (operators.py:90-93). -/
noncomputable def muDiv (mu : Option (Vec sh)) : Mat sh :=
  match mu with
  | none => 1
  | some m => diagonal fun p => 1 / m p

/-- meanas/fdfd/operators.py:40-96 `e_full`. -/
noncomputable def eFull (ω : ℂ) (dxes : Dx sh) (eps : Vec sh) (mu : Option (Vec sh)) (pec pmc : Option (Pos sh → Bool)) :
    Mat sh :=
  let ch := OperatorsS.curlBack dxes.2
  let ce := OperatorsS.curlForward dxes.1
  let pe := notMask pec
  let pm := notMask pmc
  let e : Mat sh := diagonal eps
  pe * (ch * pm * muDiv mu * ce - ω ^ 2 • e) * pe

/-- `p_squared` of meanas/fdfd/operators.py:116-118. -/
def pSquared (dxes : Dx sh) : Vec sh := fun p =>
  match p.1 with
  | 0 => dxes.1 0 (p.2 0) * dxes.2 1 (p.2 1) * dxes.2 2 (p.2 2)
  | 1 => dxes.2 0 (p.2 0) * dxes.1 1 (p.2 1) * dxes.2 2 (p.2 2)
  | 2 => dxes.2 0 (p.2 0) * dxes.2 1 (p.2 1) * dxes.1 2 (p.2 2)

/-- meanas/fdfd/operators.py:99-123 `e_full_preconditioners`: `(P_left, P_right)`. `numpy.sqrt` of complex
numbers is the principal branch. -/
noncomputable def preconditioners (dxes : Dx sh) : Mat sh × Mat sh :=
  let p : Vec sh := fun q => pSquared dxes q ^ (1 / 2 : ℂ)
  (diagonal p, diagonal fun q => 1 / p q)

/-- meanas/fdfd/operators.py:126-180 `h_full`. -/
noncomputable def hFull (ω : ℂ) (dxes : Dx sh) (eps : Vec sh) (mu : Option (Vec sh)) (pec pmc : Option (Pos sh → Bool)) :
    Mat sh :=
  let ch := OperatorsS.curlBack dxes.2
  let ce := OperatorsS.curlForward dxes.1
  let pe := notMask pec
  let pm := notMask pmc
  let eDiv : Mat sh := diagonal fun p => 1 / eps p
  let m : Mat sh := match mu with
    | none => 1
    | some m => diagonal m
  pm * (ce * pe * eDiv * ch - ω ^ 2 • m) * pm

/-- meanas/fdfd/operators.py:183-250 `eh_full`. With `mu = None`, line 243 evaluates `pm @ (1j*omega) @ pm` with a scalar,
which scipy rejects ("Scalar operands are not allowed, use '*' instead"). -/
noncomputable def ehFull (ω : ℂ) (dxes : Dx sh) (eps : Vec sh) (mu : Option (Vec sh)) (pec pmc : Option (Pos sh → Bool)) :
    Except String (Matrix (Pos sh ⊕ Pos sh) (Pos sh ⊕ Pos sh) ℂ) :=
  let pe := notMask pec
  let pm := notMask pmc
  let iwe : Mat sh := pe * ((I * ω) • (diagonal eps : Mat sh)) * pe
  match mu with
  | none => .error "ValueError: Scalar operands are not allowed, use '*' instead"
  | some m =>
    let iwm : Mat sh := pm * ((I * ω) • (diagonal m : Mat sh)) * pm
    let A1 := pe * OperatorsS.curlBack dxes.2 * pm
    let A2 := pm * OperatorsS.curlForward dxes.1 * pe
    .ok (fromBlocks (-iwe) A1 A2 iwm)

/-- meanas/fdfd/operators.py:253-282 `e2h`. -/
noncomputable def e2h (ω : ℂ) (dxes : Dx sh) (mu : Option (Vec sh)) (pmc : Option (Pos sh → Bool)) : Mat sh :=
  let op : Mat sh := (1 / (-I * ω)) • OperatorsS.curlForward dxes.1
  let op := match mu with
    | none => op
    | some m => (diagonal fun p => 1 / m p) * op
  match pmc with
  | none => op
  | some m => (diagonal fun p => if m p then 0 else 1) * op

/-- meanas/fdfd/operators.py:285-307 `m2j`. -/
noncomputable def m2j (ω : ℂ) (dxes : Dx sh) (mu : Option (Vec sh)) : Mat sh :=
  let op : Mat sh := (1 / (I * ω)) • OperatorsS.curlBack dxes.2
  match mu with
  | none => op
  | some m => op * (diagonal fun p => 1 / m p)

/-- `dxag` (`dxbg`) as one concatenated vector: the width at each position's own axis. -/
def dxVec (dx : DxList sh ℂ) : Vec sh := fun p => dx p.1 (p.2 p.1)

/-- meanas/fdfd/operators.py:310-336 `poynting_e_cross`. `fx @ v` for a vector is `shift_circ @ v`. -/
noncomputable def poyntingECross (e : Vec sh) (dxes : Dx sh) : Mat sh :=
  let f (a : Fin 3) (v : Idx sh → ℂ) : Idx sh → ℂ := OperatorsS.shiftCirc a 1 *ᵥ v
  let E (c : Fin 3) : Idx sh → ℂ := fun x => e (c, x) * dxVec dxes.1 (c, x)
  OperatorsS.blockArray
    ![![0, diagonal (f 0 (-E 2)), diagonal (f 0 (E 1))],
      ![diagonal (f 1 (E 2)), 0, diagonal (f 1 (-E 0))],
      ![diagonal (f 2 (-E 1)), diagonal (f 2 (E 0)), 0]]
    * diagonal (dxVec dxes.2)

/-- meanas/fdfd/operators.py:339-363 `poynting_h_cross`. -/
noncomputable def poyntingHCross (h : Vec sh) (dxes : Dx sh) : Mat sh :=
  let f (a : Fin 3) : Matrix (Idx sh) (Idx sh) ℂ := OperatorsS.shiftCirc a 1
  let H (c : Fin 3) : Matrix (Idx sh) (Idx sh) ℂ := diagonal fun x => h (c, x) * dxVec dxes.2 (c, x)
  OperatorsS.blockArray
    ![![0, -H 2 * f 0, H 1 * f 0],
      ![H 2 * f 1, 0, -H 0 * f 1],
      ![-H 1 * f 2, H 0 * f 2, 0]]
    * diagonal (dxVec dxes.1)

/-- meanas/fdfd/operators.py:366-394 `e_tfsf_source`. -/
noncomputable def eTfsfSource (tf : Vec sh) (ω : ℂ) (dxes : Dx sh) (eps : Vec sh) (mu : Option (Vec sh)) : Mat sh :=
  let A := eFull ω dxes eps mu none none
  let Q : Mat sh := diagonal tf
  (1 / (-I * ω)) • (A * Q - Q * A)

/-- `shift_with_mirror(axis, shape, ±1)` row `x`: the cell `x ± 1` along the axis, or `x` itself at the domain edge (C04 with
`|s| = 1`). -/
def mirrorIdx (a : Fin 3) (s : ℤ) (x : Idx sh) : Idx sh :=
  if 0 ≤ (x a : ℤ) + s ∧ (x a : ℤ) + s < sh a then shiftIdx a s x else x

/-- `jmask` of meanas/fdfd/operators.py:425-441. Axes with a single cell are skipped. -/
def boundaryMask (mask : Vec sh) (periodic : Bool) (p : Pos sh) : Prop :=
  ∃ a : Fin 3, sh a ≠ 1 ∧ ∃ s ∈ ([-1, 1] : List ℤ),
    mask (p.1, if periodic then shiftIdx a s p.2 else mirrorIdx a s p.2) - mask p ≠ 0

open Classical in
/-- meanas/fdfd/operators.py:397-450 `e_boundary_source`. -/
noncomputable def eBoundarySource (mask : Vec sh) (ω : ℂ) (dxes : Dx sh) (eps : Vec sh) (mu : Option (Vec sh))
    (periodic : Bool) : Mat sh :=
  (diagonal fun p => if boundaryMask mask periodic p then 1 else 0) * eTfsfSource mask ω dxes eps mu

end Meanas.Fdfd

namespace Meanas.FdfdF

open Complex Functional

variable {sh : Fin 3 → ℕ}

/-- meanas/fdfd/functional.py:18-50 `e_full`. Note line 45: `mu * ce(e)`. -/
noncomputable def eFull (ω : ℂ) (dxes : Fdtd.Dxes sh ℂ) (eps : VField sh ℂ) (mu : Option (VField sh ℂ)) (e : VField sh ℂ) :
    VField sh ℂ :=
  let ch := curlBack (some dxes.2)
  let ce := curlForward (some dxes.1)
  match mu with
  | none => fun c x => ch (ce e) c x - ω ^ 2 * eps c x * e c x
  | some mu => fun c x => ch (fun c' y => mu c' y * ce e c' y) c x - ω ^ 2 * eps c x * e c x

/-- meanas/fdfd/functional.py:53-86 `eh_full`. -/
noncomputable def ehFull (ω : ℂ) (dxes : Fdtd.Dxes sh ℂ) (eps : VField sh ℂ) (mu : Option (VField sh ℂ)) (e h : VField sh ℂ) :
    VField sh ℂ × VField sh ℂ :=
  let ch := curlBack (some dxes.2)
  let ce := curlForward (some dxes.1)
  match mu with
  | none => (fun c x => ch h c x - I * ω * eps c x * e c x, fun c x => ce e c x + I * ω * h c x)
  | some mu => (fun c x => ch h c x - I * ω * eps c x * e c x, fun c x => ce e c x + I * ω * mu c x * h c x)

/-- meanas/fdfd/functional.py:89-117 `e2h`. -/
noncomputable def e2h (ω : ℂ) (dxes : Fdtd.Dxes sh ℂ) (mu : Option (VField sh ℂ)) (e : VField sh ℂ) : VField sh ℂ :=
  let ce := curlForward (some dxes.1)
  match mu with
  | none => fun c x => ce e c x / (-I * ω)
  | some mu => fun c x => ce e c x / (-I * ω * mu c x)

/-- meanas/fdfd/functional.py:120-151 `m2j`. -/
noncomputable def m2j (ω : ℂ) (dxes : Fdtd.Dxes sh ℂ) (mu : Option (VField sh ℂ)) (m : VField sh ℂ) : VField sh ℂ :=
  let ch := curlBack (some dxes.2)
  match mu with
  | none => fun c x => ch m c x / (-I * ω)
  | some mu => fun c x => ch (fun c' y => m c' y / mu c' y) c x / (-I * ω)

/-- meanas/fdfd/functional.py:154-184 `e_tfsf_source`; `TF_region` given per component. -/
noncomputable def eTfsfSource (tf : VField sh ℂ) (ω : ℂ) (dxes : Fdtd.Dxes sh ℂ) (eps : VField sh ℂ)
    (mu : Option (VField sh ℂ)) (e : VField sh ℂ) : VField sh ℂ :=
  let A := eFull ω dxes eps mu
  fun c x => (A (fun c' y => tf c' y * e c' y) c x - tf c x * A e c x) / (-I * ω)

/-- meanas/fdfd/functional.py:187-221 `poynting_e_cross_h`. -/
def poyntingECrossH (dxes : Fdtd.Dxes sh ℂ) (e h : VField sh ℂ) : VField sh ℂ :=
  let ex : Arr sh ℂ := fun x => e 0 x * dxes.1 0 (x 0)
  let ey : Arr sh ℂ := fun x => e 1 x * dxes.1 1 (x 1)
  let ez : Arr sh ℂ := fun x => e 2 x * dxes.1 2 (x 2)
  let hx : Arr sh ℂ := fun x => h 0 x * dxes.2 0 (x 0)
  let hy : Arr sh ℂ := fun x => h 1 x * dxes.2 1 (x 1)
  let hz : Arr sh ℂ := fun x => h 2 x * dxes.2 2 (x 2)
  ![fun x => roll ey (-1) 0 x * hz x - roll ez (-1) 0 x * hy x,
    fun x => roll ez (-1) 1 x * hx x - roll ex (-1) 1 x * hz x,
    fun x => roll ex (-1) 2 x * hy x - roll ey (-1) 2 x * hx x]

end Meanas.FdfdF
