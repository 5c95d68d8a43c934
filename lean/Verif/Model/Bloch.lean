/-
Model of meanas/fdfd/bloch.py.

Arithmetic is exact. `none` stands for arrays containing NaN: numpy divides by a zero norm, and one NaN spreads over the whole grid in the next FFT.
-/
import Mathlib.Analysis.SpecialFunctions.Pow.Complex
import Mathlib.LinearAlgebra.Matrix.ConjTranspose
import Verif.Model.Functional

namespace Meanas.Bloch

open Complex Matrix

variable {sh : Fin 3 → ℕ}

/-- `numpy.fft.fftfreq(n, 1 / n)`. -/
def fftfreq (n : ℕ) (i : Fin n) : ℤ := if (i : ℕ) < (n + 1) / 2 then i else (i : ℤ) - n

/-- `numpy.cross` of two 3-vectors. -/
def cross {K : Type} [Ring K] (a b : Fin 3 → K) : Fin 3 → K := fun c => match c with
  | 0 => a 1 * b 2 - a 2 * b 1
  | 1 => a 2 * b 0 - a 0 * b 2
  | 2 => a 0 * b 1 - a 1 * b 0

/-- `scipy.linalg.norm` of a real 3-vector. -/
noncomputable def norm3 (a : Fin 3 → ℝ) : ℝ := Real.sqrt (∑ c, a c ^ 2)

/-- The vectors `[0, 1, 0]` and `[0, 0, 1]`. -/
def ey : Fin 3 → ℝ := fun c => if c = 1 then 1 else 0
def ez : Fin 3 → ℝ := fun c => if c = 2 then 1 else 0

section
variable (k0 : Fin 3 → ℝ) (G : Matrix (Fin 3) (Fin 3) ℝ)

/-- meanas/fdfd/bloch.py:160-164 `k_xyz`: the wave vector of the plane wave stored at cell `x`. -/
noncomputable def kxyz (x : Idx sh) : Fin 3 → ℝ := G *ᵥ fun a => k0 a - fftfreq (sh a) (x a)

open Classical in
/-- meanas/fdfd/bloch.py:166-172 `m`. -/
noncomputable def mVec (x : Idx sh) : Fin 3 → ℝ :=
  let k := kxyz k0 G x
  if k 0 ≠ 0 then
    let u := cross k ez
    fun c => u c / norm3 u
  else ey

open Classical in
/-- meanas/fdfd/bloch.py:167, 174-177 `n`; `none` is the vector `0/0`. -/
noncomputable def nVec (x : Idx sh) : Option (Fin 3 → ℝ) :=
  let k := kxyz k0 G x
  if ∃ c, k c ≠ 0 then
    let v := cross k (mVec k0 G x)
    if norm3 v = 0 then none else some fun c => v c / norm3 v
  else some ez

/-- meanas/fdfd/bloch.py:179 `k_mag`. -/
noncomputable def kMag (x : Idx sh) : ℝ := norm3 (kxyz k0 G x)

open Classical in
/-- The whole array `n`, if it has no NaN entry. -/
noncomputable def nAll (sh : Fin 3 → ℕ) : Option (Idx sh → Fin 3 → ℝ) :=
  if ∃ x : Idx sh, nVec k0 G x = none then none else some fun x => (nVec k0 G x).getD 0
end

section
variable {d : ℕ} {sh : Fin d → ℕ}

/-- The character `exp(2πi Σ k_a x_a / n_a)`. -/
noncomputable def chi (k x : Idx sh) : ℂ := ∏ a, exp (2 * Real.pi * I * (k a : ℕ) * (x a : ℕ) / (sh a : ℕ))

/-- `numpy.fft.fftn` over all axes (`fft2`, `ifft2` for two axes). -/
noncomputable def fftn (f : Arr sh ℂ) : Arr sh ℂ := fun k => ∑ x, (chi k x)⁻¹ * f x

/-- `numpy.fft.ifftn` over all axes (`fft2`, `ifft2` for two axes). -/
noncomputable def ifftn (f : Arr sh ℂ) : Arr sh ℂ := fun x => (∑ k, chi k x * f k) / (Fintype.card (Idx sh) : ℂ)
end

/-- A raveled `h_mn`: the m components, then the n components, each in C order (`numpy.split(h, 2)` and `reshape`). -/
abbrev Hmn (sh : Fin 3 → ℕ) := Fin 2 → Arr sh ℂ

section
variable (k0 : Fin 3 → ℝ) (G : Matrix (Fin 3) (Fin 3) ℝ)

/-- meanas/fdfd/bloch.py:240-241, 307-308 `d_xyz`. -/
noncomputable def dXyz (n : Idx sh → Fin 3 → ℝ) (h : Hmn sh) : VField sh ℂ := fun c x =>
  (n x c * h 0 x - mVec k0 G x c * h 1 x) * kMag k0 G x

open Classical in
/-- meanas/fdfd/bloch.py:183-273 `maxwell_operator`, without `mu`. The result also overwrites the argument. Zeros in `epsilon` give infinities. -/
noncomputable def maxwellOperator (eps : VField sh ℂ) (h : Hmn sh) : Option (Hmn sh) :=
  if ∃ c x, eps c x = 0 then none
  else (nAll k0 G sh).map fun n =>
    let e : VField sh ℂ := fun c => fftn fun y => ifftn (dXyz k0 G n h c) y / eps c y
    fun i x =>
      if i = 0 then (∑ c, e c x * n x c) * -(kMag k0 G x : ℂ)
      else (∑ c, e c x * mVec k0 G x c) * (kMag k0 G x : ℂ)

open Classical in
/-- meanas/fdfd/bloch.py:276-314 `hmn_2_exyz`. -/
noncomputable def hmn2exyz (eps : VField sh ℂ) (h : Hmn sh) : Option (VField sh ℂ) :=
  if ∃ c x, eps c x = 0 then none
  else (nAll k0 G sh).map fun n => fun c x => ifftn (dXyz k0 G n h c) x / eps c x

/-- meanas/fdfd/bloch.py:317-350 `hmn_2_hxyz` (only the shape of `epsilon` is used). -/
noncomputable def hmn2hxyz (h : Hmn sh) : Option (VField sh ℂ) :=
  (nAll k0 G sh).map fun n => fun c => ifftn fun x => mVec k0 G x c * h 0 x + n x c * h 1 x

open Classical in
/-- meanas/fdfd/bloch.py:353-436 `inverse_maxwell_operator_approx`, without `mu`. A vanishing `k` gives NaN. -/
noncomputable def inverseMaxwellOperatorApprox (eps : VField sh ℂ) (h : Hmn sh) : Option (Hmn sh) :=
  if ∃ x : Idx sh, kMag k0 G x = 0 then none
  else (nAll k0 G sh).map fun n =>
    let e : VField sh ℂ := fun c x => (n x c * h 0 x - mVec k0 G x c * h 1 x) / kMag k0 G x
    let d : VField sh ℂ := fun c => fftn fun y => ifftn (e c) y * eps c y
    fun i x =>
      if i = 0 then (∑ c, d c x * n x c) / (kMag k0 G x : ℂ)
      else (∑ c, d c x * mVec k0 G x c) / -(kMag k0 G x : ℂ)
end

/-! ### Overlaps -/

/-- `numpy.sqrt` of a complex number (principal branch). -/
noncomputable def csqrt (z : ℂ) : ℂ := z ^ (1 / 2 : ℂ)

/-- An E and an H field. -/
structure EH (sh : Fin 3 → ℕ) where
  e : VField sh ℂ
  h : VField sh ℂ

/-- meanas/fdfd/bloch.py:818-819 -/
noncomputable def norm2 (F : EH sh) : ℂ := (∑ x, (F.e 1 x * F.h 2 x - F.e 2 x * F.h 1 x)) / 2

/-- Both fields divided by a number. -/
noncomputable def EH.div (F : EH sh) (z : ℂ) : EH sh := ⟨fun c x => F.e c x / z, fun c x => F.h c x / z⟩

open Classical in
/-- meanas/fdfd/bloch.py:805-835 `inner_product` for complex arrays of one shape, the four of them distinct. Result: the value, and what the
arrays `(eL, hL)`, `(eR, hR)` contain afterwards. `none`: NaN after dividing by a vanishing norm. -/
noncomputable def innerProduct (L R : EH sh) : Option (ℂ × EH sh × EH sh) :=
  if norm2 R = 0 ∨ norm2 L = 0 then none
  else
    let R := R.div (csqrt (norm2 R))
    let L := L.div (csqrt (norm2 L))
    let a := ∑ x, (R.e 1 x * L.h 2 x - R.e 2 x - L.h 1 x)
    let b := ∑ x, (L.e 1 x * R.h 2 x - L.e 2 x - R.h 1 x)
    some (a - b, L, R)

/-- `-h`: a new array. -/
def EH.flip (F : EH sh) : EH sh := ⟨F.e, fun c x => -F.h c x⟩

open Classical in
/-- meanas/fdfd/bloch.py:838-861 `trq` for four distinct arrays. The arrays `eI, hI, eO, hO` are changed by every call; a temporary `-hI` or `-hO`
takes the change instead of `hI`, `hO`. NaN makes the assertions fail;
`ok none`: the results are NaN after dividing by `pn = 0`. -/
noncomputable def trq (I O : EH sh) : Except String (Option (ℂ × ℂ)) :=
  match innerProduct O I with
  | none => .error "AssertionError"
  | some (pp, O, I) =>
    match innerProduct O I.flip with
    | none => .error "AssertionError"
    | some (pn, O, I') =>
      let I : EH sh := ⟨I'.e, I.h⟩
      match innerProduct O.flip I with
      | none => .error "AssertionError"
      | some (np, O', I) =>
        let O : EH sh := ⟨O'.e, O.h⟩
        match innerProduct O.flip I.flip with
        | none => .error "AssertionError"
        | some (nn, _, _) =>
          if pp ≠ -nn then .error "AssertionError"
          else if pn ≠ -np then .error "AssertionError"
          else if pn = 0 then .ok none
          else .ok (some ((np - nn * pp / pn) / 4, -pp / pn))

end Meanas.Bloch
