/-
Model of the iterative part of meanas/fdfd/bloch.py: `eigsolve`, `find_k` and their helpers.

Arithmetic is exact. scipy's square root, eigendecomposition, sorting and scalar minimisation are parameters; `inv` is exact inversion, which raises for
singular matrices. NaN is an error value.
-/
import Mathlib.Analysis.SpecialFunctions.Trigonometric.Basic
import Mathlib.LinearAlgebra.Matrix.NonsingularInverse
import Mathlib.LinearAlgebra.Matrix.Trace
import Verif.Model.Bloch

namespace Meanas.Bloch

open Complex Matrix

variable {N : Type} [Fintype N] {M : ℕ}

/-- Results that may raise, or contain NaN (`"nan"`). -/
abbrev Res := Except String

/-- `scipy_op @ Z`: the operator applied to every column (scipy's `LinearOperator` without `matmat`). -/
def cols (op : (N → ℂ) → N → ℂ) (Z : Matrix N (Fin M) ℂ) : Matrix N (Fin M) ℂ := of fun i j => op (fun i => Z i j) i

/-- `scipy.linalg.norm` of a matrix. -/
noncomputable def fnorm (Z : Matrix N (Fin M) ℂ) : ℝ := Real.sqrt (∑ i, ∑ j, normSq (Z i j))

/-- meanas/fdfd/bloch.py:794-798 -/
noncomputable def rtraceAtB {a b : Type} [Fintype a] [Fintype b] (A B : Matrix a b ℂ) : ℝ := (∑ i, ∑ j, (starRingEnd ℂ) (A i j) * B i j).re

/-- meanas/fdfd/bloch.py:800-801 -/
noncomputable def symmetrize (A : Matrix (Fin M) (Fin M) ℂ) : Matrix (Fin M) (Fin M) ℂ := (1 / 2 : ℂ) • (A + Aᴴ)

open Classical in
/-- `numpy.linalg.inv`. -/
noncomputable def inv (A : Matrix (Fin M) (Fin M) ℂ) : Res (Matrix (Fin M) (Fin M) ℂ) :=
  if A.det = 0 then .error "LinAlgError" else .ok A⁻¹

/-- The library functions used. `minimize` is `scipy.optimize.minimize_scalar(..., bounds=(0, pi))`: it may pass on exceptions. -/
structure SolveLib (M : ℕ) where
  sqrtm : Matrix (Fin M) (Fin M) ℂ → Matrix (Fin M) (Fin M) ℂ
  eig : Matrix (Fin M) (Fin M) ℂ → (Fin M → ℂ) × Matrix (Fin M) (Fin M) ℂ
  argsort : (Fin M → ℝ) → Fin M → Fin M
  minimize : (ℝ → Res ℝ) → Res ℝ

section
variable (ZtZ DtD symZtD ZtAZ DtAD symZtAD : Matrix (Fin M) (Fin M) ℂ)

open Classical in
/-- meanas/fdfd/bloch.py:651-673 `Qi_func` (the memo only saves time). -/
noncomputable def qiFunc (theta : ℝ) : Res (Matrix (Fin M) (Fin M) ℂ) :=
  let c : ℝ := Real.cos theta
  let s : ℝ := Real.sin theta
  match inv ((c * c : ℂ) • ZtZ + (s * s : ℂ) • DtD + (2 * s * c : ℂ) • symZtD) with
  | .ok Qi => .ok Qi
  | .error _ =>
    if c < 1e-4 * s ∧ c ≠ 0 then do
      let DtDi ← inv DtD
      return (1 / (s * s) : ℂ) • DtDi - (2 * c / (s * s * s) : ℂ) • (DtDi * (DtDi * symZtD)ᴴ)
    else if s < 1e-4 * c ∧ s ≠ 0 then do
      let ZtZi ← inv ZtZ
      return (1 / (c * c) : ℂ) • ZtZi - (2 * s / (c * c * c) : ℂ) • (ZtZi * (ZtZi * symZtD)ᴴ)
    else .error "Inexplicable singularity in trace_func"

/-- meanas/fdfd/bloch.py:675-681 `trace_func`. -/
noncomputable def traceFunc (theta : ℝ) : Res ℝ := do
  let c : ℝ := Real.cos theta
  let s : ℝ := Real.sin theta
  let Qi ← qiFunc ZtZ DtD symZtD theta
  let R := (c * c : ℂ) • ZtAZ + (s * s : ℂ) • DtAD + (2 * s * c : ℂ) • symZtAD
  return |rtraceAtB R Qi|
end

/-- The variables that survive an iteration of the main loop. -/
structure SolveState (N : Type) (M : ℕ) where
  Z : Matrix N (Fin M) ℂ
  D : Matrix N (Fin M) ℂ
  ZtZ : Matrix (Fin M) (Fin M) ℂ
  prevE : ℝ
  prevTr : ℝ
  dScale : ℝ

open Classical in
/-- meanas/fdfd/bloch.py:591-739, one pass through the main loop with index `i`; the flag says whether it ended in `break`. `scipy_iop @ G`
overwrites `G`, so that the trace is that of `KG` with itself. -/
noncomputable def solveStep (op iop : (N → ℂ) → N → ℂ) (lib : SolveLib M) (tolerance : ℝ) (resetIters : ℕ) (i : ℕ) (st : SolveState N M) :
    Res (Bool × SolveState N M) := do
  let Z := st.Z
  let ZtZ := Zᴴ * Z
  let U ← inv ZtZ
  let AZ := cols op Z
  let ZtAZ := Zᴴ * AZ
  let ZtAZU := ZtAZ * U
  let eSigned := (trace ZtAZU).re
  let sgn : ℝ := SignType.sign eSigned
  let E := |eSigned|
  let G := (sgn : ℂ) • (AZ * U - Z * U * ZtAZU)
  if 0 < i ∧ |E - st.prevE| < tolerance * 0.5 * (E + st.prevE + 1e-7) then return (true, { st with ZtZ := ZtZ })
  let KG := cols iop G
  let tr := rtraceAtB KG KG
  let gamma := if st.prevTr = 0 ∨ i % resetIters = 0 then 0 else tr / st.prevTr
  let D := (gamma / st.dScale : ℂ) • st.D + KG
  if fnorm D = 0 then throw "nan"
  let dScale := M / fnorm D
  let D := (dScale : ℂ) • D
  let AD := cols op D
  let theta ← lib.minimize (traceFunc ZtZ (Dᴴ * D) (symmetrize (Zᴴ * D)) ZtAZ (Dᴴ * AD) (symmetrize (Zᴴ * AD)))
  return (false, { Z := (Real.cos theta : ℂ) • Z + (Real.sin theta : ℂ) • D, D := D, ZtZ := ZtZ, prevE := E, prevTr := tr, dScale := dScale })

/-- The main loop: `n` more passes, the next of them with index `i`. The flag says whether it ended in `break`. -/
noncomputable def solveLoop (op iop : (N → ℂ) → N → ℂ) (lib : SolveLib M) (tolerance : ℝ) (resetIters : ℕ) :
    ℕ → ℕ → SolveState N M → Res (Bool × SolveState N M)
  | 0, _, st => .ok (false, st)
  | n + 1, i, st => do
    let (stop, st) ← solveStep op iop lib tolerance resetIters i st
    if stop then return (true, st) else solveLoop op iop lib tolerance resetIters n (i + 1) st

open Classical in
/-- meanas/fdfd/bloch.py:741-763, the recovery of the eigenvectors. -/
noncomputable def solveFinish (op : (N → ℂ) → N → ℂ) (lib : SolveLib M) (Z : Matrix N (Fin M) ℂ) (ZtZ : Matrix (Fin M) (Fin M) ℂ) :
    Res ((Fin M → ℂ) × (Fin M → N → ℂ)) := do
  let U ← inv ZtZ
  let Y := Z * lib.sqrtm U
  let W := Yᴴ * cols op Y
  let (eigvals, Wv) := lib.eig W
  let eigvecs := Y * Wv
  if ∃ j, ∀ i, eigvecs i j = 0 then throw "nan"
  let unit : Fin M → N → ℂ := fun j i => eigvecs i j / (Real.sqrt (∑ i, normSq (eigvecs i j)) : ℂ)
  let order := lib.argsort fun j => ‖eigvals j‖
  return (fun j => eigvals (order j), fun j => unit (order j))

open Classical in
/-- meanas/fdfd/bloch.py:568-584, the `while` loop that prepares the block of trial vectors, cut off after `fuel` passes (`"fuel"`). `draw k` is the `k`-th
random block. A block with a singular Gram matrix is replaced by a random one, one that is nearly dependent is orthonormalised. The flag says whether the
block is still stored in the memory of the initial guess: lines 575 and 580 bind `Z` to a new array. -/
noncomputable def initLoop (lib : SolveLib M) (draw : ℕ → Matrix N (Fin M) ℂ) : ℕ → ℕ → Bool → Matrix N (Fin M) ℂ → Res (Bool × Matrix N (Fin M) ℂ)
  | 0, _, _, _ => .error "fuel"
  | fuel + 1, k, own, Z0 =>
    if fnorm Z0 = 0 then .error "nan"
    else
      let Z := (M / fnorm Z0 : ℂ) • Z0
      let ZtZ := Zᴴ * Z
      if ZtZ.det = 0 then initLoop lib draw fuel (k + 1) false (draw k)
      else if (trace ZtZ⁻¹).re > 1e8 * M then initLoop lib draw fuel k false (Z * (lib.sqrtm ZtZ⁻¹)ᴴ)
      else .ok (own, Z)

/-- meanas/fdfd/bloch.py:508-763 `eigsolve` for the operators `op`, `iop` and the initial guess `Z0` (`y0.T`, or a random block). The flag tells how the main
loop ended; the matrix is what the memory of the initial guess holds when the function returns: the block of the main loop, which is updated in place
(lines 731-732), as long as it was not rebound, and the rescaled guess of line 569 otherwise. -/
noncomputable def eigsolveFull (op iop : (N → ℂ) → N → ℂ) (lib : SolveLib M) (draw : ℕ → Matrix N (Fin M) ℂ) (fuel : ℕ) (tolerance : ℝ)
    (maxIters resetIters : ℕ) (Z0 : Matrix N (Fin M) ℂ) : Res (Bool × Matrix N (Fin M) ℂ × (Fin M → ℂ) × (Fin M → N → ℂ)) := do
  let (own, Z) ← initLoop lib draw fuel 0 true Z0
  let (stop, st) ← solveLoop op iop lib tolerance resetIters maxIters 0
    { Z := Z, D := 0, ZtZ := Zᴴ * Z, prevE := 0, prevTr := 0, dScale := 1 }
  let (vals, vecs) ← solveFinish op lib st.Z st.ZtZ
  return (stop, if own then st.Z else (M / fnorm Z0 : ℂ) • Z0, vals, vecs)

/-- The values returned by `eigsolve` (meanas/fdfd/bloch.py:763) and how its main loop ended. -/
noncomputable def eigsolve (op iop : (N → ℂ) → N → ℂ) (lib : SolveLib M) (draw : ℕ → Matrix N (Fin M) ℂ) (fuel : ℕ) (tolerance : ℝ)
    (maxIters resetIters : ℕ) (Z0 : Matrix N (Fin M) ℂ) : Res (Bool × (Fin M → ℂ) × (Fin M → N → ℂ)) := do
  let (stop, _, vals, vecs) ← eigsolveFull op iop lib draw fuel tolerance maxIters resetIters Z0
  return (stop, vals, vecs)

/-- A numpy array: its number of elements decides whether `float` accepts it. -/
def pyFloat (a : List ℝ) : Res ℝ := match a with
  | [x] => .ok x
  | _ => .error "TypeError"

/-- meanas/fdfd/bloch.py:439-505 `find_k`: the search by `minimize_scalar` over `k0_mag` is a parameter, returning the best `k0_mag` and the value
there of the function minimised; `V` is the type of the eigenpairs. The direction has three components. -/
noncomputable def findK {V : Type} (getF : ℝ → Res (ℝ × V)) (search : (ℝ → Res ℝ) → Res (ℝ × ℝ)) (frequency : ℝ) (direction : Fin 3 → ℝ) (last : V) :
    Res (ℝ × ℝ × V) := do
  let d : Fin 3 → ℝ := fun c => direction c / norm3 direction
  let (x, fn) ← search fun k => do
    let (f, _) ← getF k
    return |f - frequency|
  let k ← pyFloat [x * d 0, x * d 1, x * d 2]
  let f ← pyFloat [fn + frequency]
  return (k, f, last)

end Meanas.Bloch
