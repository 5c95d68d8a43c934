/-
Model of meanas/eigensolvers.py.

Operators are square matrices over ℂ (the LinearOperator branches of the code only change the data type and the default inner solver).
`none` stands for an array that numpy has filled with NaN by dividing by zero.
-/
import Mathlib.Data.Matrix.Mul
import Mathlib.LinearAlgebra.Matrix.DotProduct
import Mathlib.Data.List.Sort
import Verif.Model.Waveguide2d

namespace Meanas.Eig

open Matrix Complex Wg2

variable {ι : Type} [Fintype ι] [DecidableEq ι]

/-- `v.conj() @ (operator @ v)` (meanas/eigensolvers.py:39, 89). -/
noncomputable def rayleighQuotient (A : Matrix ι ι ℂ) (v : ι → ℂ) : ℂ := star v ⬝ᵥ (A *ᵥ v)

/-- `v /= s`, NaN when the divisor is zero (meanas/eigensolvers.py:36, 37, 87, 95). -/
noncomputable def divBy (v : ι → ℂ) (s : ℝ) : Option (ι → ℂ) :=
  open Classical in if s = 0 then none else some fun i => v i / (s : ℂ)

/-- The loop of `power_iteration` (meanas/eigensolvers.py:34-36). -/
noncomputable def powerLoop (A : Matrix ι ι ℂ) : ℕ → (ι → ℂ) → Option (ι → ℂ)
  | 0, v => some v
  | n + 1, v => (divBy (A *ᵥ v) (∑ i, ‖(A *ᵥ v) i‖)).bind (powerLoop A n)

/-- meanas/eigensolvers.py:12-40 `power_iteration`; the random default guess is the argument `guess`. -/
noncomputable def powerIteration (A : Matrix ι ι ℂ) (guess : ι → ℂ) (iterations : ℕ) : Option (ℂ × (ι → ℂ)) :=
  (powerLoop A iterations guess).bind fun v => (divBy v (norm2 v)).map fun v => (rayleighQuotient A v, v)

/-- The loop of `rayleigh_quotient_iteration` (meanas/eigensolvers.py:88-96): remaining iterations, current vector, current value of the local
variable `eigval` (`none`: not yet assigned). The inner solver may return NaN (`none`), after which every iterate is NaN. -/
noncomputable def rqiLoop (A : Matrix ι ι ℂ) (tol : ℝ) (solver : Matrix ι ι ℂ → (ι → ℂ) → Option (ι → ℂ)) :
    ℕ → (ι → ℂ) → Option ℂ → Except String (Option (ℂ × (ι → ℂ)))
  | 0, _, none => .error "UnboundLocalError: eigval"
  | 0, v, some l => .ok (some (l, v))
  | n + 1, v, _ =>
    let l := rayleighQuotient A v
    open Classical in
    if norm2 (A *ᵥ v - l • v) < tol then .ok (some (l, v))
    else match (solver (A - l • (1 : Matrix ι ι ℂ)) v).bind fun y => divBy y (norm2 y) with
      | none => .ok none
      | some v' => rqiLoop A tol solver n v' (some l)

/-- meanas/eigensolvers.py:43-96 `rayleigh_quotient_iteration`. The zero guess becomes NaN at once: the comparison is false, the loop keeps NaN
and returns it (or raises for zero iterations). -/
noncomputable def rayleighQuotientIteration (A : Matrix ι ι ℂ) (guess : ι → ℂ) (iterations : ℕ) (tol : ℝ)
    (solver : Matrix ι ι ℂ → (ι → ℂ) → Option (ι → ℂ)) : Except String (Option (ℂ × (ι → ℂ))) :=
  match divBy guess (norm2 guess) with
  | none => if iterations = 0 then .error "UnboundLocalError: eigval" else .ok none
  | some v => rqiLoop A tol solver iterations v none

/-- numpy's ordering of complex numbers: real part first, then imaginary part. -/
noncomputable def leC (z w : ℂ) : Bool := open Classical in decide (z.re < w.re ∨ (z.re = w.re ∧ z.im ≤ w.im))

/-- meanas/eigensolvers.py:99-142 `signed_eigensolve`. `guess` is the random start of the power iteration (20 iterations), `eigs` is
`scipy.sparse.linalg.eigs(·, which='LM', k=·)`, returning the list of (eigenvalue, eigenvector) pairs; scipy rejects `k = 0` and
`ncv = 2 k + 50 > n`. The sort is modelled as a stable one (numpy's default sort leaves the order of equal eigenvalues open). -/
noncomputable def signedEigensolve (eigs : Matrix ι ι ℂ → ℕ → List (ℂ × (ι → ℂ))) (guess : ι → ℂ) (A : Matrix ι ι ℂ) (howMany : ℕ)
    (negative : Bool) : Except String (List (ℂ × (ι → ℂ))) :=
  match powerIteration A guess 20 with
  | none => .error "ArpackError: NaN operator"
  | some (lm, _) =>
    let shift : ℝ := if negative then ‖lm‖ * -1 else ‖lm‖
    if howMany = 0 then .error "ValueError: k=0 must be greater than 0"
    else if 2 * howMany + 50 > Fintype.card ι then .error "ValueError: ncv must be k+1<ncv<=n"
    else
      let pairs := (eigs (A + (shift : ℂ) • (1 : Matrix ι ι ℂ)) howMany).map fun p => (p.1 - (shift : ℂ), p.2)
      .ok (pairs.mergeSort fun p q => leC p.1 q.1)

end Meanas.Eig
