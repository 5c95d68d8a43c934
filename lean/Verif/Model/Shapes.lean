/-
Model of the array shapes in meanas/fdmath/functional.py, meanas/fdtd/base.py and meanas/fdtd/energy.py: what numpy does with width lists of any length and media of any
shape (broadcasting, assignment into an array, in-place arithmetic). The other modules take widths and media of the right shape.

The rules of broadcasting are numpy's documented ones: axes are aligned at the last one, lengths must agree or be 1, an axis of length 1 is repeated; `out[i] = v` and
`out -= v` raise ValueError unless `v` can be repeated to the shape of the target.
-/
import Verif.Model.Fdtd
import Verif.Model.Operators
import Verif.Model.BlochMu

namespace Meanas.Shapes

variable {K : Type*} [Field K]

/-- A three-dimensional numpy array whose shape is known only when the program runs. Values outside the shape mean nothing. -/
structure A3 (K : Type*) where
  /-- lengths of the axes -/
  shape : Fin 3 → ℕ
  /-- entries -/
  val : (Fin 3 → ℕ) → K

/-- One component of a field of known shape. -/
def ofArr {sh : Fin 3 → ℕ} (f : Arr sh K) : A3 K := ⟨sh, fun y => if h : ∀ a, y a < sh a then f fun a => ⟨y a, h a⟩ else 0⟩

/-- The entry used at position `y` of a broadcast result: axes of length 1 are repeated. -/
def at_ (A : A3 K) (y : Fin 3 → ℕ) : K := A.val fun a => if A.shape a = 1 then 0 else y a

/-- `A op B` with broadcasting. -/
def bin (op : K → K → K) (A B : A3 K) : Except String (A3 K) :=
  if ∀ a, A.shape a = B.shape a ∨ A.shape a = 1 ∨ B.shape a = 1 then
    .ok ⟨fun a => if A.shape a = 1 then B.shape a else A.shape a, fun y => op (at_ A y) (at_ B y)⟩
  else .error "ValueError: operands could not be broadcast together"

/-- `numpy.roll(A, s, axis=a)`. -/
def rollA (A : A3 K) (s : ℤ) (a : Fin 3) : A3 K :=
  ⟨A.shape, fun y => A.val (Function.update y a (((y a : ℤ) + -s) % (A.shape a : ℤ)).toNat)⟩

/-- `w[:, None, None]`, `w[None, :, None]`, `w[None, None, :]` for `a = 0, 1, 2`. -/
def widths (w : List K) (a : Fin 3) : A3 K := ⟨fun b => if b = a then w.length else 1, fun y => w.getD (y a) 0⟩

/-- `out[c] = A` for a component of shape `sh`. -/
def store (sh : Fin 3 → ℕ) (A : A3 K) : Except String (Arr sh K) :=
  if ∀ a, A.shape a = sh a ∨ A.shape a = 1 then .ok fun x => at_ A fun a => x a
  else .error "ValueError: could not broadcast input array"

/-- `out[c] -= A`. -/
def isub {sh : Fin 3 → ℕ} (out : Arr sh K) (A : A3 K) : Except String (Arr sh K) := do
  let v ← store sh A
  return fun x => out x - v x

/-- meanas/fdmath/functional.py:30-32 `deriv_forward(dx_e)[a]`, widths given. -/
def derivForward (w : Fin 3 → List K) (a : Fin 3) (f : A3 K) : Except String (A3 K) := do
  let r ← bin (· - ·) (rollA f (-1) a) f
  bin (· / ·) r (widths (w a) a)

/-- meanas/fdmath/functional.py:54-56 `deriv_back(dx_h)[a]`, widths given. -/
def derivBack (w : Fin 3 → List K) (a : Fin 3) (f : A3 K) : Except String (A3 K) := do
  let r ← bin (· - ·) f (rollA f 1 a)
  bin (· / ·) r (widths (w a) a)

/-- meanas/fdmath/functional.py:83-91, 112-120: the body of `ce_fun` and of `ch_fun` with the derivatives `D`. -/
def curl {sh : Fin 3 → ℕ} (D : Fin 3 → A3 K → Except String (A3 K)) (e : VField sh K) : Except String (VField sh K) := do
  let o0 ← store sh (← D 1 (ofArr (e 2)))
  let o1 ← store sh (← D 2 (ofArr (e 0)))
  let o2 ← store sh (← D 0 (ofArr (e 1)))
  let o0 ← isub o0 (← D 2 (ofArr (e 1)))
  let o1 ← isub o1 (← D 0 (ofArr (e 2)))
  let o2 ← isub o2 (← D 1 (ofArr (e 0)))
  return ![o0, o1, o2]

/-- meanas/fdmath/functional.py:67-93 `curl_forward(dx_e)(e)`. -/
def curlForward {sh : Fin 3 → ℕ} (w : Fin 3 → List K) (e : VField sh K) : Except String (VField sh K) := curl (derivForward w) e

/-- meanas/fdmath/functional.py:96-122 `curl_back(dx_h)(h)`. -/
def curlBack {sh : Fin 3 → ℕ} (w : Fin 3 → List K) (h : VField sh K) : Except String (VField sh K) := curl (derivBack w) h

/-- A medium as the caller passes it: a numpy array of any rank. The shape and the positions are listed with the last axis first; a number is the array of
shape `()`. -/
structure Medium (K : Type*) where
  /-- shape, last axis first -/
  rshape : List ℕ
  /-- entries, positions with the last axis first -/
  val : List ℕ → K

/-- Position used in an array of reversed shape `s` at the position `y` of a broadcast result. -/
def pick : List ℕ → List ℕ → List ℕ
  | [], _ => []
  | _ :: _, [] => []
  | n :: s, i :: y => (if n = 1 then 0 else i) :: pick s y

/-- `out op= v / medium` for `v` of the shape `(3, nx, ny, nz)` of `out`: the quotient is broadcast, and its shape must be that of `out`. Result: the value of the
medium used at each position. -/
def mediumAt (sh : Fin 3 → ℕ) (m : Medium K) : Except String (VField sh K) :=
  match Bloch.bcastRev [sh 2, sh 1, sh 0, 3] m.rshape with
  | none => .error "ValueError: operands could not be broadcast together"
  | some r =>
    if r = [sh 2, sh 1, sh 0, 3] then .ok fun c x => m.val (pick m.rshape [x 2, x 1, x 0, c])
    else .error "ValueError: non-broadcastable output operand"

/-- meanas/fdtd/base.py:61 `e += dt * curl_h_fun(h) / epsilon`, widths given. -/
def maxwellE {sh : Fin 3 → ℕ} (dt : K) (w : Fin 3 → List K) (e h : VField sh K) (epsilon : Medium K) : Except String (VField sh K) := do
  let r ← curlBack w h
  let m ← mediumAt sh epsilon
  return fun c x => e c x + dt * r c x / m c x

/-- meanas/fdtd/base.py:117-120 `h -= dt * curl_e_fun(e) / mu`, `h -= dt * curl_e_fun(e)`, widths given. -/
def maxwellH {sh : Fin 3 → ℕ} (dt : K) (w : Fin 3 → List K) (e h : VField sh K) (mu : Option (Medium K)) : Except String (VField sh K) := do
  let r ← curlForward w e
  match mu with
  | some mu =>
    let m ← mediumAt sh mu
    return fun c x => h c x - dt * r c x / m c x
  | none => return fun c x => h c x - dt * r c x

/-- meanas/fdtd/energy.py:76-87 `poynting`; `dxes = None` is a pair of three lists `[1]` (lines 73-74). -/
def poynting {sh : Fin 3 → ℕ} (e h : VField sh K) (dxes : Option ((Fin 3 → List K) × (Fin 3 → List K))) : Except String (VField sh K) := do
  let w := dxes.getD (fun _ => [1], fun _ => [1])
  let ex ← bin (· * ·) (ofArr (e 0)) (widths (w.1 0) 0)
  let ey ← bin (· * ·) (ofArr (e 1)) (widths (w.1 1) 1)
  let ez ← bin (· * ·) (ofArr (e 2)) (widths (w.1 2) 2)
  let hx ← bin (· * ·) (ofArr (h 0)) (widths (w.2 0) 0)
  let hy ← bin (· * ·) (ofArr (h 1)) (widths (w.2 1) 1)
  let hz ← bin (· * ·) (ofArr (h 2)) (widths (w.2 2) 2)
  let s0 ← store sh (← bin (· - ·) (← bin (· * ·) (rollA ey (-1) 0) hz) (← bin (· * ·) (rollA ez (-1) 0) hy))
  let s1 ← store sh (← bin (· - ·) (← bin (· * ·) (rollA ez (-1) 1) hx) (← bin (· * ·) (rollA ex (-1) 1) hz))
  let s2 ← store sh (← bin (· - ·) (← bin (· * ·) (rollA ex (-1) 2) hy) (← bin (· * ·) (rollA ey (-1) 2) hx))
  return ![s0, s1, s2]

/-- meanas/fdtd/energy.py:263-270 `delta_energy_j`; the result is returned as it comes, so its shape is whatever broadcasting gives. -/
def deltaEnergyJ {sh : Fin 3 → ℕ} (j0 e1 : VField sh K) (dxes : Option ((Fin 3 → List K) × (Fin 3 → List K))) : Except String (A3 K) := do
  let w := dxes.getD (fun _ => [1], fun _ => [1])
  let a ← bin (· * ·) (ofArr fun x => ∑ c, j0 c x * e1 c x) (widths (w.1 0) 0)
  let b ← bin (· * ·) a (widths (w.1 1) 1)
  bin (· * ·) b (widths (w.1 2) 2)

/-- `(f * medium).sum(axis=0)` for a field of shape `(3, nx, ny, nz)` (meanas/fdtd/energy.py:287, 291), media of up to four axes. With more axes numpy sums over another axis; this is
reported as an error here, which is not what the program does. -/
def sumMedium {sh : Fin 3 → ℕ} (f : VField sh K) (m : Medium K) : Except String (A3 K) :=
  match Bloch.bcastRev [sh 2, sh 1, sh 0, 3] m.rshape with
  | none => .error "ValueError: operands could not be broadcast together"
  | some [r2, r1, r0, _] => .ok ⟨![r0, r1, r2], fun y => ∑ c : Fin 3, at_ (ofArr (f c)) y * m.val (pick m.rshape [y 2, y 1, y 0, c])⟩
  | some _ => .error "not modelled"

/-- meanas/fdtd/energy.py:273-295 `dxmul`; the media are `1` and the widths `[1]` by default (lines 280-285). The result is returned as it comes. -/
def dxmul {sh : Fin 3 → ℕ} (ee hh : VField sh K) (epsilon mu : Option (Medium K)) (dxes : Option ((Fin 3 → List K) × (Fin 3 → List K))) : Except String (A3 K) := do
  let w := dxes.getD (fun _ => [1], fun _ => [1])
  let a ← sumMedium ee (epsilon.getD ⟨[], fun _ => 1⟩)
  let a ← bin (· * ·) a (widths (w.1 0) 0)
  let a ← bin (· * ·) a (widths (w.1 1) 1)
  let a ← bin (· * ·) a (widths (w.1 2) 2)
  let b ← sumMedium hh (mu.getD ⟨[], fun _ => 1⟩)
  let b ← bin (· * ·) b (widths (w.2 0) 0)
  let b ← bin (· * ·) b (widths (w.2 1) 1)
  let b ← bin (· * ·) b (widths (w.2 2) 2)
  bin (· + ·) a b

/-- meanas/fdmath/operators.py:222-235 `curl_forward(dx_e) @ vec(e)`: the shape of the operator is read from the width lists (line 112), and scipy compares sizes only. -/
def sparseCurlForward {sh : Fin 3 → ℕ} (w : Fin 3 → List K) (e : VField sh K) : Except String (Fin (3 * size fun a => (w a).length) → K) := do
  let m ← Operators.curlForward (sh := fun a => (w a).length) fun a i => (w a)[i]
  if h : 3 * size (fun a => (w a).length) = 3 * size sh then .ok (m.mulVec fun r => vecField e (Fin.cast h r))
  else .error "ValueError: dimension mismatch"

end Meanas.Shapes
