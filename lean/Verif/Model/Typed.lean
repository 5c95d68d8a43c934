/-
Model of the number types (numpy dtypes) that the array code of meanas passes around, and of the code whose effect
depends on them: `numpy.empty_like(e)` followed by `output[0] = …` and `output[0] -= …` in fdmath/functional.py,
`s = numpy.empty_like(e)` in fdtd/energy.py and fdfd/functional.py, the in-place `e += …` of fdtd/base.py, the
`dtype=` arrays of fdtd/pml.py and `numpy.zeros_like(E)` in fdfd/waveguide_3d.py.

The numpy facts encoded here (part of the trusted reading):
* the result of `a - b`, `a * b` has the larger of the two kinds, integer < floating < complex; `/` gives at least floating;
* assigning to an element or a slice (`out[i] = v`) casts `v` to the type of `out`; complex → floating discards the
  imaginary part with a warning, floating → integer truncates towards zero;
* `out op= v` uses `casting='same_kind'`: when the kind of the result is larger than the kind of `out` it raises
  `UFuncTypeError` (a `TypeError`), whatever the values and sizes.

Simplified: precisions inside one kind (float32/float64, complex64/complex128) are not distinguished; a raised exception
ends the call, the partial writes made before it are not modelled (they go to arrays that are local to the call, except
in `update_E`/`update_H` of fdtd/pml.py).
-/
import Verif.Model.Fdtd
import Verif.Model.Fdfd
import Verif.Model.Pml
import Verif.Model.Waveguide3d
import Mathlib.Data.Complex.Basic

namespace Meanas.Typed

open Functional Fdtd

variable {sh : Fin 3 → ℕ}

/-- The numpy kinds `'i'`, `'f'`, `'c'`. -/
inductive Kind where
  | int
  | flt
  | cplx
  deriving DecidableEq

/-- Position in numpy's promotion order. -/
def Kind.rank : Kind → ℕ
  | .int => 0
  | .flt => 1
  | .cplx => 2

/-- Kind of the result of `+`, `-`, `*` (`numpy.result_type`). -/
def promote (a b : Kind) : Kind := if a.rank ≤ b.rank then b else a

/-- Kind of the result of `/` (`numpy.true_divide`). -/
def divKind (a b : Kind) : Kind := promote .flt (promote a b)

/-- Truncation towards zero (floating → integer cast). -/
noncomputable def trunc (r : ℝ) : ℤ := if 0 ≤ r then ⌊r⌋ else ⌈r⌉

/-- The cast made by `out[...] = v` for an array `out` of kind `k`. -/
noncomputable def castTo : Kind → ℂ → ℂ
  | .int, z => (trunc z.re : ℂ)
  | .flt, z => (z.re : ℂ)
  | .cplx, z => z

/-- An array with its number type. The values are stored as complex numbers; `HasKind` says that they belong to the type. -/
structure TArr (sh : Fin 3 → ℕ) where
  kind : Kind
  val : Arr sh ℂ

/-- A vector field with its number type. -/
structure TField (sh : Fin 3 → ℕ) where
  kind : Kind
  val : VField sh ℂ

/-- `f[c]` for a vector field. -/
def TField.get (f : TField sh) (c : Fin 3) : TArr sh := ⟨f.kind, f.val c⟩

/-- Cell widths: one array per axis, each with its own number type (`stretch_with_scpml`, fdfd/scpml.py:128-165,
replaces the arrays of a single axis by complex ones). -/
structure TDx (sh : Fin 3 → ℕ) where
  kind : Fin 3 → Kind
  val : DxList sh ℂ

/-- A `dx_lists_t` with number types. -/
abbrev TDxes (sh : Fin 3 → ℕ) := TDx sh × TDx sh

/-- meanas/fdmath/functional.py:28-37, one of the three lambdas of `deriv_forward`. -/
noncomputable def derivForward (dx : Option (TDx sh)) (a : Fin 3) (f : TArr sh) : TArr sh :=
  match dx with
  | some d => ⟨divKind (promote f.kind f.kind) (d.kind a), Functional.derivForward (some d.val) a f.val⟩
  | none => ⟨promote f.kind f.kind, Functional.derivForward none a f.val⟩

/-- meanas/fdmath/functional.py:52-61, one of the three lambdas of `deriv_back`. -/
noncomputable def derivBack (dx : Option (TDx sh)) (a : Fin 3) (f : TArr sh) : TArr sh :=
  match dx with
  | some d => ⟨divKind (promote f.kind f.kind) (d.kind a), Functional.derivBack (some d.val) a f.val⟩
  | none => ⟨promote f.kind f.kind, Functional.derivBack none a f.val⟩

/-- `out[i] = v` for an array `out` of kind `k`. -/
noncomputable def assign (k : Kind) (v : TArr sh) : TArr sh := ⟨k, fun x => castTo k (v.val x)⟩

/-- `out -= v`. -/
noncomputable def isub (out v : TArr sh) : Except String (TArr sh) :=
  if (promote out.kind v.kind).rank ≤ out.kind.rank then .ok ⟨out.kind, fun x => out.val x - v.val x⟩
  else .error "UFuncTypeError"

/-- The six statements of `ce_fun` / `ch_fun`, meanas/fdmath/functional.py:84-91 and 113-120, in their order, for the three
derivatives `D`. -/
noncomputable def curlWith (D : Fin 3 → TArr sh → TArr sh) (e : TField sh) : Except String (TField sh) := do
  let o0 := assign e.kind (D 1 (e.get 2))
  let o1 := assign e.kind (D 2 (e.get 0))
  let o2 := assign e.kind (D 0 (e.get 1))
  let o0 ← isub o0 (D 2 (e.get 1))
  let o1 ← isub o1 (D 0 (e.get 2))
  let o2 ← isub o2 (D 1 (e.get 0))
  pure ⟨e.kind, ![o0.val, o1.val, o2.val]⟩

/-- meanas/fdmath/functional.py:67-93 `curl_forward`. -/
noncomputable def curlForward (dx : Option (TDx sh)) (e : TField sh) : Except String (TField sh) := curlWith (derivForward dx) e

/-- meanas/fdmath/functional.py:96-122 `curl_back`. -/
noncomputable def curlBack (dx : Option (TDx sh)) (h : TField sh) : Except String (TField sh) := curlWith (derivBack dx) h

/-- `out += v` for whole vector fields. -/
noncomputable def iaddF (out v : TField sh) : Except String (TField sh) :=
  if (promote out.kind v.kind).rank ≤ out.kind.rank then .ok ⟨out.kind, fun c x => out.val c x + v.val c x⟩
  else .error "UFuncTypeError"

/-- `out -= v` for whole vector fields. -/
noncomputable def isubF (out v : TField sh) : Except String (TField sh) :=
  if (promote out.kind v.kind).rank ≤ out.kind.rank then .ok ⟨out.kind, fun c x => out.val c x - v.val c x⟩
  else .error "UFuncTypeError"

/-- `dt * v / m` (`dt` a Python float). -/
noncomputable def scaleDiv (dt : ℝ) (v m : TField sh) : TField sh :=
  ⟨divKind (promote .flt v.kind) m.kind, fun c x => dt * v.val c x / m.val c x⟩

/-- `dt * v`. -/
noncomputable def scale (dt : ℝ) (v : TField sh) : TField sh := ⟨promote .flt v.kind, fun c x => dt * v.val c x⟩

/-- meanas/fdtd/base.py:13-65 `maxwell_e(dt, dxes)(e, h, epsilon)`. -/
noncomputable def maxwellE (dt : ℝ) (dxes : Option (TDxes sh)) (e h epsilon : TField sh) : Except String (TField sh) := do
  let ch ← curlBack (dxes.map Prod.snd) h
  iaddF e (scaleDiv dt ch epsilon)

/-- meanas/fdtd/base.py:68-125 `maxwell_h(dt, dxes)(e, h, mu)`. -/
noncomputable def maxwellH (dt : ℝ) (dxes : Option (TDxes sh)) (e h : TField sh) (mu : Option (TField sh)) :
    Except String (TField sh) := do
  let ce ← curlForward (dxes.map Prod.fst) e
  match mu with
  | some m => isubF h (scaleDiv dt ce m)
  | none => isubF h (scale dt ce)

/-- meanas/fdfd/functional.py:40-52 `e_full` (functional version); `omega` is a Python `complex`, so both products are complex. -/
noncomputable def eFull (ω : ℂ) (dxes : TDxes sh) (eps : TField sh) (mu : Option (TField sh)) (e : TField sh) :
    Except String (TField sh) := do
  let ce ← curlForward (some dxes.1) e
  let m : TField sh := match mu with
    | some mu => ⟨promote mu.kind ce.kind, fun c x => mu.val c x * ce.val c x⟩
    | none => ce
  let curls ← curlBack (some dxes.2) m
  pure ⟨.cplx, fun c x => curls.val c x - ω ^ 2 * eps.val c x * e.val c x⟩

/-- The three assignments `s[0] = …`, `s[1] = …`, `s[2] = …` into `s = numpy.empty_like(e)`, meanas/fdtd/energy.py:83-86 and
meanas/fdfd/functional.py:210, 217-219: the cross product itself is the untyped one, each component is cast to the type of `e`. -/
noncomputable def intoLike (e : TField sh) (s : VField sh ℂ) : TField sh := ⟨e.kind, fun c x => castTo e.kind (s c x)⟩

/-- meanas/fdtd/energy.py:10-87 `poynting`. -/
noncomputable def poynting (e h : TField sh) (dxes : Option (TDxes sh)) : TField sh :=
  intoLike e (Fdtd.poynting e.val h.val (dxes.map fun d => (d.1.val, d.2.val)))

/-- meanas/fdfd/functional.py:185-220 `poynting_e_cross_h(dxes)(e, h)`. -/
noncomputable def poyntingECrossH (dxes : TDxes sh) (e h : TField sh) : TField sh :=
  intoLike e (FdfdF.poyntingECrossH (dxes.1.val, dxes.2.val) e.val h.val)

/-- meanas/fdfd/waveguide_3d.py:206-252 `expand_e`: the expanded field is written into `numpy.zeros_like(E)`. -/
noncomputable def expandE (E : TField sh) (k : ℂ) (dxes : Fdfd.Dx sh) {axis : Fin 3} (pol : ℤ) (S : Wg3.Slices sh axis) : TField sh :=
  intoLike E (Wg3.expandE E.val k dxes pol S)

/-- The check made by `out op= v` (`casting='same_kind'`). -/
def okInto (out v : Kind) : Except String Unit :=
  if (promote out v).rank ≤ out.rank then .ok () else .error "UFuncTypeError"

/-- The in-place statements of meanas/fdtd/pml.py:139-183 `update_E` (and 185-229 `update_H`), kinds only: `present` says which layers
exist, `dK` are the kinds of the derivative arrays along the three axes, `kp` is the `dtype` argument, `ko` the kind of the updated
field, `km` the kind of `epsilon` (`mu`). The layer parameters `p0`, `p1`, `p2` are floating. -/
def cpmlChecks (present : Fin 3 → Fin 2 → Bool) (dK : Fin 3 → Kind) (kp ko km : Kind) : Except String Unit := do
  [(0, 0), (0, 1), (1, 0), (1, 1), (2, 0), (2, 1)].forM fun (q : Fin 3 × Fin 2) =>
    if present q.1 q.2 then do
      okInto (dK q.1) .flt
      okInto kp .flt
      okInto kp (promote .flt (dK q.1))
      okInto kp kp
    else pure ()
  okInto ko (promote (divKind .flt km) (promote (promote (dK 1) (dK 2)) kp))
  okInto ko (promote (divKind .flt km) (promote (promote (dK 2) (dK 0)) kp))
  okInto ko (promote (divKind .flt km) (promote (promote (dK 0) (dK 1)) kp))

/-- meanas/fdtd/pml.py:139-183 `update_E(e, h, epsilon)` with number types (`dtype = kp`). -/
noncomputable def cpmlUpdateE (layers : Layers sh ℂ) (kp : Kind) (dt : ℝ) (dxes : TDxes sh) (psi : Psi sh ℂ) (e h epsilon : TField sh) :
    Except String (TField sh × Psi sh ℂ) := do
  cpmlChecks (fun a pp => (layers a pp).isSome) (fun a => (derivBack (some dxes.2) a (h.get 0)).kind) kp e.kind epsilon.kind
  let r := Fdtd.cpmlUpdateE layers dt (dxes.1.val, dxes.2.val) psi e.val h.val epsilon.val
  pure (⟨e.kind, r.1⟩, r.2)

/-- meanas/fdtd/pml.py:185-229 `update_H(e, h, mu)` with number types. -/
noncomputable def cpmlUpdateH (layers : Layers sh ℂ) (kp : Kind) (dt : ℝ) (dxes : TDxes sh) (psi : Psi sh ℂ) (e h mu : TField sh) :
    Except String (TField sh × Psi sh ℂ) := do
  cpmlChecks (fun a pp => (layers a pp).isSome) (fun a => (derivForward (some dxes.2) a (e.get 0)).kind) kp h.kind mu.kind
  let r := Fdtd.cpmlUpdateH layers dt (dxes.1.val, dxes.2.val) psi e.val h.val mu.val
  pure (⟨h.kind, r.1⟩, r.2)

end Meanas.Typed
