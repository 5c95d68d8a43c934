/-
Model of meanas/fdtd/base.py and meanas/fdmath/functional.py in floating-point arithmetic.

Every arithmetic operation on arrays returns a value whose relative error is at most `u` (the unit roundoff of the least precise array involved);
which value within this range is left open, so that all rounding modes and all mixtures of precisions are covered. Overflow and underflow are not
modelled. The given arrays and numbers (fields, cell widths, materials, time step) are taken as they are. Copies and `numpy.roll` are exact.
-/
import Mathlib.Data.Real.Basic
import Verif.Model.Fdtd

namespace Meanas.FdtdFloat

open Functional Fdtd

/-- `y` is a possible result of an operation with the exact result `x`. -/
def Fl (u x y : ℝ) : Prop := |y - x| ≤ u * |x|

section
variable {d : ℕ} {sh : Fin d → ℕ}

/-- meanas/fdmath/functional.py:16-37 `deriv_forward`, one subtraction and one division per sample. -/
def DerivForward (u : ℝ) (dxE : Option (DxList sh ℝ)) (a : Fin d) (f out : Arr sh ℝ) : Prop :=
  match dxE with
  | some dx => ∃ t : Arr sh ℝ, (∀ x, Fl u (roll f (-1) a x - f x) (t x)) ∧ ∀ x, Fl u (t x / dx a (x a)) (out x)
  | none => ∀ x, Fl u (roll f (-1) a x - f x) (out x)

/-- meanas/fdmath/functional.py:40-61 `deriv_back`. -/
def DerivBack (u : ℝ) (dxH : Option (DxList sh ℝ)) (a : Fin d) (f out : Arr sh ℝ) : Prop :=
  match dxH with
  | some dx => ∃ t : Arr sh ℝ, (∀ x, Fl u (f x - roll f 1 a x) (t x)) ∧ ∀ x, Fl u (t x / dx a (x a)) (out x)
  | none => ∀ x, Fl u (f x - roll f 1 a x) (out x)
end

variable {sh : Fin 3 → ℕ}

/-- meanas/fdmath/functional.py:67-93 `curl_forward`: `p` are the values assigned by `output[i] = …`, `m` the values subtracted afterwards. -/
def CurlForward (u : ℝ) (dxE : Option (DxList sh ℝ)) (e out : VField sh ℝ) : Prop :=
  ∃ p m : VField sh ℝ,
    DerivForward u dxE 1 (e 2) (p 0) ∧ DerivForward u dxE 2 (e 0) (p 1) ∧ DerivForward u dxE 0 (e 1) (p 2) ∧
    DerivForward u dxE 2 (e 1) (m 0) ∧ DerivForward u dxE 0 (e 2) (m 1) ∧ DerivForward u dxE 1 (e 0) (m 2) ∧
    ∀ c x, Fl u (p c x - m c x) (out c x)

/-- meanas/fdmath/functional.py:96-122 `curl_back`. -/
def CurlBack (u : ℝ) (dxH : Option (DxList sh ℝ)) (h out : VField sh ℝ) : Prop :=
  ∃ p m : VField sh ℝ,
    DerivBack u dxH 1 (h 2) (p 0) ∧ DerivBack u dxH 2 (h 0) (p 1) ∧ DerivBack u dxH 0 (h 1) (p 2) ∧
    DerivBack u dxH 2 (h 1) (m 0) ∧ DerivBack u dxH 0 (h 2) (m 1) ∧ DerivBack u dxH 1 (h 0) (m 2) ∧
    ∀ c x, Fl u (p c x - m c x) (out c x)

/-- meanas/fdtd/base.py:50-63 `e += dt * curl_h_fun(h) / epsilon`. -/
def MaxwellE (u dt : ℝ) (dxes : Option (Dxes sh ℝ)) (e h epsilon e' : VField sh ℝ) : Prop :=
  ∃ k t v : VField sh ℝ, CurlBack u (dxes.map (·.2)) h k ∧ (∀ c x, Fl u (dt * k c x) (t c x)) ∧ (∀ c x, Fl u (t c x / epsilon c x) (v c x)) ∧
    ∀ c x, Fl u (e c x + v c x) (e' c x)

/-- meanas/fdtd/base.py:106-123 `h -= dt * curl_e_fun(e) / mu`, without the division if `mu` is `None`. -/
def MaxwellH (u dt : ℝ) (dxes : Option (Dxes sh ℝ)) (e h : VField sh ℝ) (mu : Option (VField sh ℝ)) (h' : VField sh ℝ) : Prop :=
  ∃ k t : VField sh ℝ, CurlForward u (dxes.map (·.1)) e k ∧ (∀ c x, Fl u (dt * k c x) (t c x)) ∧
    match mu with
    | some mu => ∃ v : VField sh ℝ, (∀ c x, Fl u (t c x / mu c x) (v c x)) ∧ ∀ c x, Fl u (h c x - v c x) (h' c x)
    | none => ∀ c x, Fl u (h c x - t c x) (h' c x)

/-- Effect of one call (see `Fdtd.step`): `s'` is a possible result. -/
def Step (u : ℝ) (S : Sys sh ℝ) (s : State sh ℝ) (op : Op sh ℝ) (s' : State sh ℝ) : Prop :=
  match op with
  | .stepE => MaxwellE u S.dt S.dxes s.e s.h S.eps s'.e ∧ s'.h = s.h
  | .stepH => MaxwellH u S.dt S.dxes s.e s.h S.mu s'.h ∧ s'.e = s.e
  | .injJ j => (∃ v : VField sh ℝ, (∀ c x, Fl u (j c x / S.eps c x) (v c x)) ∧ ∀ c x, Fl u (s.e c x + v c x) (s'.e c x)) ∧ s'.h = s.h
  | .injM m => (match S.mu with
      | some mu => ∃ v : VField sh ℝ, (∀ c x, Fl u (m c x / mu c x) (v c x)) ∧ ∀ c x, Fl u (s.h c x - v c x) (s'.h c x)
      | none => ∀ c x, Fl u (s.h c x - m c x) (s'.h c x)) ∧ s'.e = s.e

/-- Effect of a sequence of calls. -/
def Run (u : ℝ) (S : Sys sh ℝ) (s : State sh ℝ) : List (Op sh ℝ) → State sh ℝ → Prop
  | [], s' => s' = s
  | op :: ops, s' => ∃ t, Step u S s op t ∧ Run u S t ops s'

end Meanas.FdtdFloat
