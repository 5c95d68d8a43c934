/-
Model of meanas/fdfd/waveguide_2d.py (except `solve_modes`, see `Verif/Model/WgModes.lean`).

Vectorised slices are functions on (component, cell); `numpy.split(v, 3)` is the restriction to one component, `vstack` / `hstack` of
blocks are block matrices on these indices (C02 relates this to the flat C-order indexing).
-/
import Verif.Model.OperatorsS
import Verif.Model.Operators
import Mathlib.Data.Matrix.Block
import Mathlib.Analysis.SpecialFunctions.Pow.Complex
import Mathlib.Analysis.SpecialFunctions.Complex.Arg
import Mathlib.Data.Real.Sign

namespace Meanas.Wg2

open Matrix Complex OperatorsS

variable {sh : Fin 2 → ℕ}

/-- Vectorised slice with `m` components. -/
abbrev V (m : ℕ) (sh : Fin 2 → ℕ) := Fin m × Idx sh → ℂ
/-- Operators between slices. -/
abbrev M (m n : ℕ) (sh : Fin 2 → ℕ) := Matrix (Fin m × Idx sh) (Fin n × Idx sh) ℂ
/-- Scalar operators on the slice. -/
abbrev B (sh : Fin 2 → ℕ) := Matrix (Idx sh) (Idx sh) ℂ
/-- Grid widths. -/
abbrev Dx2 (sh : Fin 2 → ℕ) := DxList sh ℂ × DxList sh ℂ

/-- `sparse.vstack((P, Q))`. -/
def vstack (P Q : B sh) : Matrix (Fin 2 × Idx sh) (Idx sh) ℂ := Matrix.of fun r c => if r.1 = 0 then P r.2 c else Q r.2 c
/-- `sparse.hstack((P, Q))`. -/
def hstack (P Q : B sh) : Matrix (Idx sh) (Fin 2 × Idx sh) ℂ := Matrix.of fun r c => if c.1 = 0 then P r c.2 else Q r c.2
/-- `sparse.diags_array(numpy.hstack((p, q)))`. -/
def diag2 (p q : Idx sh → ℂ) : M 2 2 sh := diagonal fun r => if r.1 = 0 then p r.2 else q r.2
/-- `sparse.vstack((sparse.eye_array(2 * n_pts), Z))`. -/
def eyeOver (Z : Matrix (Idx sh) (Fin 2 × Idx sh) ℂ) : M 3 2 sh :=
  Matrix.of fun r c => if r.1 = 0 then (if c = (0, r.2) then 1 else 0) else if r.1 = 1 then (if c = (1, r.2) then 1 else 0) else Z r.2 c

/-- `numpy.split(v, 3)[c]`. -/
def part {m : ℕ} (v : V m sh) (c : Fin m) : Idx sh → ℂ := fun x => v (c, x)

/-- meanas/fdfd/waveguide_2d.py:195-261 `operator_e`. -/
noncomputable def operatorE (ω : ℂ) (dxes : Dx2 sh) (eps : V 3 sh) (mu : Option (V 3 sh)) : M 2 2 sh :=
  let mu := mu.getD 1
  let Df := derivForward dxes.1
  let Db := derivBack dxes.2
  let epsXY := diag2 (part eps 0) (part eps 1)
  let epsZInv : B sh := diagonal fun x => 1 / part eps 2 x
  let muYX := diag2 (part mu 1) (part mu 0)
  let muZInv : B sh := diagonal fun x => 1 / part mu 2 x
  (ω * ω) • (muYX * epsXY)
    + muYX * vstack (-Db 1) (Db 0) * muZInv * hstack (-Df 1) (Df 0)
    + vstack (Df 0) (Df 1) * epsZInv * hstack (Db 0) (Db 1) * epsXY

/-- meanas/fdfd/waveguide_2d.py:264-330 `operator_h`. -/
noncomputable def operatorH (ω : ℂ) (dxes : Dx2 sh) (eps : V 3 sh) (mu : Option (V 3 sh)) : M 2 2 sh :=
  let mu := mu.getD 1
  let Df := derivForward dxes.1
  let Db := derivBack dxes.2
  let epsYX := diag2 (part eps 1) (part eps 0)
  let epsZInv : B sh := diagonal fun x => 1 / part eps 2 x
  let muXY := diag2 (part mu 0) (part mu 1)
  let muZInv : B sh := diagonal fun x => 1 / part mu 2 x
  (ω * ω) • (epsYX * muXY)
    + epsYX * vstack (-Df 1) (Df 0) * epsZInv * hstack (-Db 1) (Db 0)
    + vstack (Db 0) (Db 1) * muZInv * hstack (Df 0) (Df 1) * muXY

/-- meanas/fdfd/waveguide_2d.py:634-651 `curl_e`. -/
noncomputable def curlE (β : ℂ) (dxes : Dx2 sh) : M 3 3 sh :=
  let Bz : B sh := (-I * β) • 1
  let Df := derivForward dxes.1
  cross ![Df 0, Df 1, Bz]

/-- meanas/fdfd/waveguide_2d.py:654-671 `curl_h`. -/
noncomputable def curlH (β : ℂ) (dxes : Dx2 sh) : M 3 3 sh :=
  let Bz : B sh := (-I * β) • 1
  let Db := derivBack dxes.2
  cross ![Db 0, Db 1, Bz]

/-- meanas/fdfd/waveguide_2d.py:586-608 `e2h`. -/
noncomputable def e2h (β ω : ℂ) (dxes : Dx2 sh) (mu : Option (V 3 sh)) : M 3 3 sh :=
  let op := (1 / (-I * ω)) • curlE β dxes
  match mu with
  | none => op
  | some mu => diagonal (fun p => 1 / mu p) * op

/-- meanas/fdfd/waveguide_2d.py:611-631 `h2e`. -/
noncomputable def h2e (β ω : ℂ) (dxes : Dx2 sh) (eps : V 3 sh) : M 3 3 sh :=
  diagonal (fun p => 1 / (I * ω * eps p)) * curlH β dxes

/-- meanas/fdfd/waveguide_2d.py:525-583 `exy2e` (with `epsilon` given, as its type demands). -/
noncomputable def exy2e (β : ℂ) (dxes : Dx2 sh) (eps : V 3 sh) : M 3 2 sh :=
  let Db := derivBack dxes.2
  let exy2ez := (1 / (I * β)) • hstack (Db 0) (Db 1)
  let epsXY := diag2 (part eps 0) (part eps 1)
  let epsZInv : B sh := diagonal fun x => 1 / part eps 2 x
  eyeOver (epsZInv * exy2ez * epsXY)

/-- meanas/fdfd/waveguide_2d.py:439-462 `exy2h`. -/
noncomputable def exy2h (β ω : ℂ) (dxes : Dx2 sh) (eps : V 3 sh) (mu : Option (V 3 sh)) : M 3 2 sh :=
  e2h β ω dxes mu * exy2e β dxes eps

/-- meanas/fdfd/waveguide_2d.py:491-522 `hxy2h`. -/
noncomputable def hxy2h (β : ℂ) (dxes : Dx2 sh) (mu : Option (V 3 sh)) : M 3 2 sh :=
  let Df := derivForward dxes.1
  let hxy2hz := (1 / (I * β)) • hstack (Df 0) (Df 1)
  match mu with
  | none => eyeOver hxy2hz
  | some mu =>
    let muXY := diag2 (part mu 0) (part mu 1)
    let muZInv : B sh := diagonal fun x => 1 / part mu 2 x
    eyeOver (muZInv * hxy2hz * muXY)

/-- meanas/fdfd/waveguide_2d.py:465-488 `hxy2e`. -/
noncomputable def hxy2e (β ω : ℂ) (dxes : Dx2 sh) (eps : V 3 sh) (mu : Option (V 3 sh)) : M 3 2 sh :=
  h2e β ω dxes eps * hxy2h β dxes mu

/-- `numpy.linalg.norm` of a vector. -/
noncomputable def norm2 {ι : Type*} [Fintype ι] (v : ι → ℂ) : ℝ := Real.sqrt (∑ i, ‖v i‖ ^ 2)

/-- meanas/fdfd/waveguide_2d.py:674-706 `h_err`. `none` is NaN (`h = 0`). -/
noncomputable def hErr (h : V 3 sh) (β ω : ℂ) (dxes : Dx2 sh) (eps : V 3 sh) (mu : Option (V 3 sh)) : Option ℝ :=
  let ce := curlE β dxes
  let ch := curlH β dxes
  let epsInv : M 3 3 sh := diagonal fun p => 1 / eps p
  let op := match mu with
    | none => ce *ᵥ (epsInv *ᵥ (ch *ᵥ h)) - ω ^ 2 • h
    | some mu => ce *ᵥ (epsInv *ᵥ (ch *ᵥ h)) - ω ^ 2 • (mu * h)
  open Classical in if norm2 h = 0 then none else some (norm2 op / norm2 h)

/-- meanas/fdfd/waveguide_2d.py:709-740 `e_err`. `none` is NaN (`e = 0`). -/
noncomputable def eErr (e : V 3 sh) (β ω : ℂ) (dxes : Dx2 sh) (eps : V 3 sh) (mu : Option (V 3 sh)) : Option ℝ :=
  let ce := curlE β dxes
  let ch := curlH β dxes
  let op := match mu with
    | none => ch *ᵥ (ce *ᵥ e) - ω ^ 2 • (eps * e)
    | some mu => ch *ᵥ ((diagonal fun p => 1 / mu p) *ᵥ (ce *ᵥ e)) - ω ^ 2 • (eps * e)
  open Classical in if norm2 e = 0 then none else some (norm2 op / norm2 e)

/-- meanas/fdfd/waveguide_2d.py:743-843 `sensitivity`. -/
noncomputable def sensitivity (e h : V 3 sh) (β ω : ℂ) (dxes : Dx2 sh) (eps : V 3 sh) (mu : Option (V 3 sh)) : V 3 sh :=
  let mu := mu.getD 1
  let Df := derivForward dxes.1
  let Db := derivBack dxes.2
  let epsXY := diag2 (part eps 0) (part eps 1)
  let epsZInv : B sh := diagonal fun x => 1 / part eps 2 x
  let negEpsZInv2 : B sh := diagonal fun x => -(1 / part eps 2 x) * (1 / part eps 2 x)
  let muYX := diag2 (part mu 1) (part mu 0)
  let daX (x : Idx sh) : ℂ := dxes.2 0 (x 0) * dxes.1 1 (x 1)
  let daY (x : Idx sh) : ℂ := dxes.2 1 (x 1) * dxes.1 0 (x 0)
  let ev : V 2 sh := fun p => if p.1 = 0 then e (0, p.2) * daX p.2 else e (1, p.2) * daY p.2
  let hv : V 2 sh := fun p => if p.1 = 0 then (starRingEnd ℂ) (h (1, p.2)) else (starRingEnd ℂ) (-h (0, p.2))
  let s1 : V 2 sh := (hv ᵥ* ((ω * ω) • muYX)) * ev
  let s2 : V 2 sh := (hv ᵥ* vstack (Df 0) (Df 1) ᵥ* epsZInv ᵥ* hstack (Db 0) (Db 1)) * ev
  let sz : Idx sh → ℂ := (hv ᵥ* vstack (Df 0) (Df 1) ᵥ* negEpsZInv2) * (hstack (Db 0) (Db 1) *ᵥ (epsXY *ᵥ ev))
  let nrm := hv ⬝ᵥ ev
  fun p => (if p.1 = 0 then s1 (0, p.2) + s2 (0, p.2) else if p.1 = 1 then s1 (1, p.2) + s2 (1, p.2) else sz p.2) / (2 * β * nrm)

/-- Length of the broadcast of two 1D arrays, ValueError if they do not fit. -/
def bcast (a b : ℕ) : Except String ℕ :=
  if a = b then .ok a else if a = 1 then .ok b else if b = 1 then .ok a else
    .error "ValueError: operands could not be broadcast together"

/-- `numpy.trapezoid(y, x)` for a row `y` of length `n` and sample points `x` of length `m`:
`(diff(x) * (y[1:] + y[:-1]) / 2).sum()` with numpy's broadcasting of the two arrays of lengths `m - 1` and `n - 1`. -/
noncomputable def trapezoid {n m : ℕ} (y : Fin n → ℂ) (x : Fin m → ℝ) : Except String ℂ :=
  let y' (k : ℕ) : ℂ := if h : k < n then y ⟨k, h⟩ else 0
  let x' (k : ℕ) : ℝ := if h : k < m then x ⟨k, h⟩ else 0
  let dd (k : ℕ) : ℂ := let k := if m - 1 = 1 then 0 else k; ((x' (k + 1) - x' k : ℝ) : ℂ)
  let ss (k : ℕ) : ℂ := let k := if n - 1 = 1 then 0 else k; (y' (k + 1) + y' k) / 2
  match bcast (m - 1) (n - 1) with
  | .error e => .error e
  | .ok len => .ok (∑ k ∈ Finset.range len, dd k * ss k)

/-- `numpy.cumsum` of a list of widths. -/
noncomputable def cumsum {n : ℕ} (w : Fin n → ℝ) (i : Fin n) : ℝ := ∑ j : Fin n, if (j : ℕ) ≤ i then w j else 0

/-- The cell `[i, j]`. -/
def mk2 (i : Fin (sh 0)) (j : Fin (sh 1)) : Idx sh := fun a => match a with
  | 0 => i
  | 1 => j

/-- `numpy.trapezoid(numpy.trapezoid(F, x1), x2)` of a 2D array: along the last axis, then along the first. -/
noncomputable def trapezoid2 {m1 m2 : ℕ} (F : Idx sh → ℂ) (x1 : Fin m1 → ℝ) (x2 : Fin m2 → ℝ) : Except String ℂ :=
  -- all rows have the same length, so either every row raises or none does
  match bcast (m1 - 1) (sh 1 - 1) with
  | .error e => .error e
  | .ok _ => trapezoid (fun i : Fin (sh 0) => match trapezoid (fun j : Fin (sh 1) => F (mk2 i j)) x1 with
      | .ok v => v
      | .error _ => 0) x2

/-- meanas/fdfd/waveguide_2d.py:924-953 `inner_product`. -/
noncomputable def innerProduct (e1 h2 : V 3 sh) (dxes : Dx2 sh) (propPhase : ℂ) (conjH trapz : Bool) : Except String ℂ :=
  let phase : ℂ := Complex.exp (-I * (-propPhase) / 2)
  let E1 (c : Fin 3) (x : Idx sh) : ℂ := e1 (c, x)
  let H2' (c : Fin 3) (x : Idx sh) : ℂ := h2 (c, x) * phase
  let H2 (c : Fin 3) (x : Idx sh) : ℂ := if conjH then (starRingEnd ℂ) (H2' c x) else H2' c x
  let w (k : DxList sh ℂ) (a : Fin 2) (i : Fin (sh a)) : ℝ := (k a i).re
  if trapz then
    match trapezoid2 (fun x => E1 0 x * H2 1 x) (cumsum (w dxes.1 1)) (cumsum (w dxes.2 0)) with
    | .error e => .error e
    | .ok sza =>
      match trapezoid2 (fun x => E1 1 x * H2 0 x) (cumsum (w dxes.1 0)) (cumsum (w dxes.2 1)) with
      | .error e => .error e
      | .ok szb => .ok (0.5 * (sza - szb))
  else
    let sza : ℂ := ∑ x : Idx sh, E1 0 x * H2 1 x * (w dxes.2 0 (x 0) : ℝ) * (w dxes.1 1 (x 1) : ℝ)
    let szb : ℂ := ∑ x : Idx sh, E1 1 x * H2 0 x * (w dxes.1 0 (x 0) : ℝ) * (w dxes.2 1 (x 1) : ℝ)
    .ok (0.5 * (sza - szb))

/-- (component, cell) at a flattened position. -/
def unflat (i : Fin (3 * size sh)) : Fin 3 × Idx sh := ((finProdFinEquiv.symm i).1, unravelIdx sh (finProdFinEquiv.symm i).2)

open Classical in
/-- `numpy.argmax` of a vectorised real slice: the first maximal entry in C order, ValueError if the slice is empty. -/
noncomputable def argmax (f : Fin 3 × Idx sh → ℝ) : Option (Fin 3 × Idx sh) :=
  ((List.finRange (3 * size sh)).find? fun i => decide (∀ j, f j ≤ f (unflat i))).map unflat

/-- `max(n // 2, 1)`. -/
def halfLen (n : ℕ) : ℕ := max (n / 2) 1

/-- meanas/fdfd/waveguide_2d.py:403-436 `_normalized_fields`. The two assertions are error values. `e`, `h` are modified in place by the code. -/
noncomputable def normalizedFields (e h : V 3 sh) (dxes : Dx2 sh) (eps : V 3 sh) (propPhase : ℂ) : Except String (V 3 sh × V 3 sh) :=
  match innerProduct e h dxes propPhase true false with
  | .error m => .error m
  | .ok s =>
    let Sz := s.re
    open Classical in
    if ¬ 0 < Sz then .error "AssertionError: Found a mode propagating in the wrong direction!"
    else
      let energy (p : Fin 3 × Idx sh) : ℝ := (eps p * (starRingEnd ℂ) (e p) * e p).re
      let amp : ℝ := 1 / Real.sqrt Sz
      match argmax energy with
      | none => .error "ValueError: attempt to get argmax of an empty sequence"
      | some p =>
        let angle : ℝ := -Complex.arg (e p)
        let Ew (p : Fin 3 × Idx sh) : ℂ := e p * energy p * Complex.exp (I * angle)
        let sgn : ℝ := Real.sign (∑ p : Fin 3 × Idx sh, if (p.2 0 : ℕ) < halfLen (sh 0) ∧ (p.2 1 : ℕ) < halfLen (sh 1) then (Ew p).re else 0)
        if sgn = 0 then .error "AssertionError"
        else
          let factor : ℂ := sgn * amp * Complex.exp (I * angle)
          .ok (fun p => e p * factor, fun p => h p * factor)

/-- meanas/fdfd/waveguide_2d.py:333-365 `normalized_fields_e`. -/
noncomputable def normalizedFieldsE (exy : V 2 sh) (β ω : ℂ) (dxes : Dx2 sh) (eps : V 3 sh) (mu : Option (V 3 sh)) (propPhase : ℂ) :
    Except String (V 3 sh × V 3 sh) :=
  normalizedFields (exy2e β dxes eps *ᵥ exy) (exy2h β ω dxes eps mu *ᵥ exy) dxes eps propPhase

/-- meanas/fdfd/waveguide_2d.py:368-400 `normalized_fields_h`. -/
noncomputable def normalizedFieldsH (hxy : V 2 sh) (β ω : ℂ) (dxes : Dx2 sh) (eps : V 3 sh) (mu : Option (V 3 sh)) (propPhase : ℂ) :
    Except String (V 3 sh × V 3 sh) :=
  normalizedFields (hxy2e β ω dxes eps mu *ᵥ hxy) (hxy2h β dxes mu *ᵥ hxy) dxes eps propPhase

end Meanas.Wg2
