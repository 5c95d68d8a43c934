/-
Model of meanas/fdfd/farfield.py.

Arithmetic is exact. `none` stands for NaN in field entries, and for an infinite value in the spacings.
The lists `E_near`, `H_near`, `E_far`, `H_far` hold arrays of one common shape (other lists raise at lines 61-62, 170-171).
-/
import Mathlib.Analysis.SpecialFunctions.Trigonometric.Inverse
import Mathlib.Analysis.SpecialFunctions.Complex.Arg
import Mathlib.Data.Nat.Log
import Verif.Model.Bloch

namespace Meanas.Farfield

open Complex

/-- The argument `padded_size`: `None`, an integer, or a pair. -/
inductive Pad
  | auto
  | int (n : ℕ)
  | shape (p : Fin 2 → ℕ)

/-- meanas/fdfd/farfield.py:64-68, 173-177 `padded_shape`. (`2 ** -inf` is 0.) -/
def padShape (s : Fin 2 → ℕ) : Pad → Fin 2 → ℕ
  | .auto => fun a => if s a = 0 then 0 else 2 ^ Nat.clog 2 (s a)
  | .int n => fun _ => n
  | .shape p => p

variable {s p : Fin 2 → ℕ}

/-- `numpy.fft.fftshift`: `roll` by `n // 2` along each axis. -/
def fftshift {K : Type} (f : Arr s K) : Arr s K := fun x => f fun a => wrap (x a) (-((s a / 2 : ℕ) : ℤ))

/-- `numpy.fft.ifftshift`: `roll` by `-(n // 2)` along each axis. -/
def ifftshift {K : Type} (f : Arr s K) : Arr s K := fun x => f fun a => wrap (x a) ((s a / 2 : ℕ) : ℤ)

/-- `fftshift` of a one-dimensional array. -/
def fftshift1 {n : ℕ} (f : Fin n → ℝ) : Fin n → ℝ := fun i => f (wrap i (-((n / 2 : ℕ) : ℤ)))

/-- What `fft2(f, s=p)` and `ifft2(f, s=p)` do before transforming: cut each axis to `p`, or fill up with zeros at its end. -/
def resize {K : Type} (z : K) (p : Fin 2 → ℕ) (f : Arr s K) : Arr p K := fun x =>
  if h : ∀ a, (x a : ℕ) < s a then f fun a => ⟨x a, h a⟩ else z

/-- `numpy.fft.fftfreq(n, d)`. -/
noncomputable def fftfreq (n : ℕ) (d : ℝ) (i : Fin n) : ℝ := Bloch.fftfreq n i * (1 / (n * d))

/-- meanas/fdfd/farfield.py:74, 179 `k`. -/
noncomputable def k : ℝ := 2 * Real.pi

section
open Classical

/-- meanas/fdfd/farfield.py:83, 87 and 189, 193 `sin_th`. -/
noncomputable def sinTh (kx ky : ℝ) : ℝ := if kx = 0 ∧ ky = 0 then 0 else ky / Real.sqrt (kx * kx + ky * ky)

/-- meanas/fdfd/farfield.py:84, 88 and 190, 194 `cos_th`. -/
noncomputable def cosTh (kx ky : ℝ) : ℝ := if kx = 0 ∧ ky = 0 then 1 else kx / Real.sqrt (kx * kx + ky * ky)

/-- meanas/fdfd/farfield.py:81, 85 and 187, 191 `cos_phi`: the root of a negative number is NaN. -/
noncomputable def cosPhi (kx ky : ℝ) : Option ℝ :=
  if k * k - (kx * kx + ky * ky) < 0 then none else some (Real.sqrt (k * k - (kx * kx + ky * ky)) / k)

/-- meanas/fdfd/farfield.py:107, 202 `invalid_ind`. -/
def Invalid (kx ky : ℝ) : Prop := kx * kx + ky * ky ≥ k * k

/-- meanas/fdfd/farfield.py:90-99, 107-112: the entry of `E_far` at one `(kx, ky)` from the spectra there. -/
noncomputable def farE (kx ky : ℝ) (En Hn : Fin 2 → ℂ) (i : Fin 2) : Option ℂ :=
  if Invalid kx ky then some 0
  else (cosPhi kx ky).map fun cp : ℝ =>
    let N0 := -Hn 1 * cp * cosTh kx ky + Hn 0 * cp * sinTh kx ky
    let N1 := Hn 1 * sinTh kx ky + Hn 0 * cosTh kx ky
    let L0 := En 1 * cp * cosTh kx ky - En 0 * cp * sinTh kx ky
    let L1 := -En 1 * sinTh kx ky - En 0 * cosTh kx ky
    if i = 0 then -L1 - N0 else L0 - N1

/-- meanas/fdfd/farfield.py:98-99, 110-112: the entry of `H_far` (zeroed by the same mask). -/
noncomputable def farH (kx ky : ℝ) (En Hn : Fin 2 → ℂ) (i : Fin 2) : Option ℂ :=
  if Invalid kx ky then some 0
  else if i = 0 then (farE kx ky En Hn 1).map fun e => -e else farE kx ky En Hn 0

/-- meanas/fdfd/farfield.py:101, 103, 108 `theta`. -/
noncomputable def theta (kx ky : ℝ) : ℝ :=
  if Invalid kx ky then 0 else if kx = 0 ∧ ky = 0 then 0 else Complex.arg (kx + ky * I)

/-- meanas/fdfd/farfield.py:102, 104, 109 `phi` (the NaN of `arccos` lie beyond the light cone and are overwritten). -/
noncomputable def phi (kx ky : ℝ) : ℝ :=
  if Invalid kx ky then 0 else if kx = 0 ∧ ky = 0 then 0 else Real.arccos ((cosPhi kx ky).getD 0)

/-- The dictionary returned by `near_to_farfield` (keys `E`, `H`, not the documented `E_far`, `H_far`). -/
structure Far (p : Fin 2 → ℕ) where
  E : Fin 2 → Idx p → Option ℂ
  H : Fin 2 → Idx p → Option ℂ
  dkx : Fin (p 1) → ℝ
  dky : Fin (p 1) → ℝ
  kx : Arr p ℝ
  ky : Arr p ℝ
  theta : Arr p ℝ
  phi : Arr p ℝ

/-- meanas/fdfd/farfield.py:70-71: the shifted spectrum. -/
noncomputable def nearFft (p : Fin 2 → ℕ) (f : Arr s ℂ) : Arr p ℂ := fftshift (Bloch.fftn (resize 0 p (fftshift f)))

/-- meanas/fdfd/farfield.py:75-78 one axis of the wave vector grid. -/
noncomputable def kAxis (n : ℕ) (dx : ℝ) (i : Fin n) : ℝ := 2 * Real.pi * fftshift1 (fftfreq n dx) i

/-- meanas/fdfd/farfield.py:15-125 `near_to_farfield`. -/
noncomputable def nearToFarfield (E H : List (Arr s ℂ)) (dx dy : ℝ) (pad : Pad) : Except String (Far (padShape s pad)) :=
  match E, H with
  | [E0, E1], [H0, H1] =>
    let p := padShape s pad
    if ∃ a, p a = 0 then .error "ValueError: invalid number of FFT data points"
    else if dx = 0 ∨ dy = 0 then .error "ZeroDivisionError"
    else
      let En : Idx p → Fin 2 → ℂ := fun q i => if i = 0 then nearFft p E0 q else nearFft p E1 q
      let Hn : Idx p → Fin 2 → ℂ := fun q i => if i = 0 then nearFft p H0 q else nearFft p H1 q
      let kx : Arr p ℝ := fun q => kAxis (p 0) dx (q 0)
      let ky : Arr p ℝ := fun q => kAxis (p 1) dy (q 1)
      if h : 1 < p 0 then
        let one : Fin (p 0) := ⟨1, h⟩
        let zero : Fin (p 0) := ⟨0, by omega⟩
        .ok { E := fun i q => farE (kx q) (ky q) (En q) (Hn q) i
              H := fun i q => farH (kx q) (ky q) (En q) (Hn q) i
              dkx := fun _ => kAxis (p 0) dx one - kAxis (p 0) dx zero
              dky := fun j => kAxis (p 1) dy j - kAxis (p 1) dy j
              kx := kx
              ky := ky
              theta := fun q => theta (kx q) (ky q)
              phi := fun q => phi (kx q) (ky q) }
      else .error "IndexError"
  | [_, _], _ => .error "H_near must be a length-2 list of ndarrays"
  | _, _ => .error "E_near must be a length-2 list of ndarrays"

/-- The arguments `dkx`, `dky`: a Python float, or a one-dimensional array as returned by `near_to_farfield`. -/
inductive Step
  | scalar (v : ℝ)
  | arr (m : ℕ) (v : Fin m → ℝ)

/-- `fftshift(fftfreq(n, 1 / (m * dk)))` of lines 180-181. Arrays of zeros give an infinite spacing and zero frequencies.
An array of another length does not broadcast with the `n` frequencies; for `n = 1` it does, and line 206 raises instead. -/
noncomputable def freqs (n m : ℕ) : Step → Except String (Fin n → ℝ)
  | .scalar v =>
    if v = 0 then .error "ZeroDivisionError"
    else .ok (fftshift1 (fftfreq n (1 / (m * v))))
  | .arr l v =>
    if h : n = l then .ok (fftshift1 fun i => if v (Fin.cast h i) = 0 then 0 else fftfreq n (1 / (m * v (Fin.cast h i))) i)
    else if h : l = 1 then
      let v0 := v ⟨0, by omega⟩
      .ok (fftshift1 fun i => if v0 = 0 then 0 else fftfreq n (1 / (m * v0)) i)
    else .error "ValueError or IndexError"

/-- The returned `dx`, `dy`. -/
inductive Spacing
  | scalar (v : ℝ)
  | arr (m : ℕ) (v : Fin m → Option ℝ)

/-- meanas/fdfd/farfield.py:228-229: `2 * pi / (n * dk)`. -/
noncomputable def spacing (n : ℕ) : Step → Spacing
  | .scalar v => .scalar (2 * Real.pi / (n * v))
  | .arr m v => .arr m fun i => if v i = 0 then none else some (2 * Real.pi / (n * v i))

/-- meanas/fdfd/farfield.py:205-223: the entry of `En_fft` at one `(kx, ky)`. A NaN in `cos_phi` stays, `cos_phi == 0` gives zero. -/
noncomputable def nearE (kx ky : ℝ) (Ef : Fin 2 → ℂ) (i : Fin 2) : Option ℂ :=
  (cosPhi kx ky).map fun cp : ℝ =>
    let e : Fin 2 → ℂ := fun j => if Invalid kx ky then 0 else Ef j
    let L0 := 0.5 * e 1
    let L1 := -0.5 * e 0
    if cp = 0 then 0
    else if i = 0 then -(L0 * sinTh kx ky + L1 * cp * cosTh kx ky) / cp
    else -(-L0 * cosTh kx ky + L1 * cp * sinTh kx ky) / cp

/-- meanas/fdfd/farfield.py:205-223: the entry of `Hn_fft`. (`H_far` is not used.) -/
noncomputable def nearH (kx ky : ℝ) (Ef : Fin 2 → ℂ) (i : Fin 2) : Option ℂ :=
  (cosPhi kx ky).map fun cp : ℝ =>
    let e : Fin 2 → ℂ := fun j => if Invalid kx ky then 0 else Ef j
    let L0 := 0.5 * e 1
    let L1 := -0.5 * e 0
    let N0 := L1
    let N1 := -L0
    if cp = 0 then 0
    else if i = 0 then (N0 * sinTh kx ky + N1 * cp * cosTh kx ky) / cp
    else (-N0 * cosTh kx ky + N1 * cp * sinTh kx ky) / cp

/-- meanas/fdfd/farfield.py:225-226: one NaN spreads over the whole result of the FFT. -/
noncomputable def nearIfft (p : Fin 2 → ℕ) (f : Idx s → Option ℂ) : Idx p → Option ℂ :=
  let g := resize (some 0) p (ifftshift f)
  if ∃ x, g x = none then fun _ => none
  else fun x => some (ifftshift (Bloch.ifftn fun y => (g y).getD 0) x)

/-- The dictionary returned by `far_to_nearfield`. -/
structure Near (p : Fin 2 → ℕ) where
  E : Fin 2 → Idx p → Option ℂ
  H : Fin 2 → Idx p → Option ℂ
  dx : Spacing
  dy : Spacing

/-- meanas/fdfd/farfield.py:128-238 `far_to_nearfield`. Besides returning, it zeroes the entries of `E_far` and `H_far` beyond the
light cone (205-207). Both axes of `kx`, `ky` have length `s[0]`, so that the masks fit square arrays only. -/
noncomputable def farToNearfield (E H : List (Arr s ℂ)) (dkx dky : Step) (pad : Pad) : Except String (Near (padShape s pad)) :=
  match E, H with
  | [E0, E1], [_, _] =>
    if ∃ a, s a = 0 then .error "ZeroDivisionError or ValueError"
    else do
      let kxs ← freqs (s 0) (s 0) dkx
      let kys ← freqs (s 0) (s 1) dky
      if h : s 1 = s 0 then
        if ∃ a, padShape s pad a = 0 then .error "ValueError: invalid number of FFT data points"
        else
          let kx : Arr s ℝ := fun q => kxs (q 0)
          let ky : Arr s ℝ := fun q => kys (Fin.cast h (q 1))
          let Ef : Idx s → Fin 2 → ℂ := fun q i => if i = 0 then E0 q else E1 q
          .ok { E := fun i => nearIfft _ fun q => nearE (kx q) (ky q) (Ef q) i
                H := fun i => nearIfft _ fun q => nearH (kx q) (ky q) (Ef q) i
                dx := spacing (s 0) dkx
                dy := spacing (s 0) dky }
      else .error "IndexError"
  | [_, _], _ => .error "H_far must be a length-2 list of ndarrays"
  | _, _ => .error "E_far must be a length-2 list of ndarrays"

end

end Meanas.Farfield
