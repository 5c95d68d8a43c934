/-
C167: oblique incidence on layered media, for `e_full` (meanas/fdfd/operators.py:40-96) and `h_full` (meanas/fdfd/operators.py:126-180).
-/
import Verif.Props.Stack
import Mathlib.Analysis.SpecialFunctions.Arsinh
import Verif.Props.Duality
import Verif.Props.ScpmlOblique

namespace Meanas.Props

open Matrix Complex Fdfd Spec ScpmlLossy Interface
open Duality hiding back

variable {sh sh' : Fin 3 → ℕ}

/-- A grid `sh` layered along axis `a` and the row `sh'` of its cells along that axis, for waves polarised along `c` with the phase factor `ζ` per cell along the third axis `oth a c`.
The row keeps the widths along `a` and the permeability, its permittivity is lowered by the square of the transverse wavenumber. -/
structure Oblique (a c : Fin 3) (ω ζ wb wb' : ℂ) (χ : Idx sh → ℂ) (dx : Dx sh) (eps : Vec sh) (mu : Option (Vec sh)) (dx' : Dx sh') (eps' : Vec sh') (mu' : Option (Vec sh')) : Prop where
  pol : c ≠ a
  len : sh' a = sh a
  thin : ∀ b, b ≠ a → sh' b = 1
  phase : ζ ≠ 0
  step : ∀ x, χ (shiftIdx (oth a c) 1 x) = ζ * χ x
  flat : ∀ d, d ≠ oth a c → ∀ x, χ (shiftIdx d 1 x) = χ x
  across : ∀ i, dx.1 (oth a c) i = wb ∧ dx.2 (oth a c) i = wb'
  width : ∀ (x : Idx sh) (x' : Idx sh'), (x a : ℕ) = x' a → dx'.1 a (x' a) = dx.1 a (x a) ∧ dx'.2 a (x' a) = dx.2 a (x a)
  layered : ∀ d, d ≠ a → ∀ x, (mu.getD 1) (a, shiftIdx d 1 x) = (mu.getD 1) (a, x)
  mag : ∀ (x : Idx sh) (x' : Idx sh'), (x a : ℕ) = x' a → (mu'.getD 1) (oth a c, x') = (mu.getD 1) (oth a c, x)
  perm : ∀ (x : Idx sh) (x' : Idx sh'), (x a : ℕ) = x' a → ω ^ 2 * eps' (c, x') = ω ^ 2 * eps (c, x) - (2 - ζ - ζ⁻¹) / (wb * wb') / (mu.getD 1) (a, x)

/-- `E` is the field `E'` of the row, polarised along `c`, times the transverse phase. -/
structure Lifts (a c : Fin 3) (χ : Idx sh → ℂ) (E : Vec sh) (E' : Vec sh') : Prop where
  pol : ∀ d, d ≠ c → ∀ x, E (d, x) = 0
  field : ∀ (x : Idx sh) (x' : Idx sh'), (x a : ℕ) = x' a → E (c, x) = χ x * E' (c, x')

namespace ObliqueAux

/-- `curl (1/μ) curl` of a field with a single component. -/
theorem curl_single (dx : Dx sh) (M F : VField sh ℂ) (c : Fin 3) (hF : ∀ d, d ≠ c → F d = 0) (x : Idx sh) :
    Functional.curlBack (some dx.2) (fun d y => Functional.curlForward (some dx.1) F d y / M d y) c x
      = -∑ d, if d = c then 0 else Functional.derivBack (some dx.2) d (fun y => Functional.derivForward (some dx.1) d (F c) y / M (oth d c) y) x := by
  have z : ∀ (d : Fin 3) y, Functional.derivForward (some dx.1) d (0 : Arr sh ℂ) y = 0 := fun d y => by rw [derivForward_eq]; simp
  have n : ∀ (d : Fin 3) (f : Arr sh ℂ) y, Functional.derivBack (some dx.2) d (fun y => -f y) y = -Functional.derivBack (some dx.2) d f y := fun d f y => by
    rw [derivBack_eq, derivBack_eq]; ring
  have e0 : Functional.curlForward (some dx.1) F 0 = fun y => Functional.derivForward (some dx.1) 1 (F 2) y - Functional.derivForward (some dx.1) 2 (F 1) y := rfl
  have e1 : Functional.curlForward (some dx.1) F 1 = fun y => Functional.derivForward (some dx.1) 2 (F 0) y - Functional.derivForward (some dx.1) 0 (F 2) y := rfl
  have e2 : Functional.curlForward (some dx.1) F 2 = fun y => Functional.derivForward (some dx.1) 0 (F 1) y - Functional.derivForward (some dx.1) 1 (F 0) y := rfl
  rw [Fin.sum_univ_three]
  revert c
  refine forall_fin3 ?_ ?_ ?_ <;> intro hF
  · rw [curlBack_0, e1, e2, hF 1 (by decide), hF 2 (by decide)]
    simp only [z, zero_sub, sub_zero, neg_div, n, show ∀ i j : Fin 3, oth i j = if j = i + 1 then i + 2 else i + 1 from fun _ _ => rfl]
    simp
    ring
  · rw [curlBack_1, e0, e2, hF 0 (by decide), hF 2 (by decide)]
    simp only [z, zero_sub, sub_zero, neg_div, n, show ∀ i j : Fin 3, oth i j = if j = i + 1 then i + 2 else i + 1 from fun _ _ => rfl]
    simp
    ring
  · rw [curlBack_2, e0, e1, hF 0 (by decide), hF 1 (by decide)]
    simp only [z, zero_sub, sub_zero, neg_div, n, show ∀ i j : Fin 3, oth i j = if j = i + 1 then i + 2 else i + 1 from fun _ _ => rfl]
    simp
    ring

/-- Its other components are mixed derivatives. -/
theorem curl_mixed (dx : Dx sh) (M F : VField sh ℂ) (c e : Fin 3) (he : e ≠ c) (hF : ∀ d, d ≠ c → F d = 0) (x : Idx sh) :
    Functional.curlBack (some dx.2) (fun d y => Functional.curlForward (some dx.1) F d y / M d y) e x
      = Functional.derivBack (some dx.2) c (fun y => Functional.derivForward (some dx.1) e (F c) y / M (oth c e) y) x := by
  have z : ∀ (d : Fin 3) y, Functional.derivForward (some dx.1) d (0 : Arr sh ℂ) y = 0 := fun d y => by rw [derivForward_eq]; simp
  have z' : ∀ (d : Fin 3) y, Functional.derivBack (some dx.2) d (fun _ => (0 : ℂ)) y = 0 := fun d y => by rw [derivBack_eq]; simp
  have n : ∀ (d : Fin 3) (f : Arr sh ℂ) y, Functional.derivBack (some dx.2) d (fun y => -f y) y = -Functional.derivBack (some dx.2) d f y := fun d f y => by
    rw [derivBack_eq, derivBack_eq]; ring
  have e0 : Functional.curlForward (some dx.1) F 0 = fun y => Functional.derivForward (some dx.1) 1 (F 2) y - Functional.derivForward (some dx.1) 2 (F 1) y := rfl
  have e1 : Functional.curlForward (some dx.1) F 1 = fun y => Functional.derivForward (some dx.1) 2 (F 0) y - Functional.derivForward (some dx.1) 0 (F 2) y := rfl
  have e2 : Functional.curlForward (some dx.1) F 2 = fun y => Functional.derivForward (some dx.1) 0 (F 1) y - Functional.derivForward (some dx.1) 1 (F 0) y := rfl
  revert c e
  refine forall_fin3 (forall_fin3 ?_ ?_ ?_) (forall_fin3 ?_ ?_ ?_) (forall_fin3 ?_ ?_ ?_) <;> intro he hF <;> first | exact absurd rfl he | skip
  · rw [curlBack_1, e0, e2, hF 1 (by decide), hF 2 (by decide)]
    simp [z, z', neg_div, n, oth]
  · rw [curlBack_2, e0, e1, hF 1 (by decide), hF 2 (by decide)]
    simp [z, z', oth]
  · rw [curlBack_0, e1, e2, hF 0 (by decide), hF 2 (by decide)]
    simp [z, z', oth]
  · rw [curlBack_2, e0, e1, hF 0 (by decide), hF 2 (by decide)]
    simp [z, z', neg_div, n, oth]
  · rw [curlBack_0, e1, e2, hF 0 (by decide), hF 1 (by decide)]
    simp [z, z', neg_div, n, oth]
  · rw [curlBack_1, e0, e2, hF 0 (by decide), hF 1 (by decide)]
    simp [z, z', oth]

/-- Cells of the grid and of the row in the same plane. -/
theorem same_shift {a : Fin 3} (hl : sh' a = sh a) (s : ℤ) {x : Idx sh} {x' : Idx sh'} (h : (x a : ℕ) = x' a) : ((shiftIdx a s x a : Fin _) : ℕ) = (shiftIdx a s x' a : Fin _) := by
  rw [shiftIdx_same, shiftIdx_same]; zify; rw [wrap_val, wrap_val, h, ← hl]

theorem same_across {a d : Fin 3} (hd : d ≠ a) (s : ℤ) {x : Idx sh} {x' : Idx sh'} (h : (x a : ℕ) = x' a) : ((shiftIdx d s x a : Fin _) : ℕ) = x' a := by
  rw [shiftIdx_of_ne hd.symm, h]

theorem oth_ne_c {a c : Fin 3} : c ≠ a → oth a c ≠ c := by revert a c; decide
theorem oth_back {a c : Fin 3} : c ≠ a → oth (oth a c) c = a := by revert a c; decide
theorem sum_axes {a c : Fin 3} (hc : c ≠ a) (f : Fin 3 → ℂ) : (∑ d, if d = c then 0 else f d) = f a + f (oth a c) := by
  rw [Fin.sum_univ_three]
  suffices h : ∀ a c : Fin 3, c ≠ a → (((if 0 = c then 0 else f 0) + if 1 = c then 0 else f 1) + if 2 = c then 0 else f 2) = f a + f (oth a c) from h a c hc
  clear hc a c
  refine forall_fin3 (forall_fin3 ?_ ?_ ?_) (forall_fin3 ?_ ?_ ?_) (forall_fin3 ?_ ?_ ?_) <;> intro h <;> first | exact absurd rfl h | (simp [oth]; try ring)

end ObliqueAux

open ObliqueAux

section
variable {a c : Fin 3} {ω ζ wb wb' : ℂ} {χ : Idx sh → ℂ} {dx : Dx sh} {eps : Vec sh} {mu : Option (Vec sh)} {dx' : Dx sh'} {eps' : Vec sh'} {mu' : Option (Vec sh')}

/-- **C167.** Oblique waves on layered media: `e_full` acts on a field polarised along `c`, with the phase `ζ` per cell along the third axis, as the `e_full` of the row
acts on the field of the row, and leaves the other components zero. -/
theorem C167_reduction (O : Oblique a c ω ζ wb wb' χ dx eps mu dx' eps' mu') {E : Vec sh} {E' : Vec sh'} (hE : Lifts a c χ E E') (x : Idx sh) (x' : Idx sh') (hx : (x a : ℕ) = x' a) :
    (eFull ω dx eps mu none none *ᵥ E) (c, x) = χ x * (eFull ω dx' eps' mu' none none *ᵥ E') (c, x') ∧
    ∀ d, d ≠ c → (eFull ω dx eps mu none none *ᵥ E) (d, x) = 0 := by
  have hV : muV mu = mu.getD 1 := by cases mu <;> rfl
  have hV' : muV mu' = mu'.getD 1 := by cases mu' <;> rfl
  have hF : ∀ d, d ≠ c → unS E d = 0 := fun d hd => funext fun y => hE.pol d hd y
  have hb : oth a c ≠ a := oth_ne a c
  have hbc : oth a c ≠ c := oth_ne_c O.pol
  have χdown : χ (shiftIdx a (-1) x) = χ x := by
    have := O.flat a hb.symm (shiftIdx a (-1) x)
    rwa [shiftIdx_shiftIdx, neg_add_cancel, shiftIdx_zero, eq_comm] at this
  have χback : χ (shiftIdx (oth a c) (-1) x) = ζ⁻¹ * χ x := by
    have := O.step (shiftIdx (oth a c) (-1) x)
    rw [shiftIdx_shiftIdx, neg_add_cancel, shiftIdx_zero] at this
    rw [this, inv_mul_cancel_left₀ O.phase]
  have muback : (mu.getD 1) (a, shiftIdx (oth a c) (-1) x) = (mu.getD 1) (a, x) := by
    have := O.layered _ hb (shiftIdx (oth a c) (-1) x)
    rwa [shiftIdx_shiftIdx, neg_add_cancel, shiftIdx_zero, eq_comm] at this
  constructor
  · rw [eFull_mulVec, eFull_1d a O.thin, if_neg O.pol]
    have e1 : cH dx (fun q => cE dx E q / muV mu q) (c, x)
        = Functional.curlBack (some dx.2) (fun d y => Functional.curlForward (some dx.1) (unS E) d y / muV mu (d, y)) c x := rfl
    rw [e1, curl_single dx _ _ c hF, sum_axes O.pol, derivBack_eq, derivBack_eq, oth_back O.pol, hV]
    have fl : ∀ (y : Idx sh) (y' : Idx sh'), (y a : ℕ) = y' a →
        Functional.derivForward (some dx.1) a (unS E c) y / (mu.getD 1) (oth a c, y) = χ y * flux1 a c dx' mu' E' y' := by
      intro y y' hy
      rw [derivForward_eq, flux1, hV', O.mag y y' hy, (O.width y y' hy).1]
      show (E (c, shiftIdx a 1 y) - E (c, y)) / dx.1 a (y a) / _ = _
      rw [hE.field _ _ (same_shift O.len 1 hy), hE.field y y' hy, O.flat a hb.symm]
      ring
    have fb : ∀ y : Idx sh, Functional.derivForward (some dx.1) (oth a c) (unS E c) y / (mu.getD 1) (a, y) = (ζ - 1) / wb * E (c, y) / (mu.getD 1) (a, y) := by
      intro y
      rw [derivForward_eq]
      show (E (c, shiftIdx (oth a c) 1 y) - E (c, y)) / dx.1 (oth a c) (y (oth a c)) / _ = _
      obtain ⟨y', hy'⟩ : ∃ y' : Idx sh', (y a : ℕ) = y' a := ⟨fun d => if h : d = a then ⟨y a, by rw [h, O.len]; exact (y a).2⟩ else ⟨0, by rw [O.thin d h]; exact one_pos⟩, by simp⟩
      rw [hE.field _ y' (same_across hb 1 hy'), hE.field y y' hy', O.step, (O.across _).1]
      ring
    rw [fl x x' hx, fl _ _ (same_shift O.len (-1) hx), fb, fb, χdown, muback]
    show -((χ x * _ - χ x * _) / dx.2 a (x a) + _ / dx.2 (oth a c) (x (oth a c))) - _ = _
    rw [(O.width x x' hx).2, (O.across _).2, hE.field _ x' (same_across hb (-1) hx), hE.field x x' hx, χback]
    have hz : (ζ - 1) * (1 - ζ⁻¹) = -(2 - ζ - ζ⁻¹) := by
      have := mul_inv_cancel₀ O.phase
      linear_combination -this
    have hp := O.perm x x' hx
    linear_combination (χ x * E' (c, x')) * hp - (χ x * E' (c, x') / (wb * wb') / (mu.getD 1) (a, x)) * hz
  · intro d hd
    rw [eFull_mulVec, hE.pol d hd, mul_zero, mul_zero, sub_zero]
    have e1 : cH dx (fun q => cE dx E q / muV mu q) (d, x)
        = Functional.curlBack (some dx.2) (fun d y => Functional.curlForward (some dx.1) (unS E) d y / muV mu (d, y)) d x := rfl
    rw [e1, curl_mixed dx _ _ c d hd hF, derivBack_eq, hV]
    have hcb : c ≠ oth a c := hbc.symm
    obtain ⟨y, rfl⟩ : ∃ y, shiftIdx c 1 y = x := ⟨shiftIdx c (-1) x, by rw [shiftIdx_shiftIdx, neg_add_cancel, shiftIdx_zero]⟩
    have hy : (y a : ℕ) = x' a := by rw [shiftIdx_of_ne O.pol.symm] at hx; exact hx
    have Ec : ∀ (z : Idx sh), E (c, shiftIdx c 1 z) = E (c, z) := fun z => by
      obtain ⟨z', hz'⟩ : ∃ z' : Idx sh', (z a : ℕ) = z' a := ⟨fun d => if h : d = a then ⟨z a, by rw [h, O.len]; exact (z a).2⟩ else ⟨0, by rw [O.thin d h]; exact one_pos⟩, by simp⟩
      rw [hE.field _ z' (same_across O.pol 1 hz'), hE.field z z' hz', O.flat c hcb]
    have Mc : (mu.getD 1) (oth c d, shiftIdx c 1 y) = (mu.getD 1) (oth c d, y) := by
      by_cases hda : d = a
      · have : oth c d = oth a c := by rw [hda]; have := O.pol; revert this; clear * -; revert a c; decide
        rw [this, ← O.mag _ x' (same_across O.pol 1 hy), ← O.mag y x' hy]
      · have : oth c d = a := by have := O.pol; revert this hd hda; clear * -; revert a c d; decide
        rw [this, O.layered c O.pol]
    have fd : Functional.derivForward (some dx.1) d (unS E c) (shiftIdx c 1 y) = Functional.derivForward (some dx.1) d (unS E c) y := by
      rw [derivForward_eq, derivForward_eq, shiftIdx_of_ne hd]
      show (E (c, shiftIdx d 1 (shiftIdx c 1 y)) - E (c, shiftIdx c 1 y)) / _ = (E (c, shiftIdx d 1 y) - E (c, y)) / _
      rw [shiftIdx_comm, Ec, Ec]
    rw [shiftIdx_shiftIdx, add_neg_cancel, shiftIdx_zero, fd, Mc, sub_self, zero_div]

/-- The field without sources in all inner planes of the layered grid. -/
def LayersFree (a : Fin 3) (ω : ℂ) (dx : Dx sh) (eps : Vec sh) (mu : Option (Vec sh)) (E : Vec sh) : Prop :=
  ∀ d (x : Idx sh), 0 < (x a : ℕ) → (x a : ℕ) + 1 < sh a → (eFull ω dx eps mu none none *ᵥ E) (d, x) = 0

theorem inner_iff (O : Oblique a c ω ζ wb wb' χ dx eps mu dx' eps' mu') (hsh : ∀ d, 0 < sh d) (hχ : ∀ x, χ x ≠ 0) {E : Vec sh} {E' : Vec sh'} (hE : Lifts a c χ E E') :
    LayersFree a ω dx eps mu E ↔ InnerFree a c ω dx' eps' mu' E' := by
  constructor
  · intro h x' h0 h1
    obtain ⟨x, hx⟩ : ∃ x : Idx sh, (x a : ℕ) = x' a := ⟨fun d => if h : d = a then ⟨x' a, by rw [h, ← O.len]; exact (x' a).2⟩ else ⟨0, hsh d⟩, by simp⟩
    have := h c x (by omega) (by rw [hx, ← O.len]; exact h1)
    rw [(C167_reduction O hE x x' hx).1] at this
    exact (mul_eq_zero.1 this).resolve_left (hχ x)
  · intro h d x h0 h1
    obtain ⟨x', hx⟩ : ∃ x' : Idx sh', (x a : ℕ) = x' a := ⟨fun d => if h : d = a then ⟨x a, by rw [h, O.len]; exact (x a).2⟩ else ⟨0, by rw [O.thin d h]; exact one_pos⟩, by simp⟩
    by_cases hd : d = c
    · rw [hd, (C167_reduction O hE x x' hx).1, h x' (by omega) (by rw [← hx, O.len]; exact h1), mul_zero]
    · exact (C167_reduction O hE x x' hx).2 d hd

end

/-! ### The row of a layered grid -/

/-- The row of cells along axis `a`. -/
def rowSh (sh : Fin 3 → ℕ) (a : Fin 3) : Fin 3 → ℕ := fun d => if d = a then sh a else 1

theorem rowSh_a (a : Fin 3) : rowSh sh a a = sh a := if_pos rfl
theorem rowSh_b {a d : Fin 3} (h : d ≠ a) : rowSh sh a d = 1 := if_neg h

/-- The cell of the grid that stands for a cell of the row. -/
def rowCell (hsh : ∀ d, 0 < sh d) (a : Fin 3) (x' : Idx (rowSh sh a)) : Idx sh :=
  fun d => if h : d = a then ⟨x' a, by rw [h]; exact lt_of_lt_of_eq (x' a).2 (rowSh_a a)⟩ else ⟨0, hsh d⟩

theorem rowCell_a (hsh : ∀ d, 0 < sh d) (a : Fin 3) (x' : Idx (rowSh sh a)) : (rowCell hsh a x' a : ℕ) = x' a := by simp [rowCell]

/-- Widths of the row. -/
def rowDx (a : Fin 3) (dx : Dx sh) : Dx (rowSh sh a) :=
  (fun d i => if h : d = a then dx.1 a ⟨i, lt_of_lt_of_eq i.2 (if_pos h)⟩ else 1,
    fun d i => if h : d = a then dx.2 a ⟨i, lt_of_lt_of_eq i.2 (if_pos h)⟩ else 1)

/-- Permittivity of the row: that of the layers minus the square of the transverse wavenumber `K2` over `ω² μ`. -/
noncomputable def rowEps (hsh : ∀ d, 0 < sh d) (a : Fin 3) (ω K2 : ℂ) (eps : Vec sh) (mu : Option (Vec sh)) : Vec (rowSh sh a) :=
  fun p => eps (p.1, rowCell hsh a p.2) - K2 / (ω ^ 2 * (mu.getD 1) (a, rowCell hsh a p.2))

/-- Permeability of the row. -/
noncomputable def rowMu (hsh : ∀ d, 0 < sh d) (a : Fin 3) (mu : Option (Vec sh)) : Vec (rowSh sh a) := fun p => (mu.getD 1) (p.1, rowCell hsh a p.2)

/-- Layers along `a`: the media depend on the plane only. -/
def Layered (a : Fin 3) (v : Vec sh) : Prop := ∀ d (x y : Idx sh), x a = y a → v (d, x) = v (d, y)

/-- The transverse phase factor. -/
def tilt (b : Fin 3) (ζ : ℂ) (x : Idx sh) : ℂ := ζ ^ (x b : ℕ)

theorem tilt_step {b : Fin 3} {ζ : ℂ} (h : ζ ^ sh b = 1) (x : Idx sh) : tilt b ζ (shiftIdx b 1 x) = ζ * tilt b ζ x := by
  have hx := (x b).isLt
  have hv : ((shiftIdx b 1 x b : Fin _) : ℤ) = ((x b : ℤ) + 1) % sh b := by rw [shiftIdx_same, wrap_val]
  unfold tilt
  rw [← pow_succ']
  by_cases hl : (x b : ℕ) + 1 < sh b
  · rw [Int.emod_eq_of_lt (by omega) (by omega)] at hv
    congr 1; omega
  · have e : (x b : ℕ) + 1 = sh b := by omega
    rw [show ((x b : ℤ) + 1) = sh b by omega, Int.emod_self] at hv
    rw [show ((shiftIdx b 1 x b : Fin _) : ℕ) = 0 by omega, e, h, pow_zero]

/-- **C167.** Every layered grid has its row: for each polarisation `c` across the layers and each phase `ζ` that fits the period of the grid along the third axis. -/
theorem C167_row {a c : Fin 3} (hc : c ≠ a) (hsh : ∀ d, 0 < sh d) {ω ζ wb wb' : ℂ} (hω : ω ≠ 0) (hζ : ζ ^ sh (oth a c) = 1) {dx : Dx sh} (hb : ∀ i, dx.1 (oth a c) i = wb ∧ dx.2 (oth a c) i = wb')
    {eps : Vec sh} {mu : Option (Vec sh)} (he : Layered a eps) (hm : Layered a (mu.getD 1)) :
    Oblique a c ω ζ wb wb' (tilt (oth a c) ζ) dx eps mu (rowDx a dx) (rowEps hsh a ω ((2 - ζ - ζ⁻¹) / (wb * wb')) eps mu) (some (rowMu hsh a mu)) ∧
    (∀ x : Idx sh, tilt (oth a c) ζ x ≠ 0) ∧ ∀ E' : Vec (rowSh sh a), ∃ E : Vec sh, Lifts a c (tilt (oth a c) ζ) E E' := by
  have hζ0 : ζ ≠ 0 := fun h => by rw [h, zero_pow (hsh _).ne'] at hζ; exact zero_ne_one hζ
  have hcell : ∀ (x : Idx sh) (x' : Idx (rowSh sh a)), (x a : ℕ) = x' a → rowCell hsh a x' a = x a := fun x x' h => Fin.ext (by rw [rowCell_a, h])
  refine ⟨⟨hc, rowSh_a a, fun b hb => rowSh_b hb, hζ0, tilt_step hζ, fun d hd x => ?_, hb, fun x x' h => ?_, fun d hd x => ?_, fun x x' h => ?_, fun x x' h => ?_⟩,
    fun x => pow_ne_zero _ hζ0, fun E' => ?_⟩
  · rw [tilt, tilt, shiftIdx_of_ne hd.symm]
  · have e : (⟨(x' a : ℕ), lt_of_lt_of_eq (x' a).2 (rowSh_a a)⟩ : Fin (sh a)) = x a := Fin.ext h.symm
    constructor
    · show (if h : a = a then dx.1 a _ else 1) = _
      rw [dif_pos rfl, e]
    · show (if h : a = a then dx.2 a _ else 1) = _
      rw [dif_pos rfl, e]
  · exact hm a _ _ (shiftIdx_of_ne hd.symm _ _)
  · exact hm _ _ _ (hcell x x' h)
  · rw [rowEps, he c _ x (hcell x x' h), hm a _ x (hcell x x' h), mul_sub]
    congr 1
    rw [div_mul_eq_div_div, mul_div_assoc', mul_div_cancel₀ _ (pow_ne_zero 2 hω)]
  · refine ⟨fun p => if p.1 = c then tilt (oth a c) ζ p.2 * E' (c, fun d => if h : d = a then ⟨p.2 a, by rw [h, rowSh_a]; exact (p.2 a).2⟩ else ⟨0, by rw [rowSh_b h]; exact one_pos⟩) else 0,
      fun d hd x => if_neg hd, fun x x' h => ?_⟩
    show (if c = c then _ else _) = _
    rw [if_pos rfl]
    congr 3
    funext d
    by_cases hd : d = a
    · subst hd; rw [dif_pos rfl]; exact Fin.ext h
    · rw [dif_neg hd]
      exact Fin.ext (Nat.lt_one_iff.1 (lt_of_lt_of_eq (x' d).2 (rowSh_b hd))).symm

section
variable {a c : Fin 3} {m : ℕ} {ω ζ wb wb' w1 w0 w2 e1 e0 e2 μ1 μ2 ν1 ν0 ν2 : ℂ} {dx : Dx sh} {eps : Vec sh} {mu : Option (Vec sh)}

/-- An interface between two media that fill the grid on either side of plane `m`: along `a` as in C146, with the permeability `ν` for the field along `a`, and evenly spaced along the third axis. -/
structure TiltedStep (a c : Fin 3) (m : ℕ) (wb wb' w1 w0 w2 e1 e0 e2 μ1 μ2 ν1 ν0 ν2 : ℂ) (dx : Dx sh) (eps : Vec sh) (mu : Option (Vec sh)) : Prop where
  step : Step a c m w1 w0 w2 e1 e0 e2 μ1 μ2 dx eps mu
  magA : ∀ x : Idx sh, (mu.getD 1) (a, x) = if (x a : ℕ) < m then ν1 else if (x a : ℕ) = m then ν0 else ν2
  across : ∀ i, dx.1 (oth a c) i = wb ∧ dx.2 (oth a c) i = wb'

/-- The row of a tilted step is a step. -/
theorem TiltedStep.row (T : TiltedStep a c m wb wb' w1 w0 w2 e1 e0 e2 μ1 μ2 ν1 ν0 ν2 dx eps mu) (hsh : ∀ d, 0 < sh d) (K2 : ℂ) :
    Step a c m w1 w0 w2 (e1 - K2 / (ω ^ 2 * ν1)) (e0 - K2 / (ω ^ 2 * ν0)) (e2 - K2 / (ω ^ 2 * ν2)) μ1 μ2 (rowDx a dx) (rowEps hsh a ω K2 eps mu) (some (rowMu hsh a mu)) where
  edge i := by
    show (if h : a = a then dx.1 a _ else 1) = _
    rw [dif_pos rfl, T.step.edge]
  dual i := by
    show (if h : a = a then dx.2 a _ else 1) = _
    rw [dif_pos rfl, T.step.dual]
  perm x := by
    rw [rowEps, T.step.perm, T.magA, rowCell_a]
    split_ifs <;> rfl
  mag x := by
    show (mu.getD 1) (oth a c, rowCell hsh a x) = _
    rw [T.step.mag, rowCell_a]

/-- The grid and its row, for a tilted step. -/
theorem TiltedStep.oblique (T : TiltedStep a c m wb wb' w1 w0 w2 e1 e0 e2 μ1 μ2 ν1 ν0 ν2 dx eps mu) (hc : c ≠ a) (hsh : ∀ d, 0 < sh d) (hω : ω ≠ 0) (hζ : ζ ^ sh (oth a c) = 1) :
    Oblique a c ω ζ wb wb' (tilt (oth a c) ζ) dx eps mu (rowDx a dx) (rowEps hsh a ω ((2 - ζ - ζ⁻¹) / (wb * wb')) eps mu) (some (rowMu hsh a mu)) := by
  have hζ0 : ζ ≠ 0 := fun h => by rw [h, zero_pow (hsh _).ne'] at hζ; exact zero_ne_one hζ
  refine ⟨hc, rowSh_a a, fun b hb => rowSh_b hb, hζ0, tilt_step hζ, fun d hd x => ?_, T.across, fun x x' h => ?_, fun d hd x => ?_, fun x x' h => ?_, fun x x' h => ?_⟩
  · rw [tilt, tilt, shiftIdx_of_ne hd.symm]
  · have e : (⟨(x' a : ℕ), lt_of_lt_of_eq (x' a).2 (rowSh_a a)⟩ : Fin (sh a)) = x a := Fin.ext h.symm
    constructor
    · show (if h : a = a then dx.1 a _ else 1) = _
      rw [dif_pos rfl, e]
    · show (if h : a = a then dx.2 a _ else 1) = _
      rw [dif_pos rfl, e]
  · rw [T.magA, T.magA, shiftIdx_of_ne hd.symm]
  · show (mu.getD 1) (oth a c, rowCell hsh a x') = _
    rw [T.step.mag, T.step.mag, rowCell_a, h]
  · rw [rowEps, T.step.perm, T.step.perm, T.magA, T.magA, rowCell_a, h, mul_sub]
    congr 1
    rw [div_mul_eq_div_div, mul_div_assoc', mul_div_cancel₀ _ (pow_ne_zero 2 hω)]

/-- **C167.** Fresnel's equations for oblique incidence on the grid. The waves on either side obey the dispersion relation of the grid with the same transverse phase (Snell's law); the field is free
of sources in all components and all inner planes exactly if reflection and transmission solve the equations of C146, in which the correction `δ` of the interface gets a term of the transverse wavenumber. -/
theorem C167_interface (T : TiltedStep a c m wb wb' w1 w0 w2 e1 e0 e2 μ1 μ2 ν1 ν0 ν2 dx eps mu) (hc : c ≠ a) (hsh : ∀ d, 0 < sh d) (hm : 2 ≤ m) (hm' : m + 1 < sh a) (hω : ω ≠ 0)
    (hζ : ζ ^ sh (oth a c) = 1) (h1 : w1 ≠ 0) (h0 : w0 ≠ 0) (h2 : w2 ≠ 0) (hμ1 : μ1 ≠ 0) (hμ2 : μ2 ≠ 0) (K2 κ1 κ2 : ℂ) (hK : K2 = (2 - ζ - ζ⁻¹) / (wb * wb'))
    (hκ1 : (2 * sin (κ1 / 2) / w1) ^ 2 / μ1 + K2 / ν1 = ω ^ 2 * e1) (hκ2 : (2 * sin (κ2 / 2) / w2) ^ 2 / μ2 + K2 / ν2 = ω ^ 2 * e2) (r t : ℂ) (E : Vec sh)
    (hE : ∀ d (x : Idx sh), E (d, x) = if d = c then ζ ^ (x (oth a c) : ℕ) * wave m κ1 κ2 r t (x a) else 0) :
    (∀ d (x : Idx sh), 0 < (x a : ℕ) → (x a : ℕ) + 1 < sh a → (eFull ω dx eps mu none none *ᵥ E) (d, x) = 0) ↔
      t = 1 + r ∧ (sin κ1 / (μ1 * w1) + sin κ2 / (μ2 * w2) + I * (ω ^ 2 * (w0 * e0 - (w1 * e1 + w2 * e2) / 2) - K2 * (w0 / ν0 - (w1 / ν1 + w2 / ν2) / 2))) * r
        = sin κ1 / (μ1 * w1) - sin κ2 / (μ2 * w2) - I * (ω ^ 2 * (w0 * e0 - (w1 * e1 + w2 * e2) / 2) - K2 * (w0 / ν0 - (w1 / ν1 + w2 / ν2) / 2)) := by
  subst hK
  set K2 := (2 - ζ - ζ⁻¹) / (wb * wb') with hK
  have O := T.oblique (ζ := ζ) hc hsh hω hζ
  have hL : Lifts a c (tilt (oth a c) ζ) E (fun p : Pos (rowSh sh a) => wave m κ1 κ2 r t (p.2 a)) :=
    ⟨fun d hd x => by rw [hE, if_neg hd], fun x x' h => by rw [hE, if_pos rfl, tilt, h]⟩
  have hχ : ∀ x : Idx sh, tilt (oth a c) ζ x ≠ 0 := fun x => pow_ne_zero _ O.phase
  have hdiv : ∀ ν : ℂ, ω ^ 2 * (K2 / (ω ^ 2 * ν)) = K2 / ν := fun ν => by
    rw [div_mul_eq_div_div, mul_div_assoc', mul_div_cancel₀ _ (pow_ne_zero 2 hω)]
  have key := C146_interface (sh := rowSh sh a) a c hc (fun b hb => rowSh_b hb) ω m hm (by rw [rowSh_a]; exact hm') w1 w0 w2 _ _ _ μ1 μ2 h1 h0 h2 hμ1 hμ2 _ _ _ (T.row (ω := ω) hsh K2) κ1 κ2
    (by
      have : (2 * sin (κ1 / 2)) ^ 2 = w1 ^ 2 * μ1 * ((2 * sin (κ1 / 2) / w1) ^ 2 / μ1) := by field_simp
      rw [this, eq_sub_of_add_eq hκ1]
      linear_combination w1 ^ 2 * μ1 * hdiv ν1)
    (by
      have : (2 * sin (κ2 / 2)) ^ 2 = w2 ^ 2 * μ2 * ((2 * sin (κ2 / 2) / w2) ^ 2 / μ2) := by field_simp
      rw [this, eq_sub_of_add_eq hκ2]
      linear_combination w2 ^ 2 * μ2 * hdiv ν2) r t (fun p => wave m κ1 κ2 r t (p.2 a)) (fun _ => rfl)
  have hδ : ω ^ 2 * (w0 * (e0 - K2 / (ω ^ 2 * ν0)) - (w1 * (e1 - K2 / (ω ^ 2 * ν1)) + w2 * (e2 - K2 / (ω ^ 2 * ν2))) / 2)
      = ω ^ 2 * (w0 * e0 - (w1 * e1 + w2 * e2) / 2) - K2 * (w0 / ν0 - (w1 / ν1 + w2 / ν2) / 2) := by
    linear_combination -w0 * hdiv ν0 + w1 / 2 * hdiv ν1 + w2 / 2 * hdiv ν2
  rw [hδ] at key
  exact (inner_iff O hsh hχ hL).trans key

end

/-- Real data for an interface under oblique incidence, with the phase `s` per cell along the interface. -/
structure TiltedReal (a c : Fin 3) (m : ℕ) (ω s wb wb' w1 w0 w2 e1 e0 e2 μ1 μ2 ν1 ν0 ν2 κ1 : ℝ) (dx : Dx sh) (eps : Vec sh) (mu : Option (Vec sh)) : Prop where
  step : TiltedStep a c m (wb : ℂ) wb' w1 w0 w2 e1 e0 e2 μ1 μ2 ν1 ν0 ν2 dx eps mu
  pol : c ≠ a
  nonempty : ∀ d, 0 < sh d
  room : 2 ≤ m ∧ m + 1 < sh a
  period : ∃ k : ℤ, sh (oth a c) * s = 2 * Real.pi * k
  freq : 0 < ω
  wid : 0 < wb ∧ 0 < wb' ∧ 0 < w1 ∧ 0 < w0 ∧ 0 < w2
  mag : 0 < μ1 ∧ 0 < μ2
  incoming : 0 < κ1 ∧ κ1 < Real.pi
  disp : (2 * Real.sin (κ1 / 2) / w1) ^ 2 / μ1 + (2 * Real.sin (s / 2)) ^ 2 / (wb * wb') / ν1 = ω ^ 2 * e1

/-- The correction of the interface under oblique incidence. -/
noncomputable def tiltDelta (ω K2 w1 w0 w2 e1 e0 e2 ν1 ν0 ν2 : ℝ) : ℝ :=
  ω ^ 2 * (w0 * e0 - (w1 * e1 + w2 * e2) / 2) - K2 * (w0 / ν0 - (w1 / ν1 + w2 / ν2) / 2)

/-- The tilted wave on the grid: incoming and reflected to the left of plane `m`, transmitted to the right, with phase `s` per cell along the interface. -/
noncomputable def tiltedWave (a c : Fin 3) (m : ℕ) (s : ℝ) (κ1 κ2 r t : ℂ) : Vec sh := fun p => if p.1 = c then exp (I * s) ^ (p.2 (oth a c) : ℕ) * wave m κ1 κ2 r t (p.2 a) else 0

section
variable {a c : Fin 3} {m : ℕ} {ω s wb wb' w1 w0 w2 e1 e0 e2 μ1 μ2 ν1 ν0 ν2 κ1 : ℝ} {dx : Dx sh} {eps : Vec sh} {mu : Option (Vec sh)}

theorem TiltedReal.solve (T : TiltedReal a c m ω s wb wb' w1 w0 w2 e1 e0 e2 μ1 μ2 ν1 ν0 ν2 κ1 dx eps mu) (κ2 : ℂ)
    (hκ2 : (2 * sin (κ2 / 2) / w2) ^ 2 / μ2 + (((2 * Real.sin (s / 2)) ^ 2 / (wb * wb') / ν2 : ℝ) : ℂ) = ω ^ 2 * e2) (r t : ℂ) :
    LayersFree a ω dx eps mu (tiltedWave a c m s κ1 κ2 r t) ↔
      t = 1 + r ∧ (((Real.sin κ1 / (μ1 * w1) : ℝ) : ℂ) + sin κ2 / (μ2 * w2) + I * (tiltDelta ω ((2 * Real.sin (s / 2)) ^ 2 / (wb * wb')) w1 w0 w2 e1 e0 e2 ν1 ν0 ν2 : ℝ)) * r
        = ((Real.sin κ1 / (μ1 * w1) : ℝ) : ℂ) - sin κ2 / (μ2 * w2) - I * (tiltDelta ω ((2 * Real.sin (s / 2)) ^ 2 / (wb * wb')) w1 w0 w2 e1 e0 e2 ν1 ν0 ν2 : ℝ) := by
  obtain ⟨hwb, hwb', hw1, hw0, hw2⟩ := T.wid
  have nz : ∀ {u : ℝ}, 0 < u → (u : ℂ) ≠ 0 := fun h => ofReal_ne_zero.2 h.ne'
  have hK : (((2 * Real.sin (s / 2)) ^ 2 / (wb * wb') : ℝ) : ℂ) = (2 - exp (I * s) - (exp (I * s))⁻¹) / (wb * wb') := by
    push_cast
    congr 1
    rw [← Complex.exp_neg]
    have h2 : Complex.cos (s : ℂ) = (exp (I * s) + exp (-(I * s))) / 2 := by rw [Complex.cos, mul_comm (s : ℂ) I, neg_mul, mul_comm (s : ℂ) I]
    have h3 := cos_half (s : ℂ)
    linear_combination 2 * h3 - 2 * h2
  have hζ : exp (I * s) ^ sh (oth a c) = 1 := by
    obtain ⟨k, hk⟩ := T.period
    rw [← Complex.exp_nat_mul]
    refine Complex.exp_eq_one_iff.2 ⟨k, ?_⟩
    have : ((sh (oth a c) : ℂ)) * s = 2 * Real.pi * k := by exact_mod_cast hk
    linear_combination I * this
  have key := C167_interface (ζ := exp (I * s)) (ω := ω) T.step T.pol T.nonempty T.room.1 T.room.2 (nz T.freq) hζ (nz hw1) (nz hw0) (nz hw2) (nz T.mag.1) (nz T.mag.2)
    (((2 * Real.sin (s / 2)) ^ 2 / (wb * wb') : ℝ) : ℂ) κ1 κ2 hK (by have := T.disp; exact_mod_cast this) (by rw [← hκ2]; push_cast; ring) r t
    (tiltedWave a c m s κ1 κ2 r t) (fun d x => rfl)
  rw [LayersFree, key, tiltDelta]
  push_cast
  rfl

/-- **C167.** Power under oblique incidence: with a propagating wave on the second side there is exactly one pair of reflected and transmitted waves, and all the power of the incoming wave
leaves the interface in them. -/
theorem C167_power (T : TiltedReal a c m ω s wb wb' w1 w0 w2 e1 e0 e2 μ1 μ2 ν1 ν0 ν2 κ1 dx eps mu) (κ2 : ℝ) (h0 : 0 < κ2) (hπ : κ2 < Real.pi)
    (hκ2 : (2 * Real.sin (κ2 / 2) / w2) ^ 2 / μ2 + (2 * Real.sin (s / 2)) ^ 2 / (wb * wb') / ν2 = ω ^ 2 * e2) :
    ∃ r t : ℂ, (∀ r' t', LayersFree a ω dx eps mu (tiltedWave a c m s κ1 κ2 r' t') ↔ r' = r ∧ t' = t) ∧
      Real.sin κ1 / (μ1 * w1) * (1 - ‖r‖ ^ 2) = Real.sin κ2 / (μ2 * w2) * ‖t‖ ^ 2 ∧ t ≠ 0 := by
  obtain ⟨-, -, hw1, -, hw2⟩ := T.wid
  set δ := tiltDelta ω ((2 * Real.sin (s / 2)) ^ 2 / (wb * wb')) w1 w0 w2 e1 e0 e2 ν1 ν0 ν2 with hδ
  have p1 : 0 < Real.sin κ1 / (μ1 * w1) := div_pos (Real.sin_pos_of_pos_of_lt_pi T.incoming.1 T.incoming.2) (mul_pos T.mag.1 hw1)
  have p2 : 0 < Real.sin κ2 / (μ2 * w2) := div_pos (Real.sin_pos_of_pos_of_lt_pi h0 hπ) (mul_pos T.mag.2 hw2)
  have key := T.solve (κ2 : ℂ) (by exact_mod_cast hκ2)
  rw [← hδ] at key
  have e2' : (sin (κ2 : ℂ) / (μ2 * w2) : ℂ) = ((Real.sin κ2 / (μ2 * w2) : ℝ) : ℂ) := by push_cast; rfl
  rw [e2'] at key
  generalize Real.sin κ1 / (μ1 * w1) = S1 at *
  generalize Real.sin κ2 / (μ2 * w2) = S2 at *
  have hD : ((S1 : ℂ) + S2 + I * δ) ≠ 0 := fun h => by
    have := congrArg Complex.re h
    simp at this
    linarith
  have hr : ((S1 : ℂ) + S2 + I * δ) * ((S1 - S2 - I * δ) / (S1 + S2 + I * δ)) = S1 - S2 - I * δ := mul_div_cancel₀ _ hD
  refine ⟨(S1 - S2 - I * δ) / (S1 + S2 + I * δ), 1 + (S1 - S2 - I * δ) / (S1 + S2 + I * δ), fun r' t' => ?_, ?_, fun h => ?_⟩
  · rw [key]
    constructor
    · rintro ⟨h1, h2⟩
      have : r' = (S1 - S2 - I * δ) / (S1 + S2 + I * δ) := by rw [eq_div_iff hD, ← h2]; ring
      exact ⟨this, by rw [h1, this]⟩
    · rintro ⟨rfl, rfl⟩
      exact ⟨rfl, hr⟩
  · have := (Interface.power S1 S2 δ p1 p2 _ _ rfl hr).1
    rw [div_mul_eq_mul_div] at this
    have h2 := congrArg (S1 * ·) this
    simp only [mul_add, mul_div_cancel₀ _ p1.ne'] at h2
    linarith
  · have h' := hr
    rw [show (S1 - S2 - I * δ) / (S1 + S2 + I * δ) = (-1 : ℂ) by linear_combination h] at h'
    have := congrArg Complex.re h'
    simp at this
    linarith

/-- **C167.** Total internal reflection on the grid. If the transverse wavenumber exceeds what the second medium can carry, the field there decays by `e^{-q}` per cell, and exactly one reflected wave
goes with it: it has the amplitude of the incoming one. The field does reach into the second medium. -/
theorem C167_total (T : TiltedReal a c m ω s wb wb' w1 w0 w2 e1 e0 e2 μ1 μ2 ν1 ν0 ν2 κ1 dx eps mu) (hcut : ω ^ 2 * e2 < (2 * Real.sin (s / 2)) ^ 2 / (wb * wb') / ν2) :
    ∃ q : ℝ, 0 < q ∧ (2 * Real.sinh (q / 2) / w2) ^ 2 / μ2 = (2 * Real.sin (s / 2)) ^ 2 / (wb * wb') / ν2 - ω ^ 2 * e2 ∧
      ∃ r t : ℂ, (∀ r' t', LayersFree a ω dx eps mu (tiltedWave a c m s κ1 (-I * q) r' t') ↔ r' = r ∧ t' = t) ∧ ‖r‖ = 1 ∧ t ≠ 0 := by
  obtain ⟨-, -, hw1, -, hw2⟩ := T.wid
  set G := (2 * Real.sin (s / 2)) ^ 2 / (wb * wb') / ν2 - ω ^ 2 * e2 with hG
  have hG0 : 0 < G := sub_pos.2 hcut
  have hq : (2 * Real.sinh ((2 * Real.arsinh (w2 * Real.sqrt (G * μ2) / 2)) / 2) / w2) ^ 2 / μ2 = G := by
    rw [mul_div_cancel_left₀ _ (two_ne_zero' ℝ), Real.sinh_arsinh, show 2 * (w2 * Real.sqrt (G * μ2) / 2) / w2 = Real.sqrt (G * μ2) by field_simp, Real.sq_sqrt (mul_pos hG0 T.mag.2).le,
      mul_div_cancel_right₀ _ T.mag.2.ne']
  have hq0 : 0 < 2 * Real.arsinh (w2 * Real.sqrt (G * μ2) / 2) :=
    mul_pos two_pos (Real.arsinh_pos_iff.2 (div_pos (mul_pos hw2 (Real.sqrt_pos.2 (mul_pos hG0 T.mag.2))) two_pos))
  refine ⟨_, hq0, hq, ?_⟩
  generalize 2 * Real.arsinh (w2 * Real.sqrt (G * μ2) / 2) = q at hq hq0
  set δ := tiltDelta ω ((2 * Real.sin (s / 2)) ^ 2 / (wb * wb')) w1 w0 w2 e1 e0 e2 ν1 ν0 ν2 with hδ
  have p1 : 0 < Real.sin κ1 / (μ1 * w1) := div_pos (Real.sin_pos_of_pos_of_lt_pi T.incoming.1 T.incoming.2) (mul_pos T.mag.1 hw1)
  have hsin : ∀ u : ℝ, Complex.sin (-I * u) = -I * (Real.sinh u : ℝ) := fun u => by
    rw [show -I * (u : ℂ) = -((u : ℂ) * I) by ring, Complex.sin_neg, Complex.sin_mul_I]; push_cast; ring
  have key := T.solve (-I * q) (by
    rw [show -I * (q : ℂ) / 2 = -I * ((q / 2 : ℝ) : ℂ) by push_cast; ring, hsin]
    have hq' : ((2 * Real.sinh (q / 2) / w2) ^ 2 / μ2 : ℂ) = ((G : ℝ) : ℂ) := by rw [← hq]; push_cast; rfl
    have hG' : ((G : ℝ) : ℂ) = (((2 * Real.sin (s / 2)) ^ 2 / (wb * wb') / ν2 : ℝ) : ℂ) - ω ^ 2 * e2 := by rw [hG]; push_cast; ring
    have : (2 * (-I * ((Real.sinh (q / 2) : ℝ) : ℂ)) / w2) ^ 2 / μ2 = -((2 * Real.sinh (q / 2) / w2) ^ 2 / μ2 : ℂ) := by
      linear_combination ((2 * ((Real.sinh (q / 2) : ℝ) : ℂ) / w2) ^ 2 / μ2) * I_sq
    rw [this, hq', hG']
    ring)
  rw [← hδ, hsin] at key
  generalize Real.sin κ1 / (μ1 * w1) = S1 at *
  obtain ⟨σ, hσ⟩ : ∃ σ : ℝ, (-I * (Real.sinh q : ℝ) / (μ2 * w2) : ℂ) = -I * σ := ⟨Real.sinh q / (μ2 * w2), by push_cast; ring⟩
  rw [hσ] at key
  have hD : ((S1 : ℂ) + -I * σ + I * δ) ≠ 0 := fun h => by
    have := congrArg Complex.re h
    simp at this
    linarith
  have hr : ((S1 : ℂ) + -I * σ + I * δ) * ((S1 - -I * σ - I * δ) / (S1 + -I * σ + I * δ)) = S1 - -I * σ - I * δ := mul_div_cancel₀ _ hD
  refine ⟨(S1 - -I * σ - I * δ) / (S1 + -I * σ + I * δ), 1 + (S1 - -I * σ - I * δ) / (S1 + -I * σ + I * δ), fun r' t' => ?_, ?_, fun h => ?_⟩
  · rw [key]
    constructor
    · rintro ⟨h1, h2⟩
      have : r' = (S1 - -I * σ - I * δ) / (S1 + -I * σ + I * δ) := by rw [eq_div_iff hD, ← h2]; ring
      exact ⟨this, by rw [h1, this]⟩
    · rintro ⟨rfl, rfl⟩
      exact ⟨rfl, hr⟩
  · have hconj : (S1 - -I * σ - I * δ : ℂ) = (starRingEnd ℂ) (S1 + -I * σ + I * δ) := by simp [conj_ofReal]; ring
    rw [norm_div, hconj, RCLike.norm_conj, div_self (norm_ne_zero_iff.2 hD)]
  · have h' := hr
    rw [show (S1 - -I * σ - I * δ) / (S1 + -I * σ + I * δ) = (-1 : ℂ) by linear_combination h] at h'
    have := congrArg Complex.re h'
    simp at this
    linarith

end

/-- **C167.** Every passive stack of layers scatters obliquely incident waves: for all incoming waves from the two sides there is a field on the grid, polarised along the layers, free of sources in all
components, and the outgoing waves are unique. -/
theorem C167_scattering {a c : Fin 3} {l m : ℕ} {ω w1 e1 μ1 w2 e2 μ2 κ1 κ2 : ℝ} {ζ wb wb' : ℂ} {χ : Idx sh → ℂ} {dx : Dx sh} {eps : Vec sh} {mu : Option (Vec sh)}
    {d' : DxList sh' ℝ × DxList sh' ℝ} {eps' : Vec sh'} {mur' : Option (Pos sh' → ℝ)}
    (O : Oblique a c ω ζ wb wb' χ dx eps mu (cDx d') eps' (realMu mur')) (hsh : ∀ d, 0 < sh d) (hχ : ∀ x, χ x ≠ 0) (hl : ∀ E' : Vec sh', ∃ E : Vec sh, Lifts a c χ E E')
    (R : RealStack a c l m ω w1 e1 μ1 w2 e2 μ2 κ1 κ2 d' eps' mur') (hp : Passive a c l m eps') (A D : ℂ) :
    ∃! o : ℂ × ℂ, ∃ (E : Vec sh) (E' : Vec sh'), Lifts a c χ E E' ∧ LayersFree a ω dx eps mu E ∧ Ports a c l m κ1 κ2 E' A o.1 o.2 D := by
  obtain ⟨o, ⟨E', hE', hP⟩, hu⟩ := C161_scattering R hp A D
  obtain ⟨E, hE⟩ := hl E'
  refine ⟨o, ⟨E, E', hE, (inner_iff O hsh hχ hE).2 hE', hP⟩, ?_⟩
  rintro o' ⟨E1, E1', h1, h2, h3⟩
  exact hu o' ⟨E1', (inner_iff O hsh hχ h1).1 h2, h3⟩

/-- **C167.** The other polarisation. For the magnetic field along `c`, `h_full` reduces in the same way to the row of the dual grid, with permittivity and permeability exchanged. -/
theorem C167_tm {a c : Fin 3} (hc : c ≠ a) (hsh : ∀ d, 0 < sh d) {ω ζ wb wb' : ℂ} (hω : ω ≠ 0) (hζ : ζ ^ sh (oth a c) = 1) {dx : Dx sh} (hb : ∀ i, dx.1 (oth a c) i = wb ∧ dx.2 (oth a c) i = wb')
    {eps : Vec sh} {mu : Option (Vec sh)} (he : Layered a eps) (hm : Layered a (mu.getD 1)) {H : Vec sh} {H' : Vec (rowSh sh a)} (hH : Lifts a c (tilt (oth a c) ζ) (vE H) H')
    (x : Idx sh) (x' : Idx (rowSh sh a)) (hx : (x a : ℕ) = x' a) :
    (hFull ω dx eps mu none none *ᵥ H) (c, iE c x) = tilt (oth a c) ζ x * (eFull ω (rowDx a (dualDx dx)) (rowEps hsh a ω ((2 - ζ - ζ⁻¹) / (wb' * wb)) (vE (mu.getD 1)) (some (vH eps)))
        (some (rowMu hsh a (some (vH eps)))) none none *ᵥ H') (c, x') ∧
      ∀ d, d ≠ c → (hFull ω dx eps mu none none *ᵥ H) (d, iE d x) = 0 := by
  have hback : ∀ (S : Fin 3 → Bool) (y z : Idx sh), y a = z a → Duality.back S y a = Duality.back S z a := fun S y z h => by simp [Duality.back, h]
  have O := (C167_row hc hsh hω hζ (dx := dualDx dx) (wb := wb') (wb' := wb) (fun i => ⟨(hb i).2, (hb _).1⟩) (eps := vE (mu.getD 1)) (mu := some (vH eps))
    (fun d y z h => hm d _ _ (hback _ y z h)) (fun d y z h => he d _ _ (hback _ y z h))).1
  have key := C167_reduction O hH x x' hx
  have h147 := C147_h_full ω dx eps mu none none H
  simp only [Option.map_none] at h147
  rw [h147] at key
  exact key

/-- Permittivity of the example: 3 before plane 3, 5/2 in plane 3, `e2` behind it. -/
noncomputable def tiltEps (e2 : ℝ) : Vec ![8, 1, 4] := fun p => if (p.2 0 : ℕ) < 3 then 3 else if (p.2 0 : ℕ) = 3 then (5 / 2 : ℝ) else e2

theorem tilt_case (e2 : ℝ) : TiltedReal (sh := ![8, 1, 4]) 0 1 3 1 (Real.pi / 2) 1 1 1 1 1 3 (5 / 2) e2 1 1 1 1 1 (Real.pi / 3) (fun _ _ => 1, fun _ _ => 1) (tiltEps e2) none := by
  have hp := Real.pi_pos
  have ho : oth 0 1 = 2 := by decide
  refine ⟨⟨⟨fun i => ?_, fun i => ?_, fun x => ?_, fun x => ?_⟩, fun x => ?_, fun i => ?_⟩, by decide, by decide, by decide, ⟨1, ?_⟩, one_pos, by simp, by simp, ⟨by positivity, by linarith⟩, ?_⟩
  · simp
  · simp
  · simp [tiltEps]
  · simp
  · simp
  · simp
  · rw [ho]; show ((4 : ℕ) : ℝ) * _ = _; push_cast; ring
  · rw [show Real.pi / 3 / 2 = Real.pi / 6 by ring, Real.sin_pi_div_six, show Real.pi / 2 / 2 = Real.pi / 4 by ring, Real.sin_pi_div_four,
      show (2 * (Real.sqrt 2 / 2)) ^ 2 = Real.sqrt 2 ^ 2 by ring, Real.sq_sqrt (by norm_num)]
    norm_num

/-- **C167.** A wave that hits the plane obliquely from a medium of permittivity 3: with permittivity 1 behind the plane it is totally reflected, with permittivity 4 part of it goes through. -/
theorem C167_case :
    (∃ q : ℝ, 0 < q ∧ ∃ r t : ℂ, LayersFree (sh := ![8, 1, 4]) 0 (1 : ℝ) (fun _ _ => 1, fun _ _ => 1) (tiltEps 1) none (tiltedWave 0 1 3 (Real.pi / 2) (Real.pi / 3 : ℝ) (-I * q) r t) ∧ ‖r‖ = 1 ∧ t ≠ 0) ∧
    ∃ r t : ℂ, LayersFree (sh := ![8, 1, 4]) 0 (1 : ℝ) (fun _ _ => 1, fun _ _ => 1) (tiltEps 4) none (tiltedWave 0 1 3 (Real.pi / 2) (Real.pi / 3 : ℝ) (Real.pi / 2 : ℝ) r t) ∧ ‖r‖ < 1 ∧ t ≠ 0 := by
  have hp := Real.pi_pos
  have h4 : (2 * Real.sin (Real.pi / 2 / 2)) ^ 2 = 2 := by
    rw [show Real.pi / 2 / 2 = Real.pi / 4 by ring, Real.sin_pi_div_four, mul_div_cancel₀ _ (two_ne_zero' ℝ), Real.sq_sqrt (by norm_num)]
  constructor
  · obtain ⟨q, hq, -, r, t, h, h1, h2⟩ := C167_total (tilt_case 1) (by rw [h4]; norm_num)
    exact ⟨q, hq, r, t, (h r t).2 ⟨rfl, rfl⟩, h1, h2⟩
  · obtain ⟨r, t, h, h1, h2⟩ := C167_power (tilt_case 4) (Real.pi / 2) (by positivity) (by linarith) (by rw [div_one, h4]; norm_num [h4])
    refine ⟨r, t, (h r t).2 ⟨rfl, rfl⟩, ?_, h2⟩
    have ht : 0 < ‖t‖ ^ 2 := by positivity
    have hs : 0 < Real.sin (Real.pi / 3) := Real.sin_pos_of_pos_of_lt_pi (by positivity) (by linarith)
    rw [Real.sin_pi_div_two] at h1
    simp only [mul_one, div_one, one_mul] at h1
    by_contra hn
    have : 1 ≤ ‖r‖ ^ 2 := one_le_pow₀ (not_lt.1 hn)
    nlinarith

/-- Two absorbing layers under oblique incidence. -/
example (ε3 ε4 : ℂ) (h3 : ε3.im ≤ 0) (h4 : ε4.im ≤ 0) (A D : ℂ) :
    ∃! o : ℂ × ℂ, ∃ (E : Vec ![8, 1, 4]) (E' : Vec ![8, 1, 1]), Lifts 0 1 (tilt 2 I) E E' ∧
      LayersFree 0 (1 : ℝ) (fun _ _ => 1, fun _ _ => 1) (fun q => (if (q.2 0 : ℕ) = 3 then ε3 else if (q.2 0 : ℕ) = 4 then ε4 else 1) + 2) none E ∧
      Ports 0 1 3 4 (Real.pi / 3 : ℝ) (Real.pi / 3 : ℝ) E' A o.1 o.2 D := by
  have hp := Real.pi_pos
  have ho : oth 0 1 = 2 := by decide
  have d1 : (2 * Real.sin (Real.pi / 3 / 2)) ^ 2 = 1 ^ 2 * 1 ^ 2 * 1 * 1 := by
    rw [show Real.pi / 3 / 2 = Real.pi / 6 by ring, Real.sin_pi_div_six]; norm_num
  have O : Oblique (sh := ![8, 1, 4]) (sh' := ![8, 1, 1]) 0 1 (1 : ℝ) I 1 1 (tilt 2 I) (fun _ _ => 1, fun _ _ => 1) (fun q => (if (q.2 0 : ℕ) = 3 then ε3 else if (q.2 0 : ℕ) = 4 then ε4 else 1) + 2) none
      (cDx (fun _ _ => 1, fun _ _ => 1)) (fun q => if (q.2 0 : ℕ) = 3 then ε3 else if (q.2 0 : ℕ) = 4 then ε4 else 1) (realMu (some fun _ => 1)) := by
    refine ⟨by decide, rfl, by decide, I_ne_zero, fun x => ?_, fun d hd x => ?_, fun i => by simp, fun x x' h => by simp [cDx], fun d hd x => rfl, fun x x' h => by simp [realMu], fun x x' h => ?_⟩
    · rw [ho]; exact tilt_step (b := 2) (by show I ^ 4 = 1; exact I_pow_four) x
    · rw [ho] at hd; rw [tilt, tilt, shiftIdx_of_ne hd.symm]
    · simp only [h, Option.getD_none, Pi.one_apply, inv_I]
      push_cast
      ring
  refine C167_scattering (w1 := 1) (w2 := 1) (e1 := 1) (e2 := 1) (μ1 := 1) (μ2 := 1) O (by decide) (fun x => pow_ne_zero _ I_ne_zero) (fun E' => ?_) ⟨⟨by decide, by decide, by norm_num, by norm_num, by decide, fun x hx => ?_, fun x hx => ?_, fun x hx => ?_,
    fun x hx => ?_⟩, ⟨fun _ _ => one_pos, fun _ _ => one_pos⟩, fun p => one_pos, by positivity, by linarith, by positivity, by linarith, d1, d1⟩ ?_ A D
  · refine ⟨fun p => if p.1 = 1 then tilt 2 I p.2 * E' (1, fun d => if h : d = 0 then ⟨p.2 0, by subst h; exact (p.2 0).2⟩ else ⟨0, by revert d; decide⟩) else 0, fun d hd x => if_neg hd, fun x x' h => ?_⟩
    show (if (1 : Fin 3) = 1 then _ else _) = _
    rw [if_pos rfl]
    congr 3
    funext d
    revert d
    refine forall_fin3 (Fin.ext h) ?_ ?_
    · exact Subsingleton.elim (α := Fin 1) _ _
    · exact Subsingleton.elim (α := Fin 1) _ _
  · simp [cDx]
  · simp only [realMu, Option.map_some, Option.getD_some, ofReal_one, and_true]
    rw [if_neg (by omega), if_neg (by omega)]
  · simp [cDx]
  · simp only [realMu, Option.map_some, Option.getD_some, ofReal_one, true_and]
    intro h
    rw [if_neg (by omega), if_neg (by omega)]
  · intro x h1 h2
    by_cases h : (x 0 : ℕ) = 3
    · simp only [h, if_true]; exact h3
    · have h' : (x 0 : ℕ) = 4 := by omega
      simp only [h', if_true]; exact h4

end Meanas.Props
