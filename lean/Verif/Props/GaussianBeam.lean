/-
C87: the gaussian beam of meanas/fdtd/misc.py is the exact paraxial beam.
-/
import Verif.Props.FdtdMisc
import Mathlib.Analysis.Calculus.IteratedDeriv.Defs
import Mathlib.Analysis.SpecialFunctions.Trigonometric.Arctan

namespace Meanas.Props

open Misc Real

variable {nx ny nz : ℕ}

/-- The paraxial gaussian beam with waist radius `w0`, wavelength `wl` and focus at the origin, without the carrier `exp(ikz)`. -/
noncomputable def paraxial (w0 wl x y z : ℝ) : ℂ :=
  (1 / (1 + Complex.I * (z / (π * w0 ^ 2 / wl)))) *
    Complex.exp (-((x ^ 2 + y ^ 2 : ℝ) : ℂ) / ((w0 : ℂ) ^ 2 * (1 + Complex.I * (z / (π * w0 ^ 2 / wl)))))

theorem one_add_I_ne (t : ℝ) : (1 + Complex.I * (t : ℂ)) ≠ 0 := by
  intro h
  have := congrArg Complex.re h
  simp at this

theorem exp_arctan (t : ℝ) : Complex.exp (Complex.I * ((-arctan t : ℝ) : ℂ)) / (Real.sqrt (1 + t ^ 2) : ℝ) = 1 / (1 + Complex.I * t) := by
  have hpos : 0 < 1 + t ^ 2 := by positivity
  have hs : Real.sqrt (1 + t ^ 2) ≠ 0 := (Real.sqrt_pos.2 hpos).ne'
  have hs2 : ((Real.sqrt (1 + t ^ 2) : ℝ) : ℂ) ^ 2 = 1 + (t : ℂ) ^ 2 := by
    rw [← Complex.ofReal_pow, Real.sq_sqrt hpos.le]; push_cast; ring
  have hsc : ((Real.sqrt (1 + t ^ 2) : ℝ) : ℂ) ≠ 0 := Complex.ofReal_ne_zero.2 hs
  have hI : Complex.I ^ 2 = -1 := Complex.I_sq
  rw [mul_comm, Complex.exp_mul_I, ← Complex.ofReal_cos, ← Complex.ofReal_sin, Real.cos_neg, Real.sin_neg, cos_arctan, sin_arctan]
  have := one_add_I_ne t
  push_cast
  rw [div_eq_div_iff hsc this]
  field_simp
  have h3 : ((Real.sqrt (1 + t ^ 2) : ℝ) : ℂ) * ((Real.sqrt (1 + t ^ 2) : ℝ) : ℂ) = 1 + (t : ℂ) ^ 2 := by rw [← hs2]; ring
  linear_combination (-(t : ℂ) ^ 2) * hI - h3

/-- The beam's own transverse coordinate: along `(cos tilt, 0, sin tilt)`. -/
noncomputable def lateral (A : BeamArgs nx ny nz) (i : Fin nx) (k : Fin nz) : ℝ :=
  Real.cos A.tilt * (A.xs i - A.center 0) + Real.sin A.tilt * (A.zs k - A.center 2)

/-- The unnormalised samples are the paraxial beam times the carrier. -/
theorem beamRaw_paraxial (A : BeamArgs nx ny nz) (hw : 0 < A.w0) (hl : 0 < A.wl) (i : Fin nx) (j : Fin ny) (k : Fin nz)
    (hz : depth A i k ≠ 0) :
    beamRaw A i j k = some (Complex.exp (Complex.I * ((2 * π / A.wl * depth A i k : ℝ) : ℂ))
      * paraxial A.w0 A.wl (lateral A i k) (A.ys j - A.center 1) (depth A i k)) := by
  have hzz := beamCoords_depth A i j k
  have hxx : (beamCoords A i j k).1 = lateral A i k := by simp only [beamCoords, lateral]; ring
  have hyy : (beamCoords A i j k).2.1 = A.ys j - A.center 1 := by simp only [beamCoords]; ring
  simp only [beamRaw, hxx, hyy, hzz]
  set z := depth A i k
  set x := lateral A i k
  set y := A.ys j - A.center 1
  have hπ : 0 < π := Real.pi_pos
  have hzr : 0 < π * A.w0 ^ 2 / A.wl := by positivity
  have hzr' : π * A.w0 * A.w0 / A.wl = π * A.w0 ^ 2 / A.wl := by ring
  rw [if_neg (mul_self_ne_zero.2 hz), Option.map_some, hzr']
  congr 1
  set t : ℝ := z / (π * A.w0 ^ 2 / A.wl) with ht
  have htz : z * z / (π * A.w0 ^ 2 / A.wl * (π * A.w0 ^ 2 / A.wl)) = t ^ 2 := by rw [ht, div_pow]; ring
  have hpos : 0 < 1 + t ^ 2 := by positivity
  have hsq : Real.sqrt (A.w0 * A.w0 * (1 + t ^ 2)) = A.w0 * Real.sqrt (1 + t ^ 2) := by
    rw [Real.sqrt_mul (by positivity), Real.sqrt_mul_self hw.le]
  have hs : Real.sqrt (1 + t ^ 2) ≠ 0 := (Real.sqrt_pos.2 hpos).ne'
  rw [htz, hsq, show A.w0 / (A.w0 * Real.sqrt (1 + t ^ 2)) = 1 / Real.sqrt (1 + t ^ 2) by field_simp]
  -- the curvature phase
  have hR : 2 * π / A.wl * (x * x + y * y) / 2 / (z * (1 + π * A.w0 ^ 2 / A.wl * (π * A.w0 ^ 2 / A.wl) / (z * z)))
      = (x ^ 2 + y ^ 2) * t / (A.w0 ^ 2 * (1 + t ^ 2)) := by
    have h1 : z * (1 + π * A.w0 ^ 2 / A.wl * (π * A.w0 ^ 2 / A.wl) / (z * z))
        = (π * A.w0 ^ 2 / A.wl) * (1 + t ^ 2) / t := by
      rw [ht]; field_simp; ring
    have ht0 : t ≠ 0 := div_ne_zero hz hzr.ne'
    rw [h1]; field_simp
  rw [hR]
  have hp : paraxial A.w0 A.wl x y z = (1 / (1 + Complex.I * (t : ℂ)))
      * Complex.exp (-((x ^ 2 + y ^ 2 : ℝ) : ℂ) / ((A.w0 : ℂ) ^ 2 * (1 + Complex.I * (t : ℂ)))) := by
    simp only [paraxial, ht]; push_cast; rfl
  rw [hp, ← exp_arctan]
  have hexp : -((x ^ 2 + y ^ 2 : ℝ) : ℂ) / ((A.w0 : ℂ) ^ 2 * (1 + Complex.I * (t : ℂ)))
      = ((-(x * x + y * y) / (A.w0 * A.w0 * (1 + t ^ 2)) : ℝ) : ℂ)
        + Complex.I * (((x ^ 2 + y ^ 2) * t / (A.w0 ^ 2 * (1 + t ^ 2)) : ℝ) : ℂ) := by
    have h1 := one_add_I_ne t
    have hwc : (A.w0 : ℂ) ≠ 0 := Complex.ofReal_ne_zero.2 hw.ne'
    have h2 : 1 - Complex.I * (t : ℂ) ≠ 0 := by
      have := one_add_I_ne (-t); rwa [Complex.ofReal_neg, mul_neg, ← sub_eq_add_neg] at this
    have h3 : 1 + (t : ℂ) ^ 2 = (1 + Complex.I * t) * (1 - Complex.I * t) := by linear_combination (t : ℂ) ^ 2 * Complex.I_sq
    push_cast
    rw [h3]
    field_simp
    ring
  rw [hexp, Complex.exp_add, ← Complex.ofReal_exp]
  have hsplit : Complex.exp (Complex.I * ((2 * π / A.wl * z + (x ^ 2 + y ^ 2) * t / (A.w0 ^ 2 * (1 + t ^ 2)) - arctan t : ℝ) : ℂ))
      = Complex.exp (Complex.I * ((2 * π / A.wl * z : ℝ) : ℂ)) * Complex.exp (Complex.I * (((x ^ 2 + y ^ 2) * t / (A.w0 ^ 2 * (1 + t ^ 2)) : ℝ) : ℂ))
        * Complex.exp (Complex.I * ((-arctan t : ℝ) : ℂ)) := by
    rw [← Complex.exp_add, ← Complex.exp_add]; congr 1; push_cast; ring
  rw [hsplit]
  push_cast
  ring

/-- C87: wherever `gaussian_beam` is defined it returns samples of one fixed multiple of the paraxial gaussian beam of the given waist and
wavelength, focused at the given centre, with axis tilted about y. -/
theorem C87_samples (A : BeamArgs nx ny nz) (hw : 0 < A.w0) (hl : 0 < A.wl) (hx : 0 < nx) (hy : 0 < ny) (m : Fin nz)
    (hm : (m : ℕ) = nz / 2) (hrow : ∀ i, depth A i m ≠ 0) :
    ∃ N : ℝ, 0 < N ∧ ∀ i j k, depth A i k ≠ 0 → gaussianBeam A i j k
      = some (Complex.exp (Complex.I * ((2 * π / A.wl * depth A i k : ℝ) : ℂ))
        * paraxial A.w0 A.wl (lateral A i k) (A.ys j - A.center 1) (depth A i k) / N) := by
  have hlt : nz / 2 < nz := hm ▸ m.isLt
  have hm' : (⟨nz / 2, hlt⟩ : Fin nz) = m := Fin.ext hm.symm
  have hsome : ∀ i j, (beamRaw A i j m).isSome = true := fun i j => (beamRaw_isSome A i j m).2 (hrow i)
  have hn : beamNorm A = some (Real.sqrt (∑ i, ∑ j, Complex.normSq ((beamRaw A i j m).getD 0))) := by
    unfold beamNorm; rw [dif_pos hlt, hm', if_pos hsome]
  have hpos : 0 < Real.sqrt (∑ i, ∑ j, Complex.normSq ((beamRaw A i j m).getD 0)) := by
    apply Real.sqrt_pos.2
    have hpos : ∀ i j, 0 < Complex.normSq ((beamRaw A i j m).getD 0) := by
      intro i j
      obtain ⟨g, hg⟩ := Option.isSome_iff_exists.1 (hsome i j)
      rw [hg]; exact Complex.normSq_pos.2 (beamRaw_ne_zero A hw i j m g hg)
    exact Finset.sum_pos (fun i _ => Finset.sum_pos (fun j _ => hpos i j) ⟨⟨0, hy⟩, Finset.mem_univ _⟩) ⟨⟨0, hx⟩, Finset.mem_univ _⟩
  refine ⟨_, hpos, fun i j k hz => ?_⟩
  unfold gaussianBeam
  rw [hn, beamRaw_paraxial A hw hl i j k hz]
  simp only [if_neg hpos.ne']

theorem second_deriv_gauss (c b : ℂ) (x : ℝ) :
    iteratedDeriv 2 (fun x : ℝ => c * Complex.exp (-(x : ℂ) ^ 2 * b)) x
      = c * Complex.exp (-(x : ℂ) ^ 2 * b) * (4 * x ^ 2 * b ^ 2 - 2 * b) := by
  have h1 : ∀ x : ℝ, HasDerivAt (fun x : ℝ => c * Complex.exp (-(x : ℂ) ^ 2 * b)) (c * Complex.exp (-(x : ℂ) ^ 2 * b) * (-2 * x * b)) x := by
    intro x
    have h0 : HasDerivAt (fun x : ℂ => c * Complex.exp (-x ^ 2 * b)) (c * Complex.exp (-(x : ℂ) ^ 2 * b) * (-2 * x * b)) (x : ℂ) := by
      have := ((((hasDerivAt_id (x : ℂ)).pow 2).neg.mul_const b).cexp).const_mul c
      refine this.congr_deriv ?_
      simp; ring
    exact h0.comp_ofReal
  have h2 : HasDerivAt (fun x : ℝ => c * Complex.exp (-(x : ℂ) ^ 2 * b) * (-2 * x * b))
      (c * Complex.exp (-(x : ℂ) ^ 2 * b) * (4 * x ^ 2 * b ^ 2 - 2 * b)) x := by
    have h3 : HasDerivAt (fun x : ℝ => (-2 * (x : ℂ) * b)) (-2 * b) x := by
      have : HasDerivAt (fun x : ℂ => (-2 * x * b)) (-2 * b) (x : ℂ) := by
        have := ((hasDerivAt_id (x : ℂ)).const_mul (-2)).mul_const b
        simpa using this
      exact this.comp_ofReal
    refine ((h1 x).mul h3).congr_deriv ?_
    ring
  rw [iteratedDeriv_succ, iteratedDeriv_one]
  have : deriv (fun x : ℝ => c * Complex.exp (-(x : ℂ) ^ 2 * b)) = fun x : ℝ => c * Complex.exp (-(x : ℂ) ^ 2 * b) * (-2 * x * b) :=
    funext fun x => (h1 x).deriv
  rw [this]
  exact h2.deriv

/-- C87: that beam solves the paraxial Helmholtz equation `∂²u/∂x² + ∂²u/∂y² + 2ik ∂u/∂z = 0`, `k = 2π/λ`, everywhere. -/
theorem C87_paraxial_equation (w0 wl : ℝ) (hw : 0 < w0) (hl : 0 < wl) (x y z : ℝ) :
    iteratedDeriv 2 (fun x => paraxial w0 wl x y z) x + iteratedDeriv 2 (fun y => paraxial w0 wl x y z) y
      + 2 * Complex.I * (2 * π / wl : ℝ) * deriv (fun z => paraxial w0 wl x y z) z = 0 := by
  have hπ : (π : ℂ) ≠ 0 := Complex.ofReal_ne_zero.2 Real.pi_ne_zero
  have hwc : (w0 : ℂ) ≠ 0 := Complex.ofReal_ne_zero.2 hw.ne'
  have hlc : (wl : ℂ) ≠ 0 := Complex.ofReal_ne_zero.2 hl.ne'
  set zr : ℂ := π * w0 ^ 2 / wl with hzr
  have hzr0 : zr ≠ 0 := div_ne_zero (mul_ne_zero hπ (pow_ne_zero _ hwc)) hlc
  have hq : ∀ z : ℝ, 1 + Complex.I * (z / zr) ≠ 0 := by
    intro z
    have := one_add_I_ne (z / (π * w0 ^ 2 / wl))
    rw [hzr]; push_cast at this; exact this
  set q : ℂ := 1 + Complex.I * (z / zr) with hqd
  have hq0 : q ≠ 0 := hq z
  set u : ℂ := paraxial w0 wl x y z with hu
  have hx : iteratedDeriv 2 (fun x => paraxial w0 wl x y z) x = u * (4 * x ^ 2 * (1 / (w0 ^ 2 * q)) ^ 2 - 2 * (1 / (w0 ^ 2 * q))) := by
    have hf : ∀ x' : ℝ, paraxial w0 wl x' y z = (1 / q * Complex.exp (-(y : ℂ) ^ 2 * (1 / (w0 ^ 2 * q)))) * Complex.exp (-(x' : ℂ) ^ 2 * (1 / (w0 ^ 2 * q))) := by
      intro x'
      rw [mul_assoc, ← Complex.exp_add, paraxial, ← hzr, ← hqd]
      congr 2; push_cast; ring
    rw [funext hf, second_deriv_gauss, ← hf]
  have hy : iteratedDeriv 2 (fun y => paraxial w0 wl x y z) y = u * (4 * y ^ 2 * (1 / (w0 ^ 2 * q)) ^ 2 - 2 * (1 / (w0 ^ 2 * q))) := by
    have hf : ∀ y' : ℝ, paraxial w0 wl x y' z = (1 / q * Complex.exp (-(x : ℂ) ^ 2 * (1 / (w0 ^ 2 * q)))) * Complex.exp (-(y' : ℂ) ^ 2 * (1 / (w0 ^ 2 * q))) := by
      intro y'
      rw [mul_assoc, ← Complex.exp_add, paraxial, ← hzr, ← hqd]
      congr 2; push_cast; ring
    rw [funext hf, second_deriv_gauss, ← hf]
  have hz : HasDerivAt (fun z => paraxial w0 wl x y z)
      (u * (Complex.I / zr) * (-(1 / q) + (x ^ 2 + y ^ 2) / (w0 ^ 2 * q ^ 2))) z := by
    have hqz : HasDerivAt (fun z : ℂ => 1 + Complex.I * (z / zr)) (Complex.I / zr) (z : ℂ) := by
      have := (((hasDerivAt_id (z : ℂ)).div_const zr).const_mul Complex.I).const_add 1
      refine this.congr_deriv ?_
      ring
    have h1 : HasDerivAt (fun z : ℂ => (1 + Complex.I * (z / zr))⁻¹) (-(Complex.I / zr) / q ^ 2) (z : ℂ) := hqz.inv (hq z)
    have h2 : HasDerivAt (fun z : ℂ => Complex.exp (-((x ^ 2 + y ^ 2 : ℝ) : ℂ) / (w0 : ℂ) ^ 2 * (1 + Complex.I * (z / zr))⁻¹))
        (Complex.exp (-((x ^ 2 + y ^ 2 : ℝ) : ℂ) / (w0 : ℂ) ^ 2 * q⁻¹) * (-((x ^ 2 + y ^ 2 : ℝ) : ℂ) / (w0 : ℂ) ^ 2 * (-(Complex.I / zr) / q ^ 2)))
        (z : ℂ) := (h1.const_mul _).cexp
    have h3 := (h1.mul h2).comp_ofReal
    have hf : (fun z : ℝ => paraxial w0 wl x y z) = fun z : ℝ => (1 + Complex.I * (z / zr))⁻¹
        * Complex.exp (-((x ^ 2 + y ^ 2 : ℝ) : ℂ) / (w0 : ℂ) ^ 2 * (1 + Complex.I * (z / zr))⁻¹) := by
      funext z'
      rw [paraxial, ← hzr, one_div, div_mul_eq_div_div, div_eq_mul_inv _ (1 + Complex.I * (z' / zr))]
    rw [hf]
    refine h3.congr_deriv ?_
    have hu' : u = q⁻¹ * Complex.exp (-((x ^ 2 + y ^ 2 : ℝ) : ℂ) / (w0 : ℂ) ^ 2 * q⁻¹) := congrFun hf z
    rw [hu']
    push_cast
    generalize Complex.exp (-((x : ℂ) ^ 2 + y ^ 2) / (w0 : ℂ) ^ 2 * q⁻¹) = ex
    rw [← hqd]
    field_simp
  rw [hx, hy, hz.deriv]
  have hI : Complex.I ^ 2 = -1 := Complex.I_sq
  have hk : ((2 * π / wl : ℝ) : ℂ) = 2 * zr / w0 ^ 2 := by rw [hzr]; push_cast; field_simp
  rw [hk]
  field_simp
  linear_combination (4 * u * (x ^ 2 + y ^ 2 - w0 ^ 2 * q)) * hI

/-- C87: intensity falls to `e^{-2}` of its axial value at the distance `w(z) = w0·sqrt(1 + (z/z_R)²)` from the axis. -/
theorem C87_radius (w0 wl : ℝ) (hw : 0 < w0) (_hl : 0 < wl) (x y z : ℝ) :
    Complex.normSq (paraxial w0 wl x y z) = Complex.normSq (paraxial w0 wl 0 0 z)
      * Real.exp (-2 * (x ^ 2 + y ^ 2) / (w0 ^ 2 * (1 + (z / (π * w0 ^ 2 / wl)) ^ 2))) := by
  set t : ℝ := z / (π * w0 ^ 2 / wl) with ht
  have hp : ∀ x y : ℝ, paraxial w0 wl x y z = (1 / (1 + Complex.I * (t : ℂ)))
      * Complex.exp (-((x ^ 2 + y ^ 2 : ℝ) : ℂ) / ((w0 : ℂ) ^ 2 * (1 + Complex.I * (t : ℂ)))) := by
    intro x y; simp only [paraxial, ht]; push_cast; rfl
  rw [hp, hp, Complex.normSq_mul, Complex.normSq_mul]
  have h0 : Complex.exp (-(((0 : ℝ) ^ 2 + (0 : ℝ) ^ 2 : ℝ) : ℂ) / ((w0 : ℂ) ^ 2 * (1 + Complex.I * (t : ℂ)))) = 1 := by simp
  rw [h0, Complex.normSq_one, mul_one]
  congr 1
  rw [Complex.normSq_eq_norm_sq, Complex.norm_exp, ← Real.exp_nat_mul]
  congr 1
  have hre : (-((x ^ 2 + y ^ 2 : ℝ) : ℂ) / ((w0 : ℂ) ^ 2 * (1 + Complex.I * (t : ℂ)))).re
      = -(x ^ 2 + y ^ 2) / (w0 ^ 2 * (1 + t ^ 2)) := by
    have h1 := one_add_I_ne t
    have h2 : 1 - Complex.I * (t : ℂ) ≠ 0 := by
      have := one_add_I_ne (-t); rwa [Complex.ofReal_neg, mul_neg, ← sub_eq_add_neg] at this
    have hwc : (w0 : ℂ) ≠ 0 := Complex.ofReal_ne_zero.2 hw.ne'
    have h3 : -((x ^ 2 + y ^ 2 : ℝ) : ℂ) / ((w0 : ℂ) ^ 2 * (1 + Complex.I * (t : ℂ)))
        = ((-(x ^ 2 + y ^ 2) / (w0 ^ 2 * (1 + t ^ 2)) : ℝ) : ℂ) * (1 - Complex.I * t) := by
      have h3 : 1 + (t : ℂ) ^ 2 = (1 + Complex.I * t) * (1 - Complex.I * t) := by linear_combination (t : ℂ) ^ 2 * Complex.I_sq
      push_cast
      rw [h3]; field_simp
    rw [h3, Complex.re_ofReal_mul]; simp
  rw [hre]; push_cast; ring

-- C87, hypotheses are met: a tilted beam on a 2×2×2 grid that avoids the waist plane.
example : ∃ A : BeamArgs 2 2 2, 0 < A.w0 ∧ 0 < A.wl ∧ A.tilt ≠ 0 ∧ ∀ i k, depth A i k ≠ 0 := by
  refine ⟨{ xs := fun i => -(i : ℕ), ys := fun j => (j : ℕ), zs := fun k => (k : ℕ) + 1, center := 0, w0 := 1, wl := 1, tilt := π / 2 / 2 },
    by norm_num, by norm_num, by positivity, fun i k => ?_⟩
  have hc : 0 < Real.cos (π / 2 / 2) := by rw [show π / 2 / 2 = π / 4 by ring, Real.cos_pi_div_four]; positivity
  have hs : 0 < Real.sin (π / 2 / 2) := by rw [show π / 2 / 2 = π / 4 by ring, Real.sin_pi_div_four]; positivity
  simp only [depth, Pi.zero_apply, sub_zero]
  have h1 : 0 < Real.cos (π / 2 / 2) * ((k : ℕ) + 1) := by positivity
  have h2 : 0 ≤ Real.sin (π / 2 / 2) * (i : ℕ) := by positivity
  nlinarith

end Meanas.Props
