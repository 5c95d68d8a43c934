/-
C146 (reflection at a planar interface on the grid: of media, of cell widths, of an absorbing layer).
-/
import Verif.Props.ScpmlLossy
import Mathlib.Analysis.SpecialFunctions.Trigonometric.Basic

namespace Meanas.Props

open Matrix Complex Fdfd Spec ScpmlLossy

variable {sh : Fin 3 → ℕ}

namespace Interface

/-- Two uniform half spaces that meet at the E plane number `m` of axis `a`: widths, permittivity, permeability to the left and to the right; the plane
itself has its own dual width `w0` and permittivity `e0`. -/
structure Step (a c : Fin 3) (m : ℕ) (w1 w0 w2 e1 e0 e2 μ1 μ2 : ℂ) (dx : Dx sh) (eps : Vec sh) (mu : Option (Vec sh)) : Prop where
  edge : ∀ i : Fin (sh a), dx.1 a i = if (i : ℕ) < m then w1 else w2
  dual : ∀ i : Fin (sh a), dx.2 a i = if (i : ℕ) < m then w1 else if (i : ℕ) = m then w0 else w2
  perm : ∀ x : Idx sh, eps (c, x) = if (x a : ℕ) < m then e1 else if (x a : ℕ) = m then e0 else e2
  mag : ∀ x : Idx sh, (mu.getD 1) (oth a c, x) = if (x a : ℕ) < m then μ1 else μ2

/-- Incident wave of amplitude 1 and reflected wave to the left of plane `m`, transmitted wave from `m` on (`e^{+iωt}`: `e^{-iκx}` travels to the right). `κ` is
the phase per cell. -/
noncomputable def wave (m : ℕ) (κ1 κ2 r t : ℂ) (i : ℕ) : ℂ :=
  if i < m then exp (-I * κ1 * ((i : ℂ) - m)) + r * exp (I * κ1 * ((i : ℂ) - m)) else t * exp (-I * κ2 * ((i : ℂ) - m))

theorem shift_up {a : Fin 3} {x : Idx sh} (h : (x a : ℕ) + 1 < sh a) : ((shiftIdx a 1 x a : Fin _) : ℕ) = x a + 1 := by
  rw [shiftIdx_same]; zify; rw [wrap_val]; exact Int.emod_eq_of_lt (by omega) (by omega)

theorem shift_down {a : Fin 3} {x : Idx sh} (h : 0 < (x a : ℕ)) : ((shiftIdx a (-1) x a : Fin _) : ℕ) = x a - 1 := by
  have := (x a).isLt
  rw [shiftIdx_same]; zify [Nat.one_le_iff_ne_zero.2 h.ne']; rw [wrap_val]
  exact Int.emod_eq_of_lt (by omega) (by omega)

/-- The difference equation in an inner cell. -/
theorem cell {a c : Fin 3} (hc : c ≠ a) (hth : ∀ b, b ≠ a → sh b = 1) (ω : ℂ) (dx : Dx sh) (eps : Vec sh) (mu : Option (Vec sh)) {E : Vec sh} {F : ℕ → ℂ}
    (hE : ∀ x : Idx sh, E (c, x) = F (x a)) (x : Idx sh) (h0 : 0 < (x a : ℕ)) (h1 : (x a : ℕ) + 1 < sh a) :
    (eFull ω dx eps mu none none *ᵥ E) (c, x) =
      -(((F (x a + 1) - F (x a)) / dx.1 a (x a) / (mu.getD 1) (oth a c, x)
        - (F (x a) - F (x a - 1)) / dx.1 a (shiftIdx a (-1) x a) / (mu.getD 1) (oth a c, shiftIdx a (-1) x)) / dx.2 a (x a)) - ω ^ 2 * (eps (c, x) * F (x a)) := by
  have hV : muV mu = mu.getD 1 := by cases mu <;> rfl
  rw [eFull_1d a hth, if_neg hc]
  simp only [flux1, hE, hV, shiftIdx_shiftIdx, neg_add_cancel, shiftIdx_zero, shift_up h1, shift_down h0]

theorem two_cos (κ A B u : ℂ) :
    (A * exp (-I * κ * (u + 1)) + B * exp (I * κ * (u + 1))) + (A * exp (-I * κ * (u - 1)) + B * exp (I * κ * (u - 1)))
      = 2 * cos κ * (A * exp (-I * κ * u) + B * exp (I * κ * u)) := by
  rw [show -I * κ * (u + 1) = -I * κ * u + -(κ * I) by ring, show I * κ * (u + 1) = I * κ * u + κ * I by ring, show -I * κ * (u - 1) = -I * κ * u + κ * I by ring,
    show I * κ * (u - 1) = I * κ * u + -(κ * I) by ring, exp_add, exp_add, exp_add, exp_add, cos, neg_mul κ I]
  ring

theorem cos_half (κ : ℂ) : cos κ = 1 - (2 * sin (κ / 2)) ^ 2 / 2 := by
  have h := cos_two_mul (κ / 2)
  have h2 := sin_sq (κ / 2)
  rw [show 2 * (κ / 2) = κ by ring] at h
  rw [h, mul_pow, h2]; ring

end Interface

open Interface

/-- C146: reflection and transmission at an interface. Incident, reflected and transmitted wave satisfy the FDFD equation in every inner cell if and only if
`t = 1 + r` and `(S₁ + S₂ + iδ) r = S₁ - S₂ - iδ`, with `S = sin κ / (μ w)` and `δ = ω² (w₀ε₀ - (w₁ε₁ + w₂ε₂)/2)`. -/
theorem C146_interface (a c : Fin 3) (hc : c ≠ a) (hth : ∀ b, b ≠ a → sh b = 1) (ω : ℂ) (m : ℕ) (hm : 2 ≤ m) (hm' : m + 1 < sh a)
    (w1 w0 w2 e1 e0 e2 μ1 μ2 : ℂ) (h1 : w1 ≠ 0) (h0 : w0 ≠ 0) (h2 : w2 ≠ 0) (hμ1 : μ1 ≠ 0) (hμ2 : μ2 ≠ 0) (dx : Dx sh) (eps : Vec sh) (mu : Option (Vec sh))
    (hS : Step a c m w1 w0 w2 e1 e0 e2 μ1 μ2 dx eps mu) (κ1 κ2 : ℂ) (hκ1 : (2 * sin (κ1 / 2)) ^ 2 = w1 ^ 2 * ω ^ 2 * e1 * μ1)
    (hκ2 : (2 * sin (κ2 / 2)) ^ 2 = w2 ^ 2 * ω ^ 2 * e2 * μ2) (r t : ℂ) (E : Vec sh) (hE : ∀ x : Idx sh, E (c, x) = wave m κ1 κ2 r t (x a)) :
    (∀ x : Idx sh, 0 < (x a : ℕ) → (x a : ℕ) + 1 < sh a → (eFull ω dx eps mu none none *ᵥ E) (c, x) = 0) ↔
      t = 1 + r ∧ (sin κ1 / (μ1 * w1) + sin κ2 / (μ2 * w2) + I * (ω ^ 2 * (w0 * e0 - (w1 * e1 + w2 * e2) / 2))) * r
        = sin κ1 / (μ1 * w1) - sin κ2 / (μ2 * w2) - I * (ω ^ 2 * (w0 * e0 - (w1 * e1 + w2 * e2) / 2)) := by
  set L : ℂ → ℂ := fun u => 1 * exp (-I * κ1 * u) + r * exp (I * κ1 * u) with hL
  set T : ℂ → ℂ := fun u => t * exp (-I * κ2 * u) + 0 * exp (I * κ2 * u) with hT
  have Lw : ∀ i : ℕ, i < m → wave m κ1 κ2 r t i = L (i - m) := fun i hi => by rw [wave, if_pos hi, hL]; ring
  have Tw : ∀ i : ℕ, m ≤ i → wave m κ1 κ2 r t i = T (i - m) := fun i hi => by rw [wave, if_neg (not_lt.2 hi), hT]; ring
  have Lr : ∀ u, L (u + 1) - 2 * L u + L (u - 1) = -(w1 ^ 2 * ω ^ 2 * e1 * μ1) * L u := by
    intro u
    have := two_cos κ1 1 r u
    rw [cos_half, hκ1] at this
    simp only [hL]
    linear_combination this
  have Tr : ∀ u, T (u + 1) - 2 * T u + T (u - 1) = -(w2 ^ 2 * ω ^ 2 * e2 * μ2) * T u := by
    intro u
    have := two_cos κ2 t 0 u
    rw [cos_half, hκ2] at this
    simp only [hT]
    linear_combination this
  have L0 : L 0 = 1 + r := by simp [hL]
  have T0 : T 0 = t := by simp [hT]
  -- the cell left of the plane
  have rowL : ∀ x : Idx sh, 0 < (x a : ℕ) → (x a : ℕ) + 1 < m → (eFull ω dx eps mu none none *ᵥ E) (c, x) = 0 := by
    intro x hx hx'
    rw [cell hc hth ω dx eps mu hE x hx (by omega), hS.edge, hS.edge, hS.dual, hS.perm, hS.mag, hS.mag, shift_down hx, if_pos (by omega), if_pos (by omega), if_pos (by omega),
      if_pos (by omega), if_pos (by omega), if_pos (by omega), Lw _ (by omega), Lw _ (by omega), Lw _ (by omega)]
    have := Lr (((x a : ℕ) : ℂ) - m)
    rw [show (((x a : ℕ) : ℂ) - m + 1) = (((x a + 1 : ℕ) : ℂ) - m) by push_cast; ring, show (((x a : ℕ) : ℂ) - m - 1) = (((x a - 1 : ℕ) : ℂ) - m) by
      rw [Nat.cast_sub (by omega)]; push_cast; ring] at this
    field_simp
    linear_combination -this
  have rowM1 : ∀ x : Idx sh, (x a : ℕ) + 1 = m → ((eFull ω dx eps mu none none *ᵥ E) (c, x) = 0 ↔ t = 1 + r) := by
    intro x hx
    rw [cell hc hth ω dx eps mu hE x (by omega) (by omega), hS.edge, hS.edge, hS.dual, hS.perm, hS.mag, hS.mag, shift_down (by omega), if_pos (by omega), if_pos (by omega), if_pos (by omega),
      if_pos (by omega), if_pos (by omega), if_pos (by omega), Tw _ (by omega), Lw _ (by omega), Lw _ (by omega)]
    have := Lr (((x a : ℕ) : ℂ) - m)
    have e1 : ((x a : ℕ) : ℂ) - m + 1 = 0 := by rw [← hx]; push_cast; ring
    rw [e1, L0, show (((x a : ℕ) : ℂ) - m - 1) = (((x a - 1 : ℕ) : ℂ) - m) by rw [Nat.cast_sub (by omega)]; push_cast; ring] at this
    rw [show (((x a + 1 : ℕ) : ℂ) - m) = 0 by rw [hx, sub_self], T0]
    constructor
    · intro h
      field_simp at h
      linear_combination -h - this
    · intro h
      field_simp
      rw [h]
      linear_combination -this
  have rowM : ∀ x : Idx sh, (x a : ℕ) = m → t = 1 + r → ((eFull ω dx eps mu none none *ᵥ E) (c, x) = 0 ↔
      (sin κ1 / (μ1 * w1) + sin κ2 / (μ2 * w2) + I * (ω ^ 2 * (w0 * e0 - (w1 * e1 + w2 * e2) / 2))) * r
        = sin κ1 / (μ1 * w1) - sin κ2 / (μ2 * w2) - I * (ω ^ 2 * (w0 * e0 - (w1 * e1 + w2 * e2) / 2))) := by
    intro x hx ht
    have hx0 : 0 < (x a : ℕ) := by omega
    rw [cell hc hth ω dx eps mu hE x hx0 (by omega), show dx.1 a (x a) = w2 by rw [hS.edge, if_neg (by omega)], show dx.1 a (shiftIdx a (-1) x a) = w1 by
      rw [hS.edge, shift_down hx0, if_pos (by omega)], show dx.2 a (x a) = w0 by rw [hS.dual, if_neg (by omega), if_pos hx], show eps (c, x) = e0 by
      rw [hS.perm, if_neg (by omega), if_pos hx], show (mu.getD 1) (oth a c, x) = μ2 by rw [hS.mag, if_neg (by omega)],
      show (mu.getD 1) (oth a c, shiftIdx a (-1) x) = μ1 by rw [hS.mag, shift_down hx0, if_pos (by omega)], Tw _ (by omega), Tw _ (by omega), Lw _ (by omega)]
    rw [show (((x a + 1 : ℕ) : ℂ) - m) = 1 by rw [hx]; push_cast; ring, show (((x a : ℕ) : ℂ) - m) = 0 by rw [hx, sub_self], T0,
      show (((x a - 1 : ℕ) : ℂ) - m) = -1 by rw [Nat.cast_sub (by omega), hx]; push_cast; ring]
    have eT : T 1 = t * (1 - w2 ^ 2 * ω ^ 2 * e2 * μ2 / 2 - I * sin κ2) := by
      have := cos_half κ2
      rw [hκ2] at this
      simp only [hT]
      rw [show -I * κ2 * 1 = -κ2 * I by ring, ← cos_sub_sin_I, this]; ring
    have eL : L (-1) = (1 + r) * (1 - w1 ^ 2 * ω ^ 2 * e1 * μ1 / 2) + (1 - r) * (I * sin κ1) := by
      have := cos_half κ1
      rw [hκ1] at this
      simp only [hL]
      rw [show -I * κ1 * -1 = κ1 * I by ring, show I * κ1 * -1 = -κ1 * I by ring, ← cos_sub_sin_I, ← cos_add_sin_I, this]; ring
    rw [eT, eL, ht]
    have hI : I * I = -1 := I_mul_I
    rw [← mul_eq_zero_iff_left (neg_ne_zero.2 (mul_ne_zero I_ne_zero h0)), ← sub_eq_zero (a := _ * r)]
    refine Eq.congr ?_ rfl
    field_simp
    linear_combination -(r * w2 * μ2 * sin κ1 * 2 + r * sin κ2 * w1 * μ1 * 2 - w2 * μ2 * sin κ1 * 2 + sin κ2 * w1 * μ1 * 2) * hI
  constructor
  · intro h
    have hx : ∀ i : ℕ, i < sh a → ∃ x : Idx sh, (x a : ℕ) = i := by
      intro i hi
      have hp : ∀ b, 0 < sh b := fun b => by
        by_cases hb : b = a
        · subst hb; omega
        · rw [hth b hb]; exact one_pos
      exact ⟨Function.update (fun b => ⟨0, hp b⟩) a ⟨i, hi⟩, by rw [Function.update_self]⟩
    obtain ⟨x, x1⟩ := hx (m - 1) (by omega)
    obtain ⟨y, y1⟩ := hx m (by omega)
    have ht := (rowM1 x (by omega)).1 (h x (by omega) (by omega))
    exact ⟨ht, (rowM y y1 ht).1 (h y (by omega) (by omega))⟩
  · rintro ⟨ht, hr⟩ x hx hx'
    rcases lt_trichotomy ((x a : ℕ) + 1) m with h | h | h
    · exact rowL x hx h
    · exact (rowM1 x h).2 ht
    · rcases (show m = (x a : ℕ) ∨ m < (x a : ℕ) by omega) with h' | h'
      · exact (rowM x h'.symm ht).2 hr
      · rw [cell hc hth ω dx eps mu hE x hx (by omega), hS.edge, hS.edge, hS.dual, hS.perm, hS.mag, hS.mag, shift_down hx, if_neg (by omega), if_neg (by omega), if_neg (by omega),
          if_neg (by omega), if_neg (by omega), if_neg (by omega), if_neg (by omega), if_neg (by omega), Tw _ (by omega), Tw _ (by omega), Tw _ (by omega)]
        have := Tr (((x a : ℕ) : ℂ) - m)
        rw [show (((x a : ℕ) : ℂ) - m + 1) = (((x a + 1 : ℕ) : ℂ) - m) by push_cast; ring, show (((x a : ℕ) : ℂ) - m - 1) = (((x a - 1 : ℕ) : ℂ) - m) by
          rw [Nat.cast_sub (by omega)]; push_cast; ring] at this
        field_simp
        linear_combination -this

/-- Power, in numbers. For real positive `S₁`, `S₂` and real `δ` (lossless media, propagating waves) nothing is lost at the interface: the reflected and the transmitted power
add up to the incident one. -/
theorem Interface.power (S1 S2 δ : ℝ) (h1 : 0 < S1) (h2 : 0 < S2) (r t : ℂ) (ht : t = 1 + r) (hr : ((S1 : ℂ) + S2 + I * δ) * r = S1 - S2 - I * δ) :
    ‖r‖ ^ 2 + S2 / S1 * ‖t‖ ^ 2 = 1 ∧ r.im = -(2 * S1 * δ / ((S1 + S2) ^ 2 + δ ^ 2)) := by
  have hre := congrArg Complex.re hr
  have him := congrArg Complex.im hr
  simp only [mul_re, mul_im, add_re, add_im, sub_re, sub_im, ofReal_re, ofReal_im, I_re, I_im] at hre him
  have hD : 0 < (S1 + S2) ^ 2 + δ ^ 2 := by positivity
  have x1 : r.re * ((S1 + S2) ^ 2 + δ ^ 2) = S1 ^ 2 - S2 ^ 2 - δ ^ 2 := by linear_combination (S1 + S2) * hre + δ * him
  have y1 : r.im * ((S1 + S2) ^ 2 + δ ^ 2) = -(2 * S1 * δ) := by linear_combination (S1 + S2) * him - δ * hre
  refine ⟨?_, by rw [← neg_div, eq_div_iff hD.ne', y1]⟩
  rw [ht, ← normSq_eq_norm_sq, ← normSq_eq_norm_sq, normSq_apply, normSq_apply]
  simp only [add_re, add_im, one_re, one_im, zero_add]
  have : S1 * (r.re * r.re + r.im * r.im) + S2 * ((1 + r.re) * (1 + r.re) + r.im * r.im) = S1 := by
    have hx : r.re = (S1 ^ 2 - S2 ^ 2 - δ ^ 2) / ((S1 + S2) ^ 2 + δ ^ 2) := by rw [eq_div_iff hD.ne', x1]
    have hy : r.im = -(2 * S1 * δ) / ((S1 + S2) ^ 2 + δ ^ 2) := by rw [eq_div_iff hD.ne', y1]
    rw [hx, hy]
    field_simp
    ring
  field_simp
  linear_combination this

namespace Interface

/-- `sin κ / (μ w) = ω √(ε/μ) cos (κ/2)`. -/
theorem S_eq {w e μ ω κ : ℝ} (hw : 0 < w) (he : 0 < e) (hμ : 0 < μ) (hω : 0 < ω) (hκ0 : 0 < κ) (hκπ : κ < Real.pi) (hκ : (2 * Real.sin (κ / 2)) ^ 2 = w ^ 2 * ω ^ 2 * e * μ) :
    Real.sin κ / (μ * w) = ω * Real.sqrt (e / μ) * Real.cos (κ / 2) ∧ 0 < Real.cos (κ / 2) ∧ Real.cos (κ / 2) ^ 2 = 1 - w ^ 2 * ω ^ 2 * e * μ / 4 := by
  have hs : 0 < Real.sin (κ / 2) := Real.sin_pos_of_pos_of_lt_pi (by linarith) (by linarith)
  have hc : 0 < Real.cos (κ / 2) := Real.cos_pos_of_mem_Ioo ⟨by linarith, by linarith⟩
  have h2 : 2 * Real.sin (κ / 2) = w * ω * μ * Real.sqrt (e / μ) := by
    have hr : Real.sqrt (e / μ) ^ 2 = e / μ := Real.sq_sqrt (by positivity)
    refine (sq_eq_sq₀ (by positivity) (by positivity)).1 ?_
    rw [hκ, mul_pow, hr]
    field_simp
  refine ⟨?_, hc, ?_⟩
  · have := Real.sin_two_mul (κ / 2)
    rw [show 2 * (κ / 2) = κ by ring] at this
    rw [this, h2]
    field_simp
  · have := Real.sin_sq_add_cos_sq (κ / 2)
    rw [← hκ]
    linear_combination this

end Interface

open Interface

/-- Real form of `fresnelC`. With the averaged permittivity `w₀ε₀ = (w₁ε₁ + w₂ε₂)/2` in the interface plane, the reflection differs from Fresnel's `(Y₁ - Y₂)/(Y₁ + Y₂)`, `Y = √(ε/μ)`, by at
most `ω²/8 · |w₁²ε₁μ₁ - w₂²ε₂μ₂|`. -/
theorem Interface.fresnel (w1 w2 e1 e2 μ1 μ2 ω κ1 κ2 : ℝ) (hw1 : 0 < w1) (hw2 : 0 < w2) (he1 : 0 < e1) (he2 : 0 < e2) (hμ1 : 0 < μ1) (hμ2 : 0 < μ2) (hω : 0 < ω)
    (h1 : 0 < κ1) (h1' : κ1 < Real.pi) (h2 : 0 < κ2) (h2' : κ2 < Real.pi) (hκ1 : (2 * Real.sin (κ1 / 2)) ^ 2 = w1 ^ 2 * ω ^ 2 * e1 * μ1)
    (hκ2 : (2 * Real.sin (κ2 / 2)) ^ 2 = w2 ^ 2 * ω ^ 2 * e2 * μ2) (hf1 : w1 ^ 2 * ω ^ 2 * e1 * μ1 ≤ 2) (hf2 : w2 ^ 2 * ω ^ 2 * e2 * μ2 ≤ 2) (r : ℝ)
    (hr : (Real.sin κ1 / (μ1 * w1) + Real.sin κ2 / (μ2 * w2)) * r = Real.sin κ1 / (μ1 * w1) - Real.sin κ2 / (μ2 * w2)) :
    |r - (Real.sqrt (e1 / μ1) - Real.sqrt (e2 / μ2)) / (Real.sqrt (e1 / μ1) + Real.sqrt (e2 / μ2))| ≤ ω ^ 2 / 8 * |w1 ^ 2 * (e1 * μ1) - w2 ^ 2 * (e2 * μ2)| := by
  obtain ⟨s1, q1, c1⟩ := S_eq hw1 he1 hμ1 hω h1 h1' hκ1
  obtain ⟨s2, q2, c2⟩ := S_eq hw2 he2 hμ2 hω h2 h2' hκ2
  have hY1 : 0 < Real.sqrt (e1 / μ1) := Real.sqrt_pos.2 (by positivity)
  have hY2 : 0 < Real.sqrt (e2 / μ2) := Real.sqrt_pos.2 (by positivity)
  rw [s1, s2] at hr
  generalize Real.sqrt (e1 / μ1) = Y1 at *
  generalize Real.sqrt (e2 / μ2) = Y2 at *
  generalize Real.cos (κ1 / 2) = a at *
  generalize Real.cos (κ2 / 2) = b at *
  have hr' : (Y1 * a + Y2 * b) * r = Y1 * a - Y2 * b := by
    refine mul_left_cancel₀ hω.ne' ?_
    linear_combination hr
  have hab : (a - b) * (a + b) = -(ω ^ 2 / 4 * (w1 ^ 2 * (e1 * μ1) - w2 ^ 2 * (e2 * μ2))) := by linear_combination c1 - c2
  have ha2 : 1 / 2 ≤ a ^ 2 := by rw [c1]; linarith
  have hb2 : 1 / 2 ≤ b ^ 2 := by rw [c2]; linarith
  have hY : 0 < Y1 + Y2 := by positivity
  have hD : 0 < Y1 * a + Y2 * b := by positivity
  have hAB : 0 < a + b := by positivity
  have e : r - (Y1 - Y2) / (Y1 + Y2) = 2 * Y1 * Y2 * ((a - b) * (a + b)) / ((Y1 * a + Y2 * b) * (Y1 + Y2) * (a + b)) := by
    have : r = (Y1 * a - Y2 * b) / (Y1 * a + Y2 * b) := by rw [eq_div_iff hD.ne']; linear_combination hr'
    rw [this]
    field_simp
    ring
  rw [e, hab, abs_div, abs_mul (2 * Y1 * Y2), abs_neg, abs_mul (ω ^ 2 / 4), abs_of_pos (show 0 < 2 * Y1 * Y2 by positivity), abs_of_pos (show 0 < ω ^ 2 / 4 by positivity),
    abs_of_pos (show 0 < (Y1 * a + Y2 * b) * (Y1 + Y2) * (a + b) by positivity), div_le_iff₀ (by positivity)]
  have key : 4 * (Y1 * Y2) ≤ (Y1 * a + Y2 * b) * (Y1 + Y2) * (a + b) := by
    have hab2 : 1 / 2 ≤ a * b := by
      have := mul_le_mul ha2 hb2 (by norm_num) (by positivity)
      refine (sq_le_sq₀ (by norm_num) (by positivity)).1 ?_
      rw [mul_pow]; linarith
    have h1 : Y1 + Y2 ≤ (Y1 * a + Y2 * b) * (a + b) := by
      have t1 := mul_le_mul_of_nonneg_left (add_le_add ha2 hab2) hY1.le
      have t2 := mul_le_mul_of_nonneg_left (add_le_add hb2 hab2) hY2.le
      linarith
    have h2 := mul_le_mul_of_nonneg_right h1 hY.le
    linarith [sq_nonneg (Y1 - Y2)]
  have : 0 ≤ ω ^ 2 * |w1 ^ 2 * (e1 * μ1) - w2 ^ 2 * (e2 * μ2)| := by positivity
  nlinarith

/-- Second order, in numbers. With the averaged permittivity `w₀ε₀ = (w₁ε₁ + w₂ε₂)/2` in the interface plane, propagating waves in lossless media and `w²ω²εμ ≤ 2` on both sides (about four cells per
wavelength), the reflection `r` of `C146_interface` differs from Fresnel's `(Y₁ - Y₂)/(Y₁ + Y₂)`, `Y = √(ε/μ)`, by at most `ω²/8 · |w₁²ε₁μ₁ - w₂²ε₂μ₂|`. -/
theorem Interface.fresnelC (w1 w0 w2 e1 e0 e2 μ1 μ2 ω κ1 κ2 : ℝ) (hw1 : 0 < w1) (hw2 : 0 < w2) (he1 : 0 < e1) (he2 : 0 < e2) (hμ1 : 0 < μ1) (hμ2 : 0 < μ2) (hω : 0 < ω)
    (h1 : 0 < κ1) (h1' : κ1 < Real.pi) (h2 : 0 < κ2) (h2' : κ2 < Real.pi) (hκ1 : (2 * Real.sin (κ1 / 2)) ^ 2 = w1 ^ 2 * ω ^ 2 * e1 * μ1)
    (hκ2 : (2 * Real.sin (κ2 / 2)) ^ 2 = w2 ^ 2 * ω ^ 2 * e2 * μ2) (hf1 : w1 ^ 2 * ω ^ 2 * e1 * μ1 ≤ 2) (hf2 : w2 ^ 2 * ω ^ 2 * e2 * μ2 ≤ 2)
    (havg : w0 * e0 = (w1 * e1 + w2 * e2) / 2) (r : ℂ)
    (hr : (sin (κ1 : ℂ) / (μ1 * w1) + sin (κ2 : ℂ) / (μ2 * w2) + I * ((ω : ℂ) ^ 2 * (w0 * e0 - (w1 * e1 + w2 * e2) / 2))) * r
      = sin (κ1 : ℂ) / (μ1 * w1) - sin (κ2 : ℂ) / (μ2 * w2) - I * ((ω : ℂ) ^ 2 * (w0 * e0 - (w1 * e1 + w2 * e2) / 2))) :
    ‖r - (((Real.sqrt (e1 / μ1) - Real.sqrt (e2 / μ2)) / (Real.sqrt (e1 / μ1) + Real.sqrt (e2 / μ2)) : ℝ) : ℂ)‖ ≤ ω ^ 2 / 8 * |w1 ^ 2 * (e1 * μ1) - w2 ^ 2 * (e2 * μ2)| := by
  have hz : (w0 : ℂ) * e0 - (w1 * e1 + w2 * e2) / 2 = 0 := by rw [sub_eq_zero]; exact_mod_cast havg
  rw [hz, mul_zero, mul_zero, add_zero, sub_zero, show sin (κ1 : ℂ) / (μ1 * w1) = ((Real.sin κ1 / (μ1 * w1) : ℝ) : ℂ) by push_cast; rfl,
    show sin (κ2 : ℂ) / (μ2 * w2) = ((Real.sin κ2 / (μ2 * w2) : ℝ) : ℂ) by push_cast; rfl] at hr
  have p1 : 0 < Real.sin κ1 / (μ1 * w1) := div_pos (Real.sin_pos_of_pos_of_lt_pi h1 h1') (by positivity)
  have p2 : 0 < Real.sin κ2 / (μ2 * w2) := div_pos (Real.sin_pos_of_pos_of_lt_pi h2 h2') (by positivity)
  have hre : r = (((Real.sin κ1 / (μ1 * w1) - Real.sin κ2 / (μ2 * w2)) / (Real.sin κ1 / (μ1 * w1) + Real.sin κ2 / (μ2 * w2)) : ℝ) : ℂ) := by
    rw [ofReal_div, eq_div_iff (by exact_mod_cast (add_pos p1 p2).ne'), mul_comm, ofReal_add, hr, ofReal_sub]
  rw [hre, ← ofReal_sub, norm_real]
  exact fresnel w1 w2 e1 e2 μ1 μ2 ω κ1 κ2 hw1 hw2 he1 he2 hμ1 hμ2 hω h1 h1' h2 h2' hκ1 hκ2 hf1 hf2 _ (mul_div_cancel₀ _ (add_pos p1 p2).ne')

/-- First order otherwise, in numbers. If the interface plane has another permittivity than the average (a material boundary rounded to whole cells), the reflection has an imaginary part, which Fresnel's does not: the
error is at least `2 S₁|δ| / ((S₁ + S₂)² + δ²)`, with `δ` proportional to the cell size. -/
theorem Interface.staircase (S1 S2 δ r0 : ℝ) (h1 : 0 < S1) (h2 : 0 < S2) (r : ℂ) (hr : ((S1 : ℂ) + S2 + I * δ) * r = S1 - S2 - I * δ) :
    2 * S1 * |δ| / ((S1 + S2) ^ 2 + δ ^ 2) ≤ ‖r - r0‖ := by
  have := (power S1 S2 δ h1 h2 r _ rfl hr).2
  have h := abs_im_le_norm (r - r0)
  rw [sub_im, ofReal_im, sub_zero, this, abs_neg, abs_div, abs_mul, abs_of_pos (show 0 < 2 * S1 by positivity),
    abs_of_pos (show 0 < (S1 + S2) ^ 2 + δ ^ 2 by positivity)] at h
  exact h

/-- Matched layer, in numbers. Where only the (complex) cell width changes (entrance of an SCPML, or a step of the grid), the reflection is
`(w₂² - w₁²)(ωn/2)² / (cos κ₁/2 + cos κ₂/2)²`: of second order in the cell size. -/
theorem Interface.layer (ω n μ e w1 w2 κ1 κ2 r : ℂ) (hω : ω ≠ 0) (hn0 : n ≠ 0) (hμ : μ ≠ 0) (hn : n ^ 2 = e * μ) (h1 : w1 ≠ 0) (h2 : w2 ≠ 0)
    (hκ1 : 2 * sin (κ1 / 2) = w1 * (ω * n)) (hκ2 : 2 * sin (κ2 / 2) = w2 * (ω * n))
    (hr : (sin κ1 / (μ * w1) + sin κ2 / (μ * w2)) * r = sin κ1 / (μ * w1) - sin κ2 / (μ * w2)) :
    (cos (κ1 / 2) + cos (κ2 / 2)) ^ 2 * r = (w2 ^ 2 - w1 ^ 2) * (ω * n / 2) ^ 2 ∧
      (2 * sin (κ1 / 2)) ^ 2 = w1 ^ 2 * ω ^ 2 * e * μ ∧ (2 * sin (κ2 / 2)) ^ 2 = w2 ^ 2 * ω ^ 2 * e * μ := by
  refine ⟨?_, by rw [hκ1]; linear_combination w1 ^ 2 * ω ^ 2 * hn, by rw [hκ2]; linear_combination w2 ^ 2 * ω ^ 2 * hn⟩
  have s1 : sin κ1 = w1 * (ω * n) * cos (κ1 / 2) := by
    have := sin_two_mul (κ1 / 2)
    rw [show 2 * (κ1 / 2) = κ1 by ring] at this
    rw [this, hκ1]
  have s2 : sin κ2 = w2 * (ω * n) * cos (κ2 / 2) := by
    have := sin_two_mul (κ2 / 2)
    rw [show 2 * (κ2 / 2) = κ2 by ring] at this
    rw [this, hκ2]
  have p1 := sin_sq_add_cos_sq (κ1 / 2)
  have p2 := sin_sq_add_cos_sq (κ2 / 2)
  have g1 : sin (κ1 / 2) = w1 * (ω * n) / 2 := by rw [← hκ1]; ring
  have g2 : sin (κ2 / 2) = w2 * (ω * n) / 2 := by rw [← hκ2]; ring
  rw [g1] at p1
  rw [g2] at p2
  have hr' : (cos (κ1 / 2) + cos (κ2 / 2)) * r = cos (κ1 / 2) - cos (κ2 / 2) := by
    rw [s1, s2] at hr
    field_simp at hr
    linear_combination hr
  linear_combination (cos (κ1 / 2) + cos (κ2 / 2)) * hr' + p1 - p2

/-- The interface scatters the incident wave into `r` and `t`: the three waves satisfy the FDFD equation (`e_full` gives 0, no source) in every inner cell. -/
def Interface.Scatters (a c : Fin 3) (ω : ℂ) (m : ℕ) (dx : Dx sh) (eps : Vec sh) (mu : Option (Vec sh)) (κ1 κ2 r t : ℂ) : Prop :=
  ∀ E : Vec sh, (∀ x : Idx sh, E (c, x) = wave m κ1 κ2 r t (x a)) → ∀ x : Idx sh, 0 < (x a : ℕ) → (x a : ℕ) + 1 < sh a → (eFull ω dx eps mu none none *ᵥ E) (c, x) = 0

/-- Lossless media, propagating waves: real positive data, real phases per cell between 0 and π that satisfy the dispersion relation of each side. -/
structure Interface.Lossless (a c : Fin 3) (m : ℕ) (w1 w0 w2 e1 e0 e2 μ1 μ2 ω κ1 κ2 : ℝ) (dx : Dx sh) (eps : Vec sh) (mu : Option (Vec sh)) : Prop where
  pol : c ≠ a
  thin : ∀ b, b ≠ a → sh b = 1
  two : 2 ≤ m
  room : m + 1 < sh a
  w1_pos : 0 < w1
  w0_pos : 0 < w0
  w2_pos : 0 < w2
  e1_pos : 0 < e1
  e2_pos : 0 < e2
  μ1_pos : 0 < μ1
  μ2_pos : 0 < μ2
  ω_pos : 0 < ω
  κ1_pos : 0 < κ1
  κ1_lt : κ1 < Real.pi
  κ2_pos : 0 < κ2
  κ2_lt : κ2 < Real.pi
  disp1 : (2 * Real.sin (κ1 / 2)) ^ 2 = w1 ^ 2 * ω ^ 2 * e1 * μ1
  disp2 : (2 * Real.sin (κ2 / 2)) ^ 2 = w2 ^ 2 * ω ^ 2 * e2 * μ2
  step : Step a c m w1 w0 w2 e1 e0 e2 μ1 μ2 dx eps mu

theorem Interface.Lossless.eqn {a c : Fin 3} {m : ℕ} {w1 w0 w2 e1 e0 e2 μ1 μ2 ω κ1 κ2 : ℝ} {dx : Dx sh} {eps : Vec sh} {mu : Option (Vec sh)}
    (h : Lossless a c m w1 w0 w2 e1 e0 e2 μ1 μ2 ω κ1 κ2 dx eps mu) {r t : ℂ} (hs : Scatters a c ω m dx eps mu κ1 κ2 r t) :
    t = 1 + r ∧ (sin (κ1 : ℂ) / (μ1 * w1) + sin (κ2 : ℂ) / (μ2 * w2) + I * ((ω : ℂ) ^ 2 * (w0 * e0 - (w1 * e1 + w2 * e2) / 2))) * r
      = sin (κ1 : ℂ) / (μ1 * w1) - sin (κ2 : ℂ) / (μ2 * w2) - I * ((ω : ℂ) ^ 2 * (w0 * e0 - (w1 * e1 + w2 * e2) / 2)) :=
  (C146_interface a c h.pol h.thin ω m h.two h.room w1 w0 w2 e1 e0 e2 μ1 μ2 (ofReal_ne_zero.2 h.w1_pos.ne') (ofReal_ne_zero.2 h.w0_pos.ne') (ofReal_ne_zero.2 h.w2_pos.ne')
    (ofReal_ne_zero.2 h.μ1_pos.ne') (ofReal_ne_zero.2 h.μ2_pos.ne') dx eps mu h.step κ1 κ2 (by exact_mod_cast h.disp1) (by exact_mod_cast h.disp2) r t
    (fun q => wave m κ1 κ2 r t (q.2 a)) fun _ => rfl).1 (hs _ fun _ => rfl)

theorem Interface.Lossless.eqn' {a c : Fin 3} {m : ℕ} {w1 w0 w2 e1 e0 e2 μ1 μ2 ω κ1 κ2 : ℝ} {dx : Dx sh} {eps : Vec sh} {mu : Option (Vec sh)}
    (h : Lossless a c m w1 w0 w2 e1 e0 e2 μ1 μ2 ω κ1 κ2 dx eps mu) {r t : ℂ} (hs : Scatters a c ω m dx eps mu κ1 κ2 r t) :
    (((Real.sin κ1 / (μ1 * w1) : ℝ) : ℂ) + ((Real.sin κ2 / (μ2 * w2) : ℝ) : ℂ) + I * ((ω ^ 2 * (w0 * e0 - (w1 * e1 + w2 * e2) / 2) : ℝ) : ℂ)) * r
      = ((Real.sin κ1 / (μ1 * w1) : ℝ) : ℂ) - ((Real.sin κ2 / (μ2 * w2) : ℝ) : ℂ) - I * ((ω ^ 2 * (w0 * e0 - (w1 * e1 + w2 * e2) / 2) : ℝ) : ℂ) := by
  have := (h.eqn hs).2
  push_cast
  exact this

/-- C146: power. In lossless media nothing is lost at the interface, whatever the permittivity and width of the interface plane: the reflected and the transmitted power add up to the incident one. -/
theorem C146_power (a c : Fin 3) (m : ℕ) (w1 w0 w2 e1 e0 e2 μ1 μ2 ω κ1 κ2 : ℝ) (dx : Dx sh) (eps : Vec sh) (mu : Option (Vec sh))
    (h : Lossless a c m w1 w0 w2 e1 e0 e2 μ1 μ2 ω κ1 κ2 dx eps mu) (r t : ℂ) (hs : Scatters a c ω m dx eps mu κ1 κ2 r t) :
    ‖r‖ ^ 2 + (Real.sin κ2 / (μ2 * w2)) / (Real.sin κ1 / (μ1 * w1)) * ‖t‖ ^ 2 = 1 :=
  (power _ _ _ (div_pos (Real.sin_pos_of_pos_of_lt_pi h.κ1_pos h.κ1_lt) (mul_pos h.μ1_pos h.w1_pos)) (div_pos (Real.sin_pos_of_pos_of_lt_pi h.κ2_pos h.κ2_lt) (mul_pos h.μ2_pos h.w2_pos)) r t
    (h.eqn hs).1 (h.eqn' hs)).1

/-- C146: second order. With the averaged permittivity `w₀ε₀ = (w₁ε₁ + w₂ε₂)/2` in the interface plane and `w²ω²εμ ≤ 2` on both sides (at least about 4.5 cells per wavelength), the reflection differs
from Fresnel's `(Y₁ - Y₂)/(Y₁ + Y₂)`, `Y = √(ε/μ)`, by at most `ω²/8 · |w₁²ε₁μ₁ - w₂²ε₂μ₂|`. -/
theorem C146_fresnel (a c : Fin 3) (m : ℕ) (w1 w0 w2 e1 e0 e2 μ1 μ2 ω κ1 κ2 : ℝ) (dx : Dx sh) (eps : Vec sh) (mu : Option (Vec sh))
    (h : Lossless a c m w1 w0 w2 e1 e0 e2 μ1 μ2 ω κ1 κ2 dx eps mu) (hf1 : w1 ^ 2 * ω ^ 2 * e1 * μ1 ≤ 2) (hf2 : w2 ^ 2 * ω ^ 2 * e2 * μ2 ≤ 2)
    (havg : w0 * e0 = (w1 * e1 + w2 * e2) / 2) (r t : ℂ) (hs : Scatters a c ω m dx eps mu κ1 κ2 r t) :
    ‖r - (((Real.sqrt (e1 / μ1) - Real.sqrt (e2 / μ2)) / (Real.sqrt (e1 / μ1) + Real.sqrt (e2 / μ2)) : ℝ) : ℂ)‖ ≤ ω ^ 2 / 8 * |w1 ^ 2 * (e1 * μ1) - w2 ^ 2 * (e2 * μ2)| :=
  fresnelC w1 w0 w2 e1 e0 e2 μ1 μ2 ω κ1 κ2 h.w1_pos h.w2_pos h.e1_pos h.e2_pos h.μ1_pos h.μ2_pos h.ω_pos h.κ1_pos h.κ1_lt h.κ2_pos h.κ2_lt h.disp1 h.disp2 hf1 hf2 havg r (h.eqn hs).2

/-- C146: first order otherwise. If the interface plane has another permittivity than the average (a material boundary rounded to whole cells), the reflection has an imaginary part, which Fresnel's does not: the
error against any real value is at least `2 S₁|δ| / ((S₁ + S₂)² + δ²)`, with `δ = ω² (w₀ε₀ - (w₁ε₁ + w₂ε₂)/2)` proportional to the cell size. -/
theorem C146_staircase (a c : Fin 3) (m : ℕ) (w1 w0 w2 e1 e0 e2 μ1 μ2 ω κ1 κ2 : ℝ) (dx : Dx sh) (eps : Vec sh) (mu : Option (Vec sh))
    (h : Lossless a c m w1 w0 w2 e1 e0 e2 μ1 μ2 ω κ1 κ2 dx eps mu) (r t : ℂ) (hs : Scatters a c ω m dx eps mu κ1 κ2 r t) (r0 : ℝ) :
    2 * (Real.sin κ1 / (μ1 * w1)) * |ω ^ 2 * (w0 * e0 - (w1 * e1 + w2 * e2) / 2)|
      / ((Real.sin κ1 / (μ1 * w1) + Real.sin κ2 / (μ2 * w2)) ^ 2 + (ω ^ 2 * (w0 * e0 - (w1 * e1 + w2 * e2) / 2)) ^ 2) ≤ ‖r - r0‖ :=
  staircase _ _ _ r0 (div_pos (Real.sin_pos_of_pos_of_lt_pi h.κ1_pos h.κ1_lt) (mul_pos h.μ1_pos h.w1_pos)) (div_pos (Real.sin_pos_of_pos_of_lt_pi h.κ2_pos h.κ2_lt) (mul_pos h.μ2_pos h.w2_pos)) r
    (h.eqn' hs)

/-- C146: matched layer. Where only the (complex) cell width changes (entrance of an SCPML, or a step of the grid), with the dual width the average of both, the reflection is
`(w₂² - w₁²)(ωn/2)² / (cos κ₁/2 + cos κ₂/2)²`: of second order in the cell size. -/
theorem C146_layer (a c : Fin 3) (hc : c ≠ a) (hth : ∀ b, b ≠ a → sh b = 1) (ω : ℂ) (m : ℕ) (hm : 2 ≤ m) (hm' : m + 1 < sh a)
    (w1 w2 e n μ : ℂ) (hω : ω ≠ 0) (hn0 : n ≠ 0) (hn : n ^ 2 = e * μ) (h1 : w1 ≠ 0) (h0 : w1 + w2 ≠ 0) (h2 : w2 ≠ 0) (hμ : μ ≠ 0) (dx : Dx sh) (eps : Vec sh)
    (mu : Option (Vec sh)) (hS : Step a c m w1 ((w1 + w2) / 2) w2 e e e μ μ dx eps mu) (κ1 κ2 : ℂ) (hκ1 : 2 * sin (κ1 / 2) = w1 * (ω * n)) (hκ2 : 2 * sin (κ2 / 2) = w2 * (ω * n))
    (r t : ℂ) (hs : Scatters a c ω m dx eps mu κ1 κ2 r t) : t = 1 + r ∧ (cos (κ1 / 2) + cos (κ2 / 2)) ^ 2 * r = (w2 ^ 2 - w1 ^ 2) * (ω * n / 2) ^ 2 := by
  have := (C146_interface a c hc hth ω m hm hm' w1 ((w1 + w2) / 2) w2 e e e μ μ h1 (div_ne_zero h0 two_ne_zero) h2 hμ hμ dx eps mu hS κ1 κ2
    (by rw [hκ1]; linear_combination w1 ^ 2 * ω ^ 2 * hn) (by rw [hκ2]; linear_combination w2 ^ 2 * ω ^ 2 * hn) r t (fun q => wave m κ1 κ2 r t (q.2 a)) fun _ => rfl).1 (hs _ fun _ => rfl)
  refine ⟨this.1, (layer ω n μ e w1 w2 κ1 κ2 r hω hn0 hμ hn h1 h2 hκ1 hκ2 ?_).1⟩
  have h := this.2
  rw [show (w1 + w2) / 2 * e - (w1 * e + w2 * e) / 2 = 0 by ring, mul_zero, mul_zero, add_zero, sub_zero] at h
  exact h

/-- Such a step exists on every grid and for every choice of numbers. -/
theorem Interface.step_exists (a c : Fin 3) (m : ℕ) (w1 w0 w2 e1 e0 e2 μ1 μ2 : ℂ) :
    ∃ (dx : Dx sh) (eps : Vec sh) (mu : Option (Vec sh)), Step a c m w1 w0 w2 e1 e0 e2 μ1 μ2 dx eps mu :=
  ⟨(fun _ i => if (i : ℕ) < m then w1 else w2, fun _ i => if (i : ℕ) < m then w1 else if (i : ℕ) = m then w0 else w2),
    fun q => if (q.2 a : ℕ) < m then e1 else if (q.2 a : ℕ) = m then e0 else e2, some fun q => if (q.2 a : ℕ) < m then μ1 else μ2,
    ⟨fun _ => rfl, fun _ => rfl, fun _ => rfl, fun _ => rfl⟩⟩

/-- The hypotheses can be met: 8 unit cells with `ε = 1 | 3/2 | 2` at plane 4 and `ω = 1` have phases per cell `π/3` and `π/2`, and there is a scattering solution. -/
example : ∃ (dx : Dx ![8, 1, 1]) (eps : Vec ![8, 1, 1]) (mu : Option (Vec ![8, 1, 1])),
    Lossless 0 1 4 1 1 1 1 (3 / 2) 2 1 1 1 (Real.pi / 3) (Real.pi / 2) dx eps mu ∧
      ∃ r t : ℂ, Scatters 0 1 (1 : ℝ) 4 dx eps mu (Real.pi / 3 : ℝ) (Real.pi / 2 : ℝ) r t := by
  obtain ⟨dx, eps, mu, hS⟩ := step_exists (sh := ![8, 1, 1]) 0 1 4 (1 : ℝ) (1 : ℝ) (1 : ℝ) (1 : ℝ) (3 / 2 : ℝ) (2 : ℝ) (1 : ℝ) (1 : ℝ)
  have hp := Real.pi_pos
  have d1 : (2 * Real.sin (Real.pi / 3 / 2)) ^ 2 = 1 ^ 2 * 1 ^ 2 * 1 * 1 := by
    rw [show Real.pi / 3 / 2 = Real.pi / 6 by ring, Real.sin_pi_div_six]; norm_num
  have d2 : (2 * Real.sin (Real.pi / 2 / 2)) ^ 2 = 1 ^ 2 * 1 ^ 2 * 2 * 1 := by
    rw [show Real.pi / 2 / 2 = Real.pi / 4 by ring, Real.sin_pi_div_four, mul_div_cancel₀ _ (by norm_num), Real.sq_sqrt (by norm_num)]; norm_num
  have hth : ∀ b : Fin 3, b ≠ 0 → (![8, 1, 1] : Fin 3 → ℕ) b = 1 := by decide
  refine ⟨dx, eps, mu, ⟨by decide, hth, by norm_num, by decide, one_pos, one_pos, one_pos, one_pos, two_pos, one_pos, one_pos, one_pos, by positivity, by linarith, by positivity, by linarith,
    d1, d2, hS⟩, (Real.sin (Real.pi / 3) - 1) / (Real.sin (Real.pi / 3) + 1), 1 + (Real.sin (Real.pi / 3) - 1) / (Real.sin (Real.pi / 3) + 1), fun E hE => ?_⟩
  have h3 : 0 < Real.sin (Real.pi / 3) := Real.sin_pos_of_pos_of_lt_pi (by positivity) (by linarith)
  have hne : ((Real.sin (Real.pi / 3) : ℝ) : ℂ) + 1 ≠ 0 := by exact_mod_cast (add_pos h3 one_pos).ne'
  refine (C146_interface 0 1 (by decide) hth _ 4 (by norm_num) (by decide) _ _ _ _ _ _ _ _ (by norm_num) (by norm_num) (by norm_num) (by norm_num) (by norm_num) dx eps mu hS
    _ _ (by exact_mod_cast d1) (by exact_mod_cast d2) _ _ E hE).2 ⟨rfl, ?_⟩
  rw [← ofReal_sin, ← ofReal_sin, Real.sin_pi_div_two]
  push_cast
  push_cast at hne
  field_simp
  ring

end Meanas.Props
