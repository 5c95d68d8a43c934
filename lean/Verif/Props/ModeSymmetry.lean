import Verif.Props.ModeExistence
import Verif.Props.Symmetry

/-! C123: waveguide modes follow translations, mirror images, the exchange of the axes and scaling of the cross-section
(`/repo/meanas/fdfd/waveguide_2d.py`: `operator_e`, `exy2e`, `exy2h`). -/

namespace Meanas.Props
open Matrix Complex Spec Wg2

variable {sh sh' : Fin 2 → ℕ}

/-- A way to carry the fields of a cross-section of shape `sh` to one of shape `sh'`. Axis `a` of the new cross-section is axis `σ a` of the old one,
reversed if `τ a = -1`. `iE c` gives the old cell of the sample of `E_c`, `iC` that of the sample of `H_z`. -/
structure CrossMap (d : Dx2 sh) (d' : Dx2 sh') where
  /-- axes -/
  σ : Fin 2 → Fin 2
  /-- directions of the axes -/
  τ : Fin 2 → ℂ
  /-- handedness -/
  κ : ℂ
  /-- old cells of the samples of E -/
  iE : Fin 3 → Idx sh' → Idx sh
  /-- old cells of the samples of `H_z` -/
  iC : Idx sh' → Idx sh
  τ_sq : ∀ a, τ a * τ a = 1
  hand : (σ 0 = 0 ∧ σ 1 = 1 ∧ κ = τ 0 * τ 1) ∨ (σ 0 = 1 ∧ σ 1 = 0 ∧ κ = -(τ 0 * τ 1))
  fwZ : ∀ a f x, fw d' a (fun y => f (iE 2 y)) x = τ a * fw d (σ a) f (iE a.castSucc x)
  fwC : ∀ a b, b ≠ a → ∀ f x, fw d' a (fun y => f (iE b.castSucc y)) x = τ a * fw d (σ a) f (iC x)
  bwZ : ∀ a f x, bw d' a (fun y => f (iE a.castSucc y)) x = τ a * bw d (σ a) f (iE 2 x)
  bwC : ∀ a b, b ≠ a → ∀ f x, bw d' a (fun y => f (iC y)) x = τ a * bw d (σ a) f (iE b.castSucc x)

namespace CrossMap

variable {d : Dx2 sh} {d' : Dx2 sh'} (T : CrossMap d d')

/-- Components of the 3D fields. -/
def comp : Fin 3 → Fin 3 := ![(T.σ 0).castSucc, (T.σ 1).castSucc, 2]
/-- Old cells of the samples of H: `H_x` sits where `E_y` does. -/
def iH : Fin 3 → Idx sh' → Idx sh := ![T.iE 1, T.iE 0, T.iC]
/-- Transverse E field on the new cross-section. -/
def t (v : V 2 sh) : V 2 sh' := fun p => T.τ p.1 * v (T.σ p.1, T.iE p.1.castSucc p.2)
/-- E field on the new cross-section. -/
def e (v : V 3 sh) : V 3 sh' := fun p => ![T.τ 0, T.τ 1, 1] p.1 * v (T.comp p.1, T.iE p.1 p.2)
/-- H field on the new cross-section, an axial vector. -/
def h (v : V 3 sh) : V 3 sh' := fun p => T.κ * ![T.τ 0, T.τ 1, 1] p.1 * v (T.comp p.1, T.iH p.1 p.2)
/-- Permittivity on the new cross-section. -/
def eps (v : V 3 sh) : V 3 sh' := fun p => v (T.comp p.1, T.iE p.1 p.2)
/-- Permeability on the new cross-section. -/
def mu (v : V 3 sh) : V 3 sh' := fun p => v (T.comp p.1, T.iH p.1 p.2)

theorem mu_getD (m : Option (V 3 sh)) (p : Fin 3 × Idx sh') : (m.map T.mu).getD 1 p = m.getD 1 (T.comp p.1, T.iH p.1 p.2) := by
  cases m <;> rfl

theorem fw_smul' {sh : Fin 2 → ℕ} (d : Dx2 sh) (a : Fin 2) (c : ℂ) (f : Idx sh → ℂ) (x : Idx sh) : fw d a (fun y => c * f y) x = c * fw d a f x := by
  simp only [derivForward_eq]; ring
theorem bw_smul' {sh : Fin 2 → ℕ} (d : Dx2 sh) (a : Fin 2) (c : ℂ) (f : Idx sh → ℂ) (x : Idx sh) : bw d a (fun y => c * f y) x = c * bw d a f x := by
  simp only [derivBack_eq]; ring

/-- Divergence of the transverse displacement. -/
theorem div_eq (ep : V 3 sh) (v : V 2 sh) (x : Idx sh') :
    bw d' 0 (fun y => T.eps ep (0, y) * T.t v (0, y)) x + bw d' 1 (fun y => T.eps ep (1, y) * T.t v (1, y)) x
      = bw d 0 (fun y => ep (0, y) * v (0, y)) (T.iE 2 x) + bw d 1 (fun y => ep (1, y) * v (1, y)) (T.iE 2 x) := by
  have key : ∀ a : Fin 2, bw d' a (fun y => T.eps ep (a.castSucc, y) * T.t v (a, y)) x
      = bw d (T.σ a) (fun y => ep ((T.σ a).castSucc, y) * v (T.σ a, y)) (T.iE 2 x) := by
    intro a
    have hc : T.comp a.castSucc = (T.σ a).castSucc := by fin_cases a <;> rfl
    have : (fun y => T.eps ep (a.castSucc, y) * T.t v (a, y))
        = fun y => (fun z => T.τ a * (ep ((T.σ a).castSucc, z) * v (T.σ a, z))) (T.iE a.castSucc y) := by
      funext y; simp only [eps, t, hc]; ring
    rw [this, T.bwZ a (fun z => T.τ a * (ep ((T.σ a).castSucc, z) * v (T.σ a, z))) x, bw_smul', ← mul_assoc, T.τ_sq, one_mul]
  have k0 := key 0
  have k1 := key 1
  simp only [show (0 : Fin 2).castSucc = (0 : Fin 3) from rfl, show (1 : Fin 2).castSucc = (1 : Fin 3) from rfl] at k0 k1
  rw [k0, k1]
  rcases T.hand with ⟨h0, h1, -⟩ | ⟨h0, h1, -⟩ <;> rw [h0, h1]
  · rfl
  · rw [add_comm]; rfl

/-- Curl of the transverse E field. -/
theorem curl_eq (v : V 2 sh) (x : Idx sh') :
    fw d' 0 (part (T.t v) 1) x - fw d' 1 (part (T.t v) 0) x = T.κ * (fw d 0 (part v 1) (T.iC x) - fw d 1 (part v 0) (T.iC x)) := by
  have key : ∀ a b : Fin 2, b ≠ a → fw d' a (part (T.t v) b) x = T.τ a * T.τ b * fw d (T.σ a) (part v (T.σ b)) (T.iC x) := by
    intro a b hab
    have : part (T.t v) b = fun y => (fun z => T.τ b * part v (T.σ b) z) (T.iE b.castSucc y) := rfl
    rw [this, T.fwC a b hab (fun z => T.τ b * part v (T.σ b) z) x, fw_smul']; ring
  rw [key 0 1 (by decide), key 1 0 (by decide)]
  rcases T.hand with ⟨h0, h1, hk⟩ | ⟨h0, h1, hk⟩ <;> rw [h0, h1, hk] <;> ring

/-- The mode operators of the two cross-sections correspond. -/
theorem operatorE_eq (ω : ℂ) (ep : V 3 sh) (m : Option (V 3 sh)) (v : V 2 sh) :
    operatorE ω d' (T.eps ep) (m.map T.mu) *ᵥ T.t v = T.t (operatorE ω d ep m *ᵥ v) := by
  have hdiv : ∀ a : Fin 2, ∀ x, fw d' a (fun y => (bw d' 0 (fun z => T.eps ep (0, z) * T.t v (0, z)) y + bw d' 1 (fun z => T.eps ep (1, z) * T.t v (1, z)) y)
      / T.eps ep (2, y)) x = T.τ a * fw d (T.σ a) (fun y => (bw d 0 (fun z => ep (0, z) * v (0, z)) y + bw d 1 (fun z => ep (1, z) * v (1, z)) y) / ep (2, y))
        (T.iE a.castSucc x) := by
    intro a x
    rw [← T.fwZ]
    congr 1
    funext y
    rw [T.div_eq]; rfl
  have hcurl : ∀ a b : Fin 2, b ≠ a → ∀ x, bw d' a (fun y => (fw d' 0 (part (T.t v) 1) y - fw d' 1 (part (T.t v) 0) y) / (m.map T.mu).getD 1 (2, y)) x
      = T.κ * T.τ a * bw d (T.σ a) (fun y => (fw d 0 (part v 1) y - fw d 1 (part v 0) y) / m.getD 1 (2, y)) (T.iE b.castSucc x) := by
    intro a b hab x
    have : (fun y => (fw d' 0 (part (T.t v) 1) y - fw d' 1 (part (T.t v) 0) y) / (m.map T.mu).getD 1 (2, y))
        = fun y => (fun z => T.κ * ((fw d 0 (part v 1) z - fw d 1 (part v 0) z) / m.getD 1 (2, z))) (T.iC y) := by
      funext y
      rw [T.curl_eq, mu_getD, mul_div_assoc]; rfl
    rw [this, T.bwC a b hab (fun z => T.κ * ((fw d 0 (part v 1) z - fw d 1 (part v 0) z) / m.getD 1 (2, z))) x, bw_smul']; ring
  have s0 := T.τ_sq 0
  have s1 := T.τ_sq 1
  funext p
  obtain ⟨c, x⟩ := p
  fin_cases c
  · show (operatorE ω d' (T.eps ep) (m.map T.mu) *ᵥ T.t v) (0, x) = T.τ 0 * (operatorE ω d ep m *ᵥ v) (T.σ 0, T.iE 0 x)
    rw [operatorE_0, hdiv, hcurl 1 0 (by decide), mu_getD]
    simp only [eps, t, comp, iH, Matrix.cons_val_zero, Matrix.cons_val_one, show (0 : Fin 2).castSucc = (0 : Fin 3) from rfl]
    rcases T.hand with ⟨h0, h1, hk⟩ | ⟨h0, h1, hk⟩ <;> rw [h0, h1, hk]
    · rw [operatorE_0]
      simp only [show (0 : Fin 2).castSucc = (0 : Fin 3) from rfl, show (1 : Fin 2).castSucc = (1 : Fin 3) from rfl]
      linear_combination (-(T.τ 0) * m.getD 1 (1, T.iE 0 x) * bw d 1 (fun y => (fw d 0 (part v 1) y - fw d 1 (part v 0) y) / m.getD 1 (2, y)) (T.iE 0 x)) * s1
    · rw [operatorE_1]
      simp only [show (0 : Fin 2).castSucc = (0 : Fin 3) from rfl, show (1 : Fin 2).castSucc = (1 : Fin 3) from rfl]
      linear_combination ((T.τ 0) * m.getD 1 (0, T.iE 0 x) * bw d 0 (fun y => (fw d 0 (part v 1) y - fw d 1 (part v 0) y) / m.getD 1 (2, y)) (T.iE 0 x)) * s1
  · show (operatorE ω d' (T.eps ep) (m.map T.mu) *ᵥ T.t v) (1, x) = T.τ 1 * (operatorE ω d ep m *ᵥ v) (T.σ 1, T.iE 1 x)
    rw [operatorE_1, hdiv, hcurl 0 1 (by decide), mu_getD]
    simp only [eps, t, comp, iH, Matrix.cons_val_zero, Matrix.cons_val_one, show (1 : Fin 2).castSucc = (1 : Fin 3) from rfl]
    rcases T.hand with ⟨h0, h1, hk⟩ | ⟨h0, h1, hk⟩ <;> rw [h0, h1, hk]
    · rw [operatorE_1]
      simp only [show (0 : Fin 2).castSucc = (0 : Fin 3) from rfl, show (1 : Fin 2).castSucc = (1 : Fin 3) from rfl]
      linear_combination ((T.τ 1) * m.getD 1 (0, T.iE 1 x) * bw d 0 (fun y => (fw d 0 (part v 1) y - fw d 1 (part v 0) y) / m.getD 1 (2, y)) (T.iE 1 x)) * s0
    · rw [operatorE_0]
      simp only [show (0 : Fin 2).castSucc = (0 : Fin 3) from rfl, show (1 : Fin 2).castSucc = (1 : Fin 3) from rfl]
      linear_combination (-(T.τ 1) * m.getD 1 (1, T.iE 1 x) * bw d 1 (fun y => (fw d 0 (part v 1) y - fw d 1 (part v 0) y) / m.getD 1 (2, y)) (T.iE 1 x)) * s0

/-- The reconstructed E fields correspond. -/
theorem exy2e_eq (β : ℂ) (ep : V 3 sh) (v : V 2 sh) : exy2e β d' (T.eps ep) *ᵥ T.t v = T.e (exy2e β d ep *ᵥ v) := by
  funext p
  obtain ⟨c, x⟩ := p
  have tr : ∀ (b : Fin 2) y, (exy2e β d ep *ᵥ v) (b.castSucc, y) = v (b, y) := by
    intro b y; fin_cases b
    · exact exy2e_0 ..
    · exact exy2e_1 ..
  match c with
  | 0 => rw [exy2e_0]; exact congrArg (T.τ 0 * ·) (tr (T.σ 0) _).symm
  | 1 => rw [exy2e_1]; exact congrArg (T.τ 1 * ·) (tr (T.σ 1) _).symm
  | 2 =>
    rw [exy2e_2, T.div_eq]
    show _ = 1 * (exy2e β d ep *ᵥ v) (2, T.iE 2 x)
    rw [exy2e_2, one_mul]; rfl

/-- The curls of the E fields correspond. -/
theorem curlE_eq (β : ℂ) (v : V 3 sh) : curlE β d' *ᵥ T.e v = T.h (curlE β d *ᵥ v) := by
  have kz : ∀ (a : Fin 2) x, fw d' a (part (T.e v) 2) x = T.τ a * fw d (T.σ a) (part v 2) (T.iE a.castSucc x) := by
    intro a x
    rw [← T.fwZ]; congr 1; funext y; exact one_mul _
  have ht : ∀ (a b : Fin 2), b ≠ a → ∀ x, fw d' a (part (T.e v) b.castSucc) x = T.τ a * T.τ b * fw d (T.σ a) (part v (T.σ b).castSucc) (T.iC x) := by
    intro a b hab x
    have : part (T.e v) b.castSucc = fun y => (fun z => T.τ b * part v (T.σ b).castSucc z) (T.iE b.castSucc y) := by
      funext y; fin_cases b <;> rfl
    rw [this, T.fwC a b hab (fun z => T.τ b * part v (T.σ b).castSucc z) x, fw_smul']; ring
  have s0 := T.τ_sq 0
  have s1 := T.τ_sq 1
  funext p
  obtain ⟨c, x⟩ := p
  match c with
  | 0 =>
    rw [curlE_0, kz]
    show T.τ 1 * fw d (T.σ 1) (part v 2) (T.iE 1 x) - -I * β * (T.τ 1 * v ((T.σ 1).castSucc, T.iE 1 x))
      = T.κ * T.τ 0 * (curlE β d *ᵥ v) ((T.σ 0).castSucc, T.iE 1 x)
    rcases T.hand with ⟨h0, h1, hk⟩ | ⟨h0, h1, hk⟩ <;> rw [h0, h1, hk]
    · rw [show (0 : Fin 2).castSucc = (0 : Fin 3) from rfl, show (1 : Fin 2).castSucc = (1 : Fin 3) from rfl, curlE_0]
      linear_combination (-T.τ 1 * (fw d 1 (part v 2) (T.iE 1 x) - -I * β * v (1, T.iE 1 x))) * s0
    · rw [show (0 : Fin 2).castSucc = (0 : Fin 3) from rfl, show (1 : Fin 2).castSucc = (1 : Fin 3) from rfl, curlE_1]
      linear_combination (T.τ 1 * (-I * β * v (0, T.iE 1 x) - fw d 0 (part v 2) (T.iE 1 x))) * s0
  | 1 =>
    rw [curlE_1, kz]
    show -I * β * (T.τ 0 * v ((T.σ 0).castSucc, T.iE 0 x)) - T.τ 0 * fw d (T.σ 0) (part v 2) (T.iE 0 x)
      = T.κ * T.τ 1 * (curlE β d *ᵥ v) ((T.σ 1).castSucc, T.iE 0 x)
    rcases T.hand with ⟨h0, h1, hk⟩ | ⟨h0, h1, hk⟩ <;> rw [h0, h1, hk]
    · rw [show (0 : Fin 2).castSucc = (0 : Fin 3) from rfl, show (1 : Fin 2).castSucc = (1 : Fin 3) from rfl, curlE_1]
      linear_combination (-T.τ 0 * (-I * β * v (0, T.iE 0 x) - fw d 0 (part v 2) (T.iE 0 x))) * s1
    · rw [show (0 : Fin 2).castSucc = (0 : Fin 3) from rfl, show (1 : Fin 2).castSucc = (1 : Fin 3) from rfl, curlE_0]
      linear_combination (T.τ 0 * (fw d 1 (part v 2) (T.iE 0 x) - -I * β * v (1, T.iE 0 x))) * s1
  | 2 =>
    have h10 := ht 0 1 (by decide) x
    have h01 := ht 1 0 (by decide) x
    simp only [show (0 : Fin 2).castSucc = (0 : Fin 3) from rfl, show (1 : Fin 2).castSucc = (1 : Fin 3) from rfl] at h10 h01
    rw [curlE_2, h10, h01]
    show _ = T.κ * 1 * (curlE β d *ᵥ v) (2, T.iC x)
    rw [curlE_2]
    rcases T.hand with ⟨h0, h1, hk⟩ | ⟨h0, h1, hk⟩ <;> rw [h0, h1, hk] <;>
      simp only [show (0 : Fin 2).castSucc = (0 : Fin 3) from rfl, show (1 : Fin 2).castSucc = (1 : Fin 3) from rfl] <;> ring

/-- The reconstructed H fields correspond. -/
theorem exy2h_eq (β ω : ℂ) (ep : V 3 sh) (m : Option (V 3 sh)) (v : V 2 sh) :
    exy2h β ω d' (T.eps ep) (m.map T.mu) *ᵥ T.t v = T.h (exy2h β ω d ep m *ᵥ v) := by
  simp only [exy2h, ← mulVec_mulVec, T.exy2e_eq]
  funext p
  rw [e2h_mulVec, T.curlE_eq, mu_getD]
  show _ = T.κ * ![T.τ 0, T.τ 1, 1] p.1 * (e2h β ω d m *ᵥ (exy2e β d ep *ᵥ v)) (T.comp p.1, T.iH p.1 p.2)
  rw [e2h_mulVec, ← mul_div_assoc]; rfl

theorem t_smul (c : ℂ) (v : V 2 sh) : T.t (c • v) = c • T.t v := by
  funext p; simp only [t, Pi.smul_apply, smul_eq_mul]; ring

theorem t_bijective (hb : ∀ a : Fin 2, Function.Bijective (T.iE a.castSucc)) : Function.Bijective T.t := by
  have hτ : ∀ a, T.τ a ≠ 0 := fun a h => by have := T.τ_sq a; rw [h] at this; simp at this
  have hσ : Function.Bijective T.σ := by
    rw [Fintype.bijective_iff_injective_and_card]
    refine ⟨fun a b => ?_, rfl⟩
    rcases T.hand with ⟨h0, h1, -⟩ | ⟨h0, h1, -⟩ <;> fin_cases a <;> fin_cases b <;> simp [h0, h1]
  have hπ : Function.Bijective (fun p : Fin 2 × Idx sh' => ((T.σ p.1, T.iE p.1.castSucc p.2) : Fin 2 × Idx sh)) := by
    constructor
    · rintro ⟨a, x⟩ ⟨b, y⟩ h
      obtain ⟨h1, h2⟩ := Prod.ext_iff.1 h
      obtain rfl := hσ.1 h1
      exact Prod.ext rfl ((hb a).1 h2)
    · rintro ⟨a, x⟩
      obtain ⟨b, rfl⟩ := hσ.2 a
      obtain ⟨y, rfl⟩ := (hb b).2 x
      exact ⟨(b, y), rfl⟩
  constructor
  · intro v w h
    funext q
    obtain ⟨p, rfl⟩ := hπ.2 q
    exact mul_left_cancel₀ (hτ p.1) (congrFun h p)
  · intro w
    refine ⟨fun q => T.τ ((Equiv.ofBijective _ hπ).symm q).1 * w ((Equiv.ofBijective _ hπ).symm q), ?_⟩
    funext p
    have hp : (Equiv.ofBijective _ hπ).symm (T.σ p.1, T.iE p.1.castSucc p.2) = p := (Equiv.ofBijective _ hπ).symm_apply_apply p
    simp only [t, hp]
    rw [← mul_assoc, T.τ_sq, one_mul]

/-- The two cross-sections have the same wavenumbers. -/
theorem eigenvalue_iff (hb : ∀ a : Fin 2, Function.Bijective (T.iE a.castSucc)) (ω lam : ℂ) (ep : V 3 sh) (m : Option (V 3 sh)) :
    IsEigenvalue (operatorE ω d' (T.eps ep) (m.map T.mu)) lam ↔ IsEigenvalue (operatorE ω d ep m) lam := by
  obtain ⟨hi, hs⟩ := T.t_bijective hb
  have h0 : T.t 0 = 0 := by funext p; simp [t]
  constructor
  · rintro ⟨w, hw, he⟩
    obtain ⟨v, rfl⟩ := hs w
    refine ⟨v, fun h => hw (by rw [h, h0]), hi ?_⟩
    rw [← T.operatorE_eq, he, t_smul]
  · rintro ⟨v, hv, he⟩
    refine ⟨T.t v, fun h => hv (hi (h.trans h0.symm)), ?_⟩
    rw [T.operatorE_eq, he, t_smul]

end CrossMap

/-! ### The four symmetries -/

/-- Widths of a cross-section moved by `n` cells along axis `a`. -/
def moveDx (a : Fin 2) (n : ℤ) (d : Dx2 sh) : Dx2 sh :=
  (fun b i => d.1 b (if b = a then wrap i n else i), fun b i => d.2 b (if b = a then wrap i n else i))

theorem moveDx_at (a : Fin 2) (n : ℤ) (w : DxList sh ℂ) (b : Fin 2) (x : Idx sh) : w b (if b = a then wrap (x b) n else x b) = w b (shiftIdx a n x b) := by
  by_cases h : b = a
  · subst h; rw [if_pos rfl, shiftIdx_same]
  · rw [if_neg h, shiftIdx_of_ne h]

/-- Translation by `n` cells along axis `a`. -/
def moveMap (a : Fin 2) (n : ℤ) (d : Dx2 sh) : CrossMap d (moveDx a n d) where
  σ := id
  τ := fun _ => 1
  κ := 1
  iE := fun _ => shiftIdx a n
  iC := shiftIdx a n
  τ_sq := fun _ => one_mul 1
  hand := Or.inl ⟨rfl, rfl, (one_mul 1).symm⟩
  fwZ := fun b f x => by
    rw [fw, fw, derivForward_eq, derivForward_eq, one_mul]
    simp only [wOf_some, moveDx, id]
    rw [moveDx_at a n d.1, shiftIdx_comm a b]
  fwC := fun b _ _ f x => by
    rw [fw, fw, derivForward_eq, derivForward_eq, one_mul]
    simp only [wOf_some, moveDx, id]
    rw [moveDx_at a n d.1, shiftIdx_comm a b]
  bwZ := fun b f x => by
    rw [bw, bw, derivBack_eq, derivBack_eq, one_mul]
    simp only [wOf_some, moveDx, id]
    rw [moveDx_at a n d.2, shiftIdx_comm a b]
  bwC := fun b _ _ f x => by
    rw [bw, bw, derivBack_eq, derivBack_eq, one_mul]
    simp only [wOf_some, moveDx, id]
    rw [moveDx_at a n d.2, shiftIdx_comm a b]

/-- Widths of a cross-section mirrored along axis `a`. -/
def flipDx (a : Fin 2) (d : Dx2 sh) : Dx2 sh :=
  (fun b i => if b = a then d.1 b (mir 1 i) else d.1 b i, fun b i => if b = a then d.2 b (mir 0 i) else d.2 b i)

/-- Mirror image along axis `a`: `E_a` and `H_z` sit half a cell further than the other samples. -/
def flipMap (a : Fin 2) (d : Dx2 sh) : CrossMap d (flipDx a d) where
  σ := id
  τ := fun b => if b = a then -1 else 1
  κ := -1
  iE := fun c => mirIdx a (if c = a.castSucc then 1 else 0)
  iC := mirIdx a 1
  τ_sq := fun b => by split_ifs <;> norm_num
  hand := Or.inl ⟨rfl, rfl, by fin_cases a <;> simp⟩
  fwZ := fun b f x => by
    rw [fw, fw, derivForward_eq, derivForward_eq]
    have h2 : (2 : Fin 3) ≠ a.castSucc := by revert a; decide
    simp only [wOf_some, flipDx, id, if_neg h2]
    by_cases h : b = a
    · subst h
      rw [if_pos rfl, if_pos rfl, if_pos rfl, mirIdx_shift_same, shift_mirIdx_same, mirIdx_same]
      norm_num
      ring
    · have hc : b.castSucc ≠ a.castSucc := fun h' => h (Fin.castSucc_injective 2 h')
      rw [if_neg h, if_neg h, if_neg hc, mirIdx_shift_ne h, mirIdx_of_ne h, one_mul]
  fwC := fun b c hbc f x => by
    rw [fw, fw, derivForward_eq, derivForward_eq]
    simp only [wOf_some, flipDx, id]
    by_cases h : b = a
    · subst h
      have hc : c.castSucc ≠ b.castSucc := fun h' => hbc (Fin.castSucc_injective 2 h')
      rw [if_pos rfl, if_pos rfl, if_neg hc, mirIdx_shift_same, shift_mirIdx_same, mirIdx_same]
      norm_num
      ring
    · have hc : c = a := by revert h hbc; revert a b c; decide
      subst hc
      rw [if_neg h, if_neg h, if_pos rfl, mirIdx_shift_ne h, mirIdx_of_ne h, one_mul]
  bwZ := fun b f x => by
    rw [bw, bw, derivBack_eq, derivBack_eq]
    have h2 : (2 : Fin 3) ≠ a.castSucc := by revert a; decide
    simp only [wOf_some, flipDx, id, if_neg h2]
    by_cases h : b = a
    · subst h
      rw [if_pos rfl, if_pos rfl, if_pos rfl, mirIdx_shift_same, shift_mirIdx_same, mirIdx_same]
      norm_num
      ring
    · have hc : b.castSucc ≠ a.castSucc := fun h' => h (Fin.castSucc_injective 2 h')
      rw [if_neg h, if_neg h, if_neg hc, mirIdx_shift_ne h, mirIdx_of_ne h, one_mul]
  bwC := fun b c hbc f x => by
    rw [bw, bw, derivBack_eq, derivBack_eq]
    simp only [wOf_some, flipDx, id]
    by_cases h : b = a
    · subst h
      have hc : c.castSucc ≠ b.castSucc := fun h' => hbc (Fin.castSucc_injective 2 h')
      rw [if_pos rfl, if_pos rfl, if_neg hc, mirIdx_shift_same, shift_mirIdx_same, mirIdx_same]
      norm_num
      ring
    · have hc : c = a := by revert h hbc; revert a b c; decide
      subst hc
      rw [if_neg h, if_neg h, if_pos rfl, mirIdx_shift_ne h, mirIdx_of_ne h, one_mul]

/-- The cell of the old cross-section at the position of cell `x` of the one with exchanged axes. -/
def exch (x : Idx fun a : Fin 2 => sh a.rev) : Idx sh := fun a => match a with
  | 0 => x 1
  | 1 => x 0

theorem exch_shift (a : Fin 2) (n : ℤ) (x : Idx fun a : Fin 2 => sh a.rev) : exch (shiftIdx a n x) = shiftIdx a.rev n (exch x) := by
  funext b
  fin_cases a <;> fin_cases b
  · exact (shiftIdx_of_ne (show (1 : Fin 2) ≠ 0 by decide) n x).trans (shiftIdx_of_ne (show (0 : Fin 2) ≠ 1 by decide) n (exch x)).symm
  · exact (shiftIdx_same (0 : Fin 2) n x).trans (shiftIdx_same (1 : Fin 2) n (exch x)).symm
  · exact (shiftIdx_same (1 : Fin 2) n x).trans (shiftIdx_same (0 : Fin 2) n (exch x)).symm
  · exact (shiftIdx_of_ne (show (0 : Fin 2) ≠ 1 by decide) n x).trans (shiftIdx_of_ne (show (1 : Fin 2) ≠ 0 by decide) n (exch x)).symm

theorem exch_at (a : Fin 2) (x : Idx fun a : Fin 2 => sh a.rev) : exch x a.rev = x a := by fin_cases a <;> rfl

/-- Widths of the cross-section with exchanged axes. -/
def exchDx (d : Dx2 sh) : Dx2 (fun a : Fin 2 => sh a.rev) := (fun a => d.1 a.rev, fun a => d.2 a.rev)

/-- Exchange of the axes. -/
def exchMap (d : Dx2 sh) : CrossMap d (exchDx d) where
  σ := Fin.rev
  τ := fun _ => 1
  κ := -1
  iE := fun _ => exch
  iC := exch
  τ_sq := fun _ => one_mul 1
  hand := Or.inr ⟨rfl, rfl, by norm_num⟩
  fwZ := fun b f x => by
    rw [fw, fw, derivForward_eq, derivForward_eq, one_mul, exch_shift]
    simp only [wOf_some, exchDx]
    rw [exch_at]
  fwC := fun b _ _ f x => by
    rw [fw, fw, derivForward_eq, derivForward_eq, one_mul, exch_shift]
    simp only [wOf_some, exchDx]
    rw [exch_at]
  bwZ := fun b f x => by
    rw [bw, bw, derivBack_eq, derivBack_eq, one_mul, exch_shift]
    simp only [wOf_some, exchDx]
    rw [exch_at]
  bwC := fun b _ _ f x => by
    rw [bw, bw, derivBack_eq, derivBack_eq, one_mul, exch_shift]
    simp only [wOf_some, exchDx]
    rw [exch_at]

theorem mirIdx_mirIdx {D : ℕ} {sh : Fin D → ℕ} (a : Fin D) (o : ℤ) (x : Idx sh) : mirIdx a o (mirIdx a o x) = x := by
  funext b
  by_cases h : b = a
  · subst h
    rw [mirIdx_same, mirIdx_same]
    apply Fin.ext
    have : ((mir o (mir o (x b)) : Fin _) : ℤ) = (x b : ℕ) := by
      rw [mir_val, mir_val]
      have h1 : -((-((x b : ℕ) : ℤ) - o) % (sh b : ℤ)) - o ≡ -(-((x b : ℕ) : ℤ) - o) - o [ZMOD (sh b : ℤ)] := (Int.mod_modEq _ _).neg.sub_right o
      rw [show -(-((x b : ℕ) : ℤ) - o) - o = ((x b : ℕ) : ℤ) by ring] at h1
      exact Eq.trans h1 (Int.emod_eq_of_lt (by omega) (by have := (x b).isLt; omega))
    exact_mod_cast this
  · rw [mirIdx_of_ne h, mirIdx_of_ne h]

/-- What it means for a change of the cross-section to be followed by the modes: the mode operator, the wavenumbers and the full fields of
each mode change along. -/
def Followed {d : Dx2 sh} {d' : Dx2 sh'} (T : CrossMap d d') : Prop :=
  ∀ (ω : ℂ) (eps : V 3 sh) (mu : Option (V 3 sh)),
    (∀ v, operatorE ω d' (T.eps eps) (mu.map T.mu) *ᵥ T.t v = T.t (operatorE ω d eps mu *ᵥ v)) ∧
    (∀ lam, IsEigenvalue (operatorE ω d' (T.eps eps) (mu.map T.mu)) lam ↔ IsEigenvalue (operatorE ω d eps mu) lam) ∧
    ∀ (β : ℂ) v, exy2e β d' (T.eps eps) *ᵥ T.t v = T.e (exy2e β d eps *ᵥ v) ∧
      exy2h β ω d' (T.eps eps) (mu.map T.mu) *ᵥ T.t v = T.h (exy2h β ω d eps mu *ᵥ v)

theorem CrossMap.followed {d : Dx2 sh} {d' : Dx2 sh'} (T : CrossMap d d') (hb : ∀ a : Fin 2, Function.Bijective (T.iE a.castSucc)) : Followed T :=
  fun ω eps mu => ⟨T.operatorE_eq ω eps mu, fun lam => T.eigenvalue_iff hb ω lam eps mu, fun β v => ⟨T.exy2e_eq β eps v, T.exy2h_eq β ω eps mu v⟩⟩

/-- C123: modes follow a translation of the cross-section by whole cells. -/
theorem C123_translate (a : Fin 2) (n : ℤ) (d : Dx2 sh) : Followed (moveMap a n d) := by
  refine CrossMap.followed _ fun b => ?_
  exact ⟨fun x y h => by
    have := congrArg (shiftIdx a (-n)) h
    simpa [moveMap] using this, fun y => ⟨shiftIdx a (-n) y, by simp [moveMap]⟩⟩

/-- C123: modes follow a mirror image of the cross-section. -/
theorem C123_mirror (a : Fin 2) (d : Dx2 sh) : Followed (flipMap a d) :=
  CrossMap.followed _ fun _ => Function.Involutive.bijective fun x => mirIdx_mirIdx a _ x

/-- C123: modes follow the exchange of the two axes. -/
theorem C123_exchange (d : Dx2 sh) : Followed (exchMap d) := by
  refine CrossMap.followed _ fun b => ⟨fun x y h => ?_, fun y => ⟨fun a => y a.rev, ?_⟩⟩
  · funext a
    have := congrFun h a.rev
    change exch x a.rev = exch y a.rev at this
    rwa [exch_at, exch_at] at this
  · funext a
    fin_cases a <;> rfl

/-- C123, parity: in a mirror-symmetric cross-section a mode that is not degenerate is either even or odd. -/
theorem C123_parity (a : Fin 2) (ω lam : ℂ) (d : Dx2 sh) (hd : flipDx a d = d) (eps : V 3 sh) (heps : (flipMap a d).eps eps = eps)
    (mu : Option (V 3 sh)) (hmu : mu.map (flipMap a d).mu = mu) (v : V 2 sh) (hv : v ≠ 0) (he : operatorE ω d eps mu *ᵥ v = lam • v)
    (hsimple : ∀ w, operatorE ω d eps mu *ᵥ w = lam • w → ∃ c : ℂ, w = c • v) :
    (flipMap a d).t v = v ∨ (flipMap a d).t v = -v := by
  have h1 := (flipMap a d).operatorE_eq ω eps mu v
  have h2 := (flipMap a d).t_smul lam v
  have h3 : ∀ u, (flipMap a d).t ((flipMap a d).t u) = u := by
    intro u
    funext p
    show (if p.1 = a then (-1 : ℂ) else 1) * ((if p.1 = a then (-1 : ℂ) else 1) * u (p.1, mirIdx a (if p.1.castSucc = a.castSucc then 1 else 0) (mirIdx a (if p.1.castSucc = a.castSucc then 1 else 0) p.2))) = u p
    rw [mirIdx_mirIdx]
    split_ifs <;> simp
  have h4 := fun c : ℂ => (flipMap a d).t_smul c v
  rw [heps, hmu, he] at h1
  generalize (flipMap a d).t = t at *
  rw [hd, h2] at h1
  obtain ⟨c, hc⟩ := hsimple _ h1
  have h5 := h3 v
  rw [hc, h4, hc, smul_smul] at h5
  obtain ⟨q, hq⟩ := Function.ne_iff.1 hv
  have h6 : c * c = 1 := by
    have := congrFun h5 q
    simp only [Pi.smul_apply, smul_eq_mul] at this
    exact mul_right_cancel₀ hq (this.trans (one_mul _).symm)
  rcases mul_self_eq_one_iff.1 h6 with rfl | rfl
  · left; rw [hc, one_smul]
  · right; rw [hc, neg_one_smul]

/-- Widths of the cross-section enlarged by `s`. -/
def scale2 (s : ℂ) (d : Dx2 sh) : Dx2 sh := (fun a i => s * d.1 a i, fun a i => s * d.2 a i)

theorem fw_scale2 (s : ℂ) (d : Dx2 sh) (a : Fin 2) (f : Idx sh → ℂ) : fw (scale2 s d) a f = fun x => s⁻¹ * fw d a f x := by
  funext x
  rw [fw, fw, derivForward_eq, derivForward_eq]
  simp only [wOf_some, scale2]
  rw [mul_comm s, div_mul_eq_div_div, div_eq_inv_mul]
theorem bw_scale2 (s : ℂ) (d : Dx2 sh) (a : Fin 2) (f : Idx sh → ℂ) : bw (scale2 s d) a f = fun x => s⁻¹ * bw d a f x := by
  funext x
  rw [bw, bw, derivBack_eq, derivBack_eq]
  simp only [wOf_some, scale2]
  rw [mul_comm s, div_mul_eq_div_div, div_eq_inv_mul]

/-- C123: enlarging the cross-section by `s` and dividing the frequency by `s` divides every wavenumber by `s` and leaves the fields as they are. -/
theorem C123_scale (s : ℂ) (hs : s ≠ 0) (ω : ℂ) (d : Dx2 sh) (eps : V 3 sh) (mu : Option (V 3 sh)) :
    operatorE (ω / s) (scale2 s d) eps mu = (1 / s ^ 2) • operatorE ω d eps mu ∧
    (∀ β, IsEigenvalue (operatorE (ω / s) (scale2 s d) eps mu) ((β / s) ^ 2) ↔ IsEigenvalue (operatorE ω d eps mu) (β ^ 2)) ∧
    ∀ β, exy2e (β / s) (scale2 s d) eps = exy2e β d eps ∧ exy2h (β / s) (ω / s) (scale2 s d) eps mu = exy2h β ω d eps mu := by
  have h1 : operatorE (ω / s) (scale2 s d) eps mu = (1 / s ^ 2) • operatorE ω d eps mu := by
    refine ext_mulVec fun v => ?_
    rw [smul_mulVec]
    funext p
    obtain ⟨c, x⟩ := p
    fin_cases c
    · show (operatorE (ω / s) (scale2 s d) eps mu *ᵥ v) (0, x) = 1 / s ^ 2 * (operatorE ω d eps mu *ᵥ v) (0, x)
      rw [operatorE_0, operatorE_0]
      simp only [fw_scale2, bw_scale2, ← mul_sub, ← mul_add, mul_div_assoc, CrossMap.fw_smul', CrossMap.bw_smul']
      field_simp
    · show (operatorE (ω / s) (scale2 s d) eps mu *ᵥ v) (1, x) = 1 / s ^ 2 * (operatorE ω d eps mu *ᵥ v) (1, x)
      rw [operatorE_1, operatorE_1]
      simp only [fw_scale2, bw_scale2, ← mul_sub, ← mul_add, mul_div_assoc, CrossMap.fw_smul', CrossMap.bw_smul']
      field_simp
  have h2 : ∀ β, exy2e (β / s) (scale2 s d) eps = exy2e β d eps := by
    intro β
    refine ext_mulVec fun v => ?_
    funext p
    obtain ⟨c, x⟩ := p
    match c with
    | 0 => rw [exy2e_0, exy2e_0]
    | 1 => rw [exy2e_1, exy2e_1]
    | 2 =>
      rw [exy2e_2, exy2e_2]
      simp only [bw_scale2]
      rw [← mul_add]
      field_simp
  refine ⟨h1, fun β => ?_, fun β => ⟨h2 β, ?_⟩⟩
  · rw [h1]
    constructor
    · rintro ⟨v, hv, he⟩
      refine ⟨v, hv, ?_⟩
      rw [smul_mulVec] at he
      have := congrArg (fun u => s ^ 2 • u) he
      simp only [smul_smul] at this
      rwa [mul_one_div_cancel (pow_ne_zero 2 hs), one_smul, div_pow, mul_div_cancel₀ _ (pow_ne_zero 2 hs)] at this
    · rintro ⟨v, hv, he⟩
      refine ⟨v, hv, ?_⟩
      rw [smul_mulVec, he, smul_smul]
      congr 1
      ring
  · rw [exy2h, exy2h, h2]
    congr 1
    refine ext_mulVec fun v => ?_
    funext p
    obtain ⟨c, x⟩ := p
    rw [e2h_mulVec, e2h_mulVec]
    have hc : (curlE (β / s) (scale2 s d) *ᵥ v) (c, x) = s⁻¹ * (curlE β d *ᵥ v) (c, x) := by
      match c with
      | 0 => rw [curlE_0, curlE_0, fw_scale2]; ring
      | 1 => rw [curlE_1, curlE_1, fw_scale2]; ring
      | 2 => rw [curlE_2, curlE_2, fw_scale2, fw_scale2]; ring
    rw [hc]
    field_simp

/-! ### The hypotheses are met

The symmetries hold for all cross-sections. For the parity: two cells along x, one along y, an anisotropic medium; the uniform `E_x` is a mode that is
not degenerate. -/

/-- Shape of the example. -/
abbrev pSh : Fin 2 → ℕ := fun a => if a = 0 then 2 else 1
/-- Permittivity of the example. -/
def pEps : V 3 pSh := fun p => if p.1 = 1 then 2 else 1
/-- The uniform mode. -/
def pV : V 2 pSh := fun p => if p.1 = 0 then 1 else 0

/-- Unit widths. -/
def pDx : Dx2 pSh := (fun _ _ => 1, fun _ _ => 1)
/-- The corner. -/
def pX : Idx pSh := fun a => ⟨0, by fin_cases a <;> decide⟩

theorem pCells (x : Idx pSh) : x = pX ∨ x = shiftIdx 0 1 pX := by revert x; decide

theorem pShift (x : Idx pSh) : shiftIdx 0 1 (shiftIdx 0 1 x) = x ∧ shiftIdx 0 (-1) x = shiftIdx 0 1 x := by revert x; decide

theorem pOp (w : V 2 pSh) (x : Idx pSh) : (operatorE 1 pDx pEps none *ᵥ w) (0, x) = w (0, x) + 2 * (w (0, shiftIdx 0 1 x) - w (0, x)) ∧
    (operatorE 1 pDx pEps none *ᵥ w) (1, x) = 2 * w (1, x) + 2 * (w (1, shiftIdx 0 1 x) - w (1, x)) := by
  have f1 : ∀ (f : Idx pSh → ℂ) y, fw pDx 1 f y = 0 := fun f y => (C85_deriv_zero (some pDx.1) 1 rfl f y).1
  have b1 : ∀ (f : Idx pSh → ℂ) y, bw pDx 1 f y = 0 := fun f y => (C85_deriv_zero (some pDx.2) 1 rfl f y).2
  have f0 : ∀ (f : Idx pSh → ℂ) y, fw pDx 0 f y = f (shiftIdx 0 1 y) - f y := fun f y => by rw [fw, derivForward_eq]; simp [pDx]
  have b0 : ∀ (f : Idx pSh → ℂ) y, bw pDx 0 f y = f y - f (shiftIdx 0 1 y) := fun f y => by rw [bw, derivBack_eq, (pShift y).2]; simp [pDx]
  constructor
  · rw [operatorE_0]
    simp only [f1, b1, f0, b0, (pShift x).1, pEps, part, if_neg (show ¬(2 : Fin 3) = 1 by decide)]
    norm_num
    ring
  · rw [operatorE_1]
    simp only [f1, b1, f0, b0, (pShift x).1, pEps, part]
    norm_num
    ring

/-- The hypotheses of `C123_parity` are met, and the mode is odd. -/
example : flipDx 0 pDx = pDx ∧ (flipMap 0 pDx).eps pEps = pEps ∧ pV ≠ 0 ∧ operatorE 1 pDx pEps none *ᵥ pV = (1 : ℂ) • pV ∧
    (∀ w, operatorE 1 pDx pEps none *ᵥ w = (1 : ℂ) • w → ∃ c : ℂ, w = c • pV) ∧ (flipMap 0 pDx).t pV = -pV := by
  refine ⟨?_, ?_, ?_, ?_, fun w hw => ⟨w (0, pX), ?_⟩, ?_⟩
  · refine Prod.ext ?_ ?_ <;> funext a i <;> simp [flipDx, pDx]
  · funext p
    obtain ⟨c, x⟩ := p
    match c with
    | 0 => rfl
    | 1 => rfl
    | 2 => rfl
  · intro h; have := congrFun h (0, pX); simp [pV] at this
  · funext p
    obtain ⟨c, x⟩ := p
    fin_cases c
    · exact (pOp pV x).1.trans (by simp [pV])
    · exact (pOp pV x).2.trans (by simp [pV])
  · have h0 : ∀ x, w (0, shiftIdx 0 1 x) = w (0, x) := fun x => by
      have := (pOp w x).1.symm.trans (congrFun hw (0, x))
      simp only [Pi.smul_apply, smul_eq_mul] at this
      linear_combination this / 2
    have h1 : ∀ x, 2 * w (1, shiftIdx 0 1 x) = w (1, x) := fun x => by
      have := (pOp w x).2.symm.trans (congrFun hw (1, x))
      simp only [Pi.smul_apply, smul_eq_mul] at this
      linear_combination this
    funext p
    obtain ⟨c, x⟩ := p
    fin_cases c
    · show w (0, x) = w (0, pX) * pV (0, x)
      rcases pCells x with rfl | rfl
      · simp [pV]
      · rw [h0]; simp [pV]
    · show w (1, x) = w (0, pX) * pV (1, x)
      have e1 := h1 x
      have e2 := h1 (shiftIdx 0 1 x)
      rw [(pShift x).1] at e2
      have : w (1, x) = 0 := by linear_combination (1 / 3 : ℂ) * e1 + (2 / 3 : ℂ) * e2
      rw [this]; simp [pV]
  · funext p
    obtain ⟨c, x⟩ := p
    fin_cases c
    · show (-1 : ℂ) * 1 = -1; norm_num
    · show (1 : ℂ) * 0 = -0; norm_num

end Meanas.Props
