/-
C93: power in the far field (meanas/fdfd/farfield.py).
-/
import Verif.Props.Farfield

namespace Meanas.Props

open Complex Farfield
open scoped ComplexConjugate

variable {s : Fin 2 → ℕ}

/-- The transverse spectrum `E0 E1 H0 H1` at the wave vector `(kx, ky)` is that of a wave which travels towards, or decays or grows along, +z: complex
direction `u`, electric vector `e ⊥ u`, magnetic vector `u × e`. Inside the light cone `u` is a real unit vector with `u_z > 0`, beyond it `u_z` is
imaginary. -/
def ForwardWave (kx ky : ℝ) (E0 E1 H0 H1 : ℂ) : Prop :=
  ∃ u e : Fin 3 → ℂ, u 0 = kx / (2 * Real.pi) ∧ u 1 = ky / (2 * Real.pi) ∧ u 0 ^ 2 + u 1 ^ 2 + u 2 ^ 2 = 1 ∧ 0 ≤ (u 2).re
    ∧ e 0 * u 0 + e 1 * u 1 + e 2 * u 2 = 0 ∧ E0 = e 0 ∧ E1 = e 1 ∧ H0 = u 1 * e 2 - u 2 * e 1 ∧ H1 = u 2 * e 0 - u 0 * e 2

/-- z component of `Re (E × H*)`. -/
noncomputable def fluxZ (E0 E1 H0 H1 : ℂ) : ℝ := (E0 * conj H1 - E1 * conj H0).re

/-- Parseval's identity for the spectrum of lines 70-71. -/
theorem nearFft_parseval {p : Fin 2 → ℕ} (hp : ∀ a, s a ≤ p a) (f g : Arr s ℂ) :
    ∑ q, nearFft p f q * conj (nearFft p g q) = ((p 0 * p 1 : ℕ) : ℂ) * ∑ x, f x * conj (g x) := by
  let e : Idx s → Idx p := fun x a => Fin.castLE (hp a) (wrap (x a) ((s a / 2 : ℕ) : ℤ))
  have he : Function.Injective e := by
    intro x y hxy
    funext a
    exact wrap_injective _ (Fin.castLE_injective (hp a) (congrFun hxy a))
  have hval : ∀ (f : Arr s ℂ) x, resize (0 : ℂ) p (fftshift f) (e x) = f x := by
    intro f x
    unfold resize
    have h : ∀ a, ((e x a : Fin (p a)) : ℕ) < s a := fun a => (wrap (x a) ((s a / 2 : ℕ) : ℤ)).2
    rw [dif_pos h]
    show f _ = f x
    congr 1
    funext a
    have : (⟨(e x a : ℕ), h a⟩ : Fin (s a)) = wrap (x a) ((s a / 2 : ℕ) : ℤ) := rfl
    show wrap (⟨(e x a : ℕ), h a⟩ : Fin (s a)) _ = x a
    rw [this, wrap_neg_cancel]
  have hout : ∀ (f : Arr s ℂ) y, y ∉ Set.range e → resize (0 : ℂ) p (fftshift f) y = 0 := by
    intro f y hy
    unfold resize
    rw [dif_neg]
    intro h
    apply hy
    refine ⟨fun a => wrap ⟨y a, h a⟩ (-((s a / 2 : ℕ) : ℤ)), ?_⟩
    funext a
    simp only [e, wrap_wrap, neg_add_cancel, wrap_zero]
    rfl
  let σ : Idx p ≃ Idx p :=
    { toFun := fun q a => wrap (q a) (-((p a / 2 : ℕ) : ℤ))
      invFun := fun q a => wrap (q a) ((p a / 2 : ℕ) : ℤ)
      left_inv := fun q => by funext a; simp
      right_inv := fun q => by funext a; simp }
  have h1 : ∑ q, nearFft p f q * conj (nearFft p g q)
      = ∑ q, Bloch.fftn (resize 0 p (fftshift f)) q * conj (Bloch.fftn (resize 0 p (fftshift g)) q) :=
    Equiv.sum_comp σ (fun q => Bloch.fftn (resize 0 p (fftshift f)) q * conj (Bloch.fftn (resize 0 p (fftshift g)) q))
  rw [h1]
  have h2 := Bloch.sum_conj_fftn (Bloch.fftn (resize 0 p (fftshift g))) (resize 0 p (fftshift f))
  rw [Bloch.ifftn_fftn] at h2
  have hc : Fintype.card (Idx p) = p 0 * p 1 := by simp [Fintype.card_pi, Fin.prod_univ_two]
  rw [hc] at h2
  calc _ = ∑ q, conj (Bloch.fftn (resize 0 p (fftshift g)) q) * Bloch.fftn (resize 0 p (fftshift f)) q :=
        Finset.sum_congr rfl fun q _ => mul_comm _ _
    _ = _ := h2
    _ = _ := by
      congr 1
      symm
      apply Fintype.sum_of_injective e he
      · intro y hy; rw [hout f y hy, mul_zero]
      · intro x; rw [hval f x, hval g x, mul_comm]

/-- Beyond the light cone no power flows. -/
theorem flux_evanescent {kx ky : ℝ} (hv : k ^ 2 ≤ kx ^ 2 + ky ^ 2) {E0 E1 H0 H1 : ℂ} (h : ForwardWave kx ky E0 E1 H0 H1) :
    fluxZ E0 E1 H0 H1 = 0 := by
  obtain ⟨u, e, h0, h1, hu, -, hd, rfl, rfl, rfl, rfl⟩ := h
  have hpi := Real.pi_pos
  have r0 : u 0 = ((kx / (2 * Real.pi) : ℝ) : ℂ) := by rw [h0]; push_cast; rfl
  have r1 : u 1 = ((ky / (2 * Real.pi) : ℝ) : ℂ) := by rw [h1]; push_cast; rfl
  have hge : 1 ≤ (kx / (2 * Real.pi)) ^ 2 + (ky / (2 * Real.pi)) ^ 2 := by
    rw [div_pow, div_pow, ← add_div, le_div_iff₀ (by positivity)]
    unfold k at hv; linarith
  generalize kx / (2 * Real.pi) = a at *
  generalize ky / (2 * Real.pi) = b at *
  rw [r0, r1] at hu hd
  have hure := congrArg Complex.re hu
  have huim := congrArg Complex.im hu
  simp [pow_two] at hure huim
  have hz : (u 2).re = 0 := by
    have h2 : (u 2).re * (u 2).im = 0 := by linarith
    rcases mul_eq_zero.1 h2 with h | h
    · exact h
    · rw [h] at hure; nlinarith
  have hdre := congrArg Complex.re hd
  have hdim := congrArg Complex.im hd
  simp at hdre hdim
  unfold fluxZ
  rw [r0, r1]
  simp
  rw [hz] at hdre hdim ⊢
  linear_combination (-(e 2).re) * hdre - (e 2).im * hdim

/-- Inside the light cone. -/
theorem forward_planeWave {kx ky : ℝ} (hv : kx ^ 2 + ky ^ 2 < k ^ 2) {E0 E1 H0 H1 : ℂ} (h : ForwardWave kx ky E0 E1 H0 H1) :
    ∃ e, IsPlaneWave E0 E1 H0 H1 (dirVec (theta kx ky) (phi kx ky)) e := by
  obtain ⟨u, e, h0, h1, hu, hpos, hd, rfl, rfl, rfl, rfl⟩ := h
  obtain ⟨d0, d1, d2⟩ := dir_eq hv
  have hpi := Real.pi_pos
  have unit : dirVec (theta kx ky) (phi kx ky) 0 ^ 2 + dirVec (theta kx ky) (phi kx ky) 1 ^ 2 + dirVec (theta kx ky) (phi kx ky) 2 ^ 2 = 1 := by
    simp only [dirVec, Matrix.cons_val_zero, Matrix.cons_val_one, Matrix.cons_val_two, Matrix.tail_cons, Matrix.head_cons]
    linear_combination Real.sin (phi kx ky) ^ 2 * Real.sin_sq_add_cos_sq (theta kx ky) + Real.sin_sq_add_cos_sq (phi kx ky)
  generalize dirVec (theta kx ky) (phi kx ky) = v at *
  have r0 : u 0 = ((v 0 : ℝ) : ℂ) := by
    rw [h0, d0]; unfold k; push_cast; field_simp
  have r1 : u 1 = ((v 1 : ℝ) : ℂ) := by
    rw [h1, d1]; unfold k; push_cast; field_simp
  have r2 : u 2 = ((v 2 : ℝ) : ℂ) := by
    rw [r0, r1] at hu
    have hure := congrArg Complex.re hu
    have huim := congrArg Complex.im hu
    simp [pow_two] at hure huim
    have h2 : (u 2).re * (u 2).im = 0 := by linarith
    have him : (u 2).im = 0 := by
      rcases mul_eq_zero.1 h2 with h | h
      · rw [h] at hure; nlinarith
      · exact h
    rw [him] at hure
    apply Complex.ext
    · simp; nlinarith
    · simpa using him
  refine ⟨e, ?_, rfl, rfl, ?_, ?_⟩
  · rw [r0, r1, r2] at hd; exact hd
  · rw [r1, r2]; rfl
  · rw [r0, r2]; rfl

/-- Flux of a plane wave from its components along inclination and azimuth. -/
theorem flux_planeWave {th ph : ℝ} {E0 E1 H0 H1 : ℂ} {e : Fin 3 → ℂ} (h : IsPlaneWave E0 E1 H0 H1 (dirVec th ph) e) :
    fluxZ E0 E1 H0 H1 = Real.cos ph * (normSq (dot3 e (polVec th ph)) + normSq (dot3 e (azVec th))) := by
  obtain ⟨hd, rfl, rfl, rfl, rfl⟩ := h
  have s1 := Real.sin_sq_add_cos_sq ph
  have s2 := Real.sin_sq_add_cos_sq th
  have hdre := congrArg Complex.re hd
  have hdim := congrArg Complex.im hd
  unfold fluxZ
  simp only [dot3, dirVec, Matrix.cons_val_zero, Matrix.cons_val_one, Matrix.cons_val_two, Matrix.tail_cons, Matrix.head_cons, cross3,
      azVec, polVec, normSq_apply, map_sub, map_mul, sub_re, mul_re, mul_im, add_re, add_im, sub_im, conj_re, conj_im, ofReal_re, ofReal_im,
      conj_ofReal, zero_re, zero_im, mul_zero, sub_zero, zero_mul, add_zero, zero_add] at hdre hdim ⊢
  generalize (e 0).re = a0 at *
  generalize (e 1).re = a1 at *
  generalize (e 2).re = a2 at *
  generalize (e 0).im = b0 at *
  generalize (e 1).im = b1 at *
  generalize (e 2).im = b2 at *
  generalize Real.sin ph = sp at *
  generalize Real.cos ph = cp at *
  generalize Real.sin th = st at *
  generalize Real.cos th = ct at *
  have key : ∀ a0 a1 a2 : ℝ, a0 * (sp * ct) + a1 * (sp * st) + a2 * cp = 0 →
      (a0 * (cp * a0 - sp * ct * a2) - a1 * (sp * st * a2 - cp * a1))
        = cp * ((a0 * (cp * ct) + a1 * (cp * st) + a2 * -sp) ^ 2 + (a0 * -st + a1 * ct) ^ 2) := by
    intro a0 a1 a2 h
    have hn : a0 ^ 2 + a1 ^ 2 + a2 ^ 2 = (a0 * (cp * ct) + a1 * (cp * st) + a2 * -sp) ^ 2 + (a0 * -st + a1 * ct) ^ 2
        + (a0 * (sp * ct) + a1 * (sp * st) + a2 * cp) ^ 2 := by
      linear_combination (-(a0 * ct + a1 * st) ^ 2 - a2 ^ 2) * s1 - (a0 ^ 2 + a1 ^ 2) * s2
    rw [h] at hn
    linear_combination cp * hn - a2 * h
  have k1 := key a0 a1 a2 hdre
  have k2 := key b0 b1 b2 hdim
  linear_combination k1 + k2

section
variable {E0 E1 H0 H1 : Arr s ℂ} {dx dy : ℝ} {pad : Pad} {F : Far (padShape s pad)}

/-- C93: without padding, for a near field whose spectrum consists of forward travelling and of evanescent waves, the power radiated into the far
field, `Σ (|E_θ|² + |E_φ|²) / (4 cos φ)` over the samples, is the number of samples times the power through the near-field plane,
`Σ Re (E_x H_y* - E_y H_x*)`. -/
theorem C93_power (hF : nearToFarfield [E0, E1] [H0, H1] dx dy pad = .ok F) (hp : ∀ a, padShape s pad a = s a)
    (hw : ∀ q, ForwardWave (F.kx q) (F.ky q) (rad dx dy (centred s) E0 (F.kx q) (F.ky q)) (rad dx dy (centred s) E1 (F.kx q) (F.ky q))
      (rad dx dy (centred s) H0 (F.kx q) (F.ky q)) (rad dx dy (centred s) H1 (F.kx q) (F.ky q))) :
    ∑ q, (normSq ((F.E 0 q).getD 0) + normSq ((F.E 1 q).getD 0)) / (4 * Real.cos (F.phi q))
      = (s 0 * s 1 : ℕ) * ∑ x, fluxZ (E0 x) (E1 x) (H0 x) (H1 x) := by
  have hpt : ∀ q, (normSq ((F.E 0 q).getD 0) + normSq ((F.E 1 q).getD 0)) / (4 * Real.cos (F.phi q))
      = fluxZ (nearFft _ E0 q) (nearFft _ E1 q) (nearFft _ H0 q) (nearFft _ H1 q) := by
    intro q
    obtain ⟨hx, hy, -, -, -, hk, ha, -, -⟩ := near_spec hF
    have hr : ∀ f : Arr s ℂ, nearFft (padShape s pad) f q = rad dx dy (centred s) f (F.kx q) (F.ky q) := by
      intro f
      rw [nearFft_eq (fun a => (hp a).ge) hx hy, rad_swapped hp hx hy, (hk q).1, (hk q).2]
    simp only [hr]
    obtain ⟨-, -, -, -, -, hout, -⟩ := C63_light_cone hF q
    by_cases hv : F.kx q ^ 2 + F.ky q ^ 2 < k ^ 2
    · obtain ⟨e, he⟩ := forward_planeWave hv (hw q)
      rw [flux_planeWave he]
      rw [← (ha q).1, ← (ha q).2] at he ⊢
      obtain ⟨f0, f1, -, -⟩ := C80_outgoing hF hp q hv e he
      have hc : 0 < Real.cos (F.phi q) := by rw [(ha q).2]; exact (cosPhi_cos hv).2
      have h2 : normSq (2 : ℂ) = 4 := by norm_num [normSq_apply]
      rw [f0, f1]
      simp only [Option.getD_some, normSq_mul, normSq_ofReal, h2]
      field_simp
    · push Not at hv
      obtain ⟨hz, -, -⟩ := hout hv
      rw [flux_evanescent hv (hw q), (hz 0).1, (hz 1).1]
      simp
  simp only [hpt]
  unfold fluxZ
  rw [← Complex.re_sum, ← Complex.re_sum, Finset.sum_sub_distrib, Finset.sum_sub_distrib, nearFft_parseval (fun a => (hp a).ge),
    nearFft_parseval (fun a => (hp a).ge), hp 0, hp 1, ← mul_sub, ← Complex.re_ofReal_mul]
  push_cast
  rfl

end

/-- Outgoing near fields meet the hypothesis, the sampled directions being real. -/
theorem forwardWave_of_planeWave {kx ky th ph : ℝ} {E0 E1 H0 H1 : ℂ} {e : Fin 3 → ℂ} (h0 : 0 < Real.cos ph)
    (hx : kx = 2 * Real.pi * dirVec th ph 0) (hy : ky = 2 * Real.pi * dirVec th ph 1) (h : IsPlaneWave E0 E1 H0 H1 (dirVec th ph) e) :
    ForwardWave kx ky E0 E1 H0 H1 := by
  obtain ⟨hd, rfl, rfl, rfl, rfl⟩ := h
  have hpi : (Real.pi : ℂ) ≠ 0 := ofReal_ne_zero.2 Real.pi_ne_zero
  refine ⟨fun a => dirVec th ph a, e, ?_, ?_, ?_, ?_, hd, rfl, rfl, rfl, rfl⟩
  · rw [hx]; push_cast; field_simp
  · rw [hy]; push_cast; field_simp
  · have : dirVec th ph 0 ^ 2 + dirVec th ph 1 ^ 2 + dirVec th ph 2 ^ 2 = 1 := by
      simp only [dirVec, Matrix.cons_val_zero, Matrix.cons_val_one, Matrix.cons_val_two, Matrix.tail_cons, Matrix.head_cons]
      linear_combination Real.sin ph ^ 2 * Real.sin_sq_add_cos_sq th + Real.sin_sq_add_cos_sq ph
    beta_reduce
    exact_mod_cast this
  · beta_reduce
    rw [ofReal_re]
    simpa [dirVec] using h0.le

/-- A nonzero near field on a 2 x 2 grid, transformed without padding, meets the hypotheses of `C93_power`. -/
example : ∃ (E0 E1 H0 H1 : Arr (fun _ : Fin 2 => 2) ℂ) (F : Far (padShape (fun _ : Fin 2 => 2) (.int 2))),
    nearToFarfield [E0, E1] [H0, H1] 1 1 (.int 2) = .ok F ∧ (∀ a, padShape (fun _ : Fin 2 => 2) (.int 2) a = 2)
    ∧ (∀ q, ForwardWave (F.kx q) (F.ky q) (rad 1 1 (centred _) E0 (F.kx q) (F.ky q)) (rad 1 1 (centred _) E1 (F.kx q) (F.ky q))
      (rad 1 1 (centred _) H0 (F.kx q) (F.ky q)) (rad 1 1 (centred _) H1 (F.kx q) (F.ky q)))
    ∧ ¬(E0 = 0 ∧ E1 = 0) := by
  obtain ⟨E0, E1, H0, H1, ho, hn⟩ := outgoing_example
  have hok : ∃ F, nearToFarfield [E0, E1] [H0, H1] 1 1 (.int 2) = .ok F := by
    unfold nearToFarfield
    simp [padShape]
  obtain ⟨F, hF⟩ := hok
  refine ⟨E0, E1, H0, H1, F, hF, fun _ => rfl, fun q => ?_, hn⟩
  obtain ⟨-, -, -, -, -, hk, -, -, -⟩ := near_spec hF
  obtain ⟨th, ph, h0, h1, h2, e, he⟩ := ho q
  rw [(hk q).1, (hk q).2]
  exact forwardWave_of_planeWave h0 h1 h2 he

/-- Parseval's identity for lines 225-226. -/
theorem nearIfft_parseval {p : Fin 2 → ℕ} (hp : ∀ a, s a ≤ p a) (g : Idx s → Option ℂ) (v : Arr s ℂ) (hg : ∀ q, g q = some (v q)) :
    ((p 0 * p 1 : ℕ) : ℝ) * ∑ x, ‖(nearIfft p g x).getD 0‖ ^ 2 = ∑ q, ‖v q‖ ^ 2 := by
  have hres : ∀ y, resize (some 0) p (ifftshift g) y = some (resize (0 : ℂ) p (ifftshift v) y) := by
    intro y
    unfold resize
    split_ifs
    · exact hg _
    · rfl
  have hn : ∀ x, (nearIfft p g x).getD 0 = ifftshift (Bloch.ifftn (resize (0 : ℂ) p (ifftshift v))) x := by
    intro x
    unfold nearIfft
    rw [if_neg (by rintro ⟨y, hy⟩; rw [hres] at hy; exact absurd hy (by simp))]
    simp only [hres, Option.getD_some]
  let e : Idx s → Idx p := fun x a => Fin.castLE (hp a) (wrap (x a) (-((s a / 2 : ℕ) : ℤ)))
  have he : Function.Injective e := by
    intro x y hxy
    funext a
    exact wrap_injective _ (Fin.castLE_injective (hp a) (congrFun hxy a))
  have hval : ∀ x, resize (0 : ℂ) p (ifftshift v) (e x) = v x := by
    intro x
    unfold resize
    have h : ∀ a, ((e x a : Fin (p a)) : ℕ) < s a := fun a => (wrap (x a) (-((s a / 2 : ℕ) : ℤ))).2
    rw [dif_pos h]
    show v _ = v x
    congr 1
    funext a
    have : (⟨(e x a : ℕ), h a⟩ : Fin (s a)) = wrap (x a) (-((s a / 2 : ℕ) : ℤ)) := rfl
    show wrap (⟨(e x a : ℕ), h a⟩ : Fin (s a)) _ = x a
    rw [this, wrap_wrap, neg_add_cancel, wrap_zero]
  have hout : ∀ y, y ∉ Set.range e → resize (0 : ℂ) p (ifftshift v) y = 0 := by
    intro y hy
    unfold resize
    rw [dif_neg]
    intro h
    apply hy
    refine ⟨fun a => wrap ⟨y a, h a⟩ ((s a / 2 : ℕ) : ℤ), ?_⟩
    funext a
    simp only [e, wrap_wrap, add_neg_cancel, wrap_zero]
    rfl
  let σ : Idx p ≃ Idx p :=
    { toFun := fun q a => wrap (q a) ((p a / 2 : ℕ) : ℤ)
      invFun := fun q a => wrap (q a) (-((p a / 2 : ℕ) : ℤ))
      left_inv := fun q => by funext a; simp
      right_inv := fun q => by funext a; simp }
  set G := resize (0 : ℂ) p (ifftshift v) with hG
  have h1 : ∑ x, ‖(nearIfft p g x).getD 0‖ ^ 2 = ∑ x, ‖Bloch.ifftn G x‖ ^ 2 := by
    simp only [hn]
    exact Equiv.sum_comp σ (fun q => ‖Bloch.ifftn G q‖ ^ 2)
  have h2 := Bloch.sum_conj_fftn G (Bloch.ifftn G)
  rw [Bloch.fftn_ifftn] at h2
  have hc : Fintype.card (Idx p) = p 0 * p 1 := by simp [Fintype.card_pi, Fin.prod_univ_two]
  rw [hc] at h2
  have h3 : ∑ x, ‖G x‖ ^ 2 = ∑ q, ‖v q‖ ^ 2 := by
    symm
    apply Fintype.sum_of_injective e he
    · intro y hy; rw [hout y hy]; simp
    · intro x; rw [hval x]
  rw [h1, ← h3]
  have h4 : ∀ z : ℂ, conj z * z = ((‖z‖ ^ 2 : ℝ) : ℂ) := fun z => by rw [mul_comm, Complex.mul_conj']; push_cast; rfl
  simp only [h4] at h2
  exact_mod_cast h2.symm

/-- **C64**, padding: `far_to_nearfield` with a larger `padded_size` distributes the same field over more samples: the sum of the squared magnitudes times the
number of samples does not depend on the padding. -/
theorem C64_padding {n : ℕ} (hn : n ≠ 0) {dx dy : ℝ} (hx : dx ≠ 0) (hy : dy ≠ 0) (Ef Hf : Fin 2 → Arr (fun _ => n) ℂ) (pad : Pad)
    (hp : ∀ a, n ≤ padShape (fun _ => n) pad a)
    (hq : ∀ q : Idx fun _ : Fin 2 => n, waveNumber n dx (q 0) ^ 2 + waveNumber n dy (q 1) ^ 2 ≤ (2 * Real.pi) ^ 2) :
    ∃ N N', farToNearfield [Ef 0, Ef 1] [Hf 0, Hf 1] (.scalar (2 * Real.pi / (n * dx))) (.scalar (2 * Real.pi / (n * dy))) (.int n) = .ok N
      ∧ farToNearfield [Ef 0, Ef 1] [Hf 0, Hf 1] (.scalar (2 * Real.pi / (n * dx))) (.scalar (2 * Real.pi / (n * dy))) pad = .ok N'
      ∧ ∀ i, ((padShape (fun _ => n) pad 0 * padShape (fun _ => n) pad 1 : ℕ) : ℝ) * ∑ x, ‖(N'.E i x).getD 0‖ ^ 2
          = (n * n : ℕ) * ∑ x, ‖(N.E i x).getD 0‖ ^ 2
        ∧ ((padShape (fun _ => n) pad 0 * padShape (fun _ => n) pad 1 : ℕ) : ℝ) * ∑ x, ‖(N'.H i x).getD 0‖ ^ 2
          = (n * n : ℕ) * ∑ x, ‖(N.H i x).getD 0‖ ^ 2 := by
  have hc : ∀ q : Idx fun _ : Fin 2 => n, ∃ c, cosPhi (waveNumber n dx (q 0)) (waveNumber n dy (q 1)) = some c := by
    intro q
    unfold cosPhi k
    rw [if_neg (by have := hq q; nlinarith)]
    exact ⟨_, rfl⟩
  have hp0 : ∀ a, padShape (fun _ => n) pad a ≠ 0 := fun a h => hn (Nat.le_zero.1 (h ▸ hp a))
  have both : ∀ g : Idx (fun _ : Fin 2 => n) → Option ℂ, (∀ q, (g q).isSome) →
      ((padShape (fun _ => n) pad 0 * padShape (fun _ => n) pad 1 : ℕ) : ℝ) * ∑ x, ‖(nearIfft (padShape (fun _ => n) pad) g x).getD 0‖ ^ 2
        = (n * n : ℕ) * ∑ x, ‖(nearIfft (padShape (fun _ : Fin 2 => n) (.int n)) g x).getD 0‖ ^ 2 := by
    intro g hg
    have hv : ∀ q, g q = some ((g q).getD 0) := by
      intro q
      obtain ⟨z, hz⟩ := Option.isSome_iff_exists.1 (hg q)
      rw [hz]; rfl
    rw [nearIfft_parseval hp g _ hv]
    exact (nearIfft_parseval (p := padShape (fun _ : Fin 2 => n) (.int n)) (fun _ => le_rfl) g _ hv).symm
  have ok : ∀ pad : Pad, (∀ a, padShape (fun _ => n) pad a ≠ 0) → ∃ N,
      farToNearfield [Ef 0, Ef 1] [Hf 0, Hf 1] (.scalar (2 * Real.pi / (n * dx))) (.scalar (2 * Real.pi / (n * dy))) pad = .ok N
      ∧ ∀ i, N.E i = nearIfft _ (fun q => nearE (waveNumber n dx (q 0)) (waveNumber n dy (q 1)) (fun j => if j = 0 then Ef 0 q else Ef 1 q) i)
        ∧ N.H i = nearIfft _ (fun q => nearH (waveNumber n dx (q 0)) (waveNumber n dy (q 1)) (fun j => if j = 0 then Ef 0 q else Ef 1 q) i) := by
    intro pad hp0
    unfold farToNearfield
    simp only [freqs_scalar hn hx, freqs_scalar hn hy]
    rw [if_neg (by simp [hn])]
    simp only [bind, Except.bind]
    rw [dif_pos trivial, if_neg (by simpa using hp0)]
    exact ⟨_, rfl, fun i => ⟨rfl, rfl⟩⟩
  obtain ⟨N, hN, hN2⟩ := ok (.int n) fun _ => hn
  obtain ⟨N', hN', hN2'⟩ := ok pad hp0
  refine ⟨N, N', hN, hN', fun i => ?_⟩
  rw [(hN2 i).1, (hN2 i).2, (hN2' i).1, (hN2' i).2]
  refine ⟨both _ fun q => ?_, both _ fun q => ?_⟩
  · obtain ⟨c, h⟩ := hc q
    unfold nearE
    rw [h]; rfl
  · obtain ⟨c, h⟩ := hc q
    unfold nearH
    rw [h]; rfl

end Meanas.Props
