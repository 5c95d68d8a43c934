/-
Property C176: how the far field of meanas/fdfd/farfield.py `near_to_farfield` follows changes of the near field.
-/
import Verif.Props.Farfield

namespace Meanas.Props

open Complex Meanas.Farfield

variable {s : Fin 2 → ℕ}

/-! ### Specification -/

/-- The transverse vector with components `c 0` along inclination and `c 1` along azimuth, in Cartesian components. -/
noncomputable def cartesian (c : Fin 2 → Option ℂ) (th ph : ℝ) : Fin 3 → ℂ := fun a => (c 0).getD 0 * polVec th ph a + (c 1).getD 0 * azVec th a

/-- Electric and magnetic far-field vectors of a result. -/
noncomputable def farVecE {p : Fin 2 → ℕ} (F : Far p) (q : Idx p) : Fin 3 → ℂ := cartesian (fun i => F.E i q) (F.theta q) (F.phi q)
noncomputable def farVecH {p : Fin 2 → ℕ} (F : Far p) (q : Idx p) : Fin 3 → ℂ := cartesian (fun i => F.H i q) (F.theta q) (F.phi q)

/-- The array moved by `t` cells (around the edges, as `numpy.roll`). -/
def movedBy (t : Fin 2 → ℤ) (f : Arr s ℂ) : Arr s ℂ := fun x => f fun a => wrap (x a) (-t a)

/-- The array with the order of the cells reversed along the axis `a` (as `numpy.flip`). -/
def flipped (a : Fin 2) (f : Arr s ℂ) : Arr s ℂ := fun x => f (Function.update x a (Fin.rev (x a)))

/-- Twice the distance (in cells) of the centre of an axis from the cell which the transform takes as origin. -/
def twiceOffset (n : ℕ) : ℤ := if Even n then 1 else 2

namespace FarAux

section
variable {E0 E1 H0 H1 : Arr s ℂ} {dx dy : ℝ} {pad : Pad} {F : Far (padShape s pad)}

/-- The Fourier integrals of the near field at a sample. -/
theorem farE_rad (hF : nearToFarfield [E0, E1] [H0, H1] dx dy pad = .ok F) (hp : ∀ a, padShape s pad a = s a) (q : Idx (padShape s pad)) (i : Fin 2) :
    F.E i q = farE (F.kx q) (F.ky q) ![rad dx dy (centred s) E0 (F.kx q) (F.ky q), rad dx dy (centred s) E1 (F.kx q) (F.ky q)]
      ![rad dx dy (centred s) H0 (F.kx q) (F.ky q), rad dx dy (centred s) H1 (F.kx q) (F.ky q)] i := by
  obtain ⟨hx, hy, -, -, -, hk, ha, hE, hH⟩ := near_spec hF
  have hr : ∀ f : Arr s ℂ, nearFft (padShape s pad) f q = rad dx dy (centred s) f (F.kx q) (F.ky q) := fun f => by
    rw [nearFft_eq (fun a => (hp a).ge) hx hy, rad_swapped hp hx hy, (hk q).1, (hk q).2]
  have hs : ∀ f g : Arr s ℂ, sp (padShape s pad) f g q = ![rad dx dy (centred s) f (F.kx q) (F.ky q), rad dx dy (centred s) g (F.kx q) (F.ky q)] := fun f g => by
    unfold sp
    rw [hr, hr]
    funext j; fin_cases j <;> rfl
  rw [hE, hs, hs]

theorem farE_smul (kx ky : ℝ) (c : ℂ) (En Hn : Fin 2 → ℂ) (i : Fin 2) : farE kx ky (c • En) (c • Hn) i = (farE kx ky En Hn i).map (c * ·) := by
  by_cases hv : kx ^ 2 + ky ^ 2 < k ^ 2
  · rw [farE_eq hv, farE_eq hv, Option.map_some]
    congr 1
    fin_cases i <;> simp [radiated, dot3] <;> ring
  · unfold farE
    rw [if_pos (by unfold Invalid; nlinarith), if_pos (by unfold Invalid; nlinarith)]
    simp

theorem rad_moved (hx : dx ≠ 0) (hy : dy ≠ 0) {n m : ℕ} (hn : n = s 0) (hm : m = s 1) (q0 : Fin n) (q1 : Fin m) (t : Fin 2 → ℤ) (f : Arr s ℂ) :
    rad dx dy (centred s) (movedBy t f) (waveNumber n dx q0) (waveNumber m dy q1)
      = exp (-(I * (waveNumber n dx q0 * (t 0 * dx) + waveNumber m dy q1 * (t 1 * dy)))) * rad dx dy (centred s) f (waveNumber n dx q0) (waveNumber m dy q1) := by
  subst hn hm
  let e : Idx s ≃ Idx s := ⟨fun x a => wrap (x a) (t a), fun x a => wrap (x a) (-t a), fun x => by funext a; simp, fun x => by funext a; simp⟩
  unfold rad
  rw [← Equiv.sum_comp e, Finset.mul_sum]
  refine Finset.sum_congr rfl fun x _ => ?_
  have h1 : movedBy t f (e x) = f x := by unfold movedBy; congr 1; funext a; simp [e]
  rw [h1, mul_left_comm (exp _) (f x)]
  congr 1
  have n0 : ((s 0 : ℕ) : ℂ) ≠ 0 := Nat.cast_ne_zero.2 (by have := q0.2; omega)
  have n1 : ((s 1 : ℕ) : ℂ) ≠ 0 := Nat.cast_ne_zero.2 (by have := q1.2; omega)
  have d0 : (dx : ℂ) ≠ 0 := ofReal_ne_zero.2 hx
  have d1 : (dy : ℂ) ≠ 0 := ofReal_ne_zero.2 hy
  have hd : ∀ a, ((s a : ℕ) : ℤ) ∣ centred s a (e x a) - (centred s a (x a) + t a) := by
    intro a
    have hw := wrap_val (x a) (t a)
    have he : e x a = wrap (x a) (t a) := rfl
    unfold centred
    rw [he, show (((wrap (x a) (t a) : Fin (s a)) : ℕ) : ℤ) = (((x a : Fin (s a)) : ℕ) + t a) % (s a : ℤ) from hw]
    refine ⟨-(((((x a : Fin (s a)) : ℕ) : ℤ) + t a) / (s a : ℤ)), ?_⟩
    have := Int.emod_add_mul_ediv ((((x a : Fin (s a)) : ℕ) : ℤ) + t a) (s a : ℤ)
    linarith
  have split : ∀ u v : ℤ, exp (-(I * ((waveNumber (s 0) dx q0 : ℂ) * (u * dx) + (waveNumber (s 1) dy q1 : ℂ) * (v * dy))))
      = exp (-(2 * Real.pi * I * ((((q0 : ℕ) : ℤ) - (s 0 : ℤ) / 2 : ℤ) : ℂ) * (u : ℂ) / (s 0 : ℕ)))
        * exp (-(2 * Real.pi * I * ((((q1 : ℕ) : ℤ) - (s 1 : ℤ) / 2 : ℤ) : ℂ) * (v : ℂ) / (s 1 : ℕ))) := by
    intro u v
    rw [← exp_add]
    congr 1
    unfold waveNumber
    push_cast
    field_simp
    ring
  rw [split, exp_congr (a' := ((q0 : ℕ) : ℤ) - (s 0 : ℤ) / 2) (by have := q0.2; omega) (by rw [sub_self]; exact dvd_zero _) (hd 0),
    exp_congr (a' := ((q1 : ℕ) : ℤ) - (s 1 : ℤ) / 2) (by have := q1.2; omega) (by rw [sub_self]; exact dvd_zero _) (hd 1), ← split, ← exp_add]
  congr 1
  push_cast
  ring

theorem rad_sum {ι : Type} (S : Finset ι) (a : ι → ℂ) (g : ι → Arr s ℂ) (pos : (a : Fin 2) → Fin (s a) → ℤ) (kx ky : ℝ) :
    rad dx dy pos (fun x => ∑ j ∈ S, a j * g j x) kx ky = ∑ j ∈ S, a j * rad dx dy pos (g j) kx ky := by
  unfold rad
  simp only [Finset.sum_mul, Finset.mul_sum, mul_assoc]
  exact Finset.sum_comm

theorem wave_congr {n m : ℕ} (h : n = m) {i : Fin n} {j : Fin m} (hij : (i : ℕ) = j) {d : ℝ} : waveNumber n d i = waveNumber m d j := by
  subst h; rw [Fin.ext hij]

/-- Far-field vector of spectra `e`, `h` in the direction `u`: `u × L - N + (N·u) u` with the currents `L = -n × E`, `N = n × H`. -/
noncomputable def vecOf (e h : Fin 2 → ℂ) (u : Fin 3 → ℂ) : Fin 3 → ℂ :=
  ![u 2 * e 0 + h 1 + (h 0 * u 1 - h 1 * u 0) * u 0, u 2 * e 1 - h 0 + (h 0 * u 1 - h 1 * u 0) * u 1,
    -(u 0 * e 0) - u 1 * e 1 + (h 0 * u 1 - h 1 * u 0) * u 2]

theorem cartesian_radiated (e h : Fin 2 → ℂ) (th ph : ℝ) :
    cartesian (fun i => some (radiated ![e 1, -e 0, 0] ![-h 1, h 0, 0] th ph i)) th ph = vecOf e h fun c => (dirVec th ph c : ℂ) := by
  have hA : (Real.sin ph : ℂ) ^ 2 + (Real.cos ph : ℂ) ^ 2 = 1 := by exact_mod_cast Real.sin_sq_add_cos_sq ph
  have hB : (Real.sin th : ℂ) ^ 2 + (Real.cos th : ℂ) ^ 2 = 1 := by exact_mod_cast Real.sin_sq_add_cos_sq th
  funext c
  unfold cartesian vecOf radiated dot3 dirVec polVec azVec
  generalize Real.sin ph = a at *
  generalize Real.cos ph = b at *
  generalize Real.sin th = p at *
  generalize Real.cos th = q at *
  fin_cases c
  · simp
    linear_combination (b * e 0 + h 1) * hB + (h 1 * q ^ 2 - h 0 * p * q) * hA
  · simp
    linear_combination (b * e 1 - h 0) * hB + (h 1 * p * q - h 0 * p ^ 2) * hA
  · simp
    ring

/-- The direction of a sample. -/
noncomputable def dirOf (kx ky : ℝ) : Fin 3 → ℂ := fun c => ((![kx / k, ky / k, Real.sqrt (k * k - (kx * kx + ky * ky)) / k] : Fin 3 → ℝ) c : ℂ)

theorem dirVec_eq {kx ky : ℝ} (hv : kx ^ 2 + ky ^ 2 < k ^ 2) : (fun c => (dirVec (theta kx ky) (phi kx ky) c : ℂ)) = dirOf kx ky := by
  have hd := dir_eq hv
  have hk := k_pos.ne'
  have hc := (cosPhi_cos hv).1
  rw [cosPhi_eq hv] at hc
  have hc' := Option.some.inj hc
  funext c
  unfold dirOf
  congr 1
  fin_cases c
  · show dirVec _ _ 0 = kx / k
    rw [eq_div_iff hk]; linarith [hd.1]
  · show dirVec _ _ 1 = ky / k
    rw [eq_div_iff hk]; linarith [hd.2.1]
  · exact hc'.symm

theorem farVecE_eq (hF : nearToFarfield [E0, E1] [H0, H1] dx dy pad = .ok F) (hp : ∀ a, padShape s pad a = s a) (q : Idx (padShape s pad)) :
    farVecE F q = if F.kx q ^ 2 + F.ky q ^ 2 < k ^ 2 then
      vecOf ![rad dx dy (centred s) E0 (F.kx q) (F.ky q), rad dx dy (centred s) E1 (F.kx q) (F.ky q)]
        ![rad dx dy (centred s) H0 (F.kx q) (F.ky q), rad dx dy (centred s) H1 (F.kx q) (F.ky q)] (dirOf (F.kx q) (F.ky q)) else 0 := by
  obtain ⟨-, -, -, a0, a1, a2, -⟩ := C63_light_cone hF q
  obtain ⟨-, -, -, -, -, -, ha, -⟩ := near_spec hF
  split_ifs with hv
  · rw [← dirVec_eq hv, ← cartesian_radiated]
    unfold farVecE
    rw [(ha q).1, (ha q).2]
    congr 1
    funext i
    rw [farE_rad hF hp, farE_eq hv]
  · have c1 := (a2 (not_lt.1 hv)).1
    funext c
    simp [farVecE, cartesian, (c1 0).1, (c1 1).1]

theorem farVecH_eq (hF : nearToFarfield [E0, E1] [H0, H1] dx dy pad = .ok F) (hp : ∀ a, padShape s pad a = s a) (q : Idx (padShape s pad)) :
    farVecH F q = if F.kx q ^ 2 + F.ky q ^ 2 < k ^ 2 then
      vecOf ![rad dx dy (centred s) H0 (F.kx q) (F.ky q), rad dx dy (centred s) H1 (F.kx q) (F.ky q)]
        ![-rad dx dy (centred s) E0 (F.kx q) (F.ky q), -rad dx dy (centred s) E1 (F.kx q) (F.ky q)] (dirOf (F.kx q) (F.ky q)) else 0 := by
  obtain ⟨-, -, -, a0, a1, a2, -⟩ := C63_light_cone hF q
  obtain ⟨-, -, -, -, -, -, ha, -⟩ := near_spec hF
  split_ifs with hv
  · rw [← dirVec_eq hv, ← cartesian_radiated]
    unfold farVecH
    rw [(ha q).1, (ha q).2]
    congr 1
    funext i
    fin_cases i
    · show F.H 0 q = _
      rw [a0, farE_rad hF hp, farE_eq hv, Option.map_some]; congr 1; simp [radiated, dot3]; ring
    · show F.H 1 q = _
      rw [a1, farE_rad hF hp, farE_eq hv]; congr 1; simp [radiated, dot3]; ring
  · have c1 := (a2 (not_lt.1 hv)).1
    funext c
    simp [farVecH, cartesian, (c1 0).2, (c1 1).2]

theorem centred_rev (a : Fin 2) (i : Fin (s a)) : centred s a (Fin.rev i) = -centred s a i - twiceOffset (s a) := by
  have hi := i.2
  unfold centred twiceOffset
  rw [Fin.val_rev]
  split_ifs with h
  · obtain ⟨m, hm⟩ := h; omega
  · obtain ⟨m, hm⟩ := Nat.not_even_iff_odd.1 h; omega

theorem rad_flipped (a : Fin 2) (f : Arr s ℂ) (κ : Fin 2 → ℝ) :
    rad dx dy (centred s) (flipped a f) (if a = 0 then -κ 0 else κ 0) (if a = 1 then -κ 1 else κ 1)
      = exp (-(I * (κ a * (twiceOffset (s a) * ![dx, dy] a)))) * rad dx dy (centred s) f (κ 0) (κ 1) := by
  let e : Idx s ≃ Idx s := ⟨fun x => Function.update x a (Fin.rev (x a)), fun x => Function.update x a (Fin.rev (x a)), fun x => by simp, fun x => by simp⟩
  unfold rad
  rw [← Equiv.sum_comp e, Finset.mul_sum]
  refine Finset.sum_congr rfl fun x _ => ?_
  have h1 : flipped a f (e x) = f x := by unfold flipped; congr 1; simp [e]
  rw [h1, mul_left_comm (exp _) (f x), ← exp_add]
  congr 2
  fin_cases a
  · have e0 : e x 0 = Fin.rev (x 0) := by simp [e]
    have e1 : e x 1 = x 1 := by simp [e]
    simp [e0, e1, centred_rev]
    ring
  · have e0 : e x 0 = x 0 := by simp [e]
    have e1 : e x 1 = Fin.rev (x 1) := by simp [e]
    simp [e0, e1, centred_rev]
    ring

end

end FarAux

open FarAux

section
variable {E0 E1 H0 H1 E0' E1' H0' H1' : Arr s ℂ} {dx dy : ℝ} {pad : Pad} {F F' : Far (padShape s pad)}

/-- **C176.** Superposition, moved sources and the array theorem: the far field of any number of copies of one near field, moved by whole numbers of cells and
multiplied by amplitudes, is the far field of the one times the sum of the amplitudes with the phases of the path differences. -/
theorem C176_array (hF : nearToFarfield [E0, E1] [H0, H1] dx dy pad = .ok F) (hp : ∀ a, padShape s pad a = s a) {m : ℕ} (A : Fin m → ℂ) (t : Fin m → Fin 2 → ℤ) :
    ∃ F', nearToFarfield [fun x => ∑ j, A j * movedBy (t j) E0 x, fun x => ∑ j, A j * movedBy (t j) E1 x]
        [fun x => ∑ j, A j * movedBy (t j) H0 x, fun x => ∑ j, A j * movedBy (t j) H1 x] dx dy pad = .ok F' ∧
      F'.kx = F.kx ∧ F'.ky = F.ky ∧ ∀ i q,
        F'.E i q = (F.E i q).map fun e => (∑ j, A j * exp (-(I * (F.kx q * (t j 0 * dx) + F.ky q * (t j 1 * dy))))) * e := by
  obtain ⟨hx, hy, h0, ⟨h1, -⟩, -, hk, -⟩ := near_spec hF
  obtain ⟨F', hF'⟩ := C63_total (s := s) (pad := pad) (E0 := fun x => ∑ j, A j * movedBy (t j) E0 x) (E1 := fun x => ∑ j, A j * movedBy (t j) E1 x)
    (H0 := fun x => ∑ j, A j * movedBy (t j) H0 x) (H1 := fun x => ∑ j, A j * movedBy (t j) H1 x) (by omega) (Nat.one_le_iff_ne_zero.2 (h0 1)) hx hy
  obtain ⟨-, -, -, -, -, hk', -⟩ := near_spec hF'
  have kx' : F'.kx = F.kx := by funext q; rw [(hk q).1, (hk' q).1]
  have ky' : F'.ky = F.ky := by funext q; rw [(hk q).2, (hk' q).2]
  refine ⟨F', hF', kx', ky', fun i q => ?_⟩
  have hr : ∀ f : Arr s ℂ, rad dx dy (centred s) (fun x => ∑ j, A j * movedBy (t j) f x) (F.kx q) (F.ky q)
      = (∑ j, A j * exp (-(I * (F.kx q * (t j 0 * dx) + F.ky q * (t j 1 * dy))))) * rad dx dy (centred s) f (F.kx q) (F.ky q) := fun f => by
    rw [rad_sum, (hk q).1, (hk q).2, Finset.sum_mul]
    refine Finset.sum_congr rfl fun j _ => ?_
    rw [rad_moved hx hy (hp 0) (hp 1), mul_assoc]
  rw [farE_rad hF' hp, farE_rad hF hp, kx', ky', hr, hr, hr, hr, ← farE_smul]
  congr 1 <;> (funext j; fin_cases j <;> rfl)

/-- **C176.** Duality: the near field `(H, -E)` radiates `(H, -E)`. -/
theorem C176_dual (hF : nearToFarfield [E0, E1] [H0, H1] dx dy pad = .ok F) (hp : ∀ a, padShape s pad a = s a) :
    ∃ F', nearToFarfield [H0, H1] [-E0, -E1] dx dy pad = .ok F' ∧ ∀ i q, F'.E i q = F.H i q ∧ F'.H i q = (F.E i q).map fun e => -e := by
  obtain ⟨hx, hy, h0, ⟨h1, -⟩, -, hk, -⟩ := near_spec hF
  obtain ⟨F', hF'⟩ := C63_total (s := s) (pad := pad) (E0 := H0) (E1 := H1) (H0 := -E0) (H1 := -E1) (by omega) (Nat.one_le_iff_ne_zero.2 (h0 1)) hx hy
  obtain ⟨-, -, -, -, -, hk', -⟩ := near_spec hF'
  have hn : ∀ f : Arr s ℂ, ∀ kx ky, rad dx dy (centred s) (-f) kx ky = -rad dx dy (centred s) f kx ky := fun f kx ky => by
    unfold rad; rw [← Finset.sum_neg_distrib]; exact Finset.sum_congr rfl fun x _ => by rw [Pi.neg_apply, neg_mul]
  refine ⟨F', hF', fun i q => ?_⟩
  obtain ⟨-, -, -, a0, a1, a2, -⟩ := C63_light_cone hF q
  obtain ⟨-, -, -, b0, b1, b2, -⟩ := C63_light_cone hF' q
  have kx' : F'.kx q = F.kx q := by rw [(hk q).1, (hk' q).1]
  have ky' : F'.ky q = F.ky q := by rw [(hk q).2, (hk' q).2]
  have key : F'.E 0 q = F.H 0 q ∧ F'.E 1 q = F.H 1 q := by
    by_cases hv : F.kx q ^ 2 + F.ky q ^ 2 < k ^ 2
    · rw [a0, a1, farE_rad hF' hp, farE_rad hF' hp, farE_rad hF hp, farE_rad hF hp, kx', ky', hn, hn]
      simp only [farE_eq hv, Option.map_some]
      constructor <;> · congr 1; simp [radiated, dot3]; ring
    · have c1 := a2 (not_lt.1 hv)
      have c2 := b2 (by rw [kx', ky']; exact not_lt.1 hv)
      exact ⟨by rw [(c2.1 0).1, (c1.1 0).2], by rw [(c2.1 1).1, (c1.1 1).2]⟩
  fin_cases i
  · refine ⟨key.1, ?_⟩
    show F'.H 0 q = _
    rw [b0, key.2, a1]; rfl
  · refine ⟨key.2, ?_⟩
    show F'.H 1 q = _
    rw [b1, key.1, a0]; rfl


/-- **C176.** Mirror images: if the near field is reflected in a plane normal to one of the axes (the order of the cells reversed, `E` reflected as a vector and `H` as an
axial vector), so is the far field: it is found in the reflected directions, `E` reflected as a vector and `H` as an axial vector, up to the phase from the distance of the centre of the
field to the cell taken as origin (half a cell for an even number of cells, one cell for an odd number). -/
theorem C176_mirror (hF : nearToFarfield [E0, E1] [H0, H1] dx dy pad = .ok F) (hp : ∀ a, padShape s pad a = s a) (a : Fin 2)
    (hF' : nearToFarfield [(if a = 0 then -1 else 1 : ℂ) • flipped a E0, (if a = 1 then -1 else 1 : ℂ) • flipped a E1]
      [(if a = 0 then 1 else -1 : ℂ) • flipped a H0, (if a = 1 then 1 else -1 : ℂ) • flipped a H1] dx dy pad = .ok F') (q q' : Idx (padShape s pad))
    (hx : F'.kx q' = if a = 0 then -F.kx q else F.kx q) (hy : F'.ky q' = if a = 1 then -F.ky q else F.ky q) :
    let phase := exp (-(I * (![F.kx q, F.ky q] a * (twiceOffset (s a) * ![dx, dy] a))))
    ∀ c : Fin 3, farVecE F' q' c = phase * ((if (c : ℕ) = a then -1 else 1) * farVecE F q c) ∧
      farVecH F' q' c = phase * ((if (c : ℕ) = a then 1 else -1) * farVecH F q c) := by
  intro phase c
  have hs : ∀ (r : ℂ) (f : Arr s ℂ) (kx ky : ℝ), rad dx dy (centred s) (r • f) kx ky = r * rad dx dy (centred s) f kx ky := fun r f kx ky => by
    unfold rad; rw [Finset.mul_sum]; exact Finset.sum_congr rfl fun x _ => by rw [Pi.smul_apply, smul_eq_mul, mul_assoc]
  have hr : ∀ f : Arr s ℂ, rad dx dy (centred s) (flipped a f) (F'.kx q') (F'.ky q')
      = exp (-(I * (![F.kx q, F.ky q] a * (twiceOffset (s a) * ![dx, dy] a)))) * rad dx dy (centred s) f (F.kx q) (F.ky q) := fun f => by
    rw [hx, hy]; exact rad_flipped a f ![F.kx q, F.ky q]
  have hsq : F'.kx q' ^ 2 + F'.ky q' ^ 2 = F.kx q ^ 2 + F.ky q ^ 2 := by rw [hx, hy]; split_ifs <;> ring
  have hsq' : F'.kx q' * F'.kx q' + F'.ky q' * F'.ky q' = F.kx q * F.kx q + F.ky q * F.ky q := by nlinarith [hsq]
  rw [farVecE_eq hF' hp, farVecE_eq hF hp, farVecH_eq hF' hp, farVecH_eq hF hp, hsq]
  by_cases hv : F.kx q ^ 2 + F.ky q ^ 2 < k ^ 2
  swap
  · rw [if_neg hv, if_neg hv, if_neg hv, if_neg hv]; simp
  rw [if_pos hv, if_pos hv, if_pos hv, if_pos hv, hs, hs, hs, hs, hr, hr, hr, hr]
  have hd : ∀ c : Fin 3, dirOf (F'.kx q') (F'.ky q') c = (if (c : ℕ) = a then -1 else 1) * dirOf (F.kx q) (F.ky q) c := fun c => by
    unfold dirOf
    rw [hsq', hx, hy]
    fin_cases a <;> fin_cases c <;> simp [neg_div]
  rw [show exp (-(I * (![F.kx q, F.ky q] a * (twiceOffset (s a) * ![dx, dy] a)))) = phase from rfl]
  generalize phase = ph
  generalize dirOf (F.kx q) (F.ky q) = u at *
  generalize dirOf (F'.kx q') (F'.ky q') = u' at *
  unfold vecOf
  rw [hd, hd, hd]
  fin_cases a <;> fin_cases c <;> simp <;> (constructor <;> ring)

end

/-- **C176.** Exchange of the axes: if the near field is transposed (reflected in the plane `x = y`, `E` as a vector and `H` as an axial vector) and the cell sizes are exchanged, the far field is
transposed, `E` with its x and y components exchanged and `H` likewise with the opposite sign. -/
theorem C176_exchange {s' : Fin 2 → ℕ} (h0 : s' 0 = s 1) (h1 : s' 1 = s 0) {E0 E1 H0 H1 : Arr s ℂ} {E0' E1' H0' H1' : Arr s' ℂ} {dx dy : ℝ} {pad pad' : Pad}
    {F : Far (padShape s pad)} {F' : Far (padShape s' pad')} (hF : nearToFarfield [E0, E1] [H0, H1] dx dy pad = .ok F) (hp : ∀ a, padShape s pad a = s a)
    (hF' : nearToFarfield [E0', E1'] [H0', H1'] dy dx pad' = .ok F') (hp' : ∀ a, padShape s' pad' a = s' a)
    (ht : ∀ x x', (x' 0 : ℕ) = x 1 → (x' 1 : ℕ) = x 0 → E0' x' = E1 x ∧ E1' x' = E0 x ∧ H0' x' = -H1 x ∧ H1' x' = -H0 x)
    (q : Idx (padShape s pad)) (q' : Idx (padShape s' pad')) (hq0 : (q' 0 : ℕ) = q 1) (hq1 : (q' 1 : ℕ) = q 0) :
    farVecE F' q' = ![farVecE F q 1, farVecE F q 0, farVecE F q 2] ∧ farVecH F' q' = ![-farVecH F q 1, -farVecH F q 0, -farVecH F q 2] := by
  obtain ⟨-, -, -, -, -, hk, -⟩ := near_spec hF
  obtain ⟨-, -, -, -, -, hk', -⟩ := near_spec hF'
  have kx' : F'.kx q' = F.ky q := by
    rw [(hk q).2, (hk' q').1]; exact wave_congr (by rw [hp' 0, hp 1, h0]) hq0
  have ky' : F'.ky q' = F.kx q := by
    rw [(hk q).1, (hk' q').2]; exact wave_congr (by rw [hp' 1, hp 0, h1]) hq1
  let e : Idx s ≃ Idx s' :=
    ⟨fun x a => match a with | 0 => Fin.cast h0.symm (x 1) | 1 => Fin.cast h1.symm (x 0),
      fun x a => match a with | 0 => Fin.cast h1 (x 1) | 1 => Fin.cast h0 (x 0),
      fun x => by funext a; fin_cases a <;> rfl, fun x => by funext a; fin_cases a <;> rfl⟩
  have e0 : ∀ x, ((e x 0 : Fin (s' 0)) : ℕ) = (x 1 : ℕ) := fun x => rfl
  have e1 : ∀ x, ((e x 1 : Fin (s' 1)) : ℕ) = (x 0 : ℕ) := fun x => rfl
  have hr : ∀ (c : ℂ) (f : Arr s ℂ) (f' : Arr s' ℂ), (∀ x, f' (e x) = c * f x) → rad dy dx (centred s') f' (F.ky q) (F.kx q) = c * rad dx dy (centred s) f (F.kx q) (F.ky q) := by
    intro c f f' hf
    unfold rad
    rw [← Equiv.sum_comp e, Finset.mul_sum]
    refine Finset.sum_congr rfl fun x _ => ?_
    have c0 : centred s' 0 (e x 0) = centred s 1 (x 1) := by unfold centred; rw [e0, h0]
    have c1 : centred s' 1 (e x 1) = centred s 0 (x 0) := by unfold centred; rw [e1, h1]
    rw [hf, c0, c1, add_comm ((F.ky q : ℂ) * _), mul_assoc]
  have r0 := hr 1 E1 E0' fun x => by rw [one_mul]; exact (ht x (e x) (e0 x) (e1 x)).1
  have r1 := hr 1 E0 E1' fun x => by rw [one_mul]; exact (ht x (e x) (e0 x) (e1 x)).2.1
  have r2 := hr (-1) H1 H0' fun x => by rw [neg_one_mul]; exact (ht x (e x) (e0 x) (e1 x)).2.2.1
  have r3 := hr (-1) H0 H1' fun x => by rw [neg_one_mul]; exact (ht x (e x) (e0 x) (e1 x)).2.2.2
  have hd : dirOf (F.ky q) (F.kx q) = ![dirOf (F.kx q) (F.ky q) 1, dirOf (F.kx q) (F.ky q) 0, dirOf (F.kx q) (F.ky q) 2] := by
    funext c
    fin_cases c
    · rfl
    · rfl
    · simp [dirOf, add_comm]
  rw [farVecE_eq hF' hp', farVecE_eq hF hp, farVecH_eq hF' hp', farVecH_eq hF hp, kx', ky', r0, r1, r2, r3, hd, add_comm (F.ky q ^ 2)]
  by_cases hv : F.kx q ^ 2 + F.ky q ^ 2 < k ^ 2
  swap
  · rw [if_neg hv, if_neg hv, if_neg hv, if_neg hv]
    constructor <;> (funext c; fin_cases c <;> simp)
  rw [if_pos hv, if_pos hv, if_pos hv, if_pos hv]
  generalize dirOf (F.kx q) (F.ky q) = u
  constructor <;> (funext c; fin_cases c <;> simp [vecOf] <;> first | ring1 | (left; ring1))

/-- The hypotheses are met for any near field of at least two by one cells, without padding, also for one that is its own transpose. -/
example (hn : 2 ≤ s 0) (hm : 1 ≤ s 1) (E0 E1 H0 H1 : Arr s ℂ) :
    (∃ F, nearToFarfield [E0, E1] [H0, H1] 1 1 (.shape s) = .ok F) ∧ ∀ a, padShape s (.shape s) a = s a :=
  ⟨C63_total hn hm one_ne_zero one_ne_zero, fun _ => rfl⟩

example (n : ℕ) (hn : 2 ≤ n) (f : Arr (fun _ => n) ℂ) : let g : Arr (fun _ => n) ℂ := fun x => f fun a => if a = 0 then x 1 else x 0
    (∃ F, nearToFarfield [f, g] [-f, -g] 1 1 (.shape fun _ => n) = .ok F) ∧ ∃ F', nearToFarfield [f, g] [f, g] 1 1 (.shape fun _ => n) = .ok F' ∧
      ∀ x x' : Idx fun _ : Fin 2 => n, (x' 0 : ℕ) = x 1 → (x' 1 : ℕ) = x 0 → f x' = g x ∧ g x' = f x := by
  intro g
  refine ⟨C63_total hn (by show 1 ≤ n; omega) one_ne_zero one_ne_zero, ?_⟩
  obtain ⟨F, hF⟩ := C63_total (E0 := f) (E1 := g) (H0 := f) (H1 := g) (dx := 1) (dy := 1) (pad := .shape fun _ => n) hn (by show 1 ≤ n; omega) one_ne_zero one_ne_zero
  refine ⟨F, hF, fun x x' a b => ?_⟩
  have h : x' = fun a => if a = 0 then x 1 else x 0 := by
    funext a; fin_cases a
    · exact Fin.ext a
    · exact Fin.ext b
  refine ⟨by rw [h], ?_⟩
  show f _ = f x
  congr 1
  funext a
  rw [h]
  fin_cases a <;> rfl

end Meanas.Props
