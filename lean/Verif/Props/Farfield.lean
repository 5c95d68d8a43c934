/-
Properties C63, C64, C80, C81: near-to-farfield transforms of meanas/fdfd/farfield.py.
-/
import Verif.Lemmas.Dft
import Verif.Lemmas.NdArray
import Verif.Model.Farfield

set_option linter.unusedSectionVars false
set_option linter.unusedSimpArgs false

namespace Meanas.Props

open Complex Meanas.Farfield

variable {s : Fin 2 → ℕ}

/-! ### Specification -/

/-- Wave number of the sample `i` of `n` samples of a spectrum in ascending order, for a field with spacing `dx`. -/
noncomputable def waveNumber (n : ℕ) (dx : ℝ) (i : Fin n) : ℝ := 2 * Real.pi * (((i : ℕ) : ℤ) - (n : ℤ) / 2 : ℤ) / (n * dx)

/-- Fourier integral of a near field whose cells lie at the positions `pos` (in cells). -/
noncomputable def rad (dx dy : ℝ) (pos : (a : Fin 2) → Fin (s a) → ℤ) (f : Arr s ℂ) (kx ky : ℝ) : ℂ :=
  ∑ x, f x * exp (-(I * (kx * (pos 0 (x 0) * dx) + ky * (pos 1 (x 1) * dy))))

/-- Positions of the cells of a near field with respect to the cell in the middle. -/
def centred (s : Fin 2 → ℕ) (a : Fin 2) (x : Fin (s a)) : ℤ := (x : ℕ) - ((s a : ℤ) + 1) / 2

/-- Positions with the two halves of each axis swapped. -/
def swapped (s : Fin 2 → ℕ) (a : Fin 2) (x : Fin (s a)) : ℤ :=
  if (x : ℕ) < (s a + 1) / 2 then (x : ℕ) + (s a : ℤ) / 2 else (x : ℕ) - ((s a : ℤ) + 1) / 2

/-- Scalar product of 3-vectors. -/
noncomputable def dot3 (u : Fin 3 → ℂ) (v : Fin 3 → ℝ) : ℂ := u 0 * v 0 + u 1 * v 1 + u 2 * v 2

/-- Direction with azimuth `th` and inclination `ph` from the z axis, and the unit vectors along increasing inclination and azimuth. -/
noncomputable def dirVec (th ph : ℝ) : Fin 3 → ℝ := ![Real.sin ph * Real.cos th, Real.sin ph * Real.sin th, Real.cos ph]
noncomputable def polVec (th ph : ℝ) : Fin 3 → ℝ := ![Real.cos ph * Real.cos th, Real.cos ph * Real.sin th, -Real.sin ph]
noncomputable def azVec (th : ℝ) : Fin 3 → ℝ := ![-Real.sin th, Real.cos th, 0]

/-! ### Lemmas -/

theorem kAxis_eq (n : ℕ) (dx : ℝ) (i : Fin n) : kAxis n dx i = waveNumber n dx i := by
  unfold kAxis waveNumber fftshift1 Farfield.fftfreq
  have hw := wrap_val i (-((n / 2 : ℕ) : ℤ))
  have hi := i.2
  have : Bloch.fftfreq n (wrap i (-((n / 2 : ℕ) : ℤ))) = ((i : ℕ) : ℤ) - (n : ℤ) / 2 := by
    generalize hj : wrap i (-((n / 2 : ℕ) : ℤ)) = j at *
    have hj2 := j.2
    unfold Bloch.fftfreq
    by_cases h : n / 2 ≤ (i : ℕ)
    · rw [Int.emod_eq_of_lt (by omega) (by omega)] at hw
      rw [if_pos (by omega)]
      omega
    · rw [← Int.add_emod_right, Int.emod_eq_of_lt (by omega) (by omega)] at hw
      rw [if_neg (by omega)]
      omega
  rw [this]
  ring

/-- Phases on a grid of `n` samples depend on the wave index modulo `n` only. -/
theorem exp_congr {n : ℕ} (hn : n ≠ 0) {a a' b b' : ℤ} (ha : (n : ℤ) ∣ a - a') (hb : (n : ℤ) ∣ b - b') :
    exp (-(2 * Real.pi * I * a * b / n)) = exp (-(2 * Real.pi * I * a' * b' / n)) := by
  obtain ⟨c, hc⟩ := ha
  obtain ⟨e, he⟩ := hb
  have hn' : (n : ℂ) ≠ 0 := Nat.cast_ne_zero.2 hn
  rw [Complex.exp_eq_exp_iff_exists_int]
  refine ⟨-(c * b + a' * e), ?_⟩
  have h1 : (a : ℂ) = a' + n * c := by
    have : a = a' + n * c := by linarith
    rw [this]; push_cast; ring
  have h2 : (b : ℂ) = b' + n * e := by
    have : b = b' + n * e := by linarith
    rw [this]; push_cast; ring
  rw [h1, h2]
  push_cast
  field_simp
  rw [h2]
  ring

theorem swapped_eq (a : Fin 2) (x : Fin (s a)) : swapped s a x = ((wrap x ((s a / 2 : ℕ) : ℤ) : Fin (s a)) : ℕ) := by
  have hw := wrap_val x ((s a / 2 : ℕ) : ℤ)
  have hx := x.2
  generalize wrap x ((s a / 2 : ℕ) : ℤ) = j at *
  unfold swapped
  split_ifs with h
  · rw [Int.emod_eq_of_lt (by omega) (by omega)] at hw
    omega
  · rw [← Int.sub_emod_right, Int.emod_eq_of_lt (by omega) (by omega)] at hw
    omega

/-- The spectrum of lines 70-71, for padded sizes that are not smaller than the field. -/
theorem nearFft_eq {p : Fin 2 → ℕ} (hp : ∀ a, s a ≤ p a) {dx dy : ℝ} (hdx : dx ≠ 0) (hdy : dy ≠ 0) (f : Arr s ℂ) (q : Idx p) :
    nearFft p f q = rad dx dy (swapped s) f (waveNumber (p 0) dx (q 0)) (waveNumber (p 1) dy (q 1)) := by
  let e : Idx s → Idx p := fun x a => Fin.castLE (hp a) (wrap (x a) ((s a / 2 : ℕ) : ℤ))
  have he : Function.Injective e := by
    intro x y hxy
    funext a
    exact wrap_injective _ (Fin.castLE_injective (hp a) (congrFun hxy a))
  unfold nearFft fftshift Bloch.fftn rad
  symm
  apply Fintype.sum_of_injective e he
  · intro y hy
    have : resize (0 : ℂ) p (fun x : Idx s => f fun a => wrap (x a) (-((s a / 2 : ℕ) : ℤ))) y = 0 := by
      unfold resize
      rw [dif_neg]
      intro h
      apply hy
      refine ⟨fun a => wrap ⟨y a, h a⟩ (-((s a / 2 : ℕ) : ℤ)), ?_⟩
      funext a
      simp only [e, wrap_wrap, neg_add_cancel, wrap_zero]
      rfl
    rw [this, mul_zero]
  · intro x
    have h1 : resize (0 : ℂ) p (fun x : Idx s => f fun a => wrap (x a) (-((s a / 2 : ℕ) : ℤ))) (e x) = f x := by
      unfold resize
      have h : ∀ a, ((e x a : Fin (p a)) : ℕ) < s a := fun a => (wrap (x a) ((s a / 2 : ℕ) : ℤ)).2
      rw [dif_pos h]
      show f _ = f x
      congr 1
      funext a
      have : (⟨(e x a : ℕ), h a⟩ : Fin (s a)) = wrap (x a) ((s a / 2 : ℕ) : ℤ) := rfl
      show wrap (⟨(e x a : ℕ), h a⟩ : Fin (s a)) _ = x a
      rw [this, wrap_neg_cancel]
    rw [h1, mul_comm]
    congr 1
    unfold Bloch.chi
    rw [← Finset.prod_inv_distrib, Fin.prod_univ_two]
    have key : ∀ a, (exp (2 * Real.pi * I * ((wrap (q a) (-((p a / 2 : ℕ) : ℤ)) : Fin (p a)) : ℕ) * ((e x a : Fin (p a)) : ℕ) / (p a : ℕ)))⁻¹
        = exp (-(2 * Real.pi * I * ((((q a : ℕ) : ℤ) - (p a : ℤ) / 2 : ℤ) : ℂ) * (swapped s a (x a) : ℂ) / (p a : ℕ))) := by
      intro a
      have hq := (q a).2
      rw [← exp_neg]
      have h2 := exp_congr (n := p a) (by omega) (a := ((wrap (q a) (-((p a / 2 : ℕ) : ℤ)) : Fin (p a)) : ℕ))
        (a' := ((q a : ℕ) : ℤ) - (p a : ℤ) / 2) (b := ((e x a : Fin (p a)) : ℕ)) (b' := swapped s a (x a)) ?_ ?_
      · push_cast at h2 ⊢
        exact h2
      · rw [wrap_val]
        have := Int.emod_add_mul_ediv (((q a : ℕ) : ℤ) + -((p a / 2 : ℕ) : ℤ)) (p a)
        refine ⟨-((((q a : ℕ) : ℤ) + -((p a / 2 : ℕ) : ℤ)) / (p a)), ?_⟩
        push_cast at this ⊢
        linarith
      · rw [swapped_eq]
        simp [e]
    rw [key, key, ← exp_add]
    congr 1
    have n0 : ((p 0 : ℕ) : ℂ) ≠ 0 := Nat.cast_ne_zero.2 (by have := (q 0).2; omega)
    have n1 : ((p 1 : ℕ) : ℂ) ≠ 0 := Nat.cast_ne_zero.2 (by have := (q 1).2; omega)
    have d0 : (dx : ℂ) ≠ 0 := ofReal_ne_zero.2 hdx
    have d1 : (dy : ℂ) ≠ 0 := ofReal_ne_zero.2 hdy
    unfold waveNumber
    push_cast
    field_simp
    ring

/-- Without padding the swapped halves do not matter. -/
theorem rad_swapped {p : Fin 2 → ℕ} (hp : ∀ a, p a = s a) {dx dy : ℝ} (hdx : dx ≠ 0) (hdy : dy ≠ 0) (f : Arr s ℂ) (q : Idx p) :
    rad dx dy (swapped s) f (waveNumber (p 0) dx (q 0)) (waveNumber (p 1) dy (q 1))
      = rad dx dy (centred s) f (waveNumber (p 0) dx (q 0)) (waveNumber (p 1) dy (q 1)) := by
  unfold rad
  refine Finset.sum_congr rfl fun x _ => ?_
  congr 1
  have n0 : ((p 0 : ℕ) : ℂ) ≠ 0 := Nat.cast_ne_zero.2 (by have := (q 0).2; omega)
  have n1 : ((p 1 : ℕ) : ℂ) ≠ 0 := Nat.cast_ne_zero.2 (by have := (q 1).2; omega)
  have d0 : (dx : ℂ) ≠ 0 := ofReal_ne_zero.2 hdx
  have d1 : (dy : ℂ) ≠ 0 := ofReal_ne_zero.2 hdy
  have hd : ∀ a, ((p a : ℕ) : ℤ) ∣ swapped s a (x a) - centred s a (x a) := by
    intro a
    have hx := (x a).2
    unfold swapped centred
    rw [hp a]
    split_ifs
    · exact ⟨1, by omega⟩
    · exact ⟨0, by omega⟩
  have split : ∀ u v : ℤ, exp (-(I * ((waveNumber (p 0) dx (q 0) : ℂ) * (u * dx) + (waveNumber (p 1) dy (q 1) : ℂ) * (v * dy))))
      = exp (-(2 * Real.pi * I * ((((q 0 : ℕ) : ℤ) - (p 0 : ℤ) / 2 : ℤ) : ℂ) * (u : ℂ) / (p 0 : ℕ)))
        * exp (-(2 * Real.pi * I * ((((q 1 : ℕ) : ℤ) - (p 1 : ℤ) / 2 : ℤ) : ℂ) * (v : ℂ) / (p 1 : ℕ))) := by
    intro u v
    rw [← exp_add]
    congr 1
    unfold waveNumber
    push_cast
    field_simp
    ring
  rw [split, split]
  congr 1
  · exact exp_congr (by have := (q 0).2; omega) ⟨0, by ring⟩ (hd 0)
  · exact exp_congr (by have := (q 1).2; omega) ⟨0, by ring⟩ (hd 1)

/-! ### Angles -/

theorem k_pos : 0 < k := by unfold k; positivity

section
variable {kx ky : ℝ} (hv : kx ^ 2 + ky ^ 2 < k ^ 2)
include hv

theorem not_invalid : ¬ Invalid kx ky := by unfold Invalid; intro h; nlinarith

theorem cosPhi_eq : cosPhi kx ky = some (Real.sqrt (k * k - (kx * kx + ky * ky)) / k) := by
  unfold cosPhi
  rw [if_neg (by nlinarith)]

theorem norm_kt : ‖(kx + ky * I : ℂ)‖ = Real.sqrt (kx * kx + ky * ky) := by
  rw [Complex.norm_def, Complex.normSq_add_mul_I, sq, sq]

theorem cos_theta : Real.cos (theta kx ky) = cosTh kx ky := by
  unfold theta cosTh
  rw [if_neg (not_invalid hv)]
  split_ifs with h
  · exact Real.cos_zero
  · have : (kx + ky * I : ℂ) ≠ 0 := by
      intro h0
      apply h
      have h1 := congrArg Complex.re h0
      have h2 := congrArg Complex.im h0
      simp at h1 h2
      exact ⟨h1, h2⟩
    rw [Complex.cos_arg this, norm_kt hv]
    simp

theorem sin_theta : Real.sin (theta kx ky) = sinTh kx ky := by
  unfold theta sinTh
  rw [if_neg (not_invalid hv)]
  split_ifs with h
  · exact Real.sin_zero
  · rw [Complex.sin_arg, norm_kt hv]
    simp

theorem cosPhi_cos : cosPhi kx ky = some (Real.cos (phi kx ky)) ∧ 0 < Real.cos (phi kx ky) := by
  have hk := k_pos
  have hr : 0 < Real.sqrt (k * k - (kx * kx + ky * ky)) := Real.sqrt_pos.2 (by nlinarith)
  have hc : Real.cos (phi kx ky) = Real.sqrt (k * k - (kx * kx + ky * ky)) / k := by
    unfold phi
    rw [if_neg (not_invalid hv)]
    split_ifs with h
    · rw [h.1, h.2, Real.cos_zero]
      simp only [mul_zero, add_zero, sub_zero]
      rw [Real.sqrt_mul_self hk.le, div_self hk.ne']
    · rw [cosPhi_eq hv, Option.getD_some, Real.cos_arccos]
      · linarith [div_pos hr hk]
      · rw [div_le_one hk]
        calc _ ≤ Real.sqrt (k * k) := Real.sqrt_le_sqrt (by nlinarith [mul_self_nonneg kx, mul_self_nonneg ky])
          _ = k := Real.sqrt_mul_self hk.le
  rw [cosPhi_eq hv, hc]
  exact ⟨rfl, div_pos hr hk⟩

theorem sin_phi : Real.sin (phi kx ky) = Real.sqrt (kx * kx + ky * ky) / k := by
  have hk := k_pos
  obtain ⟨h1, h2⟩ := cosPhi_cos hv
  rw [cosPhi_eq hv, Option.some.injEq] at h1
  have h3 : 0 ≤ Real.sin (phi kx ky) := by
    apply Real.sin_nonneg_of_nonneg_of_le_pi
    all_goals
      unfold phi
      split_ifs
      all_goals first | exact le_rfl | exact Real.pi_pos.le | exact Real.arccos_nonneg _ | exact Real.arccos_le_pi _
  have h4 : 0 ≤ Real.sqrt (kx * kx + ky * ky) / k := by positivity
  have h5 := Real.sin_sq_add_cos_sq (phi kx ky)
  have h6 : (Real.sqrt (kx * kx + ky * ky) / k) ^ 2 + Real.cos (phi kx ky) ^ 2 = 1 := by
    rw [← h1, div_pow, div_pow, Real.sq_sqrt (by nlinarith [mul_self_nonneg kx, mul_self_nonneg ky]), Real.sq_sqrt (by nlinarith)]
    field_simp
    ring
  nlinarith

/-- The returned angles are those of the wave vector. -/
theorem dir_eq : kx = k * dirVec (theta kx ky) (phi kx ky) 0 ∧ ky = k * dirVec (theta kx ky) (phi kx ky) 1
    ∧ 0 < dirVec (theta kx ky) (phi kx ky) 2 := by
  have hk := k_pos
  simp only [dirVec, Matrix.cons_val_zero, Matrix.cons_val_one, Matrix.cons_val_two, Matrix.tail_cons, Matrix.head_cons]
  refine ⟨?_, ?_, (cosPhi_cos hv).2⟩
  all_goals
    rw [sin_phi hv]
    first | rw [cos_theta hv] | rw [sin_theta hv]
    first | unfold cosTh | unfold sinTh
    split_ifs with h
    · rw [h.1, h.2]; simp
    · have : Real.sqrt (kx * kx + ky * ky) ≠ 0 := by
        rw [Real.sqrt_ne_zero']
        rcases not_and_or.1 h with h | h
        · nlinarith [mul_self_pos.2 h, mul_self_nonneg ky]
        · nlinarith [mul_self_pos.2 h, mul_self_nonneg kx]
      generalize Real.sqrt (kx * kx + ky * ky) = r at *
      field_simp
end

/-- The two far-field components (along inclination and azimuth) radiated by the currents with the spectra `N` (electric) and `L` (magnetic). -/
noncomputable def radiated (L N : Fin 3 → ℂ) (th ph : ℝ) : Fin 2 → ℂ :=
  ![-(dot3 L (azVec th) + dot3 N (polVec th ph)), dot3 L (polVec th ph) - dot3 N (azVec th)]

theorem farE_eq {kx ky : ℝ} (hv : kx ^ 2 + ky ^ 2 < k ^ 2) (En Hn : Fin 2 → ℂ) (i : Fin 2) :
    farE kx ky En Hn i = some (radiated ![En 1, -En 0, 0] ![-Hn 1, Hn 0, 0] (theta kx ky) (phi kx ky) i) := by
  unfold farE
  rw [if_neg (not_invalid hv), (cosPhi_cos hv).1, Option.map_some]
  simp only [← cos_theta hv, ← sin_theta hv]
  congr 1
  fin_cases i
  · simp [radiated, dot3, azVec, polVec]
    ring
  · simp [radiated, dot3, azVec, polVec]
    ring

theorem farE_isSome (kx ky : ℝ) (En Hn : Fin 2 → ℂ) (i : Fin 2) : (farE kx ky En Hn i).isSome := by
  by_cases hv : kx ^ 2 + ky ^ 2 < k ^ 2
  · rw [farE_eq hv]; rfl
  · unfold farE
    rw [if_pos (by unfold Invalid; nlinarith)]; rfl

theorem farH_zero (kx ky : ℝ) (En Hn : Fin 2 → ℂ) :
    farH kx ky En Hn 0 = (farE kx ky En Hn 1).map (fun e => -e) ∧ farH kx ky En Hn 1 = farE kx ky En Hn 0 := by
  unfold farH farE
  by_cases h : Invalid kx ky
  · simp [h]
  · simp [h]

/-! ### The whole function -/

section
variable {E0 E1 H0 H1 : Arr s ℂ} {dx dy : ℝ} {pad : Pad} {F : Far (padShape s pad)}

/-- The near-field spectra at a sample. -/
noncomputable def sp (p : Fin 2 → ℕ) (f0 f1 : Arr s ℂ) (q : Idx p) : Fin 2 → ℂ := fun i => if i = 0 then nearFft p f0 q else nearFft p f1 q

theorem near_spec (hF : nearToFarfield [E0, E1] [H0, H1] dx dy pad = .ok F) :
    dx ≠ 0 ∧ dy ≠ 0 ∧ (∀ a, padShape s pad a ≠ 0) ∧ (∃ h : 1 < padShape s pad 0,
      ∀ j, F.dkx j = waveNumber (padShape s pad 0) dx ⟨1, h⟩ - waveNumber (padShape s pad 0) dx ⟨0, by omega⟩) ∧ (∀ j, F.dky j = 0)
    ∧ (∀ q, F.kx q = waveNumber _ dx (q 0) ∧ F.ky q = waveNumber _ dy (q 1))
    ∧ (∀ q, F.theta q = theta (F.kx q) (F.ky q) ∧ F.phi q = phi (F.kx q) (F.ky q))
    ∧ (∀ i q, F.E i q = farE (F.kx q) (F.ky q) (sp _ E0 E1 q) (sp _ H0 H1 q) i)
    ∧ (∀ i q, F.H i q = farH (F.kx q) (F.ky q) (sp _ E0 E1 q) (sp _ H0 H1 q) i) := by
  unfold nearToFarfield at hF
  simp only at hF
  split_ifs at hF with h1 h2 h3
  injection hF with hF
  subst hF
  push Not at h1 h2
  refine ⟨h2.1, h2.2, h1, ⟨h3, fun j => ?_⟩, fun j => sub_self _, fun q => ⟨kAxis_eq _ _ _, kAxis_eq _ _ _⟩, fun q => ⟨rfl, rfl⟩,
    fun i q => rfl, fun i q => rfl⟩
  simp only [kAxis_eq]

/-- **C63**: a result is returned for all sizes with at least two samples along x. -/
theorem C63_total (h0 : 2 ≤ padShape s pad 0) (h1 : 1 ≤ padShape s pad 1) (hx : dx ≠ 0) (hy : dy ≠ 0) :
    ∃ F, nearToFarfield [E0, E1] [H0, H1] dx dy pad = .ok F := by
  unfold nearToFarfield
  simp only
  rw [if_neg, if_neg (by tauto), dif_pos (by omega)]
  · exact ⟨_, rfl⟩
  · rintro ⟨a, ha⟩
    fin_cases a
    · simp at ha; omega
    · simp at ha; omega

/-- **C63**: the samples are those of the spectrum of a field with spacings `dx`, `dy`; fields at and beyond the light cone vanish, no entry is NaN,
`H` belongs to `E` as in a plane wave, and `theta`, `phi` are the angles of the wave vector inside the light cone. -/
theorem C63_light_cone (hF : nearToFarfield [E0, E1] [H0, H1] dx dy pad = .ok F) (q : Idx (padShape s pad)) :
    F.kx q = waveNumber _ dx (q 0) ∧ F.ky q = waveNumber _ dy (q 1)
    ∧ (∀ i, (F.E i q).isSome)
    ∧ F.H 0 q = (F.E 1 q).map (fun e => -e) ∧ F.H 1 q = F.E 0 q
    ∧ (k ^ 2 ≤ F.kx q ^ 2 + F.ky q ^ 2 → (∀ i, F.E i q = some 0 ∧ F.H i q = some 0) ∧ F.theta q = 0 ∧ F.phi q = 0)
    ∧ (F.kx q ^ 2 + F.ky q ^ 2 < k ^ 2 → F.kx q = k * dirVec (F.theta q) (F.phi q) 0 ∧ F.ky q = k * dirVec (F.theta q) (F.phi q) 1
      ∧ 0 < dirVec (F.theta q) (F.phi q) 2) := by
  obtain ⟨-, -, -, -, -, hk, ha, hE, hH⟩ := near_spec hF
  refine ⟨(hk q).1, (hk q).2, fun i => ?_, ?_, ?_, fun h => ⟨fun i => ⟨?_, ?_⟩, ?_, ?_⟩, fun h => ?_⟩
  · rw [hE]; exact farE_isSome _ _ _ _ _
  · rw [hE, hH]; exact (farH_zero _ _ _ _).1
  · rw [hE, hH]; exact (farH_zero _ _ _ _).2
  · rw [hE]; unfold farE; rw [if_pos (by unfold Invalid; nlinarith)]
  · rw [hH]; unfold farH; rw [if_pos (by unfold Invalid; nlinarith)]
  · rw [(ha q).1]; unfold theta; rw [if_pos (by unfold Invalid; nlinarith)]
  · rw [(ha q).2]; unfold phi; rw [if_pos (by unfold Invalid; nlinarith)]
  · rw [(ha q).1, (ha q).2]; exact dir_eq h

/-- Spectra of the equivalent surface currents `n × H` and `-n × E`, for cells at the positions `pos`. -/
noncomputable def electricCurrent (dx dy : ℝ) (pos : (a : Fin 2) → Fin (s a) → ℤ) (H0 H1 : Arr s ℂ) (kx ky : ℝ) : Fin 3 → ℂ :=
  ![-rad dx dy pos H1 kx ky, rad dx dy pos H0 kx ky, 0]
noncomputable def magneticCurrent (dx dy : ℝ) (pos : (a : Fin 2) → Fin (s a) → ℤ) (E0 E1 : Arr s ℂ) (kx ky : ℝ) : Fin 3 → ℂ :=
  ![rad dx dy pos E1 kx ky, -rad dx dy pos E0 kx ky, 0]

/-- **C81**: with padding, the result inside the light cone is the far field of a near field whose halves are swapped: the cells of the lower half lie
behind those of the upper half. This is the exact error of the padded transform. -/
theorem C81_padded_partial (hF : nearToFarfield [E0, E1] [H0, H1] dx dy pad = .ok F) (hp : ∀ a, s a ≤ padShape s pad a)
    (q : Idx (padShape s pad)) (hv : F.kx q ^ 2 + F.ky q ^ 2 < k ^ 2) (i : Fin 2) :
    F.E i q = some (radiated (magneticCurrent dx dy (swapped s) E0 E1 (F.kx q) (F.ky q))
      (electricCurrent dx dy (swapped s) H0 H1 (F.kx q) (F.ky q)) (F.theta q) (F.phi q) i) := by
  obtain ⟨hx, hy, -, -, -, hk, ha, hE, hH⟩ := near_spec hF
  rw [hE, farE_eq hv, (ha q).1, (ha q).2]
  unfold electricCurrent magneticCurrent sp
  simp only [if_true, Fin.isValue, one_ne_zero, if_false]
  rw [nearFft_eq hp hx hy, nearFft_eq hp hx hy, nearFft_eq hp hx hy, nearFft_eq hp hx hy, (hk q).1, (hk q).2]

/-- **C81**: without padding, the result inside the light cone is the far field radiated by the equivalent surface currents of the near field. -/
theorem C81_radiation_partial (hF : nearToFarfield [E0, E1] [H0, H1] dx dy pad = .ok F) (hp : ∀ a, padShape s pad a = s a)
    (q : Idx (padShape s pad)) (hv : F.kx q ^ 2 + F.ky q ^ 2 < k ^ 2) (i : Fin 2) :
    F.E i q = some (radiated (magneticCurrent dx dy (centred s) E0 E1 (F.kx q) (F.ky q))
      (electricCurrent dx dy (centred s) H0 H1 (F.kx q) (F.ky q)) (F.theta q) (F.phi q) i) := by
  rw [C81_padded_partial hF (fun a => (hp a).ge) q hv i]
  obtain ⟨hx, hy, -, -, -, hk, ha, hE, hH⟩ := near_spec hF
  unfold electricCurrent magneticCurrent
  rw [(hk q).1, (hk q).2, rad_swapped hp hx hy, rad_swapped hp hx hy, rad_swapped hp hx hy, rad_swapped hp hx hy]

/-! ### Outgoing and incoming plane waves -/

/-- Vector product with a real vector. -/
noncomputable def cross3 (u : Fin 3 → ℝ) (v : Fin 3 → ℂ) : Fin 3 → ℂ :=
  ![u 1 * v 2 - u 2 * v 1, u 2 * v 0 - u 0 * v 2, u 0 * v 1 - u 1 * v 0]

/-- The spectrum of the near field (transverse components) at the given wave vector is that of a plane wave with electric vector `e` and direction `u`
in units where the wave impedance is 1. -/
def IsPlaneWave (E0 E1 H0 H1 : ℂ) (u : Fin 3 → ℝ) (e : Fin 3 → ℂ) : Prop :=
  dot3 e u = 0 ∧ E0 = e 0 ∧ E1 = e 1 ∧ H0 = cross3 u e 0 ∧ H1 = cross3 u e 1

theorem outgoing_currents {th ph : ℝ} {E0 E1 H0 H1 : ℂ} {e : Fin 3 → ℂ} (h : IsPlaneWave E0 E1 H0 H1 (dirVec th ph) e) :
    radiated ![E1, -E0, 0] ![-H1, H0, 0] th ph
      = ![2 * Real.cos ph * dot3 e (polVec th ph), 2 * Real.cos ph * dot3 e (azVec th)] := by
  obtain ⟨hd, rfl, rfl, rfl, rfl⟩ := h
  have h1 : (Real.sin ph : ℂ) ^ 2 + (Real.cos ph : ℂ) ^ 2 = 1 := by exact_mod_cast Real.sin_sq_add_cos_sq ph
  have h2 : (Real.sin th : ℂ) ^ 2 + (Real.cos th : ℂ) ^ 2 = 1 := by exact_mod_cast Real.sin_sq_add_cos_sq th
  simp only [dot3, dirVec, Matrix.cons_val_zero, Matrix.cons_val_one, Matrix.cons_val_two, Matrix.tail_cons, Matrix.head_cons, cross3,
    radiated, azVec, polVec, ofReal_mul, ofReal_neg, ofReal_zero] at hd ⊢
  generalize (Real.sin ph : ℂ) = sp at *
  generalize (Real.cos ph : ℂ) = cp at *
  generalize (Real.sin th : ℂ) = st at *
  generalize (Real.cos th : ℂ) = ct at *
  funext i
  fin_cases i
  · simp
    linear_combination (-(e 0 * ct + e 1 * st)) * h1 - (cp * sp * e 2) * h2 + sp * hd
  · simp
    ring

/-- Direction with the z component reversed. -/
noncomputable def mirror (u : Fin 3 → ℝ) : Fin 3 → ℝ := ![u 0, u 1, -u 2]

theorem incoming_currents {th ph : ℝ} {E0 E1 H0 H1 : ℂ} {e : Fin 3 → ℂ} (h : IsPlaneWave E0 E1 H0 H1 (mirror (dirVec th ph)) e) :
    radiated ![E1, -E0, 0] ![-H1, H0, 0] th ph = 0 := by
  obtain ⟨hd, rfl, rfl, rfl, rfl⟩ := h
  have h1 : (Real.sin ph : ℂ) ^ 2 + (Real.cos ph : ℂ) ^ 2 = 1 := by exact_mod_cast Real.sin_sq_add_cos_sq ph
  have h2 : (Real.sin th : ℂ) ^ 2 + (Real.cos th : ℂ) ^ 2 = 1 := by exact_mod_cast Real.sin_sq_add_cos_sq th
  simp only [mirror, dot3, dirVec, Matrix.cons_val_zero, Matrix.cons_val_one, Matrix.cons_val_two, Matrix.tail_cons, Matrix.head_cons, cross3,
    radiated, azVec, polVec, ofReal_mul, ofReal_neg, ofReal_zero] at hd ⊢
  generalize (Real.sin ph : ℂ) = sp at *
  generalize (Real.cos ph : ℂ) = cp at *
  generalize (Real.sin th : ℂ) = st at *
  generalize (Real.cos th : ℂ) = ct at *
  funext i
  fin_cases i
  · simp
    linear_combination (-(e 0 * ct + e 1 * st)) * h1 - (cp * sp * e 2) * h2 + sp * hd
  · simp
    ring

theorem two_eta (f : Fin 2 → ℂ) : f = ![f 0, f 1] := by
  funext i; fin_cases i <;> rfl

/-- **C80**: an outgoing plane wave appears in the far field in its own direction only as its electric and magnetic vectors, times `2 cos phi`: here per
sample, for a near field whose spectrum at this sample is that of an outgoing wave. -/
theorem C80_outgoing (hF : nearToFarfield [E0, E1] [H0, H1] dx dy pad = .ok F) (hp : ∀ a, padShape s pad a = s a)
    (q : Idx (padShape s pad)) (hv : F.kx q ^ 2 + F.ky q ^ 2 < k ^ 2) (e : Fin 3 → ℂ)
    (he : IsPlaneWave (rad dx dy (centred s) E0 (F.kx q) (F.ky q)) (rad dx dy (centred s) E1 (F.kx q) (F.ky q))
      (rad dx dy (centred s) H0 (F.kx q) (F.ky q)) (rad dx dy (centred s) H1 (F.kx q) (F.ky q)) (dirVec (F.theta q) (F.phi q)) e) :
    F.E 0 q = some (2 * Real.cos (F.phi q) * dot3 e (polVec (F.theta q) (F.phi q)))
    ∧ F.E 1 q = some (2 * Real.cos (F.phi q) * dot3 e (azVec (F.theta q)))
    ∧ F.H 0 q = some (2 * Real.cos (F.phi q) * dot3 (cross3 (dirVec (F.theta q) (F.phi q)) e) (polVec (F.theta q) (F.phi q)))
    ∧ F.H 1 q = some (2 * Real.cos (F.phi q) * dot3 (cross3 (dirVec (F.theta q) (F.phi q)) e) (azVec (F.theta q))) := by
  have h := fun i => C81_radiation_partial hF hp q hv i
  unfold magneticCurrent electricCurrent at h
  rw [outgoing_currents he] at h
  have h0 := h 0
  have h1 := h 1
  simp only [Matrix.cons_val_zero, Matrix.cons_val_one] at h0 h1
  obtain ⟨-, -, -, hH0, hH1, -, -⟩ := C63_light_cone hF q
  have s1 : (Real.sin (F.phi q) : ℂ) ^ 2 + (Real.cos (F.phi q) : ℂ) ^ 2 = 1 := by exact_mod_cast Real.sin_sq_add_cos_sq _
  have s2 : (Real.sin (F.theta q) : ℂ) ^ 2 + (Real.cos (F.theta q) : ℂ) ^ 2 = 1 := by exact_mod_cast Real.sin_sq_add_cos_sq _
  refine ⟨h0, h1, ?_, ?_⟩
  · rw [hH0, h1, Option.map_some]
    congr 1
    simp only [dot3, dirVec, Matrix.cons_val_zero, Matrix.cons_val_one, Matrix.cons_val_two, Matrix.tail_cons, Matrix.head_cons, cross3,
      azVec, polVec, ofReal_mul, ofReal_neg, ofReal_zero]
    generalize (Real.sin (F.phi q) : ℂ) = sp at *
    generalize (Real.cos (F.phi q) : ℂ) = cp at *
    generalize (Real.sin (F.theta q) : ℂ) = st at *
    generalize (Real.cos (F.theta q) : ℂ) = ct at *
    linear_combination 2 * cp * (e 1 * ct - e 0 * st) * s1
  · rw [hH1, h0]
    congr 1
    have hd := he.1
    simp only [dot3, dirVec, Matrix.cons_val_zero, Matrix.cons_val_one, Matrix.cons_val_two, Matrix.tail_cons, Matrix.head_cons, cross3,
      azVec, polVec, ofReal_mul, ofReal_neg, ofReal_zero] at hd ⊢
    generalize (Real.sin (F.phi q) : ℂ) = sp at *
    generalize (Real.cos (F.phi q) : ℂ) = cp at *
    generalize (Real.sin (F.theta q) : ℂ) = st at *
    generalize (Real.cos (F.theta q) : ℂ) = ct at *
    linear_combination 2 * cp * sp * e 2 * s2

/-- **C80**: incoming plane waves do not contribute to the far field. -/
theorem C80_incoming (hF : nearToFarfield [E0, E1] [H0, H1] dx dy pad = .ok F) (hp : ∀ a, padShape s pad a = s a)
    (q : Idx (padShape s pad)) (hv : F.kx q ^ 2 + F.ky q ^ 2 < k ^ 2) (e : Fin 3 → ℂ)
    (he : IsPlaneWave (rad dx dy (centred s) E0 (F.kx q) (F.ky q)) (rad dx dy (centred s) E1 (F.kx q) (F.ky q))
      (rad dx dy (centred s) H0 (F.kx q) (F.ky q)) (rad dx dy (centred s) H1 (F.kx q) (F.ky q)) (mirror (dirVec (F.theta q) (F.phi q))) e)
    (i : Fin 2) : F.E i q = some 0 ∧ F.H i q = some 0 := by
  have h := fun i => C81_radiation_partial hF hp q hv i
  unfold magneticCurrent electricCurrent at h
  rw [incoming_currents he] at h
  obtain ⟨-, -, -, hH0, hH1, -, -⟩ := C63_light_cone hF q
  refine ⟨h i, ?_⟩
  fin_cases i
  · show F.H 0 q = some 0
    rw [hH0, h 1]; simp
  · show F.H 1 q = some 0
    rw [hH1, h 0]; simp

/-! ### Padding -/

theorem rad_line {s : Fin 2 → ℕ} (h : s 1 = 1) (g : Fin (s 0) → ℂ) (dx dy : ℝ) (pos : (a : Fin 2) → Fin (s a) → ℤ) (kx : ℝ) :
    rad dx dy pos (fun x => g (x 0)) kx 0 = ∑ i, g i * exp (-(I * (kx * (pos 0 i * dx)))) := by
  unfold rad
  refine Fintype.sum_bijective (fun x : Idx s => x 0) ⟨fun x y hxy => ?_, fun i => ?_⟩ _ _ fun x => ?_
  · funext a
    fin_cases a
    · exact hxy
    · have h1 := (x 1).2
      have h2 := (y 1).2
      apply Fin.ext
      show ((x 1 : Fin (s 1)) : ℕ) = (y 1 : Fin (s 1))
      omega
  · refine ⟨Fin.cons i (Fin.cons ⟨0, by show 0 < s 1; omega⟩ finZeroElim), rfl⟩
  · simp

/-- A row of three cells. -/
def row3 : Fin 2 → ℕ := ![3, 1]
noncomputable def row3E : Arr row3 ℂ := fun x => (![0, 1, I] : Fin 3 → ℂ) (x 0)

/-- **C81** fails with padding: for the default padded size and three cells in a row there is a near field which radiates nothing in some direction,
whatever the origin, but the result is not zero. -/
theorem C81_fails_partial : ∃ (F : Far (padShape row3 .auto)) (q : Idx (padShape row3 .auto)),
    nearToFarfield [row3E, 0] [0, 0] 1 1 .auto = .ok F ∧ F.kx q ^ 2 + F.ky q ^ 2 < k ^ 2
    ∧ (∀ c : Fin 2 → ℤ, rad 1 1 (fun a x => (x : ℕ) + c a) row3E (F.kx q) (F.ky q) = 0)
    ∧ F.E 0 q ≠ some 0 := by
  have hp0 : padShape row3 .auto 0 = 4 := by decide
  have hp1 : padShape row3 .auto 1 = 1 := by decide
  obtain ⟨F, hF⟩ := C63_total (s := row3) (E0 := row3E) (E1 := 0) (H0 := 0) (H1 := 0) (dx := 1) (dy := 1) (pad := .auto)
    (by omega) (by omega) one_ne_zero one_ne_zero
  let q : Idx (padShape row3 .auto) := fun a => if h : a = 0 then ⟨1, by subst h; omega⟩ else ⟨0, by
    have : a = 1 := by omega
    subst this; omega⟩
  obtain ⟨hkx, hky, -, -, -, -, -⟩ := C63_light_cone hF q
  have hkx' : F.kx q = -(Real.pi / 2) := by
    rw [hkx]
    unfold waveNumber
    have : ((q 0 : Fin _) : ℕ) = 1 := rfl
    rw [this, hp0]
    norm_num
    ring
  have hky' : F.ky q = 0 := by
    rw [hky]
    unfold waveNumber
    have : ((q 1 : Fin _) : ℕ) = 0 := rfl
    rw [this, hp1]
    norm_num
  have hv : F.kx q ^ 2 + F.ky q ^ 2 < k ^ 2 := by
    rw [hkx', hky']
    unfold k
    nlinarith [Real.pi_pos]
  have w : ∀ m : ℤ, exp (-(I * ((F.kx q : ℂ) * (m * (1 : ℝ))))) = I ^ m := by
    intro m
    rw [hkx']
    conv_rhs => rw [← exp_pi_div_two_mul_I, ← exp_int_mul]
    congr 1
    push_cast
    ring
  refine ⟨F, q, hF, hv, fun c => ?_, ?_⟩
  · rw [hky']
    have := rad_line (s := row3) rfl (fun i => (![0, 1, I] : Fin 3 → ℂ) i) 1 1 (fun a x => (x : ℕ) + c a) (F.kx q)
    unfold row3E
    rw [this]
    simp only [w]
    refine (Fin.sum_univ_three (fun i : Fin 3 => (![0, 1, I] : Fin 3 → ℂ) i * I ^ (((i : ℕ) : ℤ) + c 0))).trans ?_
    simp [zpow_add₀ I_ne_zero]
  · rw [C81_padded_partial hF (fun a => by fin_cases a <;> decide) q hv 0]
    have hrad : rad 1 1 (swapped row3) row3E (F.kx q) (F.ky q) = I - 1 := by
      rw [hky']
      have := rad_line (s := row3) rfl (fun i => (![0, 1, I] : Fin 3 → ℂ) i) 1 1 (swapped row3) (F.kx q)
      unfold row3E
      rw [this]
      simp only [w]
      refine (Fin.sum_univ_three (fun i : Fin 3 => (![0, 1, I] : Fin 3 → ℂ) i * I ^ (swapped row3 0 i))).trans ?_
      have a1 : swapped row3 0 (1 : Fin 3) = 2 := by decide
      have a2 : swapped row3 0 (2 : Fin 3) = 0 := by decide
      rw [a1, a2]
      simp [zpow_two]
      ring
    have hzero : ∀ x y, rad 1 1 (swapped row3) (0 : Arr row3 ℂ) x y = 0 := fun x y => by simp [rad]
    have hc : Real.cos (F.theta q) = -1 := by
      obtain ⟨-, -, -, -, -, hk, ha, -, -⟩ := near_spec hF
      rw [(ha q).1, cos_theta hv]
      unfold cosTh
      have hpi := Real.pi_pos
      rw [if_neg (by rw [hkx']; intro h; linarith [h.1]), hky', hkx']
      have : Real.sqrt (-(Real.pi / 2) * -(Real.pi / 2) + 0 * 0) = Real.pi / 2 := by
        rw [show -(Real.pi / 2) * -(Real.pi / 2) + 0 * 0 = (Real.pi / 2) ^ 2 by ring]
        exact Real.sqrt_sq (by positivity)
      rw [this]
      field_simp
    intro h
    rw [Option.some.injEq] at h
    simp only [radiated, magneticCurrent, electricCurrent, hrad, hzero, dot3, azVec, Matrix.cons_val_zero, Matrix.cons_val_one, hc] at h
    have := congrArg Complex.re h
    simp at this

/-! ### There and back -/

theorem wrap_cancel {n : ℕ} (i : Fin n) (t : ℤ) : wrap (wrap i (-t)) t = i := by simp

theorem resize_self {K : Type} (z : K) (f : Arr s K) : resize z s f = f := by
  funext x
  unfold resize
  rw [dif_pos fun a => (x a).2]

/-- The inverse transform of lines 225-226 undoes the transform of lines 70-71. -/
theorem nearIfft_nearFft (f : Arr s ℂ) (g : Idx s → Option ℂ) (hg : ∀ q, g q = some (nearFft s f q)) (x : Idx s) :
    nearIfft s g x = some (f x) := by
  have h1 : ifftshift (fun q => some (nearFft s f q)) = fun q => some (Bloch.fftn (fftshift f) q) := by
    funext q
    unfold ifftshift nearFft
    rw [resize_self]
    conv_lhs => unfold Farfield.fftshift
    simp only [wrap_neg_cancel]
    rfl
  rw [show g = fun q => some (nearFft s f q) from funext hg]
  unfold nearIfft
  rw [resize_self, h1, if_neg (by simp)]
  simp only [Option.getD_some]
  rw [Bloch.ifftn_fftn]
  congr 1
  show f _ = f x
  congr 1
  funext a
  exact wrap_neg_cancel _ _

theorem freqs_scalar {n : ℕ} {dx : ℝ} (hn : n ≠ 0) (hx : dx ≠ 0) :
    freqs n n (.scalar (2 * Real.pi / (n * dx))) = .ok (waveNumber n dx) := by
  have hn' : (n : ℝ) ≠ 0 := Nat.cast_ne_zero.2 hn
  simp only [freqs]
  rw [if_neg (by positivity)]
  congr 1
  funext i
  rw [← kAxis_eq]
  unfold kAxis fftshift1 Farfield.fftfreq
  have hpi := Real.pi_ne_zero
  field_simp

/-- A spectrum of outgoing waves is recovered from its far field. -/
theorem near_of_far {kx ky : ℝ} (hv : kx ^ 2 + ky ^ 2 < k ^ 2) {En Hn : Fin 2 → ℂ} {e : Fin 3 → ℂ}
    (he : IsPlaneWave (En 0) (En 1) (Hn 0) (Hn 1) (dirVec (theta kx ky) (phi kx ky)) e) (Ef : Fin 2 → ℂ)
    (hEf : ∀ i, farE kx ky En Hn i = some (Ef i)) (i : Fin 2) :
    nearE kx ky Ef i = some (En i) ∧ nearH kx ky Ef i = some (Hn i) := by
  have h := outgoing_currents he
  have h0 := hEf 0
  have h1 := hEf 1
  rw [farE_eq hv, h, Option.some.injEq] at h0 h1
  simp only [Matrix.cons_val_zero, Matrix.cons_val_one] at h0 h1
  obtain ⟨hd, e0, e1, m0, m1⟩ := he
  obtain ⟨hc, hpos⟩ := cosPhi_cos hv
  have s1 : (Real.sin (phi kx ky) : ℂ) ^ 2 + (Real.cos (phi kx ky) : ℂ) ^ 2 = 1 := by exact_mod_cast Real.sin_sq_add_cos_sq _
  have s2 : (Real.sin (theta kx ky) : ℂ) ^ 2 + (Real.cos (theta kx ky) : ℂ) ^ 2 = 1 := by exact_mod_cast Real.sin_sq_add_cos_sq _
  unfold nearE nearH
  rw [hc]
  simp only [Option.map_some, if_neg (not_invalid hv), if_neg hpos.ne', ← cos_theta hv, ← sin_theta hv, Option.some.injEq]
  have hcc : (Real.cos (phi kx ky) : ℂ) ≠ 0 := ofReal_ne_zero.2 hpos.ne'
  rw [← h0, ← h1]
  simp only [dot3, dirVec, Matrix.cons_val_zero, Matrix.cons_val_one, Matrix.cons_val_two, Matrix.tail_cons, Matrix.head_cons, cross3,
    azVec, polVec, ofReal_mul, ofReal_neg, ofReal_zero] at hd e0 e1 m0 m1 ⊢
  generalize (Real.sin (phi kx ky) : ℂ) = sp at *
  generalize (Real.cos (phi kx ky) : ℂ) = cp at *
  generalize (Real.sin (theta kx ky) : ℂ) = st at *
  generalize (Real.cos (theta kx ky) : ℂ) = ct at *
  have h5 : (0.5 : ℂ) = 1 / 2 := by norm_num
  fin_cases i
  · simp only [Fin.zero_eta, if_true, e0, m0]
    rw [div_eq_iff hcc, div_eq_iff hcc, h5]
    constructor
    · linear_combination cp * ct * (e 0 * ct + e 1 * st) * s1 - cp * ct * sp * hd + cp * e 0 * s2
    · linear_combination (-(cp ^ 2 * e 1)) * s2
  · simp only [Fin.mk_one, one_ne_zero, if_false, e1, m1]
    rw [div_eq_iff hcc, div_eq_iff hcc, h5]
    constructor
    · linear_combination cp * st * (e 0 * ct + e 1 * st) * s1 - cp * st * sp * hd + cp * e 1 * s2
    · linear_combination cp ^ 2 * e 0 * s2

/-- The near field consists of outgoing waves, all of them with wave vectors inside the light cone. -/
def Outgoing (dx dy : ℝ) (E0 E1 H0 H1 : Arr s ℂ) : Prop :=
  ∀ q : Idx s, let kx := waveNumber (s 0) dx (q 0); let ky := waveNumber (s 1) dy (q 1)
    ∃ th ph : ℝ, 0 < Real.cos ph ∧ kx = 2 * Real.pi * dirVec th ph 0 ∧ ky = 2 * Real.pi * dirVec th ph 1
      ∧ ∃ e, IsPlaneWave (rad dx dy (centred s) E0 kx ky) (rad dx dy (centred s) E1 kx ky) (rad dx dy (centred s) H0 kx ky)
        (rad dx dy (centred s) H1 kx ky) (dirVec th ph) e

theorem outgoing_angles {kx ky th ph : ℝ} (h0 : 0 < Real.cos ph) (hx : kx = 2 * Real.pi * dirVec th ph 0) (hy : ky = 2 * Real.pi * dirVec th ph 1) :
    kx ^ 2 + ky ^ 2 < k ^ 2 ∧ dirVec (theta kx ky) (phi kx ky) = dirVec th ph := by
  have hk := k_pos
  have s1 := Real.sin_sq_add_cos_sq ph
  have s2 := Real.sin_sq_add_cos_sq th
  have hv : kx ^ 2 + ky ^ 2 < k ^ 2 := by
    have : kx ^ 2 + ky ^ 2 = k ^ 2 * (1 - Real.cos ph ^ 2) := by
      rw [hx, hy]
      simp only [dirVec, Matrix.cons_val_zero, Matrix.cons_val_one, k]
      linear_combination (2 * Real.pi) ^ 2 * Real.sin ph ^ 2 * s2 + (2 * Real.pi) ^ 2 * s1
    rw [this]
    have : 0 < k ^ 2 * Real.cos ph ^ 2 := by positivity
    linarith
  refine ⟨hv, ?_⟩
  obtain ⟨d0, d1, d2⟩ := dir_eq hv
  have e0 : dirVec (theta kx ky) (phi kx ky) 0 = dirVec th ph 0 := by
    apply mul_left_cancel₀ hk.ne'
    rw [← d0, hx]; rfl
  have e1 : dirVec (theta kx ky) (phi kx ky) 1 = dirVec th ph 1 := by
    apply mul_left_cancel₀ hk.ne'
    rw [← d1, hy]; rfl
  have unit : ∀ a b : ℝ, dirVec a b 0 ^ 2 + dirVec a b 1 ^ 2 + dirVec a b 2 ^ 2 = 1 := by
    intro a b
    simp only [dirVec, Matrix.cons_val_zero, Matrix.cons_val_one, Matrix.cons_val_two, Matrix.tail_cons, Matrix.head_cons]
    linear_combination Real.sin b ^ 2 * Real.sin_sq_add_cos_sq a + Real.sin_sq_add_cos_sq b
  have u1 := unit (theta kx ky) (phi kx ky)
  have u2 := unit th ph
  have p2 : 0 < dirVec th ph 2 := by simpa [dirVec] using h0
  rw [e0, e1] at u1
  have e2 : dirVec (theta kx ky) (phi kx ky) 2 = dirVec th ph 2 := by nlinarith
  funext i
  fin_cases i
  · exact e0
  · exact e1
  · exact e2

/-- **C64**: on square grids without padding, and for near fields made of outgoing waves inside the light cone on all samples of the grid,
`far_to_nearfield` recovers the near field and the spacings from the result of `near_to_farfield`, if it is given the spacings of the spectrum. -/
theorem C64_roundtrip_partial {n : ℕ} (hn : 2 ≤ n) {E0 E1 H0 H1 : Arr (fun _ => n) ℂ} {dx dy : ℝ} (hx : dx ≠ 0) (hy : dy ≠ 0)
    (hout : Outgoing dx dy E0 E1 H0 H1) :
    ∃ (F : Far fun _ => n) (Ef Hf : Fin 2 → Arr (fun _ => n) ℂ),
      nearToFarfield [E0, E1] [H0, H1] dx dy (.int n) = .ok F ∧ (∀ i q, F.E i q = some (Ef i q)) ∧ (∀ i q, F.H i q = some (Hf i q))
      ∧ ∃ N : Near fun _ => n,
        farToNearfield [Ef 0, Ef 1] [Hf 0, Hf 1] (.scalar (2 * Real.pi / (n * dx))) (.scalar (2 * Real.pi / (n * dy))) (.int n) = .ok N
        ∧ (∀ x, N.E 0 x = some (E0 x) ∧ N.E 1 x = some (E1 x) ∧ N.H 0 x = some (H0 x) ∧ N.H 1 x = some (H1 x))
        ∧ N.dx = .scalar dx ∧ N.dy = .scalar dy := by
  obtain ⟨F, hF⟩ := C63_total (s := fun _ => n) (E0 := E0) (E1 := E1) (H0 := H0) (H1 := H1) (dx := dx) (dy := dy) (pad := .int n)
    (by show 2 ≤ n; omega) (by show 1 ≤ n; omega) hx hy
  have hlc := C63_light_cone hF
  obtain ⟨-, -, -, -, -, hk, ha, hE, hH⟩ := near_spec hF
  have hsE : ∀ i q, (F.E i q).isSome := fun i q => (hlc q).2.2.1 i
  have hsH : ∀ i q, (F.H i q).isSome := by
    intro i q
    fin_cases i
    · show (F.H 0 q).isSome
      rw [(hlc q).2.2.2.1, Option.isSome_map]
      exact hsE 1 q
    · show (F.H 1 q).isSome
      rw [(hlc q).2.2.2.2.1]
      exact hsE 0 q
  refine ⟨F, fun i q => (F.E i q).get (hsE i q), fun i q => (F.H i q).get (hsH i q), hF, fun i q => (Option.some_get _).symm,
    fun i q => (Option.some_get _).symm, ?_⟩
  have hn0 : n ≠ 0 := by omega
  have hback : ∀ q i, nearE (waveNumber n dx (q 0)) (waveNumber n dy (q 1)) (fun i => (F.E i q).get (hsE i q)) i
        = some (sp (fun _ => n) E0 E1 q i)
      ∧ nearH (waveNumber n dx (q 0)) (waveNumber n dy (q 1)) (fun i => (F.E i q).get (hsE i q)) i = some (sp (fun _ => n) H0 H1 q i) := by
    intro q i
    obtain ⟨th, ph, hc, h0, h1, e, he⟩ := hout q
    obtain ⟨hv, hdir⟩ := outgoing_angles hc h0 h1
    refine near_of_far (e := e) hv ?_ _ (fun j => ?_) i
    · rw [hdir]
      unfold sp
      simp only [if_true, one_ne_zero, if_false]
      have nf : ∀ f : Arr (fun _ => n) ℂ, nearFft (fun _ => n) f q
          = rad dx dy (centred fun _ => n) f (waveNumber n dx (q 0)) (waveNumber n dy (q 1)) := fun f =>
        (nearFft_eq (s := fun _ => n) (p := fun _ => n) (fun _ => le_rfl) hx hy f q).trans
          (rad_swapped (s := fun _ => n) (p := fun _ => n) (fun _ => rfl) hx hy f q)
      convert he using 1
      · exact nf E0
      · exact nf E1
      · exact nf H0
      · exact nf H1
    · have := hE j q
      rw [(hk q).1, (hk q).2] at this
      rw [Option.some_get]
      exact this.symm
  have hn' : (n : ℝ) ≠ 0 := Nat.cast_ne_zero.2 hn0
  have hpi := Real.pi_ne_zero
  unfold farToNearfield
  simp only [freqs_scalar hn0 hx, freqs_scalar hn0 hy]
  rw [if_neg (by simp [hn0])]
  simp only [bind, Except.bind]
  rw [dif_pos trivial, if_neg (by simp [padShape, hn0])]
  refine ⟨_, rfl, fun x => ⟨?_, ?_, ?_, ?_⟩, ?_, ?_⟩
  · exact nearIfft_nearFft E0 _ (fun q => (hback q 0).1) x
  · exact nearIfft_nearFft E1 _ (fun q => (hback q 1).1) x
  · exact nearIfft_nearFft H0 _ (fun q => (hback q 0).2) x
  · exact nearIfft_nearFft H1 _ (fun q => (hback q 1).2) x
  · simp only [spacing]; congr 1; field_simp
  · simp only [spacing]; congr 1; field_simp

/-- **C64** fails on grids that are not square: `far_to_nearfield` raises whatever the fields and spacings. -/
theorem C64_nonsquare_partial (hs : s 0 ≠ s 1) (E H : List (Arr s ℂ)) (dkx dky : Step) (pad : Pad) (N : Near (padShape s pad)) :
    farToNearfield E H dkx dky pad ≠ .ok N := by
  unfold farToNearfield
  split
  · have hs' : ¬ s 1 = s 0 := fun h => hs h.symm
    simp only [dif_neg hs']
    split_ifs
    · simp
    · cases freqs (s 0) (s 0) dkx <;> cases freqs (s 0) (s 1) dky <;> simp [bind, Except.bind]
  · simp
  · simp

/-- **C64**: arrays without samples are rejected. -/
theorem C64_empty (hs : ∃ a, s a = 0) (E H : List (Arr s ℂ)) (dkx dky : Step) (pad : Pad) (N : Near (padShape s pad)) :
    farToNearfield E H dkx dky pad ≠ .ok N := by
  unfold farToNearfield
  split
  · rw [if_pos hs]; simp
  · simp
  · simp

/-- **C64** fails beyond the light cone: if a sample of the (square) grid lies beyond the light cone, every entry of the near field is NaN. -/
theorem C64_nan_partial {n : ℕ} (hn : n ≠ 0) {dx dy : ℝ} (hx : dx ≠ 0) (hy : dy ≠ 0) (Ef Hf : Fin 2 → Arr (fun _ => n) ℂ) (pad : Pad)
    (hp : ∀ a, n ≤ padShape (fun _ => n) pad a) (q : Idx fun _ : Fin 2 => n)
    (hq : (2 * Real.pi) ^ 2 < waveNumber n dx (q 0) ^ 2 + waveNumber n dy (q 1) ^ 2) :
    ∃ N, farToNearfield [Ef 0, Ef 1] [Hf 0, Hf 1] (.scalar (2 * Real.pi / (n * dx))) (.scalar (2 * Real.pi / (n * dy))) pad = .ok N
      ∧ ∀ i x, N.E i x = none ∧ N.H i x = none := by
  have hc : cosPhi (waveNumber n dx (q 0)) (waveNumber n dy (q 1)) = none := by
    unfold cosPhi k
    rw [if_pos (by nlinarith)]
  have hnan : ∀ g : Idx (fun _ : Fin 2 => n) → Option ℂ, g q = none → ∀ x, nearIfft (padShape (fun _ => n) pad) g x = none := by
    intro g hg x
    unfold nearIfft
    rw [if_pos]
    refine ⟨fun a => Fin.castLE (hp a) (wrap (q a) (-((n / 2 : ℕ) : ℤ))), ?_⟩
    unfold resize
    refine (dif_pos fun a => (wrap (q a) (-((n / 2 : ℕ) : ℤ))).2).trans ?_
    rw [← hg]
    show g _ = g q
    congr 1
    funext a
    exact wrap_cancel _ _
  unfold farToNearfield
  simp only [freqs_scalar hn hx, freqs_scalar hn hy]
  rw [if_neg (by simp [hn])]
  simp only [bind, Except.bind]
  rw [dif_pos trivial, if_neg]
  · refine ⟨_, rfl, fun i x => ⟨hnan _ ?_ x, hnan _ ?_ x⟩⟩
    · show nearE (waveNumber n dx (q 0)) (waveNumber n dy (q 1)) _ i = none
      unfold nearE
      rw [hc]; rfl
    · show nearH (waveNumber n dx (q 0)) (waveNumber n dy (q 1)) _ i = none
      unfold nearH
      rw [hc]; rfl
  · rintro ⟨a, ha⟩
    have := hp a
    omega

/-- **C64**: without samples strictly beyond the light cone the near field has no NaN entry, samples exactly on the light cone (grazing waves) included, and
depends only on the far field strictly inside the light cone. -/
theorem C64_finite_partial {n : ℕ} (hn : n ≠ 0) {dx dy : ℝ} (hx : dx ≠ 0) (hy : dy ≠ 0) (Ef Hf : Fin 2 → Arr (fun _ => n) ℂ) (pad : Pad)
    (hp : ∀ a, padShape (fun _ => n) pad a ≠ 0)
    (hq : ∀ q : Idx fun _ : Fin 2 => n, waveNumber n dx (q 0) ^ 2 + waveNumber n dy (q 1) ^ 2 ≤ (2 * Real.pi) ^ 2) :
    ∃ N, farToNearfield [Ef 0, Ef 1] [Hf 0, Hf 1] (.scalar (2 * Real.pi / (n * dx))) (.scalar (2 * Real.pi / (n * dy))) pad = .ok N
      ∧ (∀ i x, (N.E i x).isSome ∧ (N.H i x).isSome)
      ∧ ∀ Ef' Hf' : Fin 2 → Arr (fun _ => n) ℂ,
        (∀ q : Idx fun _ : Fin 2 => n, waveNumber n dx (q 0) ^ 2 + waveNumber n dy (q 1) ^ 2 < (2 * Real.pi) ^ 2 → ∀ i, Ef' i q = Ef i q) →
        ∃ N', farToNearfield [Ef' 0, Ef' 1] [Hf' 0, Hf' 1] (.scalar (2 * Real.pi / (n * dx))) (.scalar (2 * Real.pi / (n * dy))) pad = .ok N'
          ∧ ∀ i x, N'.E i x = N.E i x ∧ N'.H i x = N.H i x := by
  classical
  have hc : ∀ q : Idx fun _ : Fin 2 => n, ∃ c, cosPhi (waveNumber n dx (q 0)) (waveNumber n dy (q 1)) = some c := by
    intro q
    unfold cosPhi k
    rw [if_neg (by have := hq q; nlinarith)]
    exact ⟨_, rfl⟩
  have hfin : ∀ g : Idx (fun _ : Fin 2 => n) → Option ℂ, (∀ q, (g q).isSome) → ∀ x, (nearIfft (padShape (fun _ => n) pad) g x).isSome := by
    intro g hg x
    unfold nearIfft
    rw [if_neg]
    · rfl
    · rintro ⟨y, hy⟩
      unfold resize at hy
      split_ifs at hy with hh
      have := hg (fun a => wrap ((⟨y a, hh a⟩ : Fin n)) ((n / 2 : ℕ) : ℤ))
      unfold ifftshift at hy
      simp_all
  unfold farToNearfield
  simp only [freqs_scalar hn hx, freqs_scalar hn hy]
  rw [if_neg (by simp [hn])]
  simp only [bind, Except.bind]
  rw [dif_pos trivial, if_neg (by simpa using hp)]
  refine ⟨_, rfl, fun i x => ⟨hfin _ (fun q => ?_) x, hfin _ (fun q => ?_) x⟩, fun Ef' Hf' hE => ?_⟩
  · obtain ⟨c, h⟩ := hc q
    show (nearE (waveNumber n dx (q 0)) (waveNumber n dy (q 1)) _ i).isSome
    unfold nearE
    rw [h]; rfl
  · obtain ⟨c, h⟩ := hc q
    show (nearH (waveNumber n dx (q 0)) (waveNumber n dy (q 1)) _ i).isSome
    unfold nearH
    rw [h]; rfl
  · have he : ∀ q : Idx (fun _ : Fin 2 => n), (fun j : Fin 2 => if Invalid (waveNumber n dx (q 0)) (waveNumber n dy (q 1)) then (0 : ℂ)
          else if j = 0 then Ef' 0 q else Ef' 1 q)
        = fun j => if Invalid (waveNumber n dx (q 0)) (waveNumber n dy (q 1)) then 0 else if j = 0 then Ef 0 q else Ef 1 q := by
      intro q
      funext j
      by_cases hi : Invalid (waveNumber n dx (q 0)) (waveNumber n dy (q 1))
      · rw [if_pos hi, if_pos hi]
      · rw [if_neg hi, if_neg hi]
        have := hE q (by unfold Invalid k at hi; nlinarith)
        rw [this 0, this 1]
    rw [if_neg (by simp [hn]), dif_pos trivial, if_neg (by simpa using hp)]
    refine ⟨_, rfl, fun i x => ⟨?_, ?_⟩⟩
    · show nearIfft _ (fun q => nearE (waveNumber n dx (q 0)) (waveNumber n dy (q 1)) (fun j => if j = 0 then Ef' 0 q else Ef' 1 q) i) x
        = nearIfft _ (fun q => nearE (waveNumber n dx (q 0)) (waveNumber n dy (q 1)) (fun j => if j = 0 then Ef 0 q else Ef 1 q) i) x
      congr 1
      funext q
      unfold nearE
      have h0 := congrFun (he q) 0
      have h1 := congrFun (he q) 1
      simp only at h0 h1
      simp only [h0, h1]
    · show nearIfft _ (fun q => nearH (waveNumber n dx (q 0)) (waveNumber n dy (q 1)) (fun j => if j = 0 then Ef' 0 q else Ef' 1 q) i) x
        = nearIfft _ (fun q => nearH (waveNumber n dx (q 0)) (waveNumber n dy (q 1)) (fun j => if j = 0 then Ef 0 q else Ef 1 q) i) x
      congr 1
      funext q
      unfold nearH
      have h0 := congrFun (he q) 0
      have h1 := congrFun (he q) 1
      simp only at h0 h1
      simp only [h0, h1]

/-- Two by two cells of `1 / √2` wavelengths: one sample lies exactly on the light cone, the others inside it. -/
example : ∀ q : Idx fun _ : Fin 2 => 2, waveNumber 2 (1 / Real.sqrt 2) (q 0) ^ 2 + waveNumber 2 (1 / Real.sqrt 2) (q 1) ^ 2 ≤ (2 * Real.pi) ^ 2 := by
  intro q
  have h2 : Real.sqrt 2 ^ 2 = 2 := Real.sq_sqrt (by norm_num)
  have h : ∀ i : Fin 2, waveNumber 2 (1 / Real.sqrt 2) i ^ 2 ≤ 2 * Real.pi ^ 2 := by
    intro i
    unfold waveNumber
    fin_cases i
    · have e : 2 * Real.pi * (((((0 : Fin 2) : ℕ) : ℤ) - ((2 : ℕ) : ℤ) / 2 : ℤ) : ℝ) / ((2 : ℕ) * (1 / Real.sqrt 2)) = -(Real.pi * Real.sqrt 2) := by
        norm_num
        field_simp
      exact (congrArg (· ^ 2) e).trans_le (by rw [neg_sq, mul_pow, h2]; linarith)
    · have e : 2 * Real.pi * (((((1 : Fin 2) : ℕ) : ℤ) - ((2 : ℕ) : ℤ) / 2 : ℤ) : ℝ) / ((2 : ℕ) * (1 / Real.sqrt 2)) = 0 := by
        norm_num
      exact (congrArg (· ^ 2) e).trans_le (by have := sq_nonneg Real.pi; norm_num; linarith)
  nlinarith [h (q 0), h (q 1)]

/-- **C64**: cells of half a wavelength or less along x, in an even number, always put samples beyond the light cone. -/
theorem C64_nan_fine_partial {n : ℕ} (hn : n ≠ 0) (he : Even n) {dx dy : ℝ} (hx : 0 < dx) (hx2 : dx ≤ 1 / 2) (hy : 0 < dy)
    (Ef Hf : Fin 2 → Arr (fun _ => n) ℂ) (pad : Pad) (hp : ∀ a, n ≤ padShape (fun _ => n) pad a) :
    ∃ N, farToNearfield [Ef 0, Ef 1] [Hf 0, Hf 1] (.scalar (2 * Real.pi / (n * dx))) (.scalar (2 * Real.pi / (n * dy))) pad = .ok N
      ∧ ∀ i x, N.E i x = none ∧ N.H i x = none := by
  have hpi := Real.pi_pos
  refine C64_nan_partial hn hx.ne' hy.ne' Ef Hf pad hp (fun _ => ⟨0, Nat.pos_of_ne_zero hn⟩) ?_
  obtain ⟨m, hm⟩ := he
  have hn' : (n : ℝ) ≠ 0 := Nat.cast_ne_zero.2 hn
  have hk : ∀ d : ℝ, 0 < d → waveNumber n d ⟨0, Nat.pos_of_ne_zero hn⟩ = -(Real.pi / d) := by
    intro d hd
    unfold waveNumber
    have h1 : (((0 : ℕ) : ℤ) - (n : ℤ) / 2 : ℤ) = -(m : ℤ) := by omega
    simp only
    rw [h1]
    have h2 : (n : ℝ) = m + m := by rw [hm]; push_cast; ring
    have h3 : (m : ℝ) ≠ 0 := by intro h; rw [h2, h] at hn'; simp at hn'
    rw [h2]
    push_cast
    field_simp
    ring
  rw [hk dx hx, hk dy hy]
  have h1 : 2 * Real.pi ≤ Real.pi / dx := by
    rw [le_div_iff₀ hx]
    nlinarith
  have h2 : 0 < Real.pi / dy := by positivity
  nlinarith

/-- **C64** fails for the returned `dky`: it is zero at every entry while the spacing of the `ky` samples is not zero. `dkx` is right. -/
theorem C64_dky_partial (hF : nearToFarfield [E0, E1] [H0, H1] dx dy pad = .ok F) :
    (∀ j, F.dkx j = 2 * Real.pi / (padShape s pad 0 * dx))
    ∧ (∀ q q' : Idx (padShape s pad), (q 0 : ℕ) + 1 = (q' 0 : ℕ) → F.kx q' - F.kx q = 2 * Real.pi / (padShape s pad 0 * dx))
    ∧ (∀ q q' : Idx (padShape s pad), (q 1 : ℕ) + 1 = (q' 1 : ℕ) → F.ky q' - F.ky q = 2 * Real.pi / (padShape s pad 1 * dy))
    ∧ 2 * Real.pi / (padShape s pad 1 * dy) ≠ 0 ∧ ∀ j, F.dky j = 0 := by
  obtain ⟨hx, hy, hp, ⟨h, hdkx⟩, hdky, hk, -, -, -⟩ := near_spec hF
  refine ⟨fun j => ?_, fun q q' hq => ?_, fun q q' hq => ?_, ?_, hdky⟩
  · rw [hdkx]
    unfold waveNumber
    push_cast
    ring
  · rw [(hk q).1, (hk q').1]
    unfold waveNumber
    rw [← hq]
    push_cast
    ring
  · rw [(hk q).2, (hk q').2]
    unfold waveNumber
    rw [← hq]
    push_cast
    ring
  · have h1 : ((padShape s pad 1 : ℕ) : ℝ) ≠ 0 := Nat.cast_ne_zero.2 (hp 1)
    have := Real.pi_ne_zero
    positivity

theorem freqs_arr (n m : ℕ) (v : Fin n → ℝ) : ∃ f, freqs n m (.arr n v) = .ok f := by
  simp only [freqs]
  rw [dif_pos trivial]
  exact ⟨_, rfl⟩

/-- **C64**: handed the spacings that `near_to_farfield` returned (on a square grid, without padding), `far_to_nearfield` returns the right `dx`, but an
infinite `dy`. -/
theorem C64_chain_partial {n : ℕ} {E0 E1 H0 H1 : Arr (fun _ => n) ℂ} {dx dy : ℝ} {F : Far fun _ => n}
    (hF : nearToFarfield [E0, E1] [H0, H1] dx dy (.int n) = .ok F) (Ef Hf : Fin 2 → Arr (fun _ => n) ℂ) :
    ∃ N, farToNearfield [Ef 0, Ef 1] [Hf 0, Hf 1] (.arr n F.dkx) (.arr n F.dky) (.int n) = .ok N
      ∧ N.dx = .arr n (fun _ => some dx) ∧ N.dy = .arr n (fun _ => none) := by
  obtain ⟨hx, hy, hp, -, -, -, -, -, -⟩ := near_spec hF
  obtain ⟨hdkx, -, -, -, hdky⟩ := C64_dky_partial hF
  have hn0 : n ≠ 0 := hp 0
  have hn' : (n : ℝ) ≠ 0 := Nat.cast_ne_zero.2 hn0
  have hpi := Real.pi_ne_zero
  have hd : ∀ j, F.dkx j = 2 * Real.pi / (n * dx) := hdkx
  obtain ⟨fx, hfx⟩ := freqs_arr n n F.dkx
  obtain ⟨fy, hfy⟩ := freqs_arr n n F.dky
  unfold farToNearfield
  simp only [hfx, hfy]
  rw [if_neg (by simp [hn0])]
  simp only [bind, Except.bind]
  rw [dif_pos trivial, if_neg (by simp [padShape, hn0])]
  refine ⟨_, rfl, ?_, ?_⟩
  · simp only [spacing]
    congr 1
    funext j
    rw [hd, if_neg (by positivity)]
    congr 1
    field_simp
  · simp only [spacing]
    congr 1
    funext j
    rw [show F.dky j = 0 from hdky j, if_pos rfl]

theorem freqs_const {n l : ℕ} (m : ℕ) {v : ℝ} (hv : v ≠ 0) (hl : l = n ∨ l = 1) : freqs n m (.arr l fun _ => v) = freqs n m (.scalar v) := by
  simp only [freqs, if_neg hv]
  by_cases h : n = l
  · rw [dif_pos h]
  · rw [dif_neg h, dif_pos (hl.resolve_left fun h' => h h'.symm)]

/-- **C64**: spacings given as constant arrays, of one entry or of one entry per sample, do what the scalar does, and the returned spacings are
the scalar ones in arrays of the same lengths. An array of any other length (without zeros, on a grid with samples) is rejected. -/
theorem C64_array_step_partial (E H : List (Arr s ℂ)) {v w : ℝ} (hv : v ≠ 0) (hw : w ≠ 0) (l l' : ℕ) (pad : Pad) :
    ((l = s 0 ∨ l = 1) → (l' = s 0 ∨ l' = 1) →
      farToNearfield E H (.arr l fun _ => v) (.arr l' fun _ => w) pad = (farToNearfield E H (.scalar v) (.scalar w) pad).map fun N =>
        { N with dx := .arr l fun _ => some (2 * Real.pi / (s 0 * v)), dy := .arr l' fun _ => some (2 * Real.pi / (s 0 * w)) })
    ∧ (¬(l = s 0 ∨ l = 1) → ∀ N, farToNearfield E H (.arr l fun _ => v) (.arr l' fun _ => w) pad ≠ .ok N)
    ∧ (¬(l' = s 0 ∨ l' = 1) → ∀ N, farToNearfield E H (.arr l fun _ => v) (.arr l' fun _ => w) pad ≠ .ok N) := by
  have hbad : ∀ {n k : ℕ} (m : ℕ) (u : ℝ), ¬(k = n ∨ k = 1) → freqs n m (.arr k fun _ => u) = .error "ValueError or IndexError" := by
    intro n k m u h
    simp only [freqs]
    rw [dif_neg fun h' => h (.inl h'.symm), dif_neg fun h' => h (.inr h')]
  refine ⟨fun h h' => ?_, fun h N => ?_, fun h N => ?_⟩
  · unfold farToNearfield
    rw [freqs_const _ hv h, freqs_const _ hw h']
    simp only [freqs, if_neg hv, if_neg hw, spacing, bind, Except.bind]
    split
    · split_ifs <;> rfl
    · rfl
    · rfl
  · unfold farToNearfield
    rw [hbad _ _ h]
    split
    · split_ifs <;> simp [bind, Except.bind]
    · simp
    · simp
  · unfold farToNearfield
    rw [hbad (n := s 0) (s 1) _ h]
    split
    · generalize freqs (s 0) (s 0) (.arr l fun _ => v) = f
      cases f <;> split_ifs <;> simp [bind, Except.bind]
    · simp
    · simp

/-- The first case occurs on three samples with arrays of one and of three entries, the others with two entries. -/
example : ((1 = 3 ∨ 1 = 1) ∧ (3 = 3 ∨ 3 = 1)) ∧ ¬(2 = 3 ∨ 2 = 1) := by decide

/-! ### The hypotheses can be met -/

theorem nearFft_surj (g : Arr s ℂ) : ∃ f : Arr s ℂ, nearFft s f = g := by
  refine ⟨ifftshift (Bloch.ifftn (ifftshift g)), ?_⟩
  have h : fftshift (ifftshift (Bloch.ifftn (ifftshift g))) = Bloch.ifftn (ifftshift g) := by
    funext x
    show Bloch.ifftn (ifftshift g) _ = _
    congr 1
    funext a
    exact wrap_cancel _ _
  unfold nearFft
  rw [resize_self, h, Bloch.fftn_ifftn]
  funext x
  show g _ = _
  congr 1
  funext a
  exact wrap_cancel _ _

/-- Every choice of transverse vectors on a grid inside the light cone is the spectrum of a near field of outgoing waves. -/
theorem outgoing_exists {dx dy : ℝ} (hx : dx ≠ 0) (hy : dy ≠ 0) (e : Idx s → Fin 3 → ℂ)
    (hv : ∀ q : Idx s, waveNumber (s 0) dx (q 0) ^ 2 + waveNumber (s 1) dy (q 1) ^ 2 < k ^ 2)
    (he : ∀ q : Idx s, dot3 (e q) (dirVec (theta (waveNumber (s 0) dx (q 0)) (waveNumber (s 1) dy (q 1)))
      (phi (waveNumber (s 0) dx (q 0)) (waveNumber (s 1) dy (q 1)))) = 0) :
    ∃ E0 E1 H0 H1 : Arr s ℂ, Outgoing dx dy E0 E1 H0 H1
      ∧ ∀ q, nearFft s E0 q = e q 0 ∧ nearFft s E1 q = e q 1 := by
  let u : Idx s → Fin 3 → ℝ := fun q => dirVec (theta (waveNumber (s 0) dx (q 0)) (waveNumber (s 1) dy (q 1)))
      (phi (waveNumber (s 0) dx (q 0)) (waveNumber (s 1) dy (q 1)))
  obtain ⟨E0, hE0⟩ := nearFft_surj (s := s) fun q => e q 0
  obtain ⟨E1, hE1⟩ := nearFft_surj (s := s) fun q => e q 1
  obtain ⟨H0, hH0⟩ := nearFft_surj (s := s) fun q => cross3 (u q) (e q) 0
  obtain ⟨H1, hH1⟩ := nearFft_surj (s := s) fun q => cross3 (u q) (e q) 1
  refine ⟨E0, E1, H0, H1, fun q => ?_, fun q => ⟨congrFun hE0 q, congrFun hE1 q⟩⟩
  obtain ⟨h0, h1, h2⟩ := dir_eq (hv q)
  have nf : ∀ f : Arr s ℂ, rad dx dy (centred s) f (waveNumber (s 0) dx (q 0)) (waveNumber (s 1) dy (q 1)) = nearFft s f q := fun f =>
    ((nearFft_eq (fun _ => le_rfl) hx hy f q).trans (rad_swapped (fun _ => rfl) hx hy f q)).symm
  refine ⟨_, _, ?_, h0, h1, e q, he q, ?_, ?_, ?_, ?_⟩
  · simpa [dirVec] using h2
  · rw [nf, hE0]
  · rw [nf, hE1]
  · rw [nf, hH0]
  · rw [nf, hH1]

/-- Four cells, one wavelength wide each, with a field polarised along the azimuth in every direction of the spectrum. -/
theorem outgoing_example : ∃ E0 E1 H0 H1 : Arr (fun _ : Fin 2 => 2) ℂ, Outgoing 1 1 E0 E1 H0 H1 ∧ ¬(E0 = 0 ∧ E1 = 0) := by
  have hw : ∀ i : Fin 2, waveNumber 2 1 i ^ 2 ≤ Real.pi ^ 2 := by
    intro i
    unfold waveNumber
    fin_cases i
    · norm_num
      apply le_of_eq
      ring
    · norm_num
      positivity
  have hv : ∀ q : Idx fun _ : Fin 2 => 2, waveNumber 2 1 (q 0) ^ 2 + waveNumber 2 1 (q 1) ^ 2 < k ^ 2 := by
    intro q
    have h0 := hw (q 0)
    have h1 := hw (q 1)
    have := Real.pi_pos
    unfold k
    nlinarith
  obtain ⟨E0, E1, H0, H1, ho, hs⟩ := outgoing_exists (s := fun _ => 2) one_ne_zero one_ne_zero
    (fun q c => (azVec (theta (waveNumber 2 1 (q 0)) (waveNumber 2 1 (q 1))) c : ℂ)) hv (fun q => by
      simp only [dot3, azVec, dirVec, Matrix.cons_val_zero, Matrix.cons_val_one, Matrix.cons_val_two, Matrix.tail_cons, Matrix.head_cons]
      push_cast
      ring)
  refine ⟨E0, E1, H0, H1, ho, ?_⟩
  rintro ⟨rfl, rfl⟩
  obtain ⟨h0, h1⟩ := hs fun _ => 0
  have hz : ∀ q, nearFft (fun _ => 2) (0 : Arr (fun _ : Fin 2 => 2) ℂ) q = 0 := by
    intro q
    rw [nearFft_eq (s := fun _ => 2) (p := fun _ => 2) (fun _ => le_rfl) one_ne_zero one_ne_zero]
    simp [rad]
  rw [hz] at h0 h1
  simp only [azVec, Matrix.cons_val_zero, Matrix.cons_val_one] at h0 h1
  have h0' := ofReal_eq_zero.1 h0.symm
  have h1' := ofReal_eq_zero.1 h1.symm
  have := Real.sin_sq_add_cos_sq (theta (waveNumber 2 1 0) (waveNumber 2 1 0))
  rw [h1', neg_eq_zero.1 h0'] at this
  norm_num at this

/-- Quarter-wavelength cells on a 2 x 2 grid meet the hypotheses of the NaN statement. -/
example : Even 2 ∧ (0 : ℝ) < 1 / 4 ∧ (1 / 4 : ℝ) ≤ 1 / 2 ∧ ∀ a, 2 ≤ padShape (fun _ : Fin 2 => 2) .auto a :=
  ⟨by decide, by norm_num, by norm_num, by decide⟩
end

end Meanas.Props
