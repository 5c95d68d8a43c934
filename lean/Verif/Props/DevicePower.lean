/-
C181 (reciprocity and power of the scattering matrices of C179). The model is that of C179: the fields `e_full` (meanas/fdfd/operators.py:40-96) sends to zero between two ports, H from `e2h`
(meanas/fdfd/operators.py:253-282), powers from `poynting_e_cross_h` (meanas/fdfd/functional.py), and the modes of `operator_e` (meanas/fdfd/waveguide_2d.py) as waves at the ports.
-/
import Verif.Props.DeviceScatteringMatrix
import Verif.Props.PortAmplitudes
namespace Meanas.Props
open Matrix Complex Wg3 Spec Fdfd

variable {sh : Fin 3 → ℕ} {axis : Fin 3}

section lead
variable {S : Slices sh axis} {ω : ℂ} {dxes dxes₀ : Dx sh} {d : ℝ} {eps eps₀ : VField sh ℂ} {mu mu₀ : Option (VField sh ℂ)}
  {κ : Type*} [Fintype κ] {b : Module.Basis κ ℂ (Wg2.V 2 (sh2 S))} {k : κ → ℂ} {i : ℕ}

/-- The mode of a lead in direction `s`. -/
noncomputable def leadMode (S : Slices sh axis) (hS : FullWindow S) (dxes₀ : Dx sh) (d : ℝ) (eps₀ : VField sh ℂ) {κ : Type*} (v : κ → Wg2.V 2 (sh2 S)) (k : κ → ℂ) (n : κ) (s : Bool) : VField sh ℂ :=
  guideWave S hS (profile S dxes₀ eps₀ (k n) (v n)) (halfFactor (k n) d s)

theorem LeadAt.wave (P : LeadAt S ω dxes eps mu i dxes₀ d eps₀ mu₀ b k) (n : κ) (s : Bool) :
    LeadWave ω dxes eps mu axis i (halfFactor (k n) d s ^ 2) (leadMode S P.guide.full dxes₀ d eps₀ b k n s) := by
  have h := (C177_port P.guide b k P.eig P.cutoff P.edge P.inside P.room P.before P.near).1 n
  cases s
  · rw [(halfFactor_sq _ _).2]; exact h.2
  · rw [(halfFactor_sq _ _).1]; exact h.1

theorem halfFactor_not (k : ℂ) (d : ℝ) (s : Bool) : halfFactor k d s ^ 2 * halfFactor k d (!s) ^ 2 = 1 := by
  have h := halfFactor_ne k d true
  have : halfFactor k d true ^ 2 * halfFactor k d false ^ 2 = 1 := by
    rw [halfFactor_false, neg_sq, inv_pow, mul_inv_cancel₀ (pow_ne_zero _ h)]
  cases s
  · rw [mul_comm]; exact this
  · exact this

theorem halfFactor_norm (k : ℂ) (d : ℝ) (s : Bool) : ‖halfFactor k d s‖ * ‖halfFactor k d (!s)‖ = 1 := by
  have h := congrArg norm (halfFactor_not k d s)
  rw [norm_mul, norm_pow, norm_pow, norm_one, ← mul_pow] at h
  exact (pow_eq_one_iff_of_nonneg (by positivity) two_ne_zero).1 h

theorem halfFactor_unit {k : ℂ} {d : ℝ} (h : ‖halfFactor k d true‖ = 1) (s : Bool) : ‖halfFactor k d s‖ = 1 := by
  have := halfFactor_norm k d true
  cases s
  · rw [h, one_mul] at this; exact this
  · exact h

theorem halfFactor_unit' {k : ℂ} {d : ℝ} {s : Bool} (h : ‖halfFactor k d s‖ = 1) : ‖halfFactor k d true‖ = 1 := by
  have := halfFactor_norm k d s
  rw [h, one_mul] at this
  cases s
  · exact this
  · exact h

/-- Two travelling waves with the same factor are the same wave or of two degenerate modes. -/
theorem same_wave {κ : Type*} {k : κ → ℂ} {d : ℝ} (hd : d ≠ 0) (cutoff : ∀ n, k n ≠ 0) (edge : ∀ n, (k n * d) ^ 2 ≠ 4) {n m : κ} {s t : Bool}
    (hm : ‖halfFactor (k m) d t‖ = 1) (h : halfFactor (k n) d s ^ 2 * (starRingEnd ℂ) (halfFactor (k m) d t ^ 2) = 1) : k n ^ 2 = k m ^ 2 ∧ (n = m → s = t) := by
  have hc : (starRingEnd ℂ) (halfFactor (k m) d t ^ 2) = halfFactor (k m) d (!t) ^ 2 := by
    have h1 := halfFactor_not (k m) d t
    have h2 : halfFactor (k m) d t ^ 2 * (starRingEnd ℂ) (halfFactor (k m) d t ^ 2) = 1 := by
      rw [mul_conj, normSq_eq_norm_sq, norm_pow, hm]; simp
    exact mul_left_cancel₀ (pow_ne_zero 2 (halfFactor_ne _ _ _)) (h2.trans h1.symm)
  rw [hc] at h
  refine ⟨halfFactor_pair hd h, ?_⟩
  rintro rfl
  by_contra hst
  have h1 := halfFactor_not (k n) d (!t)
  rw [Bool.not_not, mul_comm] at h1
  have h2 := halfFactor_sq_ne (k n) hd (cutoff n) (edge n)
  have e : halfFactor (k n) d s ^ 2 = halfFactor (k n) d t ^ 2 := mul_right_cancel₀ (pow_ne_zero 2 (halfFactor_ne (k n) d (!t))) (h.trans h1.symm)
  cases s <;> cases t
  · exact hst rfl
  · exact h2 e.symm
  · exact h2 e
  · exact hst rfl

/-- The power in terms of the tangential fields. -/
theorem powerAt_section (hS : FullWindow S) {i : ℕ} (hi2 : i + 1 < sh axis) (E F : VField sh ℂ) :
    powerAt ω dxes mu axis i E F = ∑ y : Idx (sh2 S),
      let x := liftT S hS ⟨i, by omega⟩ y
      let e := planeE S hS E ⟨i + 1, hi2⟩
      let h := planeE S hS (hField ω dxes mu E) ⟨i, by omega⟩
      let f := planeE S hS F ⟨i + 1, hi2⟩
      let g := planeE S hS (hField ω dxes mu F) ⟨i, by omega⟩
      ((e (0, y) * (starRingEnd ℂ) (g (1, y)) + (starRingEnd ℂ) (f (0, y)) * h (1, y)) * (dxes.1 (axis + 1) (x (axis + 1)) * dxes.2 (axis + 2) (x (axis + 2)))
        - (e (1, y) * (starRingEnd ℂ) (g (0, y)) + (starRingEnd ℂ) (f (1, y)) * h (0, y)) * (dxes.1 (axis + 2) (x (axis + 2)) * dxes.2 (axis + 1) (x (axis + 1)))) := by
  unfold powerAt planeFlux
  have hp : ∀ x : Idx sh, (x axis : ℕ) = i → x axis = ⟨i, by omega⟩ := fun x hx => Fin.ext hx
  refine Finset.sum_bij' (fun x _ => projT S hS x) (fun y _ => liftT S hS ⟨i, by omega⟩ y) (fun _ _ => Finset.mem_univ _) (fun y _ => ?_) (fun x hx => ?_)
    (fun y _ => projT_liftT ..) fun x hx => ?_
  · simp [liftT_axis]
  · have hx := (Finset.mem_filter.1 hx).2
    have := liftT_projT S hS x
    rwa [hp x hx] at this
  · have hx := (Finset.mem_filter.1 hx).2
    have hl : liftT S hS ⟨i, by omega⟩ (projT S hS x) = x := by
      have := liftT_projT S hS x
      rwa [hp x hx] at this
    have hT : projT S hS (shiftIdx axis 1 x) = projT S hS x := by
      refine projT_ext S hS ?_ ?_
      · rw [shiftIdx_of_ne (ne_1 axis).symm]; rfl
      · rw [shiftIdx_of_ne (ne_2 axis).symm]; rfl
    have hn : shiftIdx axis 1 x axis = ⟨i + 1, hi2⟩ := Fin.ext (by rw [plane_shift_val (by omega), hx])
    have z0 : axis + 1 + Fin.castSucc (0 : Fin 2) = axis + 1 := by simp
    have z1 := cast_one axis
    have pe : ∀ (G : VField sh ℂ) (c : Fin 2), planeE S hS G ⟨i + 1, hi2⟩ (c, projT S hS x) = G (axis + 1 + c.castSucc) (shiftIdx axis 1 x) := by
      intro G c
      rw [planeE_proj S hS G c (shiftIdx axis 1 x), hT, hn]
    have ph : ∀ (G : VField sh ℂ) (c : Fin 2), planeE S hS G ⟨i, by omega⟩ (c, projT S hS x) = G (axis + 1 + c.castSucc) x := by
      intro G c
      rw [planeE_proj S hS G c x, hp x hx]
    simp only [crossPower, cross_axis, pe, ph, hl, z0, z1]
    ring

/-- The power only depends on the structure next to the plane. -/
theorem powerAt_near {ω : ℂ} {a : Fin 3} {i : ℕ} {dxes dxes₀ : Dx sh} {eps eps₀ : VField sh ℂ} {mu mu₀ : Option (VField sh ℂ)}
    (M : SameNear a i dxes eps mu dxes₀ eps₀ mu₀) (E F : VField sh ℂ) : powerAt ω dxes mu a i E F = powerAt ω dxes₀ mu₀ a i E F := by
  unfold powerAt planeFlux
  refine Finset.sum_congr rfl fun x hx => ?_
  have hx := (Finset.mem_filter.1 hx).2
  have hf : ∀ W c, hField ω dxes mu W c x = hField ω dxes₀ mu₀ W c x := by
    intro W c
    rw [hField_apply, hField_apply, (M.medium c x (Or.inl hx)).2,
      curlForward_local (some dxes.1) (some dxes₀.1) W W x (fun b => (M.width (Or.inl hx) b).1) (fun _ => rfl) (fun _ _ => rfl) c]
  have w := fun b => M.width (x := x) (Or.inl hx) b
  simp only [crossPower, cross_axis, hf, (w _).1, (w _).2]

/-- The powers with the modes determine the tangential fields, whatever the field. -/
theorem power_nondegenerate (U : UniformSection S ω dxes d eps mu) (b : Module.Basis κ ℂ (Wg2.V 2 (sh2 S))) (k : κ → ℂ) (hd : Nonzero dxes.1 ∧ Nonzero dxes.2)
    (eig : ∀ n, sectionOp S ω dxes eps mu *ᵥ b n = k n ^ 2 • b n) (hk : ∀ n, k n ≠ 0) (hk2 : ∀ n, (k n * d) ^ 2 ≠ 4) {i : ℕ} (hi : 0 < i) (hi2 : i + 1 < sh axis) (E : VField sh ℂ)
    (h : ∀ n s, powerAt ω dxes mu axis i E (leadMode S U.full dxes d eps b k n s) = 0) : planeE S U.full E ⟨i + 1, hi2⟩ = 0 := by
  classical
  let W : κ × Bool → VField sh ℂ := fun q => leadMode S U.full dxes d eps b k q.1 q.2
  have key : ∀ f g : Wg2.V 2 (sh2 S), (∑ y : Idx (sh2 S),
      let x := liftT S U.full ⟨i, by omega⟩ y
      let e := planeE S U.full E ⟨i + 1, hi2⟩
      let h := planeE S U.full (hField ω dxes mu E) ⟨i, by omega⟩
      ((e (0, y) * (starRingEnd ℂ) (g (1, y)) + (starRingEnd ℂ) (f (0, y)) * h (1, y)) * (dxes.1 (axis + 1) (x (axis + 1)) * dxes.2 (axis + 2) (x (axis + 2)))
        - (e (1, y) * (starRingEnd ℂ) (g (0, y)) + (starRingEnd ℂ) (f (1, y)) * h (0, y)) * (dxes.1 (axis + 2) (x (axis + 2)) * dxes.2 (axis + 1) (x (axis + 1))))) = 0 := by
    intro f g
    obtain ⟨u, hu⟩ := U.reach b k eig hk hk2 hi hi2 f g
    obtain ⟨h1, h2⟩ := hu _ rfl
    have hs := powerAt_section (S := S) (ω := ω) (dxes := dxes) (mu := mu) U.full hi2 E (fun c x => ∑ q, u q * W q c x)
    rw [powerAt_sum (W := fun _ : Unit => E) (V := W) (u := fun _ => 1) (v := u) (fun b x _ => by simp) (fun b x _ => rfl) hi2] at hs
    rw [Finset.sum_eq_zero (fun n _ => Finset.sum_eq_zero fun m _ => by rw [h m.1 m.2, mul_zero])] at hs
    simp only [W, leadMode] at hs
    rw [h1, h2] at hs
    exact hs.symm
  funext ⟨c, y⟩
  have k1 := key 0 (Pi.single (1, y) 1)
  have k2 := key 0 (Pi.single (0, y) 1)
  simp [Pi.single_apply, Prod.ext_iff, hd.1 _ _, hd.2 _ _, apply_ite (starRingEnd ℂ)] at k1 k2
  rcases fin2_cases c with rfl | rfl
  · exact k1
  · exact k2

/-- The power of two waves of one mode. -/
theorem power_modes (U : UniformSection S ω dxes d eps mu) (hr : ∀ b, b ≠ axis → ∀ t, (starRingEnd ℂ) (dxes.1 b t) = dxes.1 b t ∧ (starRingEnd ℂ) (dxes.2 b t) = dxes.2 b t) {k : ℂ} (hk : k ≠ 0)
    {v : Wg2.V 2 (sh2 S)} (hv : sectionOp S ω dxes eps mu *ᵥ v = k ^ 2 • v) {i : ℕ} (hi : i + 1 < sh axis) (s t : Bool) :
    let X := crossSum S U.full dxes v (star (sectionH S ω dxes eps mu k v))
    powerAt ω dxes mu axis i (guideWave S U.full (profile S dxes eps k v) (halfFactor k d s)) (guideWave S U.full (profile S dxes eps k v) (halfFactor k d t))
      = halfFactor k d s ^ (2 * (i + 1)) * (starRingEnd ℂ) (halfFactor k d t ^ (2 * i) * halfFactor k d t) * X
        + (starRingEnd ℂ) (halfFactor k d t ^ (2 * (i + 1))) * (halfFactor k d s ^ (2 * i) * halfFactor k d s) * (starRingEnd ℂ) X := by
  intro X
  simp only [X]
  rw [powerAt_section U.full hi, crossSum, map_sum, Finset.mul_sum, Finset.mul_sum, ← Finset.sum_add_distrib]
  refine Finset.sum_congr rfl fun y _ => ?_
  rw [U.wave_h hk hv (halfFactor_eq _ U.hd _) hi, U.wave_h hk hv (halfFactor_eq _ U.hd _) hi, U.wave_e _ _ _ hi, U.wave_e _ _ _ hi]
  simp only [liftT_other U.full ⟨i, Nat.lt_of_succ_lt hi⟩ S.plane y (ne_1 axis).symm, liftT_other U.full ⟨i, Nat.lt_of_succ_lt hi⟩ S.plane y (ne_2 axis).symm,
    Pi.smul_apply, smul_eq_mul, Pi.star_apply, map_sub, map_mul, RCLike.star_def, conj_conj, (hr _ (ne_1 axis).symm _).1, (hr _ (ne_1 axis).symm _).2, (hr _ (ne_2 axis).symm _).1,
    (hr _ (ne_2 axis).symm _).2]
  ring

end lead

section lossless
variable {S S' : Slices sh axis} {ω : ℝ} {g : DxList sh ℝ × DxList sh ℝ} {dxes₀ dxes₁ : Dx sh} {d d' : ℝ} {eps eps₀ eps₁ : VField sh ℂ} {mu mu₀ mu₁ : Option (VField sh ℂ)}
  {κ κ' : Type*} [Fintype κ] [Fintype κ'] {b : Module.Basis κ ℂ (Wg2.V 2 (sh2 S))} {k : κ → ℂ} {b' : Module.Basis κ' ℂ (Wg2.V 2 (sh2 S'))} {k' : κ' → ℂ} {i j : ℕ}

omit [Fintype κ] in
theorem LeadAt.widths (P : LeadAt S ω (cDx g) eps mu i dxes₀ d eps₀ mu₀ b k) (hd : Nonzero g.1 ∧ Nonzero g.2) :
    (Nonzero dxes₀.1 ∧ Nonzero dxes₀.2) ∧ ∀ b, b ≠ axis → ∀ t, (starRingEnd ℂ) (dxes₀.1 b t) = dxes₀.1 b t ∧ (starRingEnd ℂ) (dxes₀.2 b t) = dxes₀.2 b t := by
  have h : ∀ b, b ≠ axis → ∀ t, (g.1 b t : ℂ) = dxes₀.1 b t ∧ (g.2 b t : ℂ) = dxes₀.2 b t := P.near.other
  have hdc : (d : ℂ) ≠ 0 := ofReal_ne_zero.2 P.guide.hd
  refine ⟨⟨fun b t => ?_, fun b t => ?_⟩, fun b hb t => ?_⟩
  · by_cases hb : b = axis
    · subst hb; rw [P.guide.dE]; exact hdc
    · rw [← (h b hb t).1]; exact ofReal_ne_zero.2 (hd.1 b t)
  · by_cases hb : b = axis
    · subst hb; rw [P.guide.dH]; exact hdc
    · rw [← (h b hb t).2]; exact ofReal_ne_zero.2 (hd.2 b t)
  · rw [← (h b hb t).1, ← (h b hb t).2, conj_ofReal, conj_ofReal]; exact ⟨rfl, rfl⟩

/-- Waves of a lossless lead whose factors do not fit together carry no power together. -/
theorem LeadAt.apart (P : LeadAt S ω (cDx g) eps mu i dxes₀ d eps₀ mu₀ b k) (hω : ω ≠ 0) (hd : Nonzero g.1 ∧ Nonzero g.2) (hmu : ∀ m, mu = some m → ∀ c x, m c x ≠ 0)
    (hreal : ∀ c (x : Idx sh), (x axis : ℕ) = i + 1 → (eps c x).im = 0 ∧ (mu.getD 1 c x).im = 0) {n m : κ} {s t : Bool}
    (h : halfFactor (k n) d s ^ 2 * (starRingEnd ℂ) (halfFactor (k m) d t ^ 2) ≠ 1) :
    powerAt ω (cDx g) mu axis i (leadMode S P.guide.full dxes₀ d eps₀ b k n s) (leadMode S P.guide.full dxes₀ d eps₀ b k m t) = 0 := by
  have hR := P.room
  exact C172_power_orthogonal ω hω g hd eps mu hmu (by omega) hreal (P.wave n s) (P.wave m t) h

/-- **C181.** The power of the modes of a lossless guide. A mode that does not travel (whose factor from plane to plane is not of modulus one) carries no power. A travelling mode carries power, never zero, and in the other direction the opposite power. Modes with one
wavenumber, if there are such, must have been chosen to carry no power together. -/
theorem C181_mode_power (P : LeadAt S ω (cDx g) eps mu i dxes₀ d eps₀ mu₀ b k) (hω : ω ≠ 0) (hd : Nonzero g.1 ∧ Nonzero g.2) (hmu : ∀ m, mu = some m → ∀ c x, m c x ≠ 0)
    (hreal : ∀ c (x : Idx sh), (x axis : ℕ) = i + 1 → (eps c x).im = 0 ∧ (mu.getD 1 c x).im = 0) (orth : ∀ n m, n ≠ m → k n ^ 2 = k m ^ 2 → ∀ s t, powerAt ω (cDx g) mu axis i (leadMode S P.guide.full dxes₀ d eps₀ b k n s) (leadMode S P.guide.full dxes₀ d eps₀ b k m t) = 0) (n : κ) :
    let power := fun s => powerAt ω (cDx g) mu axis i (leadMode S P.guide.full dxes₀ d eps₀ b k n s) (leadMode S P.guide.full dxes₀ d eps₀ b k n s)
    (‖halfFactor (k n) d true‖ ≠ 1 → ∀ s, power s = 0) ∧
    (‖halfFactor (k n) d true‖ = 1 → ∀ s, (power s).im = 0 ∧ power s ≠ 0 ∧ power (!s) = -power s) := by
  intro power
  have hR := P.room
  obtain ⟨hd0, hr⟩ := P.widths hd
  refine ⟨fun hn s => P.apart hω hd hmu hreal fun h => hn ?_, fun hn s => ?_⟩
  · refine halfFactor_unit' (s := s) ?_
    rw [mul_conj, normSq_eq_norm_sq, norm_pow] at h
    have h' : (‖halfFactor (k n) d s‖ ^ 2) ^ 2 = 1 := by exact_mod_cast h
    rw [← pow_mul] at h'
    exact (pow_eq_one_iff_of_nonneg (norm_nonneg _) (by norm_num)).1 h'
  · have hu := fun s => halfFactor_unit hn s
    have f := fun s t => power_modes P.guide hr (P.cutoff n) (P.eig n) (i := i) (by omega) s t
    have near := fun s t => powerAt_near (ω := ω) P.near (leadMode S P.guide.full dxes₀ d eps₀ b k n s) (leadMode S P.guide.full dxes₀ d eps₀ b k n t)
    -- the conjugate of one factor is minus the other
    have hc : ∀ s, (starRingEnd ℂ) (halfFactor (k n) d s) = -halfFactor (k n) d (!s) := by
      intro s
      have h1 : halfFactor (k n) d s * (starRingEnd ℂ) (halfFactor (k n) d s) = 1 := by rw [mul_conj, normSq_eq_norm_sq, hu s]; simp
      have h2 : halfFactor (k n) d s * -halfFactor (k n) d (!s) = 1 := by
        have hne := halfFactor_ne (k n) d true
        cases s
        · simp only [Bool.not_false, halfFactor_false]; field_simp
        · simp only [Bool.not_true, halfFactor_false]; field_simp
      exact mul_left_cancel₀ (halfFactor_ne _ _ _) (h1.trans h2.symm)
    have hpq : halfFactor (k n) d s * halfFactor (k n) d (!s) = -1 := by
      have h1 : halfFactor (k n) d s * (starRingEnd ℂ) (halfFactor (k n) d s) = 1 := by rw [mul_conj, normSq_eq_norm_sq, hu s]; simp
      rw [hc s] at h1
      linear_combination -h1
    -- the two directions carry no power together
    have hX : (starRingEnd ℂ) (crossSum S P.guide.full dxes₀ (b n) (star (sectionH S ω dxes₀ eps₀ mu₀ (k n) (b n)))) = crossSum S P.guide.full dxes₀ (b n) (star (sectionH S ω dxes₀ eps₀ mu₀ (k n) (b n))) := by
      have z := P.apart hω hd hmu hreal (n := n) (m := n) (s := s) (t := !s) fun h => by
        have := (same_wave P.guide.hd P.cutoff P.edge (hu (!s)) h).2 rfl
        cases s <;> simp at this
      rw [near, leadMode, leadMode, f] at z
      simp only [map_mul, map_pow, hc, Bool.not_not] at z
      have hp := halfFactor_ne (k n) d s
      generalize halfFactor (k n) d s = p at *
      generalize crossSum S P.guide.full dxes₀ (b n) (star (sectionH S ω dxes₀ eps₀ mu₀ (k n) (b n))) = X at *
      have : p ^ (4 * i + 3) * ((starRingEnd ℂ) X - X) = 0 := by
        rw [← z]
        have e1 : (-p) ^ (2 * i) = p ^ (2 * i) := by rw [pow_mul, neg_sq, ← pow_mul]
        have e2 : (-p) ^ (2 * (i + 1)) = p ^ (2 * (i + 1)) := by rw [pow_mul, neg_sq, ← pow_mul]
        rw [e1, e2]
        ring
      exact sub_eq_zero.1 ((mul_eq_zero.1 this).resolve_left (pow_ne_zero _ hp))
    have val : ∀ s, power s = (halfFactor (k n) d s - halfFactor (k n) d (!s)) * crossSum S P.guide.full dxes₀ (b n) (star (sectionH S ω dxes₀ eps₀ mu₀ (k n) (b n))) := by
      intro s
      have hpq : halfFactor (k n) d s * halfFactor (k n) d (!s) = -1 := by
        have h1 : halfFactor (k n) d s * (starRingEnd ℂ) (halfFactor (k n) d s) = 1 := by rw [mul_conj, normSq_eq_norm_sq, hu s]; simp
        rw [hc s] at h1
        linear_combination -h1
      show powerAt _ _ _ _ _ _ _ = _
      rw [near, leadMode, f, hX]
      simp only [map_mul, map_pow, hc]
      generalize halfFactor (k n) d s = p at *
      generalize halfFactor (k n) d (!s) = q at *
      have e1 : (-q) ^ (2 * i) = q ^ (2 * i) := by rw [pow_mul, neg_sq, ← pow_mul]
      have e2 : (-q) ^ (2 * (i + 1)) = q ^ (2 * (i + 1)) := by rw [pow_mul, neg_sq, ← pow_mul]
      have e3 : p ^ (2 * i) * q ^ (2 * i) = 1 := by rw [← mul_pow, hpq, pow_mul, neg_one_sq, one_pow]
      rw [e1, e2, show 2 * (i + 1) = 2 * i + 2 by ring, pow_add, pow_add]
      generalize crossSum S P.guide.full dxes₀ (b n) (star (sectionH S ω dxes₀ eps₀ mu₀ (k n) (b n))) = X at *
      linear_combination (-(p ^ 2 * q) + q ^ 2 * p) * X * e3 + (-p + q) * X * hpq
    have hnot : power (!s) = -power s := by rw [val, val, Bool.not_not]; ring
    refine ⟨?_, fun hz => ?_, hnot⟩
    · have : (starRingEnd ℂ) (power s) = power s := by
        rw [val, map_mul, map_sub, hc, hc, hX, Bool.not_not]; ring
      exact conj_eq_iff_im.1 this
    · have z := power_nondegenerate P.guide b k hd0 P.eig P.cutoff P.edge P.inside (by omega) (leadMode S P.guide.full dxes₀ d eps₀ b k n s) fun m t => by
        rw [← powerAt_near P.near]
        by_cases h : halfFactor (k n) d s ^ 2 * (starRingEnd ℂ) (halfFactor (k m) d t ^ 2) = 1
        · have hm : ‖halfFactor (k m) d t‖ = 1 := by
            have := congrArg norm h
            rw [norm_mul, norm_conj, norm_pow, norm_pow, hu s, norm_one, one_pow, one_mul] at this
            exact (pow_eq_one_iff_of_nonneg (norm_nonneg _) two_ne_zero).1 this
          have sw := same_wave P.guide.hd P.cutoff P.edge hm h
          by_cases hnm : n = m
          · obtain rfl := hnm; obtain rfl := sw.2 rfl; exact hz
          · exact orth n m hnm sw.1 s t
        · exact P.apart hω hd hmu hreal h
      rw [leadMode, P.guide.wave_e] at z
      exact b.ne_zero n ((smul_eq_zero.1 z).resolve_left (pow_ne_zero _ (halfFactor_ne _ _ _)))

/-- The power at a port, if all waves coming in travel: each travelling mode counts by itself. -/
theorem LeadAt.power (P : LeadAt S ω (cDx g) eps mu i dxes₀ d eps₀ mu₀ b k) (hω : ω ≠ 0) (hd : Nonzero g.1 ∧ Nonzero g.2) (hmu : ∀ m, mu = some m → ∀ c x, m c x ≠ 0)
    (hreal : ∀ c (x : Idx sh), (x axis : ℕ) = i + 1 → (eps c x).im = 0 ∧ (mu.getD 1 c x).im = 0) (orth : ∀ n m, n ≠ m → k n ^ 2 = k m ^ 2 → ∀ s t, powerAt ω (cDx g) mu axis i (leadMode S P.guide.full dxes₀ d eps₀ b k n s) (leadMode S P.guide.full dxes₀ d eps₀ b k m t) = 0) (s : Bool)
    (out : (∀ n, 1 ≤ ‖halfFactor (k n) d (!s)‖) ∨ ∀ n, ‖halfFactor (k n) d (!s)‖ ≤ 1) {E F : VField sh ℂ} {u v : κ ⊕ κ → ℂ}
    (hu : ∀ n, ‖halfFactor (k n) d true‖ ≠ 1 → u (.inl n) = 0) (hv : ∀ n, ‖halfFactor (k n) d true‖ ≠ 1 → v (.inl n) = 0)
    (hE : SumOfWaves axis i (portWaves S P.guide.full dxes₀ d eps₀ b k s) u E) (hF : SumOfWaves axis i (portWaves S P.guide.full dxes₀ d eps₀ b k s) v F) :
    powerAt ω (cDx g) mu axis i E F = ∑ n, powerAt ω (cDx g) mu axis i (leadMode S P.guide.full dxes₀ d eps₀ b k n (!s)) (leadMode S P.guide.full dxes₀ d eps₀ b k n (!s))
      * (u (.inr n) * (starRingEnd ℂ) (v (.inr n)) - u (.inl n) * (starRingEnd ℂ) (v (.inl n))) := by
  classical
  have hR := P.room
  let W : κ ⊕ κ → VField sh ℂ := portWaves S P.guide.full dxes₀ d eps₀ b k s
  let dir : κ ⊕ κ → κ × Bool := Sum.elim (fun n => (n, s)) fun n => (n, !s)
  have hdir : ∀ p, W p = leadMode S P.guide.full dxes₀ d eps₀ b k (dir p).1 (dir p).2 := by rintro (n | n) <;> rfl
  have dinj : ∀ p q, dir p = dir q → p = q := by
    rintro (n | n) (m | m) h <;> simp [dir] at h ⊢ <;> exact h
  let lam : κ ⊕ κ → ℂ := fun p => halfFactor (k (dir p).1) d (dir p).2
  -- what is there at all
  have act : ∀ w : κ ⊕ κ → ℂ, (∀ n, ‖halfFactor (k n) d true‖ ≠ 1 → w (.inl n) = 0) → ∀ p, w p ≠ 0 → ((∀ n, 1 ≤ ‖halfFactor (k n) d (!s)‖) → 1 ≤ ‖lam p‖) ∧ ((∀ n, ‖halfFactor (k n) d (!s)‖ ≤ 1) → ‖lam p‖ ≤ 1) := by
    rintro w hw (n | n) hp
    · have h1 : ‖halfFactor (k n) d true‖ = 1 := by by_contra h; exact hp (hw n h)
      have h2 : ‖lam (.inl n)‖ = 1 := halfFactor_unit h1 s
      exact ⟨fun _ => h2.ge, fun _ => h2.le⟩
    · exact ⟨fun h => h n, fun h => h n⟩
  have off : ∀ p q, q ≠ p → u p * (starRingEnd ℂ) (v q) * powerAt ω (cDx g) mu axis i (W p) (W q) = 0 := by
    intro p q hpq
    by_cases h1 : u p = 0
    · rw [h1]; ring
    by_cases h2 : v q = 0
    · rw [h2]; simp
    rw [hdir, hdir]
    by_cases h : halfFactor (k (dir p).1) d (dir p).2 ^ 2 * (starRingEnd ℂ) (halfFactor (k (dir q).1) d (dir q).2 ^ 2) = 1
    swap
    · rw [P.apart hω hd hmu hreal h, mul_zero]
    have hn : ‖lam p‖ * ‖lam q‖ = 1 := by
      have := congrArg norm h
      rw [norm_mul, norm_conj, norm_pow, norm_pow, norm_one, ← mul_pow] at this
      exact (pow_eq_one_iff_of_nonneg (by positivity) two_ne_zero).1 this
    have hq : ‖lam q‖ = 1 := by
      have a1 := act u hu p h1
      have a2 := act v hv q h2
      have := norm_nonneg (lam p)
      have := norm_nonneg (lam q)
      rcases out with o | o
      · have := a1.1 o; have := a2.1 o; nlinarith
      · have := a1.2 o; have := a2.2 o; nlinarith
    have sw := same_wave P.guide.hd P.cutoff P.edge hq h
    rw [orth _ _ (fun e => hpq (dinj q p (Prod.ext e.symm (sw.2 e).symm))) sw.1, mul_zero]
  rw [powerAt_sum hE hF (by omega)]
  have : ∀ p, (∑ q, u p * (starRingEnd ℂ) (v q) * powerAt ω (cDx g) mu axis i (W p) (W q)) = u p * (starRingEnd ℂ) (v p) * powerAt ω (cDx g) mu axis i (W p) (W p) := fun p =>
    Finset.sum_eq_single p (fun q _ hq => off p q hq) (by simp)
  rw [Finset.sum_congr rfl fun p _ => this p, Fintype.sum_sum_type, ← Finset.sum_add_distrib]
  refine Finset.sum_congr rfl fun n _ => ?_
  rw [hdir, hdir]
  have mp := C181_mode_power P hω hd hmu hreal orth n
  by_cases hn : ‖halfFactor (k n) d true‖ = 1
  · have := (mp.2 hn s).2.2
    simp only at this
    show _ * powerAt _ _ _ _ _ (leadMode _ _ _ _ _ _ _ n s) (leadMode _ _ _ _ _ _ _ n s) + _ * powerAt _ _ _ _ _ (leadMode _ _ _ _ _ _ _ n (!s)) (leadMode _ _ _ _ _ _ _ n (!s)) = _
    rw [this]
    ring
  · have := mp.1 hn
    simp only at this
    show _ * powerAt _ _ _ _ _ (leadMode _ _ _ _ _ _ _ n s) (leadMode _ _ _ _ _ _ _ n s) + _ * powerAt _ _ _ _ _ (leadMode _ _ _ _ _ _ _ n (!s)) (leadMode _ _ _ _ _ _ _ n (!s)) = _
    rw [this, this]
    ring

/-- **C181.** The scattering matrix of a lossless device between lossless guides, all modes kept: between travelling modes it conserves power and keeps different excitations apart,
`Σ_n N_n T_np T_nq* = N_p` for `p = q` and zero otherwise, `N` being the power the outgoing modes carry away from the device (by `C181_mode_power` zero for the modes that do not travel and not zero for
the others). Outgoing waves that do not travel decay away from the device. -/
theorem C181_unitary [DecidableEq κ] [DecidableEq κ'] (hω : ω ≠ 0) (hd : Nonzero g.1 ∧ Nonzero g.2) (hmu : ∀ m, mu = some m → ∀ c x, m c x ≠ 0)
    (P : LeadAt S ω (cDx g) eps mu i dxes₀ d eps₀ mu₀ b k) (Q : LeadAt S' ω (cDx g) eps mu j dxes₁ d' eps₁ mu₁ b' k') (hij : i ≤ j)
    (hreal : ∀ c (x : Idx sh), i < (x axis : ℕ) → (x axis : ℕ) ≤ j + 1 → (eps c x).im = 0 ∧ (mu.getD 1 c x).im = 0)
    (orth : ∀ n m, n ≠ m → k n ^ 2 = k m ^ 2 → ∀ s t, powerAt ω (cDx g) mu axis i (leadMode S P.guide.full dxes₀ d eps₀ b k n s) (leadMode S P.guide.full dxes₀ d eps₀ b k m t) = 0)
    (orth' : ∀ n m, n ≠ m → k' n ^ 2 = k' m ^ 2 → ∀ s t, powerAt ω (cDx g) mu axis j (leadMode S' Q.guide.full dxes₁ d' eps₁ b' k' n s) (leadMode S' Q.guide.full dxes₁ d' eps₁ b' k' m t) = 0) (s s' : Bool)
    (out : ∀ n, 1 ≤ ‖halfFactor (k n) d (!s)‖) (out' : ∀ n, ‖halfFactor (k' n) d' (!s')‖ ≤ 1) {T : Matrix (κ ⊕ κ') (κ ⊕ κ') ℂ}
    (hT : IsScatteringMatrix ω (cDx g) eps mu axis i j (portWaves S P.guide.full dxes₀ d eps₀ b k s) (portWaves S' Q.guide.full dxes₁ d' eps₁ b' k' s') T) {p q : κ ⊕ κ'}
    (hp : Sum.elim (fun n => ‖halfFactor (k n) d true‖) (fun n => ‖halfFactor (k' n) d' true‖) p = 1)
    (hq : Sum.elim (fun n => ‖halfFactor (k n) d true‖) (fun n => ‖halfFactor (k' n) d' true‖) q = 1) :
    let N : κ ⊕ κ' → ℂ := Sum.elim
      (fun n => -powerAt ω (cDx g) mu axis i (leadMode S P.guide.full dxes₀ d eps₀ b k n (!s)) (leadMode S P.guide.full dxes₀ d eps₀ b k n (!s)))
      fun n => powerAt ω (cDx g) mu axis j (leadMode S' Q.guide.full dxes₁ d' eps₁ b' k' n (!s')) (leadMode S' Q.guide.full dxes₁ d' eps₁ b' k' n (!s'))
    ∑ n, N n * (T n p * (starRingEnd ℂ) (T n q)) = if p = q then N p else 0 := by
  intro N
  have hR := Q.room
  obtain ⟨E, hE, hu, hu'⟩ := hT p
  obtain ⟨F, hF, hv, hv'⟩ := hT q
  have h : powerAt ω (cDx g) mu axis j E F = powerAt ω (cDx g) mu axis i E F :=
    C134_power_planes ω hω g hd eps mu hmu (E₁ := E) (E₂ := F) axis hij (by omega) (fun c x h1 h2 => hreal c x h1 (by omega)) hE hF
      (H₁ := hField ω (cDx g) mu E) (H₂ := hField ω (cDx g) mu F) (vecS_unS _) (vecS_unS _)
  have z : ∀ r : κ ⊕ κ', Sum.elim (fun n => ‖halfFactor (k n) d true‖) (fun n => ‖halfFactor (k' n) d' true‖) r = 1 →
      (∀ n, ‖halfFactor (k n) d true‖ ≠ 1 → (if r = .inl n then (1 : ℂ) else 0) = 0) ∧ ∀ n, ‖halfFactor (k' n) d' true‖ ≠ 1 → (if r = .inr n then (1 : ℂ) else 0) = 0 := by
    intro r hr
    refine ⟨fun n hn => if_neg ?_, fun n hn => if_neg ?_⟩
    · rintro rfl; exact hn hr
    · rintro rfl; exact hn hr
  rw [P.power hω hd hmu (fun c x hx => hreal c x (by omega) (by omega)) orth s (Or.inl out) (z p hp).1 (z q hq).1 hu hv,
    Q.power hω hd hmu (fun c x hx => hreal c x (by omega) (by omega)) orth' s' (Or.inr out') (z p hp).2 (z q hq).2 hu' hv'] at h
  rw [Fintype.sum_sum_type]
  simp only [N, Sum.elim_inl, Sum.elim_inr, mul_sub, Finset.sum_sub_distrib, neg_mul, Finset.sum_neg_distrib, apply_ite (starRingEnd ℂ), map_one, map_zero] at h ⊢
  generalize hA : (fun n => powerAt ω (cDx g) mu axis i (leadMode S P.guide.full dxes₀ d eps₀ b k n (!s)) (leadMode S P.guide.full dxes₀ d eps₀ b k n (!s))) = A at *
  have hA' := fun n => congrFun hA n
  generalize hB : (fun n => powerAt ω (cDx g) mu axis j (leadMode S' Q.guide.full dxes₁ d' eps₁ b' k' n (!s')) (leadMode S' Q.guide.full dxes₁ d' eps₁ b' k' n (!s'))) = B at *
  have hB' := fun n => congrFun hB n
  simp only [hA', hB'] at h ⊢
  rcases p with p | p <;> rcases q with q | q <;>
    simp only [Sum.inl.injEq, Sum.inr.injEq, reduceCtorEq, if_false, mul_ite, mul_one, mul_zero, Finset.sum_ite_eq, Finset.mem_univ, if_true, Finset.sum_const_zero, sub_zero, ite_self, Sum.elim_inl, Sum.elim_inr] at h ⊢
  · by_cases hpq : p = q
    · subst hpq
      simp only [if_true] at h ⊢
      linear_combination h
    · simp only [if_neg hpq] at h ⊢
      linear_combination h
  · linear_combination h
  · linear_combination h
  · by_cases hpq : p = q
    · subst hpq
      simp only [if_true] at h ⊢
      linear_combination h
    · simp only [if_neg hpq] at h ⊢
      linear_combination h

end lossless

section reciprocal
variable {S S' : Slices sh axis} {ω : ℂ} {dxes dxes₀ dxes₁ : Dx sh} {d d' : ℝ} {eps eps₀ eps₁ : VField sh ℂ} {mu mu₀ mu₁ : Option (VField sh ℂ)}
  {κ κ' : Type*} [Fintype κ] [Fintype κ'] {b : Module.Basis κ ℂ (Wg2.V 2 (sh2 S))} {k : κ → ℂ} {b' : Module.Basis κ' ℂ (Wg2.V 2 (sh2 S'))} {k' : κ' → ℂ} {i j : ℕ}

/-- The modes at a port as C172 needs them, whichever direction comes in. -/
theorem LeadAt.port (P : LeadAt S ω dxes eps mu i dxes₀ d eps₀ mu₀ b k) (hd : Nonzero dxes.1 ∧ Nonzero dxes.2)
    (orth : ∀ n m, n ≠ m → k n ^ 2 = k m ^ 2 → ∀ s t, lorentzAt ω dxes mu axis i (leadMode S P.guide.full dxes₀ d eps₀ b k n s) (leadMode S P.guide.full dxes₀ d eps₀ b k m t) = 0) (s : Bool) :
    ∃ lam, IsPort ω dxes eps mu axis i lam (portWaves S P.guide.full dxes₀ d eps₀ b k s) ∧ ∀ n, portWeight ω dxes mu axis i (portWaves S P.guide.full dxes₀ d eps₀ b k s) n ≠ 0 := by
  have hdc : (d : ℂ) ≠ 0 := ofReal_ne_zero.2 P.guide.hd
  have hd0 : Nonzero dxes₀.1 ∧ Nonzero dxes₀.2 := by
    refine ⟨fun b t => ?_, fun b t => ?_⟩
    · by_cases hb : b = axis
      · subst hb; rw [P.guide.dE]; exact hdc
      · rw [← (P.near.other b hb t).1]; exact hd.1 b t
    · by_cases hb : b = axis
      · subst hb; rw [P.guide.dH]; exact hdc
      · rw [← (P.near.other b hb t).2]; exact hd.2 b t
  obtain ⟨h1, h2⟩ := C178_port P.guide b k hd0 P.eig P.cutoff P.edge P.inside P.room P.before P.near fun n m hnm hk s t => by
    rw [← lorentzAt_congr P.near]; exact orth n m hnm hk s t
  cases s
  · refine ⟨fun p => (Sum.elim (fun n => exp (-I * correct (k n) d * d)) fun n => exp (I * correct (k n) d * d)) p.swap, ⟨h1.room, fun p => ?_, fun p q h => ?_⟩, fun n hn => h2 n ?_⟩
    · have h := h1.wave p.swap
      cases p <;> exact h
    · rcases h1.pairs p.swap q.swap h with e | e | e
      · exact Or.inl (by rw [← Sum.swap_swap q, e, Sum.swap_swap])
      · exact Or.inr (Or.inl (by rw [← Sum.swap_swap q, e, Sum.swap_swap]))
      · refine Or.inr (Or.inr ?_)
        cases p <;> cases q <;> exact e
    · rw [portWeight, lorentzAt_swap] at hn
      exact neg_eq_zero.1 hn
  · exact ⟨_, h1, h2⟩

/-- **C181.** Reciprocity of the scattering matrix of any device (lossy, magnetic, on any grid), all modes kept, whichever directions are counted as incoming: with the weights `N` of the modes, none of
them zero, `N_p T_pq = N_q T_qp`. Modes with one wavenumber, if there are such, must have been chosen orthogonal (which C178 shows to be possible). -/
theorem C181_reciprocal [DecidableEq κ] [DecidableEq κ'] (hd : Nonzero dxes.1 ∧ Nonzero dxes.2) (hmu : ∀ m, mu = some m → ∀ c x, m c x ≠ 0)
    (P : LeadAt S ω dxes eps mu i dxes₀ d eps₀ mu₀ b k) (Q : LeadAt S' ω dxes eps mu j dxes₁ d' eps₁ mu₁ b' k') (hij : i ≤ j)
    (orth : ∀ n m, n ≠ m → k n ^ 2 = k m ^ 2 → ∀ s t, lorentzAt ω dxes mu axis i (leadMode S P.guide.full dxes₀ d eps₀ b k n s) (leadMode S P.guide.full dxes₀ d eps₀ b k m t) = 0)
    (orth' : ∀ n m, n ≠ m → k' n ^ 2 = k' m ^ 2 → ∀ s t, lorentzAt ω dxes mu axis j (leadMode S' Q.guide.full dxes₁ d' eps₁ b' k' n s) (leadMode S' Q.guide.full dxes₁ d' eps₁ b' k' m t) = 0)
    (s s' : Bool) {T : Matrix (κ ⊕ κ') (κ ⊕ κ') ℂ}
    (hT : IsScatteringMatrix ω dxes eps mu axis i j (portWaves S P.guide.full dxes₀ d eps₀ b k s) (portWaves S' Q.guide.full dxes₁ d' eps₁ b' k' s') T) :
    let N : κ ⊕ κ' → ℂ := Sum.elim
      (fun n => lorentzAt ω dxes mu axis i (leadMode S P.guide.full dxes₀ d eps₀ b k n s) (leadMode S P.guide.full dxes₀ d eps₀ b k n (!s)))
      fun n => -lorentzAt ω dxes mu axis j (leadMode S' Q.guide.full dxes₁ d' eps₁ b' k' n s') (leadMode S' Q.guide.full dxes₁ d' eps₁ b' k' n (!s'))
    (∀ p, N p ≠ 0) ∧ ∀ p q, N p * T p q = N q * T q p := by
  intro N
  obtain ⟨lam, hP, hw⟩ := P.port hd orth s
  obtain ⟨lam', hQ, hw'⟩ := Q.port hd orth' s'
  refine ⟨?_, fun p q => C172_symmetric P.guide.hω hd hmu hP hQ hij hT p q⟩
  rintro (n | n)
  · exact hw n
  · exact neg_ne_zero.2 (hw' n)

end reciprocal

/-! ## The hypotheses can be met -/

/-- Vacuum one cell wide at `ω = 1`: the tangential H of a wave. -/
theorem single_h (hsh : ∀ b, b ≠ axis → sh b = 1) {i : ℕ} {h : ℂ} (hh : h ^ 2 - 1 = -I * h) {E : VField sh ℂ}
    (hE : ∀ c, c ≠ axis → ∀ x : Idx sh, (x axis : ℕ) = i → E c (shiftIdx axis 1 x) = h ^ 2 * E c x) {x : Idx sh} (hx : (x axis : ℕ) = i) :
    hField ((1 : ℝ) : ℂ) (cDx (unitGrid sh)) none E (axis + 2) x = h * E (axis + 1) x ∧ hField ((1 : ℝ) : ℂ) (cDx (unitGrid sh)) none E (axis + 1) x = -(h * E (axis + 2) x) := by
  have a1 : axis + 1 ≠ axis := (ne_1 axis).symm
  have a2 : axis + 2 ≠ axis := (ne_2 axis).symm
  have g0 : ∀ b, b ≠ axis → gradForward (some (cDx (unitGrid sh)).1) (E axis) b x = 0 := fun b hb => by
    have : shiftIdx b 1 x = x := by
      funext d
      by_cases hd : d = b
      · subst hd; exact Fin.ext (by have := (shiftIdx d 1 x d).2; have := (x d).2; have := hsh d hb; omega)
      · exact shiftIdx_of_ne hd ..
    unfold gradForward; rw [this, sub_self, zero_div]
  have ga : ∀ c, c ≠ axis → gradForward (some (cDx (unitGrid sh)).1) (E c) axis x = -I * h * E c x := fun c hc => by
    unfold gradForward
    rw [hE c hc x hx, wOf_some, show (cDx (unitGrid sh)).1 axis (x axis) = 1 from ofReal_one, div_one, ← hh]; ring
  constructor
  · rw [hField_apply, curlF_2, g0 _ a1, ga _ a1]
    simp
    linear_combination -(h * E (axis + 1) x) * I_sq
  · rw [hField_apply, curlF_1, g0 _ a2, ga _ a2]
    have := I_ne_zero
    simp
    field_simp

private theorem across (axis : Fin 3) (a : Fin 2) : order axis a.castSucc ≠ axis := by revert axis a; decide

/-- A straight guide of vacuum one cell wide, with its two polarisations as modes: the hypotheses of the three theorems are met, all of them with travelling modes. -/
example (hsh : ∀ b, b ≠ axis → sh b = 1) (S : Slices sh axis) (hS : FullWindow S) {i j : ℕ} (hi : 0 < i) (hij : i ≤ j) (hj : j + 2 < sh axis) :
    let g := unitGrid sh
    let b : Module.Basis (Fin 2 × Idx (sh2 S)) ℂ (Wg2.V 2 (sh2 S)) := Pi.basisFun ℂ _
    let k : Fin 2 × Idx (sh2 S) → ℂ := fun _ => 1
    let mode := leadMode S hS (cDx g) 1 (fun _ _ => 1) b k
    (∀ l, i ≤ l → l ≤ j → LeadAt S ((1 : ℝ) : ℂ) (cDx g) (fun _ _ => 1) none l (cDx g) 1 (fun _ _ => 1) none b k) ∧
    (∀ l, i ≤ l → l ≤ j → ∀ n m, n ≠ m → ∀ s t, powerAt ((1 : ℝ) : ℂ) (cDx g) none axis l (mode n s) (mode m t) = 0 ∧ lorentzAt ((1 : ℝ) : ℂ) (cDx g) none axis l (mode n s) (mode m t) = 0) ∧
    (∀ n s, ‖halfFactor (k n) 1 s‖ = 1) ∧
    IsScatteringMatrix ((1 : ℝ) : ℂ) (cDx g) (fun _ _ => 1) none axis i j (portWaves S hS (cDx g) 1 (fun _ _ => 1) b k true) (portWaves S hS (cDx g) 1 (fun _ _ => 1) b k false) (fromBlocks 0 1 1 0) := by
  intro g b k mode
  obtain ⟨U, b0, hb0⟩ := single_section hsh S hS
  have hb : ∀ v, sectionOp S ((1 : ℝ) : ℂ) (cDx g) (fun _ _ => 1) none *ᵥ v = (1 : ℂ) ^ 2 • v := by
    intro v
    have e : Matrix.toLin' (sectionOp S ((1 : ℝ) : ℂ) (cDx g) (fun _ _ => 1) none) = (1 : ℂ) ^ 2 • LinearMap.id := b0.ext fun n => by
      rw [toLin'_apply, hb0]; rfl
    have := LinearMap.congr_fun e v
    rwa [toLin'_apply] at this
  have hk2 : ∀ n : Fin 2 × Idx (sh2 S), ((1 : ℂ) * (1 : ℝ)) ^ 2 ≠ 4 := fun _ => by norm_num
  have P : ∀ l, i ≤ l → l ≤ j → LeadAt S ((1 : ℝ) : ℂ) (cDx g) (fun _ _ => 1) none l (cDx g) 1 (fun _ _ => 1) none b k := fun l h1 h2 =>
    ⟨U, fun n => hb _, fun _ => one_ne_zero, hk2, by omega, by omega, SameNear.refl .., SameNear.refl ..⟩
  have one : ∀ a, sh2 S a = 1 := by
    intro a
    have ho : order axis a.castSucc ≠ axis := across axis a
    show S.len _ = 1
    rw [Slices.len, (hS _ ho).1, (hS _ ho).2, hsh _ ho]
  refine ⟨P, fun l h1 h2 n m hnm s t => ?_, fun n s => ?_, (C179_straight U (fun n => hb _) (fun _ => one_ne_zero) hk2 hi hij hj).2⟩
  · have sub : ∀ y y' : Idx (sh2 S), y = y' := fun y y' => funext fun a => Fin.ext (by have := (y a).2; have := (y' a).2; have := one a; omega)
    have hc : n.1 ≠ m.1 := fun h => hnm (Prod.ext h (sub _ _))
    have val : ∀ n s c (x : Idx sh), mode n s (axis + 1 + Fin.castSucc c) x = halfFactor 1 1 s ^ (2 * (x axis : ℕ)) * if n.1 = c then 1 else 0 := by
      intro n s c x
      show guideWave _ _ _ _ _ _ = _
      rw [guideWave_transverse]
      show _ * (b n) (c, _) = _
      rw [Pi.basisFun_apply, Pi.single_apply]
      congr 1
      refine if_congr ?_ rfl rfl
      rw [Prod.ext_iff]
      exact ⟨fun h => h.1.symm, fun h => ⟨h.symm, sub _ _⟩⟩
    have step : ∀ n s c, c ≠ axis → ∀ x : Idx sh, (x axis : ℕ) = l → mode n s c (shiftIdx axis 1 x) = halfFactor 1 1 s ^ 2 * mode n s c x := by
      intro n s c _ x hx
      exact guideWave_step _ _ _ _ _ _ (by omega)
    have hH : ∀ n s (x : Idx sh), (x axis : ℕ) = l → hField ((1 : ℝ) : ℂ) (cDx g) none (mode n s) (axis + 2) x = halfFactor 1 1 s * mode n s (axis + 1) x ∧
        hField ((1 : ℝ) : ℂ) (cDx g) none (mode n s) (axis + 1) x = -(halfFactor 1 1 s * mode n s (axis + 2) x) := fun n s x hx => single_h hsh (halfFactor_one s).1 (step n s) (x := x) hx
    have z0 : axis + 1 + Fin.castSucc (0 : Fin 2) = axis + 1 := by simp
    have z1 := cast_one axis
    have v1 : ∀ n s x, mode n s (axis + 1) x = halfFactor 1 1 s ^ (2 * (x axis : ℕ)) * if n.1 = 0 then 1 else 0 := fun n s x => by rw [← val, z0]
    have v2 : ∀ n s x, mode n s (axis + 2) x = halfFactor 1 1 s ^ (2 * (x axis : ℕ)) * if n.1 = 1 then 1 else 0 := fun n s x => by rw [← val, z1]
    have hcc : (n.1 = 0 ∧ m.1 = 1) ∨ (n.1 = 1 ∧ m.1 = 0) := by
      generalize n.1 = p at hc; generalize m.1 = q at hc; revert p q; decide
    constructor
    · unfold powerAt planeFlux
      refine Finset.sum_eq_zero fun x hx => ?_
      have hx := (Finset.mem_filter.1 hx).2
      simp only [crossPower, cross_axis, (hH _ _ x hx).1, (hH _ _ x hx).2, v1, v2]
      rcases hcc with ⟨e, f⟩ | ⟨e, f⟩ <;> simp [e, f]
    · unfold lorentzAt planeFlux
      refine Finset.sum_eq_zero fun x hx => ?_
      have hx := (Finset.mem_filter.1 hx).2
      simp only [lorentzCross, cross_axis, (hH _ _ x hx).1, (hH _ _ x hx).2, v1, v2]
      rcases hcc with ⟨e, f⟩ | ⟨e, f⟩ <;> simp [e, f]
  · have := (halfFactor_one s).2.1
    rw [normSq_eq_norm_sq] at this
    exact (pow_eq_one_iff_of_nonneg (norm_nonneg _) two_ne_zero).1 this

end Meanas.Props
