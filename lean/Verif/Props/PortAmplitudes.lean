/-
C178 (reading the amplitudes of the modes off a field).
-/
import Verif.Props.ModeCompleteness
import Mathlib.LinearAlgebra.FiniteDimensional.Basic
import Mathlib.LinearAlgebra.QuadraticForm.Basic
import Mathlib.Algebra.DirectSum.Module
namespace Meanas.Props
open Matrix Complex Wg3 Spec Fdfd

variable {sh : Fin 3 → ℕ} {axis : Fin 3}

/-- The component of `E × H` along an axis, written cyclically. -/
theorem cross_axis (dxes : Dx sh) (E H : VField sh ℂ) (a : Fin 3) (x : Idx sh) :
    FdfdF.poyntingECrossH dxes E H a x
      = E (a + 1) (shiftIdx a 1 x) * dxes.1 (a + 1) (x (a + 1)) * (H (a + 2) x * dxes.2 (a + 2) (x (a + 2)))
        - E (a + 2) (shiftIdx a 1 x) * dxes.1 (a + 2) (x (a + 2)) * (H (a + 1) x * dxes.2 (a + 1) (x (a + 1))) := by
  have hs : ∀ b, b ≠ a → (shiftIdx a 1 x : Idx sh) b = x b := fun b hb => shiftIdx_of_ne hb 1 x
  fin_cases a
  · have w1 := hs 1 (by decide); have w2 := hs 2 (by decide)
    show roll (fun x => E 1 x * dxes.1 1 (x 1)) (-1) 0 x * (H 2 x * dxes.2 2 (x 2)) - roll (fun x => E 2 x * dxes.1 2 (x 2)) (-1) 0 x * (H 1 x * dxes.2 1 (x 1))
      = E 1 (shiftIdx 0 1 x) * dxes.1 1 (x 1) * (H 2 x * dxes.2 2 (x 2)) - E 2 (shiftIdx 0 1 x) * dxes.1 2 (x 2) * (H 1 x * dxes.2 1 (x 1))
    simp only [Fin.zero_eta, Fin.isValue] at w1 w2
    simp only [roll_apply, neg_neg, w1, w2]
  · have w1 := hs 0 (by decide); have w2 := hs 2 (by decide)
    show roll (fun x => E 2 x * dxes.1 2 (x 2)) (-1) 1 x * (H 0 x * dxes.2 0 (x 0)) - roll (fun x => E 0 x * dxes.1 0 (x 0)) (-1) 1 x * (H 2 x * dxes.2 2 (x 2))
      = E 2 (shiftIdx 1 1 x) * dxes.1 2 (x 2) * (H 0 x * dxes.2 0 (x 0)) - E 0 (shiftIdx 1 1 x) * dxes.1 0 (x 0) * (H 2 x * dxes.2 2 (x 2))
    simp only [Fin.mk_one, Fin.isValue] at w1 w2
    simp only [roll_apply, neg_neg, w1, w2]
  · have w1 := hs 0 (by decide); have w2 := hs 1 (by decide)
    show roll (fun x => E 0 x * dxes.1 0 (x 0)) (-1) 2 x * (H 1 x * dxes.2 1 (x 1)) - roll (fun x => E 1 x * dxes.1 1 (x 1)) (-1) 2 x * (H 0 x * dxes.2 0 (x 0))
      = E 0 (shiftIdx 2 1 x) * dxes.1 0 (x 0) * (H 1 x * dxes.2 1 (x 1)) - E 1 (shiftIdx 2 1 x) * dxes.1 1 (x 1) * (H 0 x * dxes.2 0 (x 0))
    simp only [Fin.reduceFinMk, Fin.isValue] at w1 w2
    simp only [roll_apply, neg_neg, w1, w2]

/-- The reciprocity integral only sees the device next to the plane. -/
theorem lorentzAt_congr {ω : ℂ} {a : Fin 3} {i : ℕ} {dxes dxes₀ : Dx sh} {eps eps₀ : VField sh ℂ} {mu mu₀ : Option (VField sh ℂ)}
    (M : SameNear a i dxes eps mu dxes₀ eps₀ mu₀) (E F : VField sh ℂ) : lorentzAt ω dxes mu a i E F = lorentzAt ω dxes₀ mu₀ a i E F := by
  unfold lorentzAt planeFlux
  refine Finset.sum_congr rfl fun x hx => ?_
  have hx := (Finset.mem_filter.1 hx).2
  have hf : ∀ W c, hField ω dxes mu W c x = hField ω dxes₀ mu₀ W c x := by
    intro W c
    rw [hField_apply, hField_apply, (M.medium c x (Or.inl hx)).2,
      curlForward_local (some dxes.1) (some dxes₀.1) W W x (fun b => (M.width (Or.inl hx) b).1) (fun _ => rfl) (fun _ _ => rfl) c]
  have w := fun b => M.width (x := x) (Or.inl hx) b
  simp only [lorentzCross, cross_axis, hf, (w _).1, (w _).2]

theorem fin2_cases (c : Fin 2) : c = 0 ∨ c = 1 := by revert c; decide

section nondegenerate
variable {S : Slices sh axis} {ω : ℂ} {dxes : Dx sh} {d : ℝ} {eps : VField sh ℂ} {mu : Option (VField sh ℂ)} (U : UniformSection S ω dxes d eps mu)
include U

/-- A free field is known on a plane from its transverse H there and its transverse E on the next plane. -/
theorem UniformSection.zero_mixed {F : VField sh ℂ} {i : ℕ} (hi : i + 1 < sh axis)
    (free : ∀ x : Idx sh, (x axis : ℕ) = i → (eFull ω dxes (vecS eps) (mu.map vecS) none none *ᵥ vecS F) (axis, x) = 0)
    (hE : ∀ c, c ≠ axis → ∀ x : Idx sh, (x axis : ℕ) = i + 1 → F c x = 0)
    (hH : ∀ c, c ≠ axis → ∀ x : Idx sh, (x axis : ℕ) = i → hField ω dxes mu F c x = 0) (c : Fin 3) (x : Idx sh) (hx : (x axis : ℕ) = i) : F c x = 0 := by
  have a1 : axis + 1 ≠ axis := (ne_1 axis).symm
  have a2 : axis + 2 ≠ axis := (ne_2 axis).symm
  have hdc : (d : ℂ) ≠ 0 := ofReal_ne_zero.2 U.hd
  have gt : ∀ (G : Arr sh ℂ), (∀ x : Idx sh, (x axis : ℕ) = i → G x = 0) → ∀ b, b ≠ axis →
      gradForward (some dxes.1) G b x = 0 ∧ gradBack (some dxes.2) G b x = 0 := by
    intro G hG b hb
    unfold gradForward gradBack
    rw [hG x hx, hG _ (by rw [shiftIdx_of_ne hb.symm]; exact hx), hG _ (by rw [shiftIdx_of_ne hb.symm]; exact hx)]
    simp
  have hEz : ∀ x : Idx sh, (x axis : ℕ) = i → F axis x = 0 := by
    intro x hx
    have gt : ∀ (G : Arr sh ℂ), (∀ x : Idx sh, (x axis : ℕ) = i → G x = 0) → ∀ b, b ≠ axis → gradBack (some dxes.2) G b x = 0 := by
      intro G hG b hb
      unfold gradBack
      rw [hG x hx, hG _ (by rw [shiftIdx_of_ne hb.symm]; exact hx)]
      simp
    have z := ampere_of_free U.hω (free x hx)
    rw [curlB_0, gt _ (hH _ a2) _ a1, gt _ (hH _ a1) _ a2, sub_zero] at z
    exact (mul_eq_zero.1 z.symm).resolve_left (mul_ne_zero (mul_ne_zero I_ne_zero U.hω) (U.heps axis x))
  have gf : ∀ b, b ≠ axis → gradForward (some dxes.1) (F b) axis x = -F b x / d := by
    intro b hb
    unfold gradForward
    rw [hE b hb _ (by rw [plane_shift_val (by omega), hx]), zero_sub, wOf_some, U.dE]
  rcases fin3_cases axis c with h | h | h
  · rw [h]; exact hEz x hx
  · have z := U.far F (axis + 2) x
    rw [curlF_2, gf _ a1, (gt _ hEz _ a1).1, sub_zero, hH _ a2 x hx, mul_zero] at z
    rw [h]; exact neg_eq_zero.1 ((div_eq_zero_iff.1 z).resolve_right hdc)
  · have z := U.far F (axis + 1) x
    rw [curlF_1, gf _ a2, (gt _ hEz _ a2).1, hH _ a1 x hx, mul_zero, zero_sub, neg_eq_zero] at z
    rw [h]; exact neg_eq_zero.1 ((div_eq_zero_iff.1 z).resolve_right hdc)

variable {κ : Type*} [Fintype κ] (b : Module.Basis κ ℂ (Wg2.V 2 (sh2 S))) (k : κ → ℂ)

/-- The modes reach all tangential fields: transverse E on one plane and transverse H on the plane before can be prescribed at will. -/
theorem UniformSection.reach (eig : ∀ n, sectionOp S ω dxes eps mu *ᵥ b n = k n ^ 2 • b n) (hk : ∀ n, k n ≠ 0) (hk2 : ∀ n, (k n * d) ^ 2 ≠ 4)
    {i : ℕ} (hi : 0 < i) (hi2 : i + 1 < sh axis) (e h : Wg2.V 2 (sh2 S)) :
    ∃ u : κ × Bool → ℂ, ∀ F : VField sh ℂ, (F = fun c x => ∑ q, u q * guideWave S U.full (profile S dxes eps (k q.1) (b q.1)) (halfFactor (k q.1) d q.2) c x) →
      planeE S U.full F ⟨i + 1, hi2⟩ = e ∧ planeE S U.full (hField ω dxes mu F) ⟨i, by omega⟩ = h := by
  classical
  let W : κ × Bool → VField sh ℂ := fun q => guideWave S U.full (profile S dxes eps (k q.1) (b q.1)) (halfFactor (k q.1) d q.2)
  have hH : ∀ (u : κ × Bool → ℂ) c x, hField ω dxes mu (fun c x => ∑ q, u q * W q c x) c x = ∑ q, u q * hField ω dxes mu (W q) c x := by
    intro u c x
    rw [hField_apply, curlForward_waves, Finset.sum_div, Finset.sum_div]
    exact Finset.sum_congr rfl fun n _ => by rw [hField_apply]; ring
  let L : (κ × Bool → ℂ) →ₗ[ℂ] Wg2.V 2 (sh2 S) × Wg2.V 2 (sh2 S) :=
    { toFun := fun u => (fun q => ∑ r, u r * planeE S U.full (W r) ⟨i + 1, hi2⟩ q, fun q => ∑ r, u r * planeE S U.full (hField ω dxes mu (W r)) ⟨i, by omega⟩ q)
      map_add' := fun u v => by
        refine Prod.ext ?_ ?_ <;> funext q <;> simp only [Prod.fst_add, Prod.snd_add, Pi.add_apply, add_mul, Finset.sum_add_distrib]
      map_smul' := fun r v => by
        refine Prod.ext ?_ ?_ <;> funext q <;>
          simp only [Prod.smul_fst, Prod.smul_snd, Pi.smul_apply, smul_eq_mul, RingHom.id_apply, Finset.mul_sum, mul_assoc] }
  have hL : ∀ u, L u = (planeE S U.full (fun c x => ∑ q, u q * W q c x) ⟨i + 1, hi2⟩, planeE S U.full (hField ω dxes mu fun c x => ∑ q, u q * W q c x) ⟨i, by omega⟩) := by
    intro u
    refine Prod.ext ?_ ?_ <;> funext q
    · rfl
    · exact (hH u _ _).symm
  have hpl : ∀ (G : VField sh ℂ) (p : Fin (sh axis)), planeE S U.full G p = 0 → ∀ c, c ≠ axis → ∀ x : Idx sh, (x axis : ℕ) = p → G c x = 0 := by
    intro G p hG c hc x hx
    obtain ⟨c', rfl⟩ := transverse_cases hc
    rw [planeE_proj S U.full G c' x, show x axis = p from Fin.ext hx, hG]; rfl
  have inj : Function.Injective L := by
    refine (injective_iff_map_eq_zero L).2 fun u hu => ?_
    rw [hL, Prod.mk_eq_zero] at hu
    set F : VField sh ℂ := fun c x => ∑ q, u q * W q c x with hF
    have hfree : ∀ x : Idx sh, (x axis : ℕ) = i → (eFull ω dxes (vecS eps) (mu.map vecS) none none *ᵥ vecS F) (axis, x) = 0 := by
      intro x hx
      have e : vecS F = ∑ q, u q • vecS (W q) := by
        funext q
        rw [Finset.sum_apply]
        rfl
      rw [e, mulVec_sum, Finset.sum_apply]
      refine Finset.sum_eq_zero fun q _ => ?_
      rw [mulVec_smul, Pi.smul_apply, U.wave_free (hk q.1) (eig q.1) (halfFactor_ne _ _ _) (halfFactor_eq _ U.hd _) axis x (by omega) (by omega), smul_zero]
    have hE1 := hpl F ⟨i + 1, hi2⟩ hu.1
    have hE0 := U.zero_mixed hi2 hfree hE1 (hpl _ ⟨i, by omega⟩ hu.2)
    obtain ⟨w, -, hw⟩ := C177_complete U b k eig hk hk2 hi le_rfl hi2 (E := 0) fun c x _ _ => by
      rw [show vecS (0 : VField sh ℂ) = 0 from rfl, mulVec_zero]; rfl
    have h1 := hw u fun c x h1 h2 => by
      show 0 = F c x
      rcases h2 with h2 | ⟨h2, hc⟩
      · exact (hE0 c x (by omega)).symm
      · exact (hE1 c hc x h2).symm
    have h2 := hw 0 fun c x h1 h2 => by simp
    exact h1.trans h2.symm
  have sur : Function.Surjective L := by
    refine (LinearMap.injective_iff_surjective_of_finrank_eq_finrank ?_).1 inj
    rw [Module.finrank_prod, Module.finrank_eq_card_basis b, Module.finrank_fintype_fun_eq_card, Fintype.card_prod, Fintype.card_bool]
    ring
  obtain ⟨u, hu⟩ := sur (e, h)
  refine ⟨u, fun F hF => ?_⟩
  rw [hL] at hu
  rw [hF]
  exact ⟨congrArg Prod.fst hu, congrArg Prod.snd hu⟩

omit U [Fintype κ] in
/-- The reciprocity integral in terms of the tangential fields. -/
theorem lorentzAt_section (hS : FullWindow S) {i : ℕ} (hi2 : i + 1 < sh axis) (E F : VField sh ℂ) :
    lorentzAt ω dxes mu axis i E F = ∑ y : Idx (sh2 S),
      let x := liftT S hS ⟨i, by omega⟩ y
      let e := planeE S hS E ⟨i + 1, hi2⟩
      let h := planeE S hS (hField ω dxes mu E) ⟨i, by omega⟩
      let f := planeE S hS F ⟨i + 1, hi2⟩
      let g := planeE S hS (hField ω dxes mu F) ⟨i, by omega⟩
      ((e (0, y) * g (1, y) - f (0, y) * h (1, y)) * (dxes.1 (axis + 1) (x (axis + 1)) * dxes.2 (axis + 2) (x (axis + 2)))
        - (e (1, y) * g (0, y) - f (1, y) * h (0, y)) * (dxes.1 (axis + 2) (x (axis + 2)) * dxes.2 (axis + 1) (x (axis + 1)))) := by
  unfold lorentzAt planeFlux
  have hp : ∀ x : Idx sh, (x axis : ℕ) = i → x axis = ⟨i, by omega⟩ := fun x hx => Fin.ext hx
  refine Finset.sum_bij' (fun x _ => projT S hS x) (fun y _ => liftT S hS ⟨i, by omega⟩ y) (fun _ _ => Finset.mem_univ _) (fun y _ => ?_) (fun x hx => ?_)
    (fun y _ => projT_liftT ..) fun x hx => ?_
  · simp [liftT_axis]
  · have hx := (Finset.mem_filter.1 hx).2
    have := liftT_projT S hS x
    rwa [hp x hx] at this
  · have hx := (Finset.mem_filter.1 hx).2
    have hl : liftT S hS ⟨i, by omega⟩ (projT S hS x) = x := by
      have := liftT_projT S hS x
      rwa [hp x hx] at this
    have hT : projT S hS (shiftIdx axis 1 x) = projT S hS x := by
      refine projT_ext S hS ?_ ?_
      · rw [shiftIdx_of_ne (ne_1 axis).symm]; rfl
      · rw [shiftIdx_of_ne (ne_2 axis).symm]; rfl
    have hn : shiftIdx axis 1 x axis = ⟨i + 1, hi2⟩ := Fin.ext (by rw [plane_shift_val (by omega), hx])
    have z0 : axis + 1 + Fin.castSucc (0 : Fin 2) = axis + 1 := by simp
    have z1 := cast_one axis
    have pe : ∀ (G : VField sh ℂ) (c : Fin 2), planeE S hS G ⟨i + 1, hi2⟩ (c, projT S hS x) = G (axis + 1 + c.castSucc) (shiftIdx axis 1 x) := by
      intro G c
      rw [planeE_proj S hS G c (shiftIdx axis 1 x), hT, hn]
    have ph : ∀ (G : VField sh ℂ) (c : Fin 2), planeE S hS G ⟨i, by omega⟩ (c, projT S hS x) = G (axis + 1 + c.castSucc) x := by
      intro G c
      rw [planeE_proj S hS G c x, hp x hx]
    simp only [lorentzCross, cross_axis, pe, ph, hl, z0, z1]
    ring

/-- **C178.** The reciprocity integrals with the modes determine the tangential fields, whatever the field: if `Σ (E × H_n - E_n × H)` over the plane vanishes for all modes in both directions,
then so do the transverse E on the plane after the faces and the transverse H on the plane before. -/
theorem C178_nondegenerate (hd : Nonzero dxes.1 ∧ Nonzero dxes.2) (eig : ∀ n, sectionOp S ω dxes eps mu *ᵥ b n = k n ^ 2 • b n) (hk : ∀ n, k n ≠ 0)
    (hk2 : ∀ n, (k n * d) ^ 2 ≠ 4) {i : ℕ} (hi : 0 < i) (hi2 : i + 1 < sh axis) (E : VField sh ℂ)
    (h : ∀ n s, lorentzAt ω dxes mu axis i E (guideWave S U.full (profile S dxes eps (k n) (b n)) (halfFactor (k n) d s)) = 0) {c : Fin 3} (hc : c ≠ axis) (x : Idx sh) :
    ((x axis : ℕ) = i + 1 → E c x = 0) ∧ ((x axis : ℕ) = i → hField ω dxes mu E c x = 0) := by
  classical
  let W : κ × Bool → VField sh ℂ := fun q => guideWave S U.full (profile S dxes eps (k q.1) (b q.1)) (halfFactor (k q.1) d q.2)
  have key : ∀ f g : Wg2.V 2 (sh2 S), (∑ y : Idx (sh2 S),
      let x := liftT S U.full ⟨i, by omega⟩ y
      let e := planeE S U.full E ⟨i + 1, hi2⟩
      let h := planeE S U.full (hField ω dxes mu E) ⟨i, by omega⟩
      ((e (0, y) * g (1, y) - f (0, y) * h (1, y)) * (dxes.1 (axis + 1) (x (axis + 1)) * dxes.2 (axis + 2) (x (axis + 2)))
        - (e (1, y) * g (0, y) - f (1, y) * h (0, y)) * (dxes.1 (axis + 2) (x (axis + 2)) * dxes.2 (axis + 1) (x (axis + 1))))) = 0 := by
    intro f g
    obtain ⟨u, hu⟩ := U.reach b k eig hk hk2 hi hi2 f g
    obtain ⟨h1, h2⟩ := hu _ rfl
    have hs := lorentzAt_section (S := S) (ω := ω) (dxes := dxes) (mu := mu) U.full hi2 E (fun c x => ∑ q, u q * W q c x)
    rw [lorentzAt_sum (W := fun _ : Unit => E) (V := W) (u := fun _ => 1) (v := u) (fun b x _ => by simp) (fun b x _ => rfl) hi2] at hs
    rw [Finset.sum_eq_zero (fun n _ => Finset.sum_eq_zero fun m _ => by rw [h m.1 m.2, mul_zero])] at hs
    simp only [W] at hs
    rw [h1, h2] at hs
    exact hs.symm
  have z0 : axis + 1 + Fin.castSucc (0 : Fin 2) = axis + 1 := by simp
  have z1 := cast_one axis
  have d1 : ∀ x : Idx sh, dxes.1 (axis + 1) (x (axis + 1)) * dxes.2 (axis + 2) (x (axis + 2)) ≠ 0 := fun x => mul_ne_zero (hd.1 _ _) (hd.2 _ _)
  have d2 : ∀ x : Idx sh, dxes.1 (axis + 2) (x (axis + 2)) * dxes.2 (axis + 1) (x (axis + 1)) ≠ 0 := fun x => mul_ne_zero (hd.1 _ _) (hd.2 _ _)
  have e0 : ∀ y, planeE S U.full E ⟨i + 1, hi2⟩ (0, y) = 0 ∧ planeE S U.full E ⟨i + 1, hi2⟩ (1, y) = 0
      ∧ planeE S U.full (hField ω dxes mu E) ⟨i, by omega⟩ (0, y) = 0 ∧ planeE S U.full (hField ω dxes mu E) ⟨i, by omega⟩ (1, y) = 0 := by
    intro y
    have k1 := key 0 (Pi.single (1, y) 1)
    have k2 := key 0 (Pi.single (0, y) 1)
    have k3 := key (Pi.single (1, y) 1) 0
    have k4 := key (Pi.single (0, y) 1) 0
    simp [Pi.single_apply, Prod.ext_iff, (d1 _ |> mul_ne_zero_iff.1).1, hd.1 _ _, hd.2 _ _] at k1 k2 k3 k4
    simp_all
  obtain ⟨c', rfl⟩ := transverse_cases hc
  have fin := fin2_cases c'
  refine ⟨fun hx => ?_, fun hx => ?_⟩
  · rw [planeE_proj S U.full E c' x, show x axis = ⟨i + 1, hi2⟩ from Fin.ext hx]
    rcases fin with rfl | rfl
    · exact (e0 _).1
    · exact (e0 _).2.1
  · rw [planeE_proj S U.full (hField ω dxes mu E) c' x, show x axis = ⟨i, by omega⟩ from Fin.ext hx]
    rcases fin with rfl | rfl
    · exact (e0 _).2.2.1
    · exact (e0 _).2.2.2
end nondegenerate

/-- Only the two directions of modes with one and the same eigenvalue have factors whose product is one. -/
theorem halfFactor_pair {k k' : ℂ} {d : ℝ} (hd : d ≠ 0) {s t : Bool} (h : halfFactor k d s ^ 2 * halfFactor k' d t ^ 2 = 1) : k ^ 2 = k' ^ 2 := by
  have h1 := halfFactor_eq k hd s
  have h2 := halfFactor_eq k' hd t
  have hp := halfFactor_ne k d s
  have hq := halfFactor_ne k' d t
  have hdc : (d : ℂ) ≠ 0 := ofReal_ne_zero.2 hd
  generalize halfFactor k d s = p at *
  generalize halfFactor k' d t = q at *
  have e1 : (p ^ 2 - 1) ^ 2 = -(k ^ 2 * d ^ 2) * p ^ 2 := by rw [h1]; linear_combination k ^ 2 * p ^ 2 * d ^ 2 * I_sq
  have e2 : (q ^ 2 - 1) ^ 2 = -(k' ^ 2 * d ^ 2) * q ^ 2 := by rw [h2]; linear_combination k' ^ 2 * q ^ 2 * d ^ 2 * I_sq
  have e3 : (k ^ 2 - k' ^ 2) * (d ^ 2 * p ^ 2) = 0 := by
    linear_combination e1 - p ^ 4 * e2 + (k' ^ 2 * d ^ 2 * p ^ 2 - 2 * p ^ 2 + 1 + p ^ 2 * q ^ 2) * h
  have := (mul_eq_zero.1 e3).resolve_right (mul_ne_zero (pow_ne_zero _ hdc) (pow_ne_zero _ hp))
  linear_combination this

section device
variable {S : Slices sh axis} {ω : ℂ} {dxes₀ : Dx sh} {d : ℝ} {eps₀ : VField sh ℂ} {mu₀ : Option (VField sh ℂ)} (U : UniformSection S ω dxes₀ d eps₀ mu₀)
  {κ : Type*} [Fintype κ] (b : Module.Basis κ ℂ (Wg2.V 2 (sh2 S))) (k : κ → ℂ)
include U

/-- **C178.** The modes of a guide make a port in the sense of C172, all of whose weights are different from zero; modes with equal eigenvalues, if there are any, have to be chosen orthogonal. -/
theorem C178_port (hd : Nonzero dxes₀.1 ∧ Nonzero dxes₀.2) (eig : ∀ n, sectionOp S ω dxes₀ eps₀ mu₀ *ᵥ b n = k n ^ 2 • b n)
    (hk : ∀ n, k n ≠ 0) (hk2 : ∀ n, (k n * d) ^ 2 ≠ 4) {dxes : Dx sh} {eps : VField sh ℂ} {mu : Option (VField sh ℂ)} {i : ℕ} (hi : 0 < i) (hi2 : i + 2 < sh axis)
    (M' : SameNear axis (i - 1) dxes eps mu dxes₀ eps₀ mu₀) (M : SameNear axis i dxes eps mu dxes₀ eps₀ mu₀)
    (orth : ∀ n m, n ≠ m → k n ^ 2 = k m ^ 2 → ∀ s t, lorentzAt ω dxes₀ mu₀ axis i (guideWave S U.full (profile S dxes₀ eps₀ (k n) (b n)) (halfFactor (k n) d s))
      (guideWave S U.full (profile S dxes₀ eps₀ (k m) (b m)) (halfFactor (k m) d t)) = 0) :
    let W : κ ⊕ κ → VField sh ℂ := Sum.elim (fun n => guideWave S U.full (profile S dxes₀ eps₀ (k n) (b n)) (halfFactor (k n) d true))
      fun n => guideWave S U.full (profile S dxes₀ eps₀ (k n) (b n)) (halfFactor (k n) d false)
    IsPort ω dxes eps mu axis i (Sum.elim (fun n => exp (-I * correct (k n) d * d)) fun n => exp (I * correct (k n) d * d)) W ∧
      ∀ n, portWeight ω dxes mu axis i W n ≠ 0 := by
  intro W
  have hl := (C177_port U b k eig hk hk2 hi hi2 M' M).1
  have hl₀ := (C177_port U b k eig hk hk2 hi hi2 (dxes := dxes₀) (eps := eps₀) (mu := mu₀) ⟨fun _ _ _ => ⟨rfl, rfl⟩, fun _ _ => ⟨rfl, rfl⟩, fun _ _ _ => ⟨rfl, rfl⟩⟩
    ⟨fun _ _ _ => ⟨rfl, rfl⟩, fun _ _ => ⟨rfl, rfl⟩, fun _ _ _ => ⟨rfl, rfl⟩⟩).1
  have hlead : ∀ n s, LeadWave ω dxes₀ eps₀ mu₀ axis i (halfFactor (k n) d s ^ 2) (guideWave S U.full (profile S dxes₀ eps₀ (k n) (b n)) (halfFactor (k n) d s)) := by
    intro n s
    cases s
    · rw [(halfFactor_sq (k n) d).2]; exact (hl₀ n).2
    · rw [(halfFactor_sq (k n) d).1]; exact (hl₀ n).1
  have hm : ∀ m, mu₀ = some m → ∀ c x, m c x ≠ 0 := fun m h c x => by have := U.hmu c x; rwa [h] at this
  -- different modes
  have ho : ∀ n m s t, n ≠ m → lorentzAt ω dxes₀ mu₀ axis i (guideWave S U.full (profile S dxes₀ eps₀ (k n) (b n)) (halfFactor (k n) d s))
      (guideWave S U.full (profile S dxes₀ eps₀ (k m) (b m)) (halfFactor (k m) d t)) = 0 := by
    intro n m s t hnm
    by_cases h : k n ^ 2 = k m ^ 2
    · exact orth n m hnm h s t
    · exact C172_orthogonal ω U.hω dxes₀ hd eps₀ mu₀ hm (by omega) (hlead n s) (hlead m t) fun h' => h (halfFactor_pair U.hd h')
  have hself : ∀ E, lorentzAt ω dxes₀ mu₀ axis i E E = 0 := fun E => by
    have := lorentzAt_swap ω dxes₀ mu₀ axis i E E
    linear_combination this / 2
  refine ⟨⟨by omega, ?_, ?_⟩, fun n hn => ?_⟩
  · rintro (n | n)
    · exact (hl n).1
    · exact (hl n).2
  · rintro (n | n) (m | m) - <;> by_cases h : n = m
    · exact Or.inr (Or.inl (by rw [h]))
    · exact Or.inr (Or.inr (by rw [lorentzAt_congr M]; exact ho n m _ _ h))
    · exact Or.inl (by rw [h]; rfl)
    · exact Or.inr (Or.inr (by rw [lorentzAt_congr M]; exact ho n m _ _ h))
    · exact Or.inl (by rw [h]; rfl)
    · exact Or.inr (Or.inr (by rw [lorentzAt_congr M]; exact ho n m _ _ h))
    · exact Or.inr (Or.inl (by rw [h]))
    · exact Or.inr (Or.inr (by rw [lorentzAt_congr M]; exact ho n m _ _ h))
  · rw [portWeight, lorentzAt_congr M] at hn
    have hz : ∀ m s, lorentzAt ω dxes₀ mu₀ axis i (guideWave S U.full (profile S dxes₀ eps₀ (k n) (b n)) (halfFactor (k n) d true))
        (guideWave S U.full (profile S dxes₀ eps₀ (k m) (b m)) (halfFactor (k m) d s)) = 0 := by
      intro m s
      by_cases h : n = m
      · subst h
        cases s
        · exact hn
        · exact hself _
      · exact ho n m _ _ h
    have hE := fun c hc x => (C178_nondegenerate U b k hd eig hk hk2 hi (by omega) _ hz (c := c) hc x).1
    refine b.ne_zero n ?_
    funext q
    have := hE _ (transverse_ne q.1) (liftT S U.full ⟨i + 1, by omega⟩ q.2) (by rw [liftT_axis])
    rw [guideWave_transverse, projT_liftT] at this
    exact (mul_eq_zero.1 this).resolve_left (pow_ne_zero _ (halfFactor_ne _ _ _))

/-- **C178.** Reading off the amplitudes. Where a device looks like such a guide next to plane `i`, a field without sources on the planes `i`, `i + 1` is there the superposition of the modes
whose amplitudes are its reciprocity integrals with the modes of the opposite direction, divided by the weight of the mode; the integrals need the field and `e2h` of it at the faces after
plane `i` only. -/
theorem C178_amplitudes (hd : Nonzero dxes₀.1 ∧ Nonzero dxes₀.2) (eig : ∀ n, sectionOp S ω dxes₀ eps₀ mu₀ *ᵥ b n = k n ^ 2 • b n)
    (hk : ∀ n, k n ≠ 0) (hk2 : ∀ n, (k n * d) ^ 2 ≠ 4) {dxes : Dx sh} {eps : VField sh ℂ} {mu : Option (VField sh ℂ)} {i : ℕ} (hi : 0 < i) (hi2 : i + 2 < sh axis)
    (M' : SameNear axis (i - 1) dxes eps mu dxes₀ eps₀ mu₀) (M : SameNear axis i dxes eps mu dxes₀ eps₀ mu₀)
    (orth : ∀ n m, n ≠ m → k n ^ 2 = k m ^ 2 → ∀ s t, lorentzAt ω dxes₀ mu₀ axis i (guideWave S U.full (profile S dxes₀ eps₀ (k n) (b n)) (halfFactor (k n) d s))
      (guideWave S U.full (profile S dxes₀ eps₀ (k m) (b m)) (halfFactor (k m) d t)) = 0) {E : VField sh ℂ} (hE : FreeOn ω dxes eps mu axis i (i + 1) E) :
    let W : κ → Bool → VField sh ℂ := fun n s => guideWave S U.full (profile S dxes₀ eps₀ (k n) (b n)) (halfFactor (k n) d s)
    let w : κ → ℂ := fun n => lorentzAt ω dxes mu axis i (W n true) (W n false)
    (∀ n, w n ≠ 0) ∧ ∀ c (x : Idx sh), (x axis : ℕ) = i ∨ (x axis : ℕ) = i + 1 →
      E c x = ∑ n, (lorentzAt ω dxes mu axis i E (W n false) / w n * W n true c x + lorentzAt ω dxes mu axis i (W n true) E / w n * W n false c x) := by
  classical
  intro W w
  obtain ⟨P, hw⟩ := C178_port U b k hd eig hk hk2 hi hi2 M' M orth
  obtain ⟨-, hs⟩ := C177_port U b k eig hk hk2 hi hi2 M' M
  obtain ⟨u, hu, -⟩ := hs E hE
  have hm₀ : ∀ m, mu₀ = some m → ∀ c x, m c x ≠ 0 := fun m h c x => by have := U.hmu c x; rwa [h] at this
  replace hw : ∀ n, w n ≠ 0 := hw
  refine ⟨hw, fun c x hx => ?_⟩
  obtain ⟨P₀, -⟩ := C178_port U b k hd eig hk hk2 hi hi2 (dxes := dxes₀) (eps := eps₀) (mu := mu₀) ⟨fun _ _ _ => ⟨rfl, rfl⟩, fun _ _ => ⟨rfl, rfl⟩, fun _ _ _ => ⟨rfl, rfl⟩⟩
    ⟨fun _ _ _ => ⟨rfl, rfl⟩, fun _ _ => ⟨rfl, rfl⟩, fun _ _ _ => ⟨rfl, rfl⟩⟩ orth
  let W' : κ ⊕ κ → VField sh ℂ := Sum.elim (fun n => W n true) fun n => W n false
  let u' : κ ⊕ κ → ℂ := Sum.elim (fun n => u (n, true)) fun n => u (n, false)
  have hsum : SumOfWaves axis i W' u' E := by
    intro c x hx
    rw [hu c x hx, Fintype.sum_prod_type, Fintype.sum_sum_type, ← Finset.sum_add_distrib]
    exact Finset.sum_congr rfl fun n _ => by rw [Fintype.sum_bool]; rfl
  have hone : ∀ p, SumOfWaves axis i W' (Pi.single p 1) (W' p) := by
    intro p c x hx
    simp [Pi.single_apply]
  have hwt : ∀ n, portWeight ω dxes₀ mu₀ axis i W' n = w n := fun n => (lorentzAt_congr M _ _).symm
  have f1 : ∀ n, lorentzAt ω dxes mu axis i E (W n false) = u (n, true) * w n := by
    intro n
    have := P₀.lorentz U.hω hd hm₀ hsum (hone (.inr n))
    rw [lorentzAt_congr M]
    refine this.trans ?_
    rw [Finset.sum_eq_single n]
    · rw [hwt]; simp [u']; ring
    · intro m _ hmn
      simp [hmn]
    · simp
  have f2 : ∀ n, lorentzAt ω dxes mu axis i (W n true) E = u (n, false) * w n := by
    intro n
    have := P₀.lorentz U.hω hd hm₀ (hone (.inl n)) hsum
    rw [lorentzAt_congr M]
    refine this.trans ?_
    rw [Finset.sum_eq_single n]
    · rw [hwt]; simp [u']; ring
    · intro m _ hmn
      simp [hmn]
    · simp
  rw [hu c x hx, Fintype.sum_prod_type]
  refine Finset.sum_congr rfl fun n _ => ?_
  rw [f1, f2, mul_div_cancel_right₀ _ (hw n), mul_div_cancel_right₀ _ (hw n), Fintype.sum_bool]
end device

section orthogonal
variable {S : Slices sh axis} {ω : ℂ} {dxes : Dx sh} {d : ℝ} {eps : VField sh ℂ} {mu : Option (VField sh ℂ)} (U : UniformSection S ω dxes d eps mu)

/-- `Σ (e × h)` over the cross-section for transverse fields. -/
noncomputable def crossSum (S : Slices sh axis) (hS : FullWindow S) (dxes : Dx sh) (e h : Wg2.V 2 (sh2 S)) : ℂ := ∑ y : Idx (sh2 S),
  let x := liftT S hS S.plane y
  (e (0, y) * h (1, y) * (dxes.1 (axis + 1) (x (axis + 1)) * dxes.2 (axis + 2) (x (axis + 2)))
    - e (1, y) * h (0, y) * (dxes.1 (axis + 2) (x (axis + 2)) * dxes.2 (axis + 1) (x (axis + 1))))

/-- The transverse H of the mode, from `exy2h`. -/
noncomputable def sectionH (S : Slices sh axis) (ω : ℂ) (dxes : Dx sh) (eps : VField sh ℂ) (mu : Option (VField sh ℂ)) (k : ℂ) (v : Wg2.V 2 (sh2 S)) : Wg2.V 2 (sh2 S) :=
  fun q => (Wg2.exy2h k ω (dx2d S dxes.1, dx2d S dxes.2) (reduce2d S eps) (some (reduce2d S (mu.getD fun _ _ => 1))) *ᵥ v) (q.1.castSucc, q.2)

theorem liftT_other (hS : FullWindow S) (p p' : Fin (sh axis)) (y : Idx (sh2 S)) {b : Fin 3} (hb : b ≠ axis) : liftT S hS p y b = liftT S hS p' y b := by
  simp only [liftT, dif_neg hb]

include U

theorem UniformSection.wave_h {k p : ℂ} {v : Wg2.V 2 (sh2 S)} (hk : k ≠ 0) (eig : sectionOp S ω dxes eps mu *ᵥ v = k ^ 2 • v)
    (hp : p ^ 2 - 1 = -I * k * p * d) {i : ℕ} (hi : i + 1 < sh axis) :
    planeE S U.full (hField ω dxes mu (guideWave S U.full (profile S dxes eps k v) p)) ⟨i, by omega⟩ = (p ^ (2 * i) * p) • sectionH S ω dxes eps mu k v := by
  have him := C39_is_mode k ω hk U.hω (dx2d S dxes.1, dx2d S dxes.2) (reduce2d S eps) (some (reduce2d S (mu.getD fun _ _ => 1)))
    (reduce_ne S U.heps) (reduce_ne S U.hmu) v eig
  set h := fld (Wg2.exy2h k ω (dx2d S dxes.1, dx2d S dxes.2) (reduce2d S eps) (some (reduce2d S (mu.getD fun _ _ => 1))) *ᵥ v) with hh
  set e := profile S dxes eps k v with he
  let φ : Fin (sh axis) → ℂ := fun i => p ^ (2 * (i : ℕ))
  have hφ : ∀ i : Fin (sh axis), (i : ℕ) + 1 < sh axis → φ (wrap i 1) = φ i * p ^ 2 := fun i hi => by
    show p ^ (2 * ((wrap i 1 : Fin _) : ℕ)) = p ^ (2 * (i : ℕ)) * p ^ 2
    rw [wrap_one hi]; ring
  let H : VField sh ℂ := fun c x => φ (x axis) * (if c = axis then h 2 (projT S U.full x) else if c = axis + 1 then p * h 0 (projT S U.full x) else p * h 1 (projT S U.full x))
  have a1 : axis + 1 ≠ axis := (ne_1 axis).symm
  have a2 : axis + 2 ≠ axis := (ne_2 axis).symm
  have a12 : axis + 2 ≠ axis + 1 := (ne_12 axis).symm
  have hX : IsExtrusion axis (projT S U.full) φ p e h (guideWave S U.full e p) H := by
    constructor <;> funext x <;> simp only [guideWave, H, extr, if_true, if_neg a1, if_neg a2, if_neg a12] <;> rfl
  have hdc : (d : ℂ) ≠ 0 := ofReal_ne_zero.2 U.hd
  have hHH : ∀ c (x : Idx sh), (x axis : ℕ) + 1 < sh axis → hField ω dxes mu (guideWave S U.full e p) c x = H c x := by
    intro c x hx
    have f := faraday3 U.ext him hφ hdc hp hX (fun x => reduce_along S U.full U.muA x) x hx c
    rw [U.far] at f
    exact mul_left_cancel₀ (mul_ne_zero (mul_ne_zero (neg_ne_zero.2 I_ne_zero) U.hω) (U.hmu c x)) f
  funext q
  obtain ⟨c, y⟩ := q
  have hy : (liftT S U.full ⟨i, by omega⟩ y) axis = (⟨i, by omega⟩ : Fin (sh axis)) := liftT_axis S U.full _ y
  rw [planeE, hHH _ _ (by rw [hy]; exact hi)]
  simp only [H, φ, projT_liftT, hy, Pi.smul_apply, smul_eq_mul, sectionH]
  rcases fin2_cases c with rfl | rfl
  · rw [show axis + 1 + Fin.castSucc (0 : Fin 2) = axis + 1 by simp, if_neg a1, if_pos rfl, mul_assoc]; rfl
  · rw [cast_one axis, if_neg a2, if_neg a12, mul_assoc]; rfl

theorem UniformSection.wave_e (k p : ℂ) (v : Wg2.V 2 (sh2 S)) {i : ℕ} (hi : i < sh axis) :
    planeE S U.full (guideWave S U.full (profile S dxes eps k v) p) ⟨i, hi⟩ = p ^ (2 * i) • v := by
  funext q
  rw [planeE, guideWave_transverse, projT_liftT, liftT_axis]; rfl

/-- The reciprocity integral of two modes with one wavenumber. -/
theorem UniformSection.lorentz_modes {k : ℂ} (hk : k ≠ 0) {v w : Wg2.V 2 (sh2 S)} (hv : sectionOp S ω dxes eps mu *ᵥ v = k ^ 2 • v)
    (hw : sectionOp S ω dxes eps mu *ᵥ w = k ^ 2 • w) {i : ℕ} (hi : i + 1 < sh axis) (s t : Bool) :
    lorentzAt ω dxes mu axis i (guideWave S U.full (profile S dxes eps k v) (halfFactor k d s)) (guideWave S U.full (profile S dxes eps k w) (halfFactor k d t))
      = halfFactor k d s ^ (2 * (i + 1)) * (halfFactor k d t ^ (2 * i) * halfFactor k d t) * crossSum S U.full dxes v (sectionH S ω dxes eps mu k w)
        - halfFactor k d t ^ (2 * (i + 1)) * (halfFactor k d s ^ (2 * i) * halfFactor k d s) * crossSum S U.full dxes w (sectionH S ω dxes eps mu k v) := by
  rw [lorentzAt_section U.full hi, crossSum, crossSum, Finset.mul_sum, Finset.mul_sum, ← Finset.sum_sub_distrib]
  refine Finset.sum_congr rfl fun y _ => ?_
  rw [U.wave_h hk hv (halfFactor_eq _ U.hd _) hi, U.wave_h hk hw (halfFactor_eq _ U.hd _) hi, U.wave_e _ _ _ hi, U.wave_e _ _ _ hi]
  simp only [liftT_other U.full ⟨i, Nat.lt_of_succ_lt hi⟩ S.plane y (ne_1 axis).symm, liftT_other U.full ⟨i, Nat.lt_of_succ_lt hi⟩ S.plane y (ne_2 axis).symm,
    Pi.smul_apply, smul_eq_mul]
  ring

theorem UniformSection.cross_symm (hd : Nonzero dxes.1 ∧ Nonzero dxes.2) {k : ℂ} (hk : k ≠ 0) (hk2 : (k * d) ^ 2 ≠ 4) {v w : Wg2.V 2 (sh2 S)}
    (hv : sectionOp S ω dxes eps mu *ᵥ v = k ^ 2 • v) (hw : sectionOp S ω dxes eps mu *ᵥ w = k ^ 2 • w) {i : ℕ} (hi : 0 < i) (hi2 : i + 2 < sh axis) :
    crossSum S U.full dxes v (sectionH S ω dxes eps mu k w) = crossSum S U.full dxes w (sectionH S ω dxes eps mu k v) := by
  have hwid : ∀ s t, dxes.1 axis s = dxes.1 axis t := fun s t => by rw [U.dE, U.dE]
  have hlead : ∀ v, sectionOp S ω dxes eps mu *ᵥ v = k ^ 2 • v →
      LeadWave ω dxes eps mu axis i (halfFactor k d true ^ 2) (guideWave S U.full (profile S dxes eps k v) (halfFactor k d true)) := fun v hv =>
    LeadWave.of_steps (by omega) hwid U.muA
      (fun c x hx => U.wave_free hk hv (halfFactor_ne _ _ _) (halfFactor_eq _ U.hd _) c x (by omega) (by omega))
      fun c x hx => guideWave_step S U.full _ _ c x (by omega)
  have hm : ∀ m, mu = some m → ∀ c x, m c x ≠ 0 := fun m h c x => by have := U.hmu c x; rwa [h] at this
  have hne : halfFactor k d true ^ 2 * halfFactor k d true ^ 2 ≠ 1 := by
    have := halfFactor_sq_ne k U.hd hk hk2
    rw [halfFactor_false, neg_sq, inv_pow] at this
    intro h
    exact this (eq_inv_of_mul_eq_one_left h)
  have h := C172_orthogonal ω U.hω dxes hd eps mu hm (by omega) (hlead v hv) (hlead w hw) hne
  rw [U.lorentz_modes hk hv hw (by omega), ← mul_sub] at h
  exact sub_eq_zero.1 ((mul_eq_zero.1 h).resolve_left (mul_ne_zero (pow_ne_zero _ (halfFactor_ne _ _ _)) (mul_ne_zero (pow_ne_zero _ (halfFactor_ne _ _ _)) (halfFactor_ne _ _ _))))

/-- **C178.** Degenerate modes can always be chosen orthogonal: a guide whose modes form a basis, none at cutoff, has a basis of modes as `C178_port` and `C178_amplitudes` need it, at every plane. -/
theorem C178_orthogonal {κ : Type*} [Fintype κ] (b : Module.Basis κ ℂ (Wg2.V 2 (sh2 S))) (k : κ → ℂ) (hd : Nonzero dxes.1 ∧ Nonzero dxes.2)
    (eig : ∀ n, sectionOp S ω dxes eps mu *ᵥ b n = k n ^ 2 • b n) (hk : ∀ n, k n ≠ 0) (hk2 : ∀ n, (k n * d) ^ 2 ≠ 4) {i : ℕ} (hi : 0 < i) (hi2 : i + 2 < sh axis) :
    ∃ (κ' : Type) (_ : Fintype κ') (b' : Module.Basis κ' ℂ (Wg2.V 2 (sh2 S))) (k' : κ' → ℂ),
      (∀ n, sectionOp S ω dxes eps mu *ᵥ b' n = k' n ^ 2 • b' n) ∧ (∀ n, k' n ≠ 0) ∧ (∀ n, (k' n * d) ^ 2 ≠ 4) ∧
      ∀ n m, n ≠ m → k' n ^ 2 = k' m ^ 2 → ∀ j, j + 1 < sh axis → ∀ s t,
        lorentzAt ω dxes mu axis j (guideWave S U.full (profile S dxes eps (k' n) (b' n)) (halfFactor (k' n) d s))
          (guideWave S U.full (profile S dxes eps (k' m) (b' m)) (halfFactor (k' m) d t)) = 0 := by
  classical
  let A := sectionOp S ω dxes eps mu
  let f : Module.End ℂ (Wg2.V 2 (sh2 S)) := Matrix.toLin' A
  let vals : Finset ℂ := Finset.univ.image fun n => k n ^ 2
  have hsq : ∀ z : ℂ, (z ^ (1 / 2 : ℂ)) ^ 2 = z := fun z => by
    have := cpow_nat_inv_pow z (n := 2) two_ne_zero
    rwa [show (((2 : ℕ) : ℂ)⁻¹) = (1 / 2 : ℂ) by norm_num] at this
  have hval : ∀ z ∈ vals, ∃ n, k n ^ 2 = z := fun z hz => by simpa [vals] using hz
  have hmem : ∀ z v, v ∈ f.eigenspace z ↔ A *ᵥ v = z • v := fun z v => by
    rw [Module.End.mem_eigenspace_iff, Matrix.toLin'_apply]
  let r : vals → ℂ := fun z => (z : ℂ) ^ (1 / 2 : ℂ)
  have hr : ∀ z : vals, r z ^ 2 = z := fun z => hsq z
  have hr0 : ∀ z : vals, r z ≠ 0 := fun z h => by
    obtain ⟨n, hn⟩ := hval z z.2
    have := hr z
    rw [h, ← hn] at this
    exact hk n (pow_eq_zero_iff two_ne_zero |>.1 (by rw [← this]; ring))
  have hr2 : ∀ z : vals, (r z * d) ^ 2 ≠ 4 := fun z h => by
    obtain ⟨n, hn⟩ := hval z z.2
    refine hk2 n ?_
    rw [mul_pow, hn, ← hr z, ← mul_pow, h]
  -- the form on an eigenspace
  have hform : ∀ z : vals, ∃ v : Module.Basis (Fin (Module.finrank ℂ (f.eigenspace (z : ℂ)))) ℂ (f.eigenspace (z : ℂ)),
      ∀ n m, n ≠ m → crossSum S U.full dxes (v n : Wg2.V 2 (sh2 S)) (sectionH S ω dxes eps mu (r z) (v m)) = 0 := by
    intro z
    let B : LinearMap.BilinForm ℂ (f.eigenspace (z : ℂ)) := LinearMap.mk₂ ℂ
      (fun v w => crossSum S U.full dxes (v : Wg2.V 2 (sh2 S)) (sectionH S ω dxes eps mu (r z) w))
      (fun v v' w => by
        simp only [crossSum, ← Finset.sum_add_distrib, Submodule.coe_add, Pi.add_apply]
        exact Finset.sum_congr rfl fun y _ => by ring)
      (fun c v w => by
        simp only [crossSum, smul_eq_mul, Finset.mul_sum, Submodule.coe_smul, Pi.smul_apply]
        exact Finset.sum_congr rfl fun y _ => by ring)
      (fun v w w' => by
        simp only [crossSum, sectionH, ← Finset.sum_add_distrib, Submodule.coe_add, mulVec_add, Pi.add_apply]
        exact Finset.sum_congr rfl fun y _ => by ring)
      (fun c v w => by
        simp only [crossSum, sectionH, smul_eq_mul, Finset.mul_sum, Submodule.coe_smul, mulVec_smul, Pi.smul_apply]
        exact Finset.sum_congr rfl fun y _ => by ring)
    have hB : B.IsSymm := ⟨fun v w => U.cross_symm hd (hr0 z) (hr2 z) (by rw [hr]; exact (hmem _ _).1 v.2) (by rw [hr]; exact (hmem _ _).1 w.2) hi hi2⟩
    let _ : Invertible (2 : ℂ) := invertibleOfNonzero two_ne_zero
    obtain ⟨v, hv⟩ := LinearMap.BilinForm.exists_orthogonal_basis hB
    exact ⟨v, fun n m hnm => hv hnm⟩
  choose v hv using hform
  have hint : DirectSum.IsInternal fun z : vals => f.eigenspace (z : ℂ) := by
    rw [DirectSum.isInternal_submodule_iff_iSupIndep_and_iSup_eq_top]
    refine ⟨f.eigenspaces_iSupIndep.comp Subtype.val_injective, ?_⟩
    rw [eq_top_iff, ← b.span_eq, Submodule.span_le]
    rintro _ ⟨n, rfl⟩
    have hn : k n ^ 2 ∈ vals := by simp [vals]
    exact Submodule.mem_iSup_of_mem (⟨k n ^ 2, hn⟩ : vals) ((hmem _ _).2 (eig n))
  refine ⟨Σ z : vals, Fin (Module.finrank ℂ (f.eigenspace (z : ℂ))), inferInstance, hint.collectedBasis v, fun n => r n.1, fun n => ?_, fun n => hr0 n.1, fun n => hr2 n.1, ?_⟩
  · rw [hr]; exact (hmem _ _).1 (hint.collectedBasis_mem v n)
  · rintro ⟨z, n⟩ ⟨z', m⟩ hnm hz j hj s t
    simp only [hr] at hz
    obtain rfl : z = z' := Subtype.ext hz
    have h' : n ≠ m := fun h => hnm (by rw [h])
    simp only [hint.collectedBasis_coe]
    have he : ∀ n, sectionOp S ω dxes eps mu *ᵥ (v z n : Wg2.V 2 (sh2 S)) = r z ^ 2 • (v z n : Wg2.V 2 (sh2 S)) := fun n => by rw [hr]; exact (hmem _ _).1 (v z n).2
    rw [U.lorentz_modes (hr0 z) (he n) (he m) hj, hv z n m h', hv z m n h'.symm, mul_zero, mul_zero, sub_zero]
end orthogonal

/-- The hypotheses are met by vacuum with unit cells at `ω = 4`, for a cross-section of any size and every axis, at every plane of a guide with at least four planes. -/
example (S : Slices sh axis) (hS : FullWindow S) {i : ℕ} (hi : 0 < i) (hi2 : i + 2 < sh axis) :
    ∃ (U : UniformSection S 4 ((fun _ _ => 1, fun _ _ => 1) : Dx sh) 1 (fun _ _ => 1) none) (κ : Type) (_ : Fintype κ) (b : Module.Basis κ ℂ (Wg2.V 2 (sh2 S)))
      (k : κ → ℂ), (∀ n, sectionOp S 4 ((fun _ _ => 1, fun _ _ => 1) : Dx sh) (fun _ _ => 1) none *ᵥ b n = k n ^ 2 • b n) ∧ (∀ n, k n ≠ 0) ∧
        (∀ n, (k n * (1 : ℝ)) ^ 2 ≠ 4) ∧ ∀ n m, n ≠ m → k n ^ 2 = k m ^ 2 → ∀ s t,
        lorentzAt 4 (fun _ _ => 1, fun _ _ => 1) none axis i (guideWave S U.full (profile S (fun _ _ => 1, fun _ _ => 1) (fun _ _ => 1) (k n) (b n)) (halfFactor (k n) 1 s))
          (guideWave S U.full (profile S (fun _ _ => 1, fun _ _ => 1) (fun _ _ => 1) (k m) (b m)) (halfFactor (k m) 1 t)) = 0 := by
  obtain ⟨U, b, k, h1, h2, h3⟩ := vacuum_section S hS
  obtain ⟨κ, _, b', k', e1, e2, e3, e4⟩ := C178_orthogonal U b k ⟨fun _ _ => one_ne_zero, fun _ _ => one_ne_zero⟩ h1 h2 h3 hi hi2
  exact ⟨U, κ, inferInstance, b', k', e1, e2, e3, fun n m h h' s t => e4 n m h h' i (by omega) s t⟩
end Meanas.Props
