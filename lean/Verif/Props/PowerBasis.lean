/-
C181 (modes that carry no power together). The model is that of C181 (Verif/Props/DevicePower.lean): the modes of `operator_e` (meanas/fdfd/waveguide_2d.py) as waves of the 3D operator `e_full`
(meanas/fdfd/operators.py:40-96) in a lossless guide, H from `e2h` (meanas/fdfd/operators.py:253-282), powers from `poynting_e_cross_h` (meanas/fdfd/functional.py).
-/
import Verif.Props.DevicePower
import Mathlib.Analysis.Matrix.Spectrum
namespace Meanas.Props
open Matrix Complex Wg3 Spec Fdfd

variable {sh : Fin 3 → ℕ} {axis : Fin 3}

/-- A Hermitian (or skew) form on a finite-dimensional space has an orthogonal basis. -/
theorem hermitian_basis {V : Type*} [AddCommGroup V] [Module ℂ V] [FiniteDimensional ℂ V] (X : V → V → ℂ) (add : ∀ u v w, X (u + v) w = X u w + X v w)
    (smul : ∀ (c : ℂ) v w, X (c • v) w = c * X v w) {c : ℂ} (hc : c = 1 ∨ c = -1) (herm : ∀ v w, X v w = c * (starRingEnd ℂ) (X w v)) :
    ∃ v : Module.Basis (Fin (Module.finrank ℂ V)) ℂ V, ∀ n m, n ≠ m → X (v n) (v m) = 0 := by
  classical
  have addr : ∀ u v w, X u (v + w) = X u v + X u w := fun u v w => by rw [herm, add, map_add, mul_add, ← herm, ← herm]
  have smulr : ∀ (a : ℂ) v w, X v (a • w) = (starRingEnd ℂ) a * X v w := fun a v w => by rw [herm v (a • w), smul, map_mul, herm v w]; ring
  let Xl : V →ₗ[ℂ] V →ₗ⋆[ℂ] ℂ := LinearMap.mk₂'ₛₗ (RingHom.id ℂ) (starRingEnd ℂ) X add smul addr smulr
  let w := Module.finBasis ℂ V
  -- a matrix that is Hermitian in either case
  obtain ⟨e, he0, he⟩ : ∃ e : ℂ, e ≠ 0 ∧ (starRingEnd ℂ) e = e * c := by
    rcases hc with rfl | rfl
    · exact ⟨1, one_ne_zero, by simp⟩
    · exact ⟨I, I_ne_zero, by simp⟩
  let Q : Matrix (Fin (Module.finrank ℂ V)) (Fin (Module.finrank ℂ V)) ℂ := Matrix.of fun n m => e * X (w m) (w n)
  have hQ : Q.IsHermitian := by
    ext n m
    rw [conjTranspose_apply, RCLike.star_def]
    show (starRingEnd ℂ) (e * X (w n) (w m)) = e * X (w m) (w n)
    rw [map_mul, he, herm (w m) (w n), mul_assoc]
  have sum : ∀ a b : Fin (Module.finrank ℂ V) → ℂ, e * X (∑ n, a n • w n) (∑ m, b m • w m) = ∑ m, (starRingEnd ℂ) (b m) * (Q *ᵥ a) m := by
    intro a b
    have h1 : X (∑ n, a n • w n) (∑ m, b m • w m) = Xl (∑ n, a n • w n) (∑ m, b m • w m) := rfl
    rw [h1, map_sum, Finset.mul_sum]
    refine Finset.sum_congr rfl fun m _ => ?_
    rw [map_smulₛₗ, map_sum, LinearMap.sum_apply]
    simp only [map_smul, LinearMap.smul_apply, smul_eq_mul, mulVec, dotProduct, Finset.mul_sum]
    refine Finset.sum_congr rfl fun n _ => ?_
    show e * ((starRingEnd ℂ) (b m) * (a n * X (w n) (w m))) = (starRingEnd ℂ) (b m) * (e * X (w n) (w m) * a n)
    ring
  let v : Module.Basis (Fin (Module.finrank ℂ V)) ℂ V := hQ.eigenvectorBasis.toBasis.map ((WithLp.linearEquiv 2 ℂ (Fin (Module.finrank ℂ V) → ℂ)).trans w.equivFun.symm)
  have hv : ∀ n, v n = ∑ j, hQ.eigenvectorBasis n j • w j := fun n => by
    simp [v, Module.Basis.equivFun_symm_apply]
  refine ⟨v, fun n m hnm => (mul_eq_zero.1 (?_ : e * X (v n) (v m) = 0)).resolve_left he0⟩
  rw [hv, hv, sum, hQ.mulVec_eigenvectorBasis]
  have h0 : inner ℂ (hQ.eigenvectorBasis m) (hQ.eigenvectorBasis n) = 0 := hQ.eigenvectorBasis.orthonormal.2 hnm.symm
  rw [PiLp.inner_apply] at h0
  simp only [Pi.smul_apply, Complex.real_smul, RCLike.inner_apply] at h0 ⊢
  rw [← mul_zero ((hQ.eigenvalues n : ℝ) : ℂ), ← h0, Finset.mul_sum]
  exact Finset.sum_congr rfl fun j _ => by ring

section pair
variable {S : Slices sh axis} {ω : ℂ} {dxes : Dx sh} {d : ℝ} {eps : VField sh ℂ} {mu : Option (VField sh ℂ)}

/-- The power of waves of two modes with one wavenumber. -/
theorem power_pair (U : UniformSection S ω dxes d eps mu) (hr : ∀ b, b ≠ axis → ∀ t, (starRingEnd ℂ) (dxes.1 b t) = dxes.1 b t ∧ (starRingEnd ℂ) (dxes.2 b t) = dxes.2 b t) {k : ℂ} (hk : k ≠ 0)
    {v w : Wg2.V 2 (sh2 S)} (hv : sectionOp S ω dxes eps mu *ᵥ v = k ^ 2 • v) (hw : sectionOp S ω dxes eps mu *ᵥ w = k ^ 2 • w) {i : ℕ} (hi : i + 1 < sh axis) (s t : Bool) :
    powerAt ω dxes mu axis i (guideWave S U.full (profile S dxes eps k v) (halfFactor k d s)) (guideWave S U.full (profile S dxes eps k w) (halfFactor k d t))
      = (halfFactor k d s * (starRingEnd ℂ) (halfFactor k d t)) ^ (2 * i + 1) * (halfFactor k d s * crossSum S U.full dxes v (star (sectionH S ω dxes eps mu k w))
        + (starRingEnd ℂ) (halfFactor k d t) * (starRingEnd ℂ) (crossSum S U.full dxes w (star (sectionH S ω dxes eps mu k v)))) := by
  rw [powerAt_section U.full hi, crossSum, crossSum, map_sum, Finset.mul_sum, Finset.mul_sum, ← Finset.sum_add_distrib, Finset.mul_sum]
  refine Finset.sum_congr rfl fun y _ => ?_
  rw [U.wave_h hk hv (halfFactor_eq _ U.hd _) hi, U.wave_h hk hw (halfFactor_eq _ U.hd _) hi, U.wave_e _ _ _ hi, U.wave_e _ _ _ hi]
  simp only [liftT_other U.full ⟨i, Nat.lt_of_succ_lt hi⟩ S.plane y (ne_1 axis).symm, liftT_other U.full ⟨i, Nat.lt_of_succ_lt hi⟩ S.plane y (ne_2 axis).symm,
    Pi.smul_apply, smul_eq_mul, Pi.star_apply, map_sub, map_mul, map_pow, RCLike.star_def, conj_conj, (hr _ (ne_1 axis).symm _).1, (hr _ (ne_1 axis).symm _).2, (hr _ (ne_2 axis).symm _).1,
    (hr _ (ne_2 axis).symm _).2]
  ring
end pair

section lossless
variable {S : Slices sh axis} {ω : ℝ} {g : DxList sh ℝ × DxList sh ℝ} {dxes₀ : Dx sh} {d : ℝ} {eps eps₀ : VField sh ℂ} {mu mu₀ : Option (VField sh ℂ)}
  {κ : Type*} [Fintype κ] {b : Module.Basis κ ℂ (Wg2.V 2 (sh2 S))} {k : κ → ℂ} {i : ℕ}

omit [Fintype κ] in
/-- Any eigenvector of the cross-section is a wave of the lead. -/
theorem LeadAt.waveOf {ω : ℂ} {dxes : Dx sh} (P : LeadAt S ω dxes eps mu i dxes₀ d eps₀ mu₀ b k) (n : κ) {v : Wg2.V 2 (sh2 S)} (hv : sectionOp S ω dxes₀ eps₀ mu₀ *ᵥ v = k n ^ 2 • v) (s : Bool) :
    LeadWave ω dxes eps mu axis i (halfFactor (k n) d s ^ 2) (guideWave S P.guide.full (profile S dxes₀ eps₀ (k n) v) (halfFactor (k n) d s)) := by
  have hR := P.room
  have hI := P.inside
  exact LeadWave.congr P.near (by omega) (LeadWave.of_steps (by omega) (fun s t => by rw [P.guide.dE, P.guide.dE]) P.guide.muA
      (fun c x hx => P.guide.wave_free (P.cutoff n) hv (halfFactor_ne _ _ _) (halfFactor_eq _ P.guide.hd _) c x (by omega) (by omega))
      fun c x hx => guideWave_step S P.guide.full _ _ c x (by omega))

omit [Fintype κ] in
/-- The modes with one wavenumber of a lossless lead: a basis of them of which no two carry power together. -/
theorem LeadAt.eigenspace_basis (P : LeadAt S ω (cDx g) eps mu i dxes₀ d eps₀ mu₀ b k) (hω : ω ≠ 0) (hd : Nonzero g.1 ∧ Nonzero g.2) (hmu : ∀ m, mu = some m → ∀ c x, m c x ≠ 0)
    (hreal : ∀ c (x : Idx sh), (x axis : ℕ) = i + 1 → (eps c x).im = 0 ∧ (mu.getD 1 c x).im = 0) (n : κ) {V : Submodule ℂ (Wg2.V 2 (sh2 S))}
    (hV : ∀ v ∈ V, sectionOp S ω dxes₀ eps₀ mu₀ *ᵥ v = k n ^ 2 • v) :
    ∃ v : Module.Basis (Fin (Module.finrank ℂ V)) ℂ V, ∀ l m, l ≠ m → ∀ s t,
      powerAt ω (cDx g) mu axis i (guideWave S P.guide.full (profile S dxes₀ eps₀ (k n) (v l)) (halfFactor (k n) d s)) (guideWave S P.guide.full (profile S dxes₀ eps₀ (k n) (v m)) (halfFactor (k n) d t)) = 0 := by
  have hR := P.room
  obtain ⟨-, hr⟩ := P.widths hd
  have apart : ∀ v w : V, ∀ s t, halfFactor (k n) d s ^ 2 * (starRingEnd ℂ) (halfFactor (k n) d t ^ 2) ≠ 1 →
      powerAt ω (cDx g) mu axis i (guideWave S P.guide.full (profile S dxes₀ eps₀ (k n) v) (halfFactor (k n) d s)) (guideWave S P.guide.full (profile S dxes₀ eps₀ (k n) w) (halfFactor (k n) d t)) = 0 :=
    fun v w s t h => C172_power_orthogonal ω hω g hd eps mu hmu (by omega) hreal (P.waveOf n (hV v v.2) s) (P.waveOf n (hV w w.2) t) h
  by_cases H : ∀ s t, halfFactor (k n) d s ^ 2 * (starRingEnd ℂ) (halfFactor (k n) d t ^ 2) ≠ 1
  · exact ⟨Module.finBasis ℂ V, fun l m _ s t => apart _ _ s t (H s t)⟩
  push Not at H
  obtain ⟨s, t, hst⟩ := H
  let X : V → V → ℂ := fun v w => crossSum S P.guide.full dxes₀ v (star (sectionH S ω dxes₀ eps₀ mu₀ (k n) w))
  have pair : ∀ (v w : V) s t, powerAt ω (cDx g) mu axis i (guideWave S P.guide.full (profile S dxes₀ eps₀ (k n) v) (halfFactor (k n) d s)) (guideWave S P.guide.full (profile S dxes₀ eps₀ (k n) w) (halfFactor (k n) d t))
      = (halfFactor (k n) d s * (starRingEnd ℂ) (halfFactor (k n) d t)) ^ (2 * i + 1) * (halfFactor (k n) d s * X v w + (starRingEnd ℂ) (halfFactor (k n) d t) * (starRingEnd ℂ) (X w v)) := fun v w s t => by
    rw [powerAt_near P.near]
    exact power_pair P.guide hr (P.cutoff n) (hV v v.2) (hV w w.2) (by omega) s t
  have hp := halfFactor_ne (k n) d s
  have hq := halfFactor_ne (k n) d (!t)
  have hq' : (starRingEnd ℂ) (halfFactor (k n) d (!t)) ≠ 0 := (map_ne_zero _).2 hq
  have tt := congrArg (starRingEnd ℂ) (halfFactor_not (k n) d t)
  rw [map_mul, map_one] at tt
  -- the other pair of directions never fits
  have hst' : halfFactor (k n) d s ^ 2 * (starRingEnd ℂ) (halfFactor (k n) d (!t) ^ 2) ≠ 1 := by
    intro h
    have h4 : halfFactor (k n) d s ^ 2 * halfFactor (k n) d s ^ 2 = 1 := by
      linear_combination (-(halfFactor (k n) d s ^ 2 * halfFactor (k n) d s ^ 2)) * tt + (halfFactor (k n) d s ^ 2 * (starRingEnd ℂ) (halfFactor (k n) d t ^ 2)) * h + hst
    have h2 := halfFactor_sq_ne (k n) P.guide.hd (P.cutoff n) (P.edge n)
    have h5 := mul_left_cancel₀ (pow_ne_zero 2 hp) (h4.trans (halfFactor_not (k n) d s).symm)
    cases s
    · exact h2 h5.symm
    · exact h2 h5
  let c : ℂ := -((starRingEnd ℂ) (halfFactor (k n) d (!t)) / halfFactor (k n) d s)
  have hc : c = 1 ∨ c = -1 := by
    have e : (starRingEnd ℂ) (halfFactor (k n) d (!t) ^ 2) = halfFactor (k n) d s ^ 2 := by
      linear_combination (-(starRingEnd ℂ) (halfFactor (k n) d (!t) ^ 2)) * hst + halfFactor (k n) d s ^ 2 * tt
    rw [map_pow] at e
    refine mul_self_eq_one_iff.1 ?_
    simp only [c]
    rw [neg_mul_neg, div_mul_div_comm, ← pow_two, ← pow_two, e, div_self (pow_ne_zero 2 hp)]
  have herm : ∀ v w, X v w = c * (starRingEnd ℂ) (X w v) := fun v w => by
    have h := apart v w s (!t) hst'
    rw [pair] at h
    have h := (mul_eq_zero.1 h).resolve_left (pow_ne_zero _ (mul_ne_zero hp hq'))
    simp only [c]
    field_simp
    linear_combination h
  obtain ⟨v, hv⟩ := hermitian_basis X (fun u v w => by
      simp only [X, crossSum, ← Finset.sum_add_distrib, Submodule.coe_add, Pi.add_apply]
      exact Finset.sum_congr rfl fun y _ => by ring)
    (fun c v w => by
      simp only [X, crossSum, Finset.mul_sum, Submodule.coe_smul, Pi.smul_apply, smul_eq_mul]
      exact Finset.sum_congr rfl fun y _ => by ring) hc herm
  refine ⟨v, fun l m h s t => ?_⟩
  rw [pair, hv l m h, hv m l h.symm, map_zero, mul_zero, mul_zero, add_zero, mul_zero]

/-- **C181.** The modes of a lossless guide can always be chosen as `C181_mode_power` and `C181_unitary` need them: from any basis of modes (none at cutoff) one gets a basis of modes with wavenumbers among the
same ones, of which no two with one wavenumber carry power together in any directions. -/
theorem C181_orthogonal (P : LeadAt S ω (cDx g) eps mu i dxes₀ d eps₀ mu₀ b k) (hω : ω ≠ 0) (hd : Nonzero g.1 ∧ Nonzero g.2) (hmu : ∀ m, mu = some m → ∀ c x, m c x ≠ 0)
    (hreal : ∀ c (x : Idx sh), (x axis : ℕ) = i + 1 → (eps c x).im = 0 ∧ (mu.getD 1 c x).im = 0) :
    ∃ (κ' : Type) (_ : Fintype κ') (b' : Module.Basis κ' ℂ (Wg2.V 2 (sh2 S))) (k' : κ' → ℂ), (∀ n, ∃ m, k' n = k m) ∧ (∀ m, ∃ n, k' n ^ 2 = k m ^ 2) ∧
      LeadAt S ω (cDx g) eps mu i dxes₀ d eps₀ mu₀ b' k' ∧
      ∀ n m, n ≠ m → k' n ^ 2 = k' m ^ 2 → ∀ s t,
        powerAt ω (cDx g) mu axis i (leadMode S P.guide.full dxes₀ d eps₀ b' k' n s) (leadMode S P.guide.full dxes₀ d eps₀ b' k' m t) = 0 := by
  classical
  let A := sectionOp S ω dxes₀ eps₀ mu₀
  let f : Module.End ℂ (Wg2.V 2 (sh2 S)) := Matrix.toLin' A
  let vals : Finset ℂ := Finset.univ.image fun n => k n ^ 2
  have hval : ∀ z : vals, ∃ n, k n ^ 2 = z := fun z => by
    obtain ⟨n, -, hn⟩ := Finset.mem_image.1 z.2
    exact ⟨n, hn⟩
  choose r hr using hval
  have hmem : ∀ z v, v ∈ f.eigenspace z ↔ A *ᵥ v = z • v := fun z v => by
    rw [Module.End.mem_eigenspace_iff, Matrix.toLin'_apply]
  have hform := fun z : vals => P.eigenspace_basis hω hd hmu hreal (r z) (V := f.eigenspace (z : ℂ)) fun v hv => by rw [hr]; exact (hmem _ _).1 hv
  choose v hv using hform
  have hint : DirectSum.IsInternal fun z : vals => f.eigenspace (z : ℂ) := by
    rw [DirectSum.isInternal_submodule_iff_iSupIndep_and_iSup_eq_top]
    refine ⟨f.eigenspaces_iSupIndep.comp Subtype.val_injective, ?_⟩
    rw [eq_top_iff, ← b.span_eq, Submodule.span_le]
    rintro _ ⟨n, rfl⟩
    have hn : k n ^ 2 ∈ vals := by simp [vals]
    exact Submodule.mem_iSup_of_mem (⟨k n ^ 2, hn⟩ : vals) ((hmem _ _).2 (P.eig n))
  refine ⟨Σ z : vals, Fin (Module.finrank ℂ (f.eigenspace (z : ℂ))), inferInstance, hint.collectedBasis v, fun n => k (r n.1), fun n => ⟨_, rfl⟩, fun m => ?_,
    ⟨P.guide, fun n => ?_, fun n => P.cutoff _, fun n => P.edge _, P.inside, P.room, P.before, P.near⟩, ?_⟩
  · have hm : k m ^ 2 ∈ vals := by simp [vals]
    have hne : 0 < Module.finrank ℂ (f.eigenspace (k m ^ 2)) := by
      refine Module.finrank_pos_iff_exists_ne_zero.2 ⟨⟨b m, (hmem _ _).2 (P.eig m)⟩, fun h => b.ne_zero m (congrArg Subtype.val h)⟩
    exact ⟨⟨⟨k m ^ 2, hm⟩, ⟨0, hne⟩⟩, hr _⟩
  · rw [hr]; exact (hmem _ _).1 (hint.collectedBasis_mem v n)
  · rintro ⟨z, n⟩ ⟨z', m⟩ hnm hz s t
    simp only [hr] at hz
    obtain rfl : z = z' := Subtype.ext hz
    have h' : n ≠ m := fun h => hnm (by rw [h])
    simp only [leadMode, hint.collectedBasis_coe]
    exact hv z n m h' s t
end lossless

/-- The hypotheses are met by vacuum with unit cells at `ω = 4`, for a cross-section of any size (which has many modes with one wavenumber) and every axis, at every plane of a guide with at least four planes. -/
example (S : Slices sh axis) (hS : FullWindow S) {i : ℕ} (hi : 0 < i) (hi2 : i + 2 < sh axis) :
    ∃ (κ : Type) (_ : Fintype κ) (b : Module.Basis κ ℂ (Wg2.V 2 (sh2 S))) (k : κ → ℂ),
      LeadAt S ((4 : ℝ) : ℂ) (cDx (unitGrid sh)) (fun _ _ => 1) none i (cDx (unitGrid sh)) 1 (fun _ _ => 1) none b k ∧
      ∀ n m, n ≠ m → k n ^ 2 = k m ^ 2 → ∀ s t,
        powerAt ((4 : ℝ) : ℂ) (cDx (unitGrid sh)) none axis i (leadMode S hS (cDx (unitGrid sh)) 1 (fun _ _ => 1) b k n s) (leadMode S hS (cDx (unitGrid sh)) 1 (fun _ _ => 1) b k m t) = 0 := by
  obtain ⟨U, b, k, h1, h2, h3⟩ := vacuum_section S hS
  have e : (cDx (unitGrid sh) : Dx sh) = (fun _ _ => 1, fun _ _ => 1) := by simp [cDx]
  have e4 : ((4 : ℝ) : ℂ) = 4 := by norm_num
  have P : LeadAt S ((4 : ℝ) : ℂ) (cDx (unitGrid sh)) (fun _ _ => 1) none i (cDx (unitGrid sh)) 1 (fun _ _ => 1) none b k := by
    rw [e, e4]
    exact ⟨U, h1, h2, h3, hi, hi2, SameNear.refl .., SameNear.refl ..⟩
  obtain ⟨κ, _, b', k', -, -, P', h⟩ := C181_orthogonal P (by norm_num) ⟨fun _ _ => one_ne_zero, fun _ _ => one_ne_zero⟩ (by simp) (by simp)
  exact ⟨κ, inferInstance, b', k', P', h⟩
end Meanas.Props
