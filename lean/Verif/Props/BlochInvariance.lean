/-
C110 (translation and scale invariance of the Bloch solver).
-/
import Verif.Props.Bloch
import Verif.Lemmas.Functional

namespace Meanas.Props

open Complex Matrix Meanas.Bloch

section
variable {d : ℕ} {sh : Fin d → ℕ}

/-- Phase that plane wave `k` collects over `s` cells along axis `a`. -/
noncomputable def cellPhase (a : Fin d) (s : ℤ) (k : Idx sh) : ℂ := exp (2 * Real.pi * I * (k a : ℕ) * s / (sh a : ℕ))

theorem phase_ne_zero (a : Fin d) (s : ℤ) (k : Idx sh) : cellPhase a s k ≠ 0 := exp_ne_zero _

theorem phase_neg (a : Fin d) (s : ℤ) (k : Idx sh) : cellPhase a (-s) k = (cellPhase a s k)⁻¹ := by
  unfold cellPhase
  rw [← exp_neg]
  congr 1
  push_cast
  ring

theorem chi_shiftIdx (a : Fin d) (s : ℤ) (k x : Idx sh) : chi k (shiftIdx a s x) = cellPhase a s k * chi k x := by
  unfold chi cellPhase
  rw [← Finset.mul_prod_erase Finset.univ _ (Finset.mem_univ a), ← Finset.mul_prod_erase Finset.univ _ (Finset.mem_univ a), ← mul_assoc]
  congr 1
  · have hpos : 0 < sh a := (x a).pos
    have hn : ((sh a : ℕ) : ℂ) ≠ 0 := Nat.cast_ne_zero.2 hpos.ne'
    rw [← exp_add, shiftIdx_same, exp_eq_exp_iff_exists_int]
    have hm := Int.emod_add_mul_ediv ((x a : ℕ) + s : ℤ) (sh a)
    have h0 := Int.emod_nonneg ((x a : ℕ) + s : ℤ) (by exact_mod_cast hpos.ne' : ((sh a : ℕ) : ℤ) ≠ 0)
    have hw : ((wrap (x a) s : Fin (sh a)) : ℕ) = (((x a : ℕ) + s : ℤ) % (sh a : ℕ)).toNat := rfl
    refine ⟨-((k a : ℕ) * (((x a : ℕ) + s) / (sh a : ℕ))), ?_⟩
    have hc : (((wrap (x a) s : Fin (sh a)) : ℕ) : ℂ) = (x a : ℕ) + s - (sh a : ℕ) * ((((x a : ℕ) + s) / (sh a : ℕ) : ℤ) : ℂ) := by
      have : (((wrap (x a) s : Fin (sh a)) : ℕ) : ℤ) = (x a : ℕ) + s - (sh a : ℕ) * (((x a : ℕ) + s) / (sh a : ℕ)) := by
        rw [hw, Int.toNat_of_nonneg h0]; linarith
      exact_mod_cast congrArg (fun z : ℤ => (z : ℂ)) this
    rw [hc]
    push_cast
    field_simp
    ring
  · refine Finset.prod_congr rfl fun b hb => ?_
    rw [shiftIdx_of_ne (Finset.ne_of_mem_erase hb)]

/-- Shift theorem of the inverse transform. -/
theorem ifftn_phase (a : Fin d) (s : ℤ) (f : Arr sh ℂ) (x : Idx sh) : ifftn (fun k => cellPhase a s k * f k) x = ifftn f (shiftIdx a s x) := by
  unfold ifftn
  congr 1
  refine Finset.sum_congr rfl fun k _ => ?_
  rw [chi_shiftIdx]; ring

/-- Shift theorem of the transform. -/
theorem fftn_shift (a : Fin d) (s : ℤ) (g : Arr sh ℂ) (k : Idx sh) : fftn (fun x => g (shiftIdx a s x)) k = cellPhase a s k * fftn g k := by
  unfold fftn
  rw [Finset.mul_sum, ← sum_shiftIdx a (-s)]
  refine Finset.sum_congr rfl fun x _ => ?_
  simp only [chi_shiftIdx, phase_neg, mul_inv, inv_inv, shiftIdx_shiftIdx, neg_add_cancel, shiftIdx_zero]
  ring
end

variable {sh : Fin 3 → ℕ} (k0 : Fin 3 → ℝ) (G : Matrix (Fin 3) (Fin 3) ℝ)

/-- A mode moved by `s` cells along axis `a`: every plane wave takes its cellPhase. -/
noncomputable def moved (a : Fin 3) (s : ℤ) (h : Hmn sh) : Hmn sh := fun i k => cellPhase a s k * h i k

theorem dXyz_moved (a : Fin 3) (s : ℤ) (n : Idx sh → Fin 3 → ℝ) (h : Hmn sh) (c : Fin 3) :
    dXyz k0 G n (moved a s h) c = fun k => cellPhase a s k * dXyz k0 G n h c k := by
  funext k
  simp only [dXyz, moved]
  ring

/-- **C110.** Moving the medium by any number of cells moves the modes: the operator of the moved medium acts on the moved mode as the operator acts on
the mode. -/
theorem C110_operator (a : Fin 3) (s : ℤ) (eps : VField sh ℂ) (h : Hmn sh) :
    maxwellOperator k0 G (fun c => roll (eps c) (-s) a) (moved a s h) = (maxwellOperator k0 G eps h).map (moved a s) := by
  unfold maxwellOperator
  have hz : (∃ c x, roll (eps c) (-s) a x = 0) ↔ ∃ c x, eps c x = 0 := by
    constructor
    · rintro ⟨c, x, hx⟩; exact ⟨c, _, hx⟩
    · rintro ⟨c, x, hx⟩
      refine ⟨c, shiftIdx a (-s) x, ?_⟩
      simp only [roll, neg_neg, shiftIdx_shiftIdx, neg_add_cancel, shiftIdx_zero, hx]
  simp only [hz]
  split_ifs with h0
  · rfl
  · rw [Option.map_map]
    congr 1
    funext n
    simp only [Function.comp_apply]
    have he : ∀ c x, fftn (fun y => ifftn (dXyz k0 G n (moved a s h) c) y / roll (eps c) (-s) a y) x
        = cellPhase a s x * fftn (fun y => ifftn (dXyz k0 G n h c) y / eps c y) x := by
      intro c x
      rw [← fftn_shift]
      congr 1
      funext y
      rw [dXyz_moved, ifftn_phase]
      simp only [roll, neg_neg]
    funext i x
    simp only [he, moved, Fin.sum_univ_three]
    split_ifs <;> ring

/-- **C110.** The fields of the moved mode are the moved fields. -/
theorem C110_fields (a : Fin 3) (s : ℤ) (eps : VField sh ℂ) (h : Hmn sh) :
    hmn2exyz k0 G (fun c => roll (eps c) (-s) a) (moved a s h) = (hmn2exyz k0 G eps h).map (fun e c => roll (e c) (-s) a) ∧
    hmn2hxyz k0 G (moved a s h) = (hmn2hxyz k0 G h).map (fun e c => roll (e c) (-s) a) := by
  constructor
  · unfold hmn2exyz
    have hz : (∃ c x, roll (eps c) (-s) a x = 0) ↔ ∃ c x, eps c x = 0 := by
      constructor
      · rintro ⟨c, x, hx⟩; exact ⟨c, _, hx⟩
      · rintro ⟨c, x, hx⟩
        refine ⟨c, shiftIdx a (-s) x, ?_⟩
        simp only [roll, neg_neg, shiftIdx_shiftIdx, neg_add_cancel, shiftIdx_zero, hx]
    simp only [hz]
    split_ifs with h0
    · rfl
    · rw [Option.map_map]
      congr 1
      funext n
      simp only [Function.comp_apply]
      funext c x
      rw [dXyz_moved, ifftn_phase]
      simp only [roll, neg_neg]
  · unfold hmn2hxyz
    rw [Option.map_map]
    congr 1
    funext n
    simp only [Function.comp_apply]
    funext c x
    have : (fun x => (mVec k0 G x c : ℂ) * moved a s h 0 x + n x c * moved a s h 1 x)
        = fun k => cellPhase a s k * (mVec k0 G k c * h 0 k + n k c * h 1 k) := by
      funext k; simp only [moved]; ring
    rw [this, ifftn_phase]
    simp only [roll, neg_neg]

/-- **C110.** So the bands do not depend on where the unit cell starts. -/
theorem C110_bands (a : Fin 3) (s : ℤ) (eps : VField sh ℂ) (lam : ℂ) :
    (∃ h : Hmn sh, h ≠ 0 ∧ maxwellOperator k0 G eps h = some fun i x => lam * h i x) ↔
    ∃ h : Hmn sh, h ≠ 0 ∧ maxwellOperator k0 G (fun c => roll (eps c) s a) h = some fun i x => lam * h i x := by
  have key : ∀ (eps : VField sh ℂ) (s : ℤ), (∃ h : Hmn sh, h ≠ 0 ∧ maxwellOperator k0 G eps h = some fun i x => lam * h i x) →
      ∃ h : Hmn sh, h ≠ 0 ∧ maxwellOperator k0 G (fun c => roll (eps c) s a) h = some fun i x => lam * h i x := by
    rintro eps s ⟨h, h0, hh⟩
    refine ⟨moved a (-s) h, fun hc => h0 ?_, ?_⟩
    · funext i x
      have := congrFun (congrFun hc i) x
      simpa [moved, phase_ne_zero] using this
    · have := C110_operator k0 G a (-s) eps h
      rw [neg_neg] at this
      rw [this, hh, Option.map_some]
      congr 1
      funext i x
      simp only [moved]
      ring
  constructor
  · exact key eps s
  · intro h
    have := key _ (-s) h
    have e : (fun c => roll (roll (eps c) s a) (-s) a) = eps := by
      funext c x
      simp only [roll, neg_neg, shiftIdx_shiftIdx, add_neg_cancel, shiftIdx_zero]
    rwa [e] at this

/-- **C110.** Scaling the permittivity divides the eigenvalues. -/
theorem C110_eps (t : ℂ) (ht : t ≠ 0) (eps : VField sh ℂ) (h : Hmn sh) :
    maxwellOperator k0 G (fun c x => t * eps c x) h = (maxwellOperator k0 G eps h).map fun b i x => b i x / t := by
  unfold maxwellOperator
  have hz : (∃ c x, t * eps c x = 0) ↔ ∃ c x, eps c x = 0 := by simp [ht]
  simp only [hz]
  split_ifs with h0
  · rfl
  · rw [Option.map_map]
    congr 1
    funext n
    simp only [Function.comp_apply]
    have he : ∀ c x, fftn (fun y => ifftn (dXyz k0 G n h c) y / (t * eps c y)) x
        = t⁻¹ * fftn (fun y => ifftn (dXyz k0 G n h c) y / eps c y) x := by
      intro c x
      rw [← congrFun (fftn_smul t⁻¹ _) x]
      congr 1
      funext y
      rw [div_mul_eq_div_div, div_right_comm, div_eq_inv_mul]
    funext i x
    simp only [he, Fin.sum_univ_three]
    split_ifs <;> rw [div_eq_inv_mul] <;> ring

theorem kxyz_scale (t : ℝ) (x : Idx sh) : kxyz k0 (t • G) x = t • kxyz k0 G x := by
  unfold kxyz; rw [smul_mulVec]

theorem norm3_smul (t : ℝ) (ht : 0 < t) (a : Fin 3 → ℝ) : norm3 (t • a) = t * norm3 a := by
  unfold norm3
  have : ∑ c, (t • a) c ^ 2 = t ^ 2 * ∑ c, a c ^ 2 := by
    rw [Finset.mul_sum]
    exact Finset.sum_congr rfl fun c _ => by rw [Pi.smul_apply, smul_eq_mul]; ring
  rw [this, Real.sqrt_mul (sq_nonneg t), Real.sqrt_sq ht.le]

theorem cross_smul (t : ℝ) (a b : Fin 3 → ℝ) : cross (t • a) b = t • cross a b := by
  funext c; revert c
  refine forall_fin3 ?_ ?_ ?_ <;> simp only [cross, Pi.smul_apply, smul_eq_mul] <;> ring

theorem mVec_scale (t : ℝ) (ht : 0 < t) (x : Idx sh) : mVec k0 (t • G) x = mVec k0 G x := by
  unfold mVec
  simp only [kxyz_scale, cross_smul, norm3_smul t ht, Pi.smul_apply, smul_eq_mul, ne_eq, mul_eq_zero, ht.ne', false_or,
    mul_div_mul_left _ _ ht.ne']

theorem nVec_scale (t : ℝ) (ht : 0 < t) (x : Idx sh) : nVec k0 (t • G) x = nVec k0 G x := by
  unfold nVec
  simp only [mVec_scale k0 G t ht, kxyz_scale, cross_smul, norm3_smul t ht, Pi.smul_apply, smul_eq_mul, ne_eq, mul_eq_zero, ht.ne', false_or,
    mul_div_mul_left _ _ ht.ne']

/-- **C110.** Scaling the lattice: with reciprocal lattice `t G` the eigenvalues are `t²` times as large, frequencies `t` times. -/
theorem C110_lattice (t : ℝ) (ht : 0 < t) (eps : VField sh ℂ) (h : Hmn sh) :
    maxwellOperator k0 (t • G) eps h = (maxwellOperator k0 G eps h).map fun b i x => (t : ℂ) ^ 2 * b i x := by
  have hk : ∀ x : Idx sh, kMag k0 (t • G) x = t * kMag k0 G x := fun x => by
    unfold kMag; rw [kxyz_scale, norm3_smul t ht]
  have hn : nAll k0 (t • G) sh = nAll k0 G sh := by
    unfold nAll
    simp only [nVec_scale k0 G t ht]
  unfold maxwellOperator
  split_ifs with h0
  · rfl
  · rw [hn, Option.map_map]
    congr 1
    funext n
    simp only [Function.comp_apply]
    have hd : ∀ c, dXyz k0 (t • G) n h c = fun x => (t : ℂ) * dXyz k0 G n h c x := by
      intro c; funext x
      simp only [dXyz, hk, mVec_scale k0 G t ht]; push_cast; ring
    have he : ∀ c x, fftn (fun y => ifftn (dXyz k0 (t • G) n h c) y / eps c y) x
        = t * fftn (fun y => ifftn (dXyz k0 G n h c) y / eps c y) x := by
      intro c x
      rw [← congrFun (fftn_smul (t : ℂ) _) x]
      congr 1
      funext y
      rw [hd]
      have : ifftn (fun x => (t : ℂ) * dXyz k0 G n h c x) y = t * ifftn (dXyz k0 G n h c) y := by
        unfold ifftn
        rw [← mul_div_assoc, Finset.mul_sum]
        congr 1
        exact Finset.sum_congr rfl fun k _ => by ring
      rw [this, mul_div_assoc]
    funext i x
    simp only [he, hk, mVec_scale k0 G t ht, Fin.sum_univ_three]
    push_cast
    split_ifs <;> ring

end Meanas.Props
