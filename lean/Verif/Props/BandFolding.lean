/-
C158: band folding. The Bloch operator of a supercell is the direct sum of the Bloch operators of its unit cell at the Bloch vectors that differ by reciprocal vectors of the supercell.
-/
import Verif.Props.Bloch
import Verif.Props.Supercell

namespace Meanas.Props

open Complex Matrix Meanas.Bloch

variable {N sh : Fin 3 → ℕ}

/-- Smallest of the `N` offsets of plane waves: `fftfreq` covers `-n ≤ 2 m < n`. -/
def foldOffset (N n : ℕ) : ℤ := if Even n then 0 else -((N / 2 : ℕ) : ℤ)

/-- One axis: index in the supercell of plane wave `x` of the unit cell in sector `r`; `fftfreq` gives it the frequency `N * fftfreq x + offset + r`. -/
def subIdx {N n : ℕ} (r : Fin N) (x : Fin n) : Fin (N * n) :=
  ⟨(((N : ℤ) * x + (foldOffset N n + r)) % ((N * n : ℕ) : ℤ)).toNat, by
    have h : (0 : ℤ) < ((N * n : ℕ) : ℤ) := by exact_mod_cast Nat.mul_pos r.pos x.pos
    exact (Int.toNat_lt (Int.emod_nonneg _ h.ne')).2 (Int.emod_lt_of_pos _ h)⟩

/-- Position in the supercell of plane wave `x` of the unit cell in sector `r`. -/
def sector (r : Idx N) (x : Idx sh) : Idx (superShape N sh) := fun a => subIdx (r a) (x a)

/-- Bloch vector of the unit cell, in units of its reciprocal vectors, that belongs to sector `r`. -/
noncomputable def sectorK (sh : Fin 3 → ℕ) (k0 : Fin 3 → ℝ) (r : Idx N) : Fin 3 → ℝ := fun a => (k0 a - ((foldOffset (N a) (sh a) + (r a : ℕ) : ℤ) : ℝ)) / N a

/-- Reciprocal vectors of the supercell (columns), whose lattice vectors are `N a` times as long. -/
noncomputable def superG (N : Fin 3 → ℕ) (G : Matrix (Fin 3) (Fin 3) ℝ) : Matrix (Fin 3) (Fin 3) ℝ := fun i a => G i a / N a

/-- Bloch phase of sector `r` at a point of the supercell. -/
noncomputable def sectorPhase (r : Idx N) (y : Idx (superShape N sh)) : ℂ :=
  ∏ a, exp (2 * Real.pi * I * ((foldOffset (N a) (sh a) + (r a : ℕ) : ℤ) : ℂ) * (y a : ℕ) / ((N a * sh a : ℕ) : ℂ))

namespace FoldAux

theorem fftfreq_char (n : ℕ) (i : Fin n) (m : ℤ) (hd : (n : ℤ) ∣ m - (i : ℕ)) (h1 : -(n : ℤ) ≤ 2 * m) (h2 : 2 * m < n) : fftfreq n i = m := by
  obtain ⟨q, hq⟩ := hd
  have hi := i.isLt
  unfold fftfreq
  split_ifs with h
  · have : q = 0 := by
      rcases lt_trichotomy q 0 with hq0 | hq0 | hq0
      · have h5 : (n : ℤ) * q ≤ n * (-1) := mul_le_mul_of_nonneg_left (by omega) (by omega)
        omega
      · exact hq0
      · have h5 : (n : ℤ) * 1 ≤ n * q := mul_le_mul_of_nonneg_left (by omega) (by omega)
        omega
    subst this; omega
  · have : q = -1 := by
      rcases lt_trichotomy q (-1) with hq0 | hq0 | hq0
      · have h5 : (n : ℤ) * q ≤ n * (-2) := mul_le_mul_of_nonneg_left (by omega) (by omega)
        omega
      · exact hq0
      · have h5 : (n : ℤ) * 0 ≤ n * q := mul_le_mul_of_nonneg_left (by omega) (by omega)
        omega
    subst this; omega

theorem fftfreq_spec (n : ℕ) (i : Fin n) : (n : ℤ) ∣ fftfreq n i - (i : ℕ) ∧ -(n : ℤ) ≤ 2 * fftfreq n i ∧ 2 * fftfreq n i < n := by
  have hi := i.isLt
  unfold fftfreq
  split_ifs with h
  · exact ⟨by simp, by omega, by omega⟩
  · exact ⟨⟨-1, by ring⟩, by omega, by omega⟩

theorem subIdx_cast {N n : ℕ} (r : Fin N) (x : Fin n) : ((subIdx r x : Fin (N * n)) : ℤ) = ((N : ℤ) * x + (foldOffset N n + r)) % ((N * n : ℕ) : ℤ) := by
  have h : (0 : ℤ) < ((N * n : ℕ) : ℤ) := by exact_mod_cast Nat.mul_pos r.pos x.pos
  simp only [subIdx]
  exact Int.toNat_of_nonneg (Int.emod_nonneg _ h.ne')

theorem subIdx_eq {N n : ℕ} (r : Fin N) (x : Fin n) : ∃ q : ℤ, ((subIdx r x : Fin (N * n)) : ℤ) = (N : ℤ) * x + (foldOffset N n + r) - (N : ℤ) * n * q := by
  refine ⟨((N : ℤ) * x + (foldOffset N n + r)) / ((N * n : ℕ) : ℤ), ?_⟩
  rw [subIdx_cast, Int.emod_def]; push_cast; ring

theorem fftfreq_subIdx {N n : ℕ} (r : Fin N) (x : Fin n) : fftfreq (N * n) (subIdx r x) = N * fftfreq n x + (foldOffset N n + r) := by
  obtain ⟨⟨q, hq⟩, h1, h2⟩ := fftfreq_spec n x
  obtain ⟨q', hq'⟩ := subIdx_eq r x
  have hr := r.isLt
  have hN : (0 : ℤ) < N := by exact_mod_cast r.pos
  apply fftfreq_char
  · refine ⟨q + q', ?_⟩
    rw [hq']; push_cast
    have : fftfreq n x = n * q + (x : ℕ) := by linarith
    rw [this]; ring
  all_goals
    unfold foldOffset
    split_ifs with he
    · obtain ⟨w, hw⟩ := he
      have : 2 * fftfreq n x ≤ n - 2 := by omega
      push_cast
      nlinarith
    · rw [Nat.not_even_iff_odd] at he
      obtain ⟨w, hw⟩ := he
      have h3 : 2 * fftfreq n x ≤ n - 1 := by omega
      have h4 : -(n : ℤ) + 1 ≤ 2 * fftfreq n x := by omega
      have h5 : -(N : ℤ) ≤ 2 * (-((N / 2 : ℕ) : ℤ) + r) := by omega
      have h6 : 2 * (-((N / 2 : ℕ) : ℤ) + (r : ℕ)) < N := by omega
      push_cast at *
      nlinarith

theorem subIdx_inj {N n : ℕ} : Function.Injective fun p : Fin N × Fin n => subIdx p.1 p.2 := by
  rintro ⟨r, x⟩ ⟨r', x'⟩ h
  simp only at h
  have hf := congrArg (fftfreq (N * n)) h
  rw [fftfreq_subIdx, fftfreq_subIdx] at hf
  have hr := r.isLt
  have hr' := r'.isLt
  have hrr : (r : ℕ) = r' := by
    have hd : (N : ℤ) ∣ ((r : ℕ) : ℤ) - (r' : ℕ) := ⟨fftfreq n x' - fftfreq n x, by linarith⟩
    have := Int.eq_zero_of_abs_lt_dvd hd (by rw [abs_lt]; constructor <;> omega)
    omega
  have hxx : fftfreq n x = fftfreq n x' := by
    rw [hrr] at hf
    have hN : (N : ℤ) ≠ 0 := by exact_mod_cast r.pos.ne'
    exact mul_left_cancel₀ hN (by linarith)
  have hx := x.isLt
  have hx' := x'.isLt
  have h1 := (fftfreq_spec n x).1
  have h2 := (fftfreq_spec n x').1
  rw [hxx] at h1
  have hd : (n : ℤ) ∣ ((x : ℕ) : ℤ) - (x' : ℕ) := by
    have := dvd_sub h2 h1
    rwa [sub_sub_sub_cancel_left] at this
  have := Int.eq_zero_of_abs_lt_dvd hd (by rw [abs_lt]; constructor <;> omega)
  have hxe : x = x' := Fin.ext (by omega)
  exact Prod.ext (Fin.ext hrr) hxe

/-- Sectors and plane waves of the unit cell make up the plane waves of the supercell. -/
noncomputable def axisEquiv (N n : ℕ) : Fin N × Fin n ≃ Fin (N * n) :=
  Equiv.ofBijective (fun p => subIdx p.1 p.2) ((Fintype.bijective_iff_injective_and_card _).2 ⟨subIdx_inj, by simp⟩)

noncomputable def sectorEquiv (N sh : Fin 3 → ℕ) : (Idx N × Idx sh) ≃ Idx (superShape N sh) :=
  ((Equiv.piCongrRight fun a => (axisEquiv (N a) (sh a)).symm).trans (Equiv.arrowProdEquivProdArrow _ (fun a => Fin (N a)) fun a => Fin (sh a))).symm

theorem sectorEquiv_apply (r : Idx N) (x : Idx sh) : sectorEquiv N sh (r, x) = sector r x := rfl

theorem exists_sector (y : Idx (superShape N sh)) : ∃ r x, y = sector r x := by
  obtain ⟨⟨r, x⟩, h⟩ := (sectorEquiv N sh).surjective y
  exact ⟨r, x, h.symm⟩

theorem sector_inj (r r' : Idx N) (x x' : Idx sh) (h : sector r x = sector r' x') : r = r' ∧ x = x' := by
  have := (sectorEquiv N sh).injective (a₁ := (r, x)) (a₂ := (r', x')) h
  exact ⟨congrArg Prod.fst this, congrArg Prod.snd this⟩

theorem kxyz_sector (k0 : Fin 3 → ℝ) (G : Matrix (Fin 3) (Fin 3) ℝ) (r : Idx N) (x : Idx sh) :
    kxyz k0 (superG N G) (sector r x) = kxyz (sectorK sh k0 r) G x := by
  unfold kxyz
  funext i
  simp only [mulVec, dotProduct]
  refine Finset.sum_congr rfl fun a _ => ?_
  have hN : ((N a : ℕ) : ℝ) ≠ 0 := by exact_mod_cast (r a).pos.ne'
  have : fftfreq (superShape N sh a) (sector r x a) = N a * fftfreq (sh a) (x a) + (foldOffset (N a) (sh a) + (r a : ℕ)) := fftfreq_subIdx (r a) (x a)
  rw [this]
  simp only [superG, sectorK]
  push_cast
  field_simp
  ring

theorem chi_sector (r : Idx N) (x : Idx sh) (y : Idx (superShape N sh)) : chi (sector r x) y = sectorPhase r y * chi x (cellOf y) := by
  unfold chi sectorPhase
  rw [← Finset.prod_mul_distrib]
  refine Finset.prod_congr rfl fun a _ => ?_
  obtain ⟨q, hq⟩ := subIdx_eq (r a) (x a)
  have hN : ((N a : ℕ) : ℂ) ≠ 0 := by exact_mod_cast (r a).pos.ne'
  have hn : ((sh a : ℕ) : ℂ) ≠ 0 := by exact_mod_cast (x a).pos.ne'
  rw [← exp_add, exp_eq_exp_iff_exists_int]
  have hs : ((sector r x a : ℕ) : ℂ) = (N a : ℂ) * (x a : ℕ) + ((foldOffset (N a) (sh a) + (r a : ℕ) : ℤ) : ℂ) - N a * sh a * q := by
    have := congrArg (fun z : ℤ => (z : ℂ)) hq
    simp only [sector]
    push_cast at this ⊢
    exact this
  have hy : ((y a : ℕ) : ℂ) = (cellOf y a : ℕ) + (sh a : ℂ) * ((y a : ℕ) / sh a : ℕ) := by
    have := Nat.mod_add_div (y a : ℕ) (sh a)
    have h2 : ((cellOf y a : Fin (sh a)) : ℕ) = (y a : ℕ) % sh a := rfl
    rw [h2]; exact_mod_cast this.symm
  refine ⟨(x a : ℕ) * (((y a : ℕ) / sh a : ℕ) : ℤ) - q * (y a : ℕ), ?_⟩
  rw [hs]
  generalize (((y a : ℕ) / sh a : ℕ)) = t at hy ⊢
  push_cast
  rw [hy]
  field_simp
  ring

theorem sectorPhase_ne (r : Idx N) (y : Idx (superShape N sh)) : sectorPhase r y ≠ 0 := Finset.prod_ne_zero_iff.2 fun _ _ => exp_ne_zero _

theorem geom (N : ℕ) (d : ℤ) (h0 : d ≠ 0) (h : |d| < N) : ∑ t : Fin N, exp (2 * Real.pi * I * d * (t : ℕ) / N) = 0 := by
  have hN : (N : ℂ) ≠ 0 := by
    have : (0 : ℤ) < N := lt_of_le_of_lt (abs_nonneg d) h
    exact_mod_cast this.ne'
  set ζ := exp (2 * Real.pi * I * d / N) with hζ
  have e : ∀ t : Fin N, exp (2 * Real.pi * I * d * (t : ℕ) / N) = ζ ^ (t : ℕ) := fun t => by
    rw [hζ, ← exp_nat_mul]; congr 1; ring
  simp only [e]
  rw [Fin.sum_univ_eq_sum_range (fun t => ζ ^ t) N]
  have h1 : ζ ^ N = 1 := by
    rw [hζ, ← exp_nat_mul, exp_eq_one_iff]
    exact ⟨d, by field_simp⟩
  have h2 : ζ ≠ 1 := by
    rw [hζ, Ne, exp_eq_one_iff]
    rintro ⟨m, hm⟩
    have hm' : (d : ℂ) = N * m := by
      have hp : (2 * Real.pi * I : ℂ) ≠ 0 := two_pi_I_ne_zero
      have := mul_left_cancel₀ hp (show 2 * Real.pi * I * ((d : ℂ) / N) = 2 * Real.pi * I * m by rw [← mul_div_assoc, hm]; ring)
      rw [div_eq_iff hN] at this
      rw [this]; ring
    have hm'' : d = N * m := by exact_mod_cast hm'
    exact h0 (Int.eq_zero_of_abs_lt_dvd ⟨m, hm''⟩ h)
  have := mul_geom_sum ζ N
  rw [h1, sub_self] at this
  exact (mul_eq_zero.1 this).resolve_left (sub_ne_zero.2 h2)

/-- The phases of two sectors are orthogonal over the copies of every point. -/
theorem fold_phase [DecidableEq (Idx N)] (r s : Idx N) (x : Idx sh) :
    SuperAux.foldA (fun y => (sectorPhase s y)⁻¹ * sectorPhase r y) x = if r = s then ((∏ a, N a : ℕ) : ℂ) else 0 := by
  unfold SuperAux.foldA
  have h1 : ∑ y : Idx (superShape N sh), (if cellOf y = x then (sectorPhase s y)⁻¹ * sectorPhase r y else 0) =
      ∑ q : Idx N × Idx sh, if q.2 = x then ∏ a, (exp (2 * Real.pi * I * (((r a : ℕ) - (s a : ℕ) : ℤ) : ℂ) * (x a : ℕ) / ((N a * sh a : ℕ) : ℂ)) *
        exp (2 * Real.pi * I * (((r a : ℕ) - (s a : ℕ) : ℤ) : ℂ) * (q.1 a : ℕ) / N a)) else 0 := by
    refine Fintype.sum_equiv (SuperAux.splitIdx N sh) _ _ fun y => ?_
    by_cases h : cellOf y = x
    · rw [if_pos h, if_pos (show (SuperAux.splitIdx N sh y).2 = x from h)]
      unfold sectorPhase
      rw [← Finset.prod_inv_distrib, ← Finset.prod_mul_distrib]
      refine Finset.prod_congr rfl fun a _ => ?_
      have hN : ((N a : ℕ) : ℂ) ≠ 0 := by exact_mod_cast (r a).pos.ne'
      have hn : ((sh a : ℕ) : ℂ) ≠ 0 := by exact_mod_cast (x a).pos.ne'
      have hy : ((y a : ℕ) : ℂ) = (x a : ℕ) + (sh a : ℂ) * ((SuperAux.splitIdx N sh y).1 a : ℕ) := by
        have := Nat.mod_add_div (y a : ℕ) (sh a)
        have h2 : ((x a : Fin (sh a)) : ℕ) = (y a : ℕ) % sh a := by rw [← h]; rfl
        have h3 : ((SuperAux.splitIdx N sh y).1 a : ℕ) = (y a : ℕ) / sh a := rfl
        rw [h2, h3]; exact_mod_cast this.symm
      rw [← exp_neg, ← exp_add, ← exp_add]
      congr 1
      rw [hy]
      push_cast
      field_simp
      ring
    · rw [if_neg h, if_neg (show ¬ (SuperAux.splitIdx N sh y).2 = x from h)]
  rw [h1, Fintype.sum_prod_type]
  simp only [Finset.sum_ite_eq', Finset.mem_univ, if_true, Finset.prod_mul_distrib]
  rw [← Finset.mul_sum]
  have h2 : ∑ t : Idx N, ∏ a, exp (2 * Real.pi * I * (((r a : ℕ) - (s a : ℕ) : ℤ) : ℂ) * (t a : ℕ) / N a) =
      ∏ a, ∑ t : Fin (N a), exp (2 * Real.pi * I * (((r a : ℕ) - (s a : ℕ) : ℤ) : ℂ) * (t : ℕ) / N a) :=
    (Fintype.prod_sum fun a (t : Fin (N a)) => exp (2 * Real.pi * I * (((r a : ℕ) - (s a : ℕ) : ℤ) : ℂ) * (t : ℕ) / N a)).symm
  rw [h2]
  split_ifs with hrs
  · subst hrs
    simp
  · obtain ⟨a, ha⟩ : ∃ a, r a ≠ s a := by
      by_contra hc; push Not at hc; exact hrs (funext hc)
    have hr := (r a).isLt
    have hs := (s a).isLt
    have hg := geom (N a) ((r a : ℕ) - (s a : ℕ)) (fun h => ha (Fin.ext (by omega))) (by rw [abs_lt]; constructor <;> omega)
    refine mul_eq_zero_of_right _ (Finset.prod_eq_zero (Finset.mem_univ a) hg)

/-- Inverse transform in the supercell, sector by sector. -/
theorem ifftn_super (f : Arr (superShape N sh) ℂ) (y : Idx (superShape N sh)) :
    ifftn f y = (∑ r : Idx N, sectorPhase r y * ifftn (fun x => f (sector r x)) (cellOf y)) / ((∏ a, N a : ℕ) : ℂ) := by
  unfold ifftn
  have h1 : ∑ k, chi k y * f k = ∑ r : Idx N, ∑ x : Idx sh, chi (sector r x) y * f (sector r x) := by
    rw [← Fintype.sum_prod_type']
    exact (Fintype.sum_equiv (sectorEquiv N sh) _ _ fun p => rfl).symm
  have h2 : (Fintype.card (Idx (superShape N sh)) : ℂ) = ((∏ a, N a : ℕ) : ℂ) * (Fintype.card (Idx sh) : ℂ) := by
    have := Fintype.card_congr (sectorEquiv N sh)
    rw [Fintype.card_prod] at this
    rw [← this]
    simp [Idx, Fintype.card_pi]
  rw [h1, h2, mul_comm ((∏ a, N a : ℕ) : ℂ), ← div_div]
  congr 1
  rw [Finset.sum_div]
  refine Finset.sum_congr rfl fun r _ => ?_
  rw [mul_div_assoc', Finset.mul_sum]
  congr 1
  refine Finset.sum_congr rfl fun x _ => ?_
  rw [chi_sector]; ring

/-- Transform in the supercell at a plane wave of sector `r`. -/
theorem fftn_super (f : Arr (superShape N sh) ℂ) (r : Idx N) (x : Idx sh) :
    fftn f (sector r x) = fftn (SuperAux.foldA fun y => (sectorPhase r y)⁻¹ * f y) x := by
  unfold fftn SuperAux.foldA
  simp only [Finset.mul_sum]
  rw [Finset.sum_comm]
  refine Finset.sum_congr rfl fun y _ => ?_
  simp only [mul_ite, mul_zero, Finset.sum_ite_eq, Finset.mem_univ, if_true, chi_sector, mul_inv]
  ring

/-- Division by a periodic function does not mix the sectors. -/
theorem convolve (hN : ∀ a, 0 < N a) (d : Arr (superShape N sh) ℂ) (eps : Arr sh ℂ) (s : Idx N) (x : Idx sh) :
    fftn (fun y => ifftn d y / eps (cellOf y)) (sector s x) = fftn (fun y => ifftn (fun x => d (sector s x)) y / eps y) x := by
  classical
  have hp : ((∏ a, N a : ℕ) : ℂ) ≠ 0 := by
    rw [Nat.cast_ne_zero]; exact Finset.prod_ne_zero_iff.2 fun a _ => (hN a).ne'
  rw [fftn_super]
  congr 1
  funext y
  have h1 : (SuperAux.foldA fun y : Idx (superShape N sh) => (sectorPhase s y)⁻¹ * (ifftn d y / eps (cellOf y))) y =
      ∑ r : Idx N, ifftn (fun x => d (sector r x)) y / eps y / ((∏ a, N a : ℕ) : ℂ) * SuperAux.foldA (fun y => (sectorPhase s y)⁻¹ * sectorPhase r y) y := by
    unfold SuperAux.foldA
    simp only [Finset.mul_sum]
    rw [Finset.sum_comm]
    refine Finset.sum_congr rfl fun z _ => ?_
    by_cases h : cellOf z = y
    · simp only [if_pos h]
      rw [ifftn_super, h]
      simp only [div_eq_mul_inv, Finset.sum_mul, Finset.mul_sum]
      refine Finset.sum_congr rfl fun r _ => ?_
      ring
    · simp only [if_neg h, mul_zero, Finset.sum_const_zero]
  rw [h1]
  simp only [fold_phase, mul_ite, mul_zero, Finset.sum_ite_eq', Finset.mem_univ, if_true]
  field_simp

section
variable (k0 : Fin 3 → ℝ) (G : Matrix (Fin 3) (Fin 3) ℝ)

theorem mVec_sector (r : Idx N) (x : Idx sh) : mVec k0 (superG N G) (sector r x) = mVec (sectorK sh k0 r) G x := by
  unfold mVec; rw [kxyz_sector]
theorem nVec_sector (r : Idx N) (x : Idx sh) : nVec k0 (superG N G) (sector r x) = nVec (sectorK sh k0 r) G x := by
  unfold nVec; rw [kxyz_sector, mVec_sector]
theorem kMag_sector (r : Idx N) (x : Idx sh) : kMag k0 (superG N G) (sector r x) = kMag (sectorK sh k0 r) G x := by
  unfold kMag; rw [kxyz_sector]

theorem nAll_some_iff (k0 : Fin 3 → ℝ) (G : Matrix (Fin 3) (Fin 3) ℝ) (sh : Fin 3 → ℕ) (n : Idx sh → Fin 3 → ℝ) :
    nAll k0 G sh = some n ↔ (∀ x : Idx sh, nVec k0 G x ≠ none) ∧ n = fun x => (nVec k0 G x).getD 0 := by
  unfold nAll
  split_ifs with h
  · obtain ⟨x, hx⟩ := h
    simp only [false_iff, not_and]
    exact fun hh => absurd hx (hh x)
  · push Not at h
    simp only [Option.some.injEq]
    exact ⟨fun e => ⟨h, e.symm⟩, fun e => e.2.symm⟩

end

end FoldAux

open FoldAux

section
variable (k0 : Fin 3 → ℝ) (G : Matrix (Fin 3) (Fin 3) ℝ)

/-- **C158 (operator).** On a supercell, `maxwell_operator` is the direct sum of the operators of the unit cell at the `∏ N` Bloch vectors `sectorK`: it gives finite numbers exactly if all of them
do, and its result in each sector of plane waves is the result of the unit cell. -/
theorem C158_operator (hN : ∀ a, 0 < N a) (eps : VField sh ℂ) (h b : Hmn (superShape N sh)) :
    maxwellOperator k0 (superG N G) (tileV N eps) h = some b ↔
    ∀ r : Idx N, maxwellOperator (sectorK sh k0 r) G eps (fun i x => h i (sector r x)) = some fun i x => b i (sector r x) := by
  have hz : (∃ c x, tileV N eps c x = 0) ↔ ∃ c x, eps c x = 0 := by
    constructor
    · rintro ⟨c, x, hx⟩; exact ⟨c, _, hx⟩
    · rintro ⟨c, x, hx⟩
      obtain ⟨y, hy⟩ := SuperAux.cellOf_surj hN x
      exact ⟨c, y, by rw [tileV, hy, hx]⟩
  have r0 : Idx N := fun a => ⟨0, hN a⟩
  unfold maxwellOperator
  simp only [hz]
  split_ifs with h0
  · simp only [false_iff, not_forall]
    exact ⟨r0, not_false⟩
  simp only [Option.map_eq_some_iff, nAll_some_iff]
  have hd : ∀ (r : Idx N) (c : Fin 3), (fun x => dXyz k0 (superG N G) (fun x => (nVec k0 (superG N G) x).getD 0) h c (sector r x)) =
      dXyz (sectorK sh k0 r) G (fun x => (nVec (sectorK sh k0 r) G x).getD 0) (fun i x => h i (sector r x)) c := by
    intro r c
    funext x
    simp only [dXyz, mVec_sector, nVec_sector, kMag_sector]
  have hc : ∀ (r : Idx N) (c : Fin 3) (x : Idx sh), fftn (fun y => ifftn (dXyz k0 (superG N G) (fun x => (nVec k0 (superG N G) x).getD 0) h c) y / tileV N eps c y) (sector r x) =
      fftn (fun y => ifftn (dXyz (sectorK sh k0 r) G (fun x => (nVec (sectorK sh k0 r) G x).getD 0) (fun i x => h i (sector r x)) c) y / eps c y) x := by
    intro r c x
    rw [← hd]
    exact convolve hN _ (eps c) r x
  constructor
  · rintro ⟨n, ⟨h1, rfl⟩, h2⟩ r
    refine ⟨_, ⟨fun x => ?_, rfl⟩, ?_⟩
    · rw [← nVec_sector]; exact h1 _
    · funext i x
      rw [← h2]
      simp only [hc, mVec_sector, nVec_sector, kMag_sector]
  · intro hr
    refine ⟨_, ⟨fun y => ?_, rfl⟩, ?_⟩
    · obtain ⟨r, x, rfl⟩ := exists_sector y
      obtain ⟨n, ⟨h1, -⟩, -⟩ := hr r
      rw [nVec_sector]; exact h1 x
    · funext i y
      obtain ⟨r, x, rfl⟩ := exists_sector y
      obtain ⟨n, ⟨-, rfl⟩, h2⟩ := hr r
      have := congrFun (congrFun h2 i) x
      simp only at this
      rw [← this]
      simp only [hc, mVec_sector, nVec_sector, kMag_sector]

/-- **C158 (bands).** The bands of a supercell are the bands of its unit cell at the Bloch vectors `sectorK`, all of them and no others. -/
theorem C158_bands (hN : ∀ a, 0 < N a) (eps : VField sh ℂ) (he : ∀ c x, eps c x ≠ 0) (hreg : ∀ r : Idx N, Regular (sectorK sh k0 r) G sh) (lam : ℂ) :
    (∃ h : Hmn (superShape N sh), h ≠ 0 ∧ maxwellOperator k0 (superG N G) (tileV N eps) h = some fun i x => lam * h i x) ↔
    ∃ (r : Idx N) (h : Hmn sh), h ≠ 0 ∧ maxwellOperator (sectorK sh k0 r) G eps h = some fun i x => lam * h i x := by
  classical
  constructor
  · rintro ⟨h, h0, hh⟩
    obtain ⟨i, y, hy⟩ : ∃ i y, h i y ≠ 0 := by
      by_contra hc; push Not at hc; exact h0 (funext fun i => funext fun y => hc i y)
    obtain ⟨r, x, rfl⟩ := exists_sector y
    exact ⟨r, fun i x => h i (sector r x), fun hc => hy (congrFun (congrFun hc i) x), (C158_operator k0 G hN eps h _).1 hh r⟩
  · rintro ⟨r, h, h0, hh⟩
    let H : Hmn (superShape N sh) := fun i y => if ((sectorEquiv N sh).symm y).1 = r then h i ((sectorEquiv N sh).symm y).2 else 0
    have hH : ∀ s x i, H i (sector s x) = if s = r then h i x else 0 := by
      intro s x i
      simp only [H, ← sectorEquiv_apply, Equiv.symm_apply_apply]
    refine ⟨H, fun hc => h0 (funext fun i => funext fun x => ?_), (C158_operator k0 G hN eps H _).2 fun s => ?_⟩
    · have := congrFun (congrFun hc i) (sector r x)
      rw [hH, if_pos rfl] at this
      exact this
    · by_cases hs : s = r
      · subst hs
        simp only [hH, if_true]
        exact hh
      · simp only [hH, if_neg hs, mul_zero]
        obtain ⟨n, hn, -⟩ := nAll_regular _ _ (hreg s)
        obtain ⟨b, hb, -⟩ := maxwell_eq _ _ hn he (0 : Hmn sh)
        have hz : b = fun _ _ => 0 := by
          unfold maxwellOperator at hb
          split_ifs at hb
          obtain ⟨n, -, rfl⟩ := Option.map_eq_some_iff.1 hb
          funext i x
          simp [dXyz, ifftn, fftn]
        subst hz
        exact hb

/-- **C158 (fields).** The fields of a mode of the supercell are those of its sectors, each periodic in the unit cell times the phase of the sector. -/
theorem C158_fields (hN : ∀ a, 0 < N a) (eps : VField sh ℂ) (h : Hmn (superShape N sh)) :
    (∀ E, hmn2exyz k0 (superG N G) (tileV N eps) h = some E → ∃ e : Idx N → VField sh ℂ,
      (∀ r, hmn2exyz (sectorK sh k0 r) G eps (fun i x => h i (sector r x)) = some (e r)) ∧
      ∀ c y, E c y = (∑ r, sectorPhase r y * e r c (cellOf y)) / ((∏ a, N a : ℕ) : ℂ)) ∧
    ∀ H, hmn2hxyz k0 (superG N G) h = some H → ∃ g : Idx N → VField sh ℂ,
      (∀ r, hmn2hxyz (sectorK sh k0 r) G (fun i x => h i (sector r x)) = some (g r)) ∧
      ∀ c y, H c y = (∑ r, sectorPhase r y * g r c (cellOf y)) / ((∏ a, N a : ℕ) : ℂ) := by
  have hz : (∃ c x, tileV N eps c x = 0) ↔ ∃ c x, eps c x = 0 := by
    constructor
    · rintro ⟨c, x, hx⟩; exact ⟨c, _, hx⟩
    · rintro ⟨c, x, hx⟩
      obtain ⟨y, hy⟩ := SuperAux.cellOf_surj hN x
      exact ⟨c, y, by rw [tileV, hy, hx]⟩
  constructor
  · intro E hE
    unfold hmn2exyz at hE ⊢
    simp only [hz] at hE
    split_ifs at hE with h0
    simp only [if_neg h0]
    simp only [Option.map_eq_some_iff, nAll_some_iff] at hE ⊢
    obtain ⟨n, ⟨h1, rfl⟩, rfl⟩ := hE
    refine ⟨_, fun r => ⟨_, ⟨fun x => by rw [← nVec_sector]; exact h1 _, rfl⟩, rfl⟩, fun c y => ?_⟩
    simp only
    rw [ifftn_super]
    simp only [tileV, div_eq_mul_inv, Finset.sum_mul]
    refine Finset.sum_congr rfl fun r _ => ?_
    have hd : (fun x => dXyz k0 (superG N G) (fun x => (nVec k0 (superG N G) x).getD 0) h c (sector r x)) =
        dXyz (sectorK sh k0 r) G (fun x => (nVec (sectorK sh k0 r) G x).getD 0) (fun i x => h i (sector r x)) c := by
      funext x
      simp only [dXyz, mVec_sector, nVec_sector, kMag_sector]
    rw [hd]; ring
  · intro H hH
    unfold hmn2hxyz at hH ⊢
    simp only [Option.map_eq_some_iff, nAll_some_iff] at hH ⊢
    obtain ⟨n, ⟨h1, rfl⟩, rfl⟩ := hH
    refine ⟨_, fun r => ⟨_, ⟨fun x => by rw [← nVec_sector]; exact h1 _, rfl⟩, rfl⟩, fun c y => ?_⟩
    simp only
    rw [ifftn_super]
    simp only [mVec_sector, nVec_sector]

/-- **C158 (phase).** One unit cell further along axis `a`, the phase of a sector has advanced by `exp(2πi j / N)`: the Bloch condition of the sector. -/
theorem C158_phase (r : Idx N) (a : Fin 3) (y : Idx (superShape N sh)) :
    sectorPhase r (shiftIdx a (sh a) y) = exp (2 * Real.pi * I * ((foldOffset (N a) (sh a) + (r a : ℕ) : ℤ) : ℂ) / (N a : ℕ)) * sectorPhase r y := by
  unfold sectorPhase
  rw [← Finset.mul_prod_erase Finset.univ _ (Finset.mem_univ a), ← Finset.mul_prod_erase Finset.univ _ (Finset.mem_univ a), ← mul_assoc]
  congr 1
  · have hpos : 0 < N a * sh a := (y a).pos
    have hN : ((N a : ℕ) : ℂ) ≠ 0 := Nat.cast_ne_zero.2 (Nat.pos_of_mul_pos_right hpos).ne'
    have hn : ((sh a : ℕ) : ℂ) ≠ 0 := Nat.cast_ne_zero.2 (Nat.pos_of_mul_pos_left hpos).ne'
    rw [← exp_add, shiftIdx_same, exp_eq_exp_iff_exists_int]
    have h0 := Int.emod_nonneg ((y a : ℕ) + sh a : ℤ) (by exact_mod_cast hpos.ne' : ((N a * sh a : ℕ) : ℤ) ≠ 0)
    have hm := Int.emod_add_mul_ediv ((y a : ℕ) + sh a : ℤ) (N a * sh a : ℕ)
    have hw : ((wrap (y a) (sh a) : Fin (N a * sh a)) : ℕ) = (((y a : ℕ) + sh a : ℤ) % (N a * sh a : ℕ)).toNat := rfl
    have hc : (((wrap (y a) (sh a) : Fin (N a * sh a)) : ℕ) : ℂ) = (y a : ℕ) + sh a - (N a : ℕ) * (sh a : ℕ) * ((((y a : ℕ) + sh a) / (N a * sh a : ℕ) : ℤ) : ℂ) := by
      have : (((wrap (y a) (sh a) : Fin (N a * sh a)) : ℕ) : ℤ) = (y a : ℕ) + sh a - (N a : ℕ) * (sh a : ℕ) * (((y a : ℕ) + sh a) / (N a * sh a : ℕ)) := by
        rw [hw, Int.toNat_of_nonneg h0]; push_cast at hm ⊢; linarith
      exact_mod_cast congrArg (fun z : ℤ => (z : ℂ)) this
    refine ⟨-((foldOffset (N a) (sh a) + (r a : ℕ)) * (((y a : ℕ) + sh a) / (N a * sh a : ℕ))), ?_⟩
    rw [hc]
    generalize ((((y a : ℕ) + sh a) / (N a * sh a : ℕ) : ℤ)) = q
    push_cast
    field_simp
    ring
  · refine Finset.prod_congr rfl fun b hb => ?_
    rw [shiftIdx_of_ne (Finset.ne_of_mem_erase hb)]

/-- Half-integer Bloch vectors along x keep every plane wave off the y axis. -/
example (k1 k2 : ℝ) (r : Idx N) : Regular (sectorK sh ![1 / 2, k1, k2] r) 1 sh := by
  rintro x k hw ⟨h0, -, -⟩
  obtain rfl := hw.eq
  have hN : ((N 0 : ℕ) : ℝ) ≠ 0 := by exact_mod_cast (r 0).pos.ne'
  simp only [kxyz, one_mulVec, sectorK, cons_val_zero, sub_eq_zero] at h0
  rw [div_eq_iff hN] at h0
  have : ((1 : ℤ) : ℝ) = ((2 * (fftfreq (sh 0) (x 0) * N 0 + (foldOffset (N 0) (sh 0) + (r 0 : ℕ))) : ℤ) : ℝ) := by
    push_cast at h0 ⊢; linarith
  have := Int.cast_injective this
  omega

end
end Meanas.Props
