/-
Properties C01–C08: discrete calculus (meanas/fdmath).
-/
import Verif.Lemmas.Operators
import Verif.Lemmas.Functional
import Mathlib.Data.Rat.Defs
import Mathlib.Algebra.Field.Rat
import Mathlib.Tactic.NormNum

namespace Meanas.Props

open Matrix Functional Spec

variable {K : Type*} [Field K]

/-! ## C01 — sparse and functional operators agree -/

/-- C01 (derivatives): on a 3D grid the sparse forward derivative never raises and, applied to the flattened field,
gives the functional derivative at the C-order position of every cell. -/
theorem C01_deriv_forward {sh : Fin 3 → ℕ} (dx : DxList sh K) (a : Fin 3) (f : Arr sh K) :
    ∃ M, Operators.derivForward dx a = .ok M ∧
      ∀ x : Idx sh, (M *ᵥ fun r => f (unravelIdx sh r)) (ravelIdx sh x) = derivForward (some dx) a f x := by
  refine ⟨_, Operators.derivForward_ok (Or.inr rfl) dx a, fun x => ?_⟩
  rw [← OperatorsS.derivForward_mulVec]
  simp only [mulVec, dotProduct, reindex_apply, submatrix_apply, ravelEquiv_symm_apply, unravel_ravel]
  exact Equiv.sum_comp (ravelEquiv sh).symm (fun y => OperatorsS.derivForward dx a x y * f y)

/-- C01 (derivatives), backward variant. -/
theorem C01_deriv_back {sh : Fin 3 → ℕ} (dx : DxList sh K) (a : Fin 3) (f : Arr sh K) :
    ∃ M, Operators.derivBack dx a = .ok M ∧
      ∀ x : Idx sh, (M *ᵥ fun r => f (unravelIdx sh r)) (ravelIdx sh x) = derivBack (some dx) a f x := by
  refine ⟨_, Operators.derivBack_ok (Or.inr rfl) dx a, fun x => ?_⟩
  rw [← OperatorsS.derivBack_mulVec]
  simp only [mulVec, dotProduct, reindex_apply, submatrix_apply, ravelEquiv_symm_apply, unravel_ravel]
  exact Equiv.sum_comp (ravelEquiv sh).symm (fun y => OperatorsS.derivBack dx a x y * f y)

/-- C01 (derivatives) on 2D grids, both variants: the sparse derivatives never raise and agree with the functional ones. -/
theorem C01_deriv_2d {sh : Fin 2 → ℕ} (dx : DxList sh K) (a : Fin 2) (f : Arr sh K) :
    (∃ M, Operators.derivForward dx a = .ok M ∧
      ∀ x : Idx sh, (M *ᵥ fun r => f (unravelIdx sh r)) (ravelIdx sh x) = derivForward (some dx) a f x) ∧
    ∃ M, Operators.derivBack dx a = .ok M ∧
      ∀ x : Idx sh, (M *ᵥ fun r => f (unravelIdx sh r)) (ravelIdx sh x) = derivBack (some dx) a f x := by
  refine ⟨⟨_, Operators.derivForward_ok (Or.inl rfl) dx a, fun x => ?_⟩, _, Operators.derivBack_ok (Or.inl rfl) dx a, fun x => ?_⟩
  · rw [← OperatorsS.derivForward_mulVec]
    simp only [mulVec, dotProduct, reindex_apply, submatrix_apply, ravelEquiv_symm_apply, unravel_ravel]
    exact Equiv.sum_comp (ravelEquiv sh).symm (fun y => OperatorsS.derivForward dx a x y * f y)
  · rw [← OperatorsS.derivBack_mulVec]
    simp only [mulVec, dotProduct, reindex_apply, submatrix_apply, ravelEquiv_symm_apply, unravel_ravel]
    exact Equiv.sum_comp (ravelEquiv sh).symm (fun y => OperatorsS.derivBack dx a x y * f y)

/-- C01 (curls): `unvec(operators.curl_forward(dx) @ vec(F)) = functional.curl_forward(dx)(F)`. -/
theorem C01_curl_forward {sh : Fin 3 → ℕ} (dx : DxList sh K) (F : VField sh K) :
    ∃ M, Operators.curlForward dx = .ok M ∧ unvecField (M *ᵥ vecField F) = curlForward (some dx) F := by
  refine ⟨_, Operators.curlForward_ok dx, ?_⟩
  funext c x
  rw [unvec_mulVec_vec, OperatorsS.curlForward_mulVec]

/-- C01 (curls), backward variant. -/
theorem C01_curl_back {sh : Fin 3 → ℕ} (dx : DxList sh K) (F : VField sh K) :
    ∃ M, Operators.curlBack dx = .ok M ∧ unvecField (M *ᵥ vecField F) = curlBack (some dx) F := by
  refine ⟨_, Operators.curlBack_ok dx, ?_⟩
  funext c x
  rw [unvec_mulVec_vec, OperatorsS.curlBack_mulVec]

/-- C01, spelled out without the model's operators: each entry of the sparse forward curl of `F` is the textbook
difference of neighbouring cells (`y1`, `y2` are the cells one step further along the other two axes, with
wrap-around). Stated for component 0; the statement for the others is `C01_curl_forward`. -/
theorem C01_curl_forward_x {sh : Fin 3 → ℕ} (dx : DxList sh K) (F : VField sh K) (x y1 y2 : Idx sh)
    (h1 : (y1 1 : ℕ) = ((x 1 : ℕ) + 1) % sh 1 ∧ y1 0 = x 0 ∧ y1 2 = x 2)
    (h2 : (y2 2 : ℕ) = ((x 2 : ℕ) + 1) % sh 2 ∧ y2 0 = x 0 ∧ y2 1 = x 1) :
    ∃ M, Operators.curlForward dx = .ok M ∧
      unvecField (M *ᵥ vecField F) 0 x
        = (F 2 y1 - F 2 x) / dx 1 (x 1) - (F 1 y2 - F 1 x) / dx 2 (x 2) := by
  obtain ⟨M, hM, h⟩ := C01_curl_forward dx F
  refine ⟨M, hM, ?_⟩
  rw [h, curlForward_0, derivForward_eq, derivForward_eq]
  have e1 : shiftIdx 1 1 x = y1 := by
    funext c; revert c; apply forall_fin3
    · rw [shiftIdx_of_ne (by decide), h1.2.1]
    · rw [shiftIdx_same]; apply fin_ext_int; rw [wrap_val, h1.1]; push_cast; rfl
    · rw [shiftIdx_of_ne (by decide), h1.2.2]
  have e2 : shiftIdx 2 1 x = y2 := by
    funext c; revert c; apply forall_fin3
    · rw [shiftIdx_of_ne (by decide), h2.2.1]
    · rw [shiftIdx_of_ne (by decide), h2.2.2]
    · rw [shiftIdx_same]; apply fin_ext_int; rw [wrap_val, h2.1]; push_cast; rfl
  rw [e1, e2]; rfl

-- Non-vacuity: a 2×3×1 grid with non-uniform widths; the curl of a field with a single spike is not zero.
example : curlForward (sh := ![2, 3, 1]) (K := ℚ) (some fun a i => (a : ℚ) + i + 1)
    (fun c x => if c = 2 ∧ (x 1 : ℕ) = 0 then 1 else 0) 0 (fun a => ⟨0, by fin_cases a <;> decide⟩) = -1 / 2 := by
  decide +kernel

/-- C01: values of the functional derivatives, written out (periodic neighbour, width of the own lattice, or 1). -/
theorem C01_deriv_values {d : ℕ} {sh : Fin d → ℕ} (dx : Option (DxList sh K)) (a : Fin d) (f : Arr sh K) (x : Idx sh) :
    derivForward dx a f x = (f (shiftIdx a 1 x) - f x) / wOf dx a (x a)
      ∧ derivBack dx a f x = (f x - f (shiftIdx a (-1) x)) / wOf dx a (x a) :=
  ⟨derivForward_eq dx a f x, derivBack_eq dx a f x⟩

/-- C01: values of the functional curls: component `c` is `∂_{c+1} F_{c+2} - ∂_{c+2} F_{c+1}` (indices mod 3). -/
theorem C01_curl_values {sh : Fin 3 → ℕ} (dx : Option (DxList sh K)) (F : VField sh K) (c : Fin 3) (x : Idx sh) :
    curlForward dx F c x = gradForward dx (F (c + 2)) (c + 1) x - gradForward dx (F (c + 1)) (c + 2) x
      ∧ curlBack dx F c x = gradBack dx (F (c + 2)) (c + 1) x - gradBack dx (F (c + 1)) (c + 2) x := by
  revert c; apply forall_fin3 <;> simp [gradForward, gradBack, derivForward_eq, derivBack_eq]

/-! ## C02 — vec / unvec -/

/-- C02 (round trip). -/
theorem C02_unvec_vec {d : ℕ} {sh : Fin d → ℕ} {nv : ℕ} {V : Type*} (F : Option (Fin nv → Arr sh V)) :
    unvec sh nv (vec F) = .ok F := by
  cases F with
  | none => rfl
  | some F =>
    show (if h : nv * size sh = nv * size sh then _ else _) = _
    rw [dif_pos rfl]
    exact congrArg (fun G => Except.ok (some G)) (unvecField_vecField F)

/-- C02 (round trip, other direction): whenever `unvec` succeeds, `vec` restores the vector. -/
theorem C02_vec_unvec {d : ℕ} {sh : Fin d → ℕ} {nv n : ℕ} {V : Type*} (v : Option (Fin n → V))
    (F : Option (Fin nv → Arr sh V)) (h : unvec sh nv v = .ok F) :
    (v = none ∧ vec F = none) ∨ (∃ (hn : n = nv * size sh) (w : Fin n → V), v = some w ∧
      vec F = some (fun r => w (Fin.cast hn.symm r))) := by
  cases v with
  | none => left; simp only [unvec, Except.ok.injEq] at h; subst h; exact ⟨rfl, rfl⟩
  | some w =>
    right
    simp only [unvec] at h
    by_cases hn : n = nv * size sh
    · rw [dif_pos hn] at h
      simp only [Except.ok.injEq] at h
      subst h
      exact ⟨hn, w, rfl, congrArg some (vecField_unvecField _)⟩
    · rw [dif_neg hn] at h; cases h

/-- C02 (error branch): `unvec` of a vector raises exactly when the length is wrong. -/
theorem C02_unvec_error_iff {d : ℕ} {sh : Fin d → ℕ} {nv n : ℕ} {V : Type*} (v : Fin n → V) :
    (∃ F, unvec sh nv (some v) = .ok F) ↔ n = nv * ∏ a, sh a := by
  simp only [unvec]
  constructor
  · rintro ⟨F, hF⟩
    by_contra hn
    have hn' : ¬ n = nv * size sh := hn
    rw [dif_neg hn'] at hF
    cases hF
  · intro hn
    have hn' : n = nv * size sh := hn
    exact ⟨_, dif_pos hn'⟩

/-- C02 (layout, 3D): component `c` of cell `(i,j,k)` is stored at `((c*nx+i)*ny+j)*nz+k`. -/
theorem C02_position_3d {sh : Fin 3 → ℕ} {nv : ℕ} {V : Type*} (F : Fin nv → Arr sh V) (c : Fin nv) (x : Idx sh)
    (r : Fin (nv * size sh))
    (hr : (r : ℕ) = (((c : ℕ) * sh 0 + x 0) * sh 1 + x 1) * sh 2 + x 2) : vecField F r = F c x := by
  have hr' : r = finProdFinEquiv (c, ravelIdx sh x) := by
    apply Fin.ext
    rw [hr]
    simp only [finProdFinEquiv, Equiv.coe_fn_mk, ravelIdx_val]
    simp only [ravelNat, size, Fin.prod_univ_three]
    simp only [Fin.last, Fin.castSucc, Fin.castAdd, Fin.castLE]
    show _ = ((0 * sh 0 + (x 0 : ℕ)) * sh 1 + (x 1 : ℕ)) * sh 2 + (x 2 : ℕ) + sh 0 * sh 1 * sh 2 * (c : ℕ)
    ring
  rw [hr']; simp [vecField, unravel_ravel]

/-- C02 (layout, 2D): component `c` of cell `(i,j)` is stored at `(c*nx+i)*ny+j`. -/
theorem C02_position_2d {sh : Fin 2 → ℕ} {nv : ℕ} {V : Type*} (F : Fin nv → Arr sh V) (c : Fin nv) (x : Idx sh)
    (r : Fin (nv * size sh))
    (hr : (r : ℕ) = ((c : ℕ) * sh 0 + x 0) * sh 1 + x 1) : vecField F r = F c x := by
  have hr' : r = finProdFinEquiv (c, ravelIdx sh x) := by
    apply Fin.ext
    rw [hr]
    simp only [finProdFinEquiv, Equiv.coe_fn_mk, ravelIdx_val]
    simp only [ravelNat, size, Fin.prod_univ_two]
    simp only [Fin.last, Fin.castSucc, Fin.castAdd, Fin.castLE]
    show _ = (0 * sh 0 + (x 0 : ℕ)) * sh 1 + (x 1 : ℕ) + sh 0 * sh 1 * (c : ℕ)
    ring
  rw [hr']; simp [vecField, unravel_ravel]

example : vecField (sh := ![2, 3, 4]) (nv := 3)
    (fun c x => ((c : ℕ), (x 0 : ℕ), (x 1 : ℕ), (x 2 : ℕ))) ⟨67, by decide⟩ = (2, 1, 1, 3) := by decide +kernel

/-! ## C03 — circular shift -/

/-- C03: for every integer distance, row `x` of `shift_circ` picks the cell `y` that is `s` further along the axis modulo
its length. -/
theorem C03_shift_circ {d : ℕ} {sh : Fin d → ℕ} (hd : d = 2 ∨ d = 3) (a : Fin d) (s : ℤ) (f : Arr sh K)
    (x y : Idx sh) (hya : (y a : ℤ) = ((x a : ℤ) + s) % (sh a : ℤ)) (hyb : ∀ b, b ≠ a → y b = x b) :
    ∃ M, Operators.shiftCirc sh (a : ℤ) s = .ok M ∧
      (M *ᵥ fun r => f (unravelIdx sh r)) (ravelIdx sh x) = f y := by
  refine ⟨_, Operators.shiftCirc_ok hd a s, ?_⟩
  have hy : y = shiftIdx a s x := by
    funext b
    by_cases hb : b = a
    · subst hb; apply fin_ext_int; rw [hya, shiftIdx_same, wrap_val]
    · rw [hyb b hb, shiftIdx_of_ne hb]
  rw [hy, ← OperatorsS.shiftCirc_mulVec (K := K) a s f x]
  simp only [mulVec, dotProduct, reindex_apply, submatrix_apply, ravelEquiv_symm_apply, unravel_ravel]
  exact Equiv.sum_comp (ravelEquiv sh).symm (fun y => OperatorsS.shiftCirc a s x y * f y)

/-- C03 (group law, periodicity, transpose): shifts along one axis compose additively, shifting by the axis length is
the identity, and the transpose is the shift by `-s`. -/
theorem C03_shift_circ_group {d : ℕ} (sh : Fin d → ℕ) (hd : d = 2 ∨ d = 3) (a : Fin d) (s t k : ℤ) :
    ∃ Ms Mt Mst Mneg Mper M0 : Matrix (Fin (size sh)) (Fin (size sh)) K,
      Operators.shiftCirc sh (a : ℤ) s = .ok Ms ∧ Operators.shiftCirc sh (a : ℤ) t = .ok Mt ∧
      Operators.shiftCirc sh (a : ℤ) (s + t) = .ok Mst ∧ Operators.shiftCirc sh (a : ℤ) (-s) = .ok Mneg ∧
      Operators.shiftCirc sh (a : ℤ) (s + k * sh a) = .ok Mper ∧ Operators.shiftCirc sh (a : ℤ) 0 = .ok M0 ∧
      Ms * Mt = Mst ∧ Msᵀ = Mneg ∧ Ms * Mneg = 1 ∧ Mper = Ms ∧ M0 = 1 := by
  have hmul : ∀ s t : ℤ, (OperatorsS.shiftCirc a s * OperatorsS.shiftCirc a t : Matrix (Idx sh) (Idx sh) K)
      = OperatorsS.shiftCirc a (s + t) := by
    intro s t
    ext x y
    rw [Matrix.mul_apply, Finset.sum_eq_single (shiftIdx a s x)]
    · simp [OperatorsS.shiftCirc]
    · intro z _ hz; simp [OperatorsS.shiftCirc, hz]
    · simp
  have hzero : (OperatorsS.shiftCirc a 0 : Matrix (Idx sh) (Idx sh) K) = 1 := by
    ext x y
    simp [OperatorsS.shiftCirc, Matrix.one_apply, eq_comm]
  have hone : (Matrix.reindex (ravelEquiv sh) (ravelEquiv sh)) (1 : Matrix (Idx sh) (Idx sh) K) = 1 := by
    simp [reindex_apply]
  have htr : (OperatorsS.shiftCirc a s : Matrix (Idx sh) (Idx sh) K)ᵀ = OperatorsS.shiftCirc a (-s) := by
    ext x y
    simp only [OperatorsS.shiftCirc, transpose_apply, Matrix.of_apply]
    congr 1
    rw [eq_iff_iff, shiftIdx_eq_iff]
  refine ⟨_, _, _, _, _, _, Operators.shiftCirc_ok hd a s, Operators.shiftCirc_ok hd a t,
    Operators.shiftCirc_ok hd a (s + t), Operators.shiftCirc_ok hd a (-s), Operators.shiftCirc_ok hd a _,
    Operators.shiftCirc_ok hd a 0, ?_, ?_, ?_, ?_, ?_⟩
  · rw [← hmul]; simp [reindex_apply]
  · rw [← htr]; rfl
  · have h : s + -s = 0 := by ring
    rw [← hone, ← hzero, ← h, ← hmul]
    simp only [reindex_apply]
    rw [submatrix_mul_equiv]
  · congr 1
    ext x y
    simp only [OperatorsS.shiftCirc, Matrix.of_apply, shiftIdx_add_mul]
  · rw [hzero, hone]

/-- C03 (rejections): exactly the shapes that are not 2D/3D and the axes outside the shape are rejected. -/
theorem C03_shift_circ_error_iff {d : ℕ} (sh : Fin d → ℕ) (axis s : ℤ) :
    (∃ M : Matrix (Fin (size sh)) (Fin (size sh)) K, Operators.shiftCirc sh axis s = .ok M) ↔
      ((d = 2 ∨ d = 3) ∧ 0 ≤ axis ∧ axis < d) := by
  constructor
  · rintro ⟨M, hM⟩
    unfold Operators.shiftCirc at hM
    by_cases h1 : d = 2 ∨ d = 3
    · by_cases h2 : 0 ≤ axis ∧ axis < d
      · exact ⟨h1, h2⟩
      · rw [if_neg (not_not.mpr h1), if_pos h2] at hM; cases hM
    · rw [if_pos h1] at hM; cases hM
  · rintro ⟨hd, h0, h1⟩
    have : ((⟨axis.toNat, by omega⟩ : Fin d) : ℤ) = axis := by simp; omega
    rw [← this]
    exact ⟨_, Operators.shiftCirc_ok hd _ s⟩

example : ∃ x y : Idx ![3, 2], (y 0 : ℤ) = ((x 0 : ℤ) + (-4)) % (3 : ℤ) ∧ y 1 = x 1 ∧ y ≠ x :=
  ⟨fun a => ⟨0, by fin_cases a <;> decide⟩, fun a => if h : a = 0 then ⟨2, by subst h; decide⟩ else ⟨0, by fin_cases a <;> decide⟩,
    by decide, by decide, by intro h; exact absurd (congrFun h 0) (by decide)⟩

/-! ## C04 — mirror shift -/

/-- Auxiliary: value of the mirrored coordinate. -/
theorem mirroredRange_mem {n : ℕ} {s : ℤ} (h1 : -(n : ℤ) ≤ s) (h2 : s < n) {i : ℕ} (hi : i < n) :
    0 ≤ Operators.mirroredRange n s i ∧ Operators.mirroredRange n s i < n := by
  simp only [Operators.mirroredRange]
  split <;> split <;> omega

theorem mirroredRange_zero {n : ℕ} {i : ℕ} (hi : i < n) : Operators.mirroredRange n 0 i = i := by
  simp only [Operators.mirroredRange]
  split <;> split <;> omega

/-- C04: for `-n ≤ s < n` the operator is built, and row `x` picks the cell `y` obtained by reflecting `x + s` at the
domain edges: `y = x + s` inside, `-1 - (x+s)` below 0, `2n-1-(x+s)` beyond the end. -/
theorem C04_shift_with_mirror {d : ℕ} {sh : Fin d → ℕ} (hd : d = 2 ∨ d = 3) (a : Fin d) (s : ℤ)
    (h1 : -(sh a : ℤ) ≤ s) (h2 : s < sh a) (f : Arr sh K) :
    ∃ M, Operators.shiftWithMirror sh (a : ℤ) s = .ok M ∧
      ∀ x y : Idx sh, (∀ b, b ≠ a → y b = x b) →
        (0 ≤ (x a : ℤ) + s ∧ (x a : ℤ) + s < sh a → (y a : ℤ) = x a + s) →
        ((x a : ℤ) + s < 0 → (y a : ℤ) = -1 - (x a + s)) →
        ((sh a : ℤ) ≤ (x a : ℤ) + s → (y a : ℤ) = 2 * sh a - 1 - (x a + s)) →
        (M *ᵥ fun r => f (unravelIdx sh r)) (ravelIdx sh x) = f y := by
  have hax : (0 : ℤ) ≤ (a : ℤ) ∧ (a : ℤ) < d := ⟨by omega, by exact_mod_cast a.isLt⟩
  have haa : (⟨(a : ℤ).toNat, by omega⟩ : Fin d) = a := by apply Fin.ext; simp
  have hs : ¬ (s ≥ sh ⟨(a : ℤ).toNat, by omega⟩) := by rw [haa]; omega
  have hin : ∀ (b : Fin d) (i : Fin (sh b)),
      0 ≤ Operators.mirroredRange (sh b) (if (b : ℤ) = (a : ℤ) then s else 0) i ∧
      Operators.mirroredRange (sh b) (if (b : ℤ) = (a : ℤ) then s else 0) i < sh b := by
    intro b i
    by_cases hb : b = a
    · subst hb; rw [if_pos rfl]; exact mirroredRange_mem h1 h2 i.isLt
    · have hb' : ¬ ((b : ℤ) = (a : ℤ)) := fun hh => hb (Fin.ext (by exact_mod_cast hh))
      rw [if_neg hb', mirroredRange_zero i.isLt]
      have := i.isLt
      omega
  refine ⟨Operators.rowPick fun r => ravelNat sh (fun b =>
    (Operators.mirroredRange (sh b) (if (b : ℤ) = (a : ℤ) then s else 0) (unravelIdx sh r b)).toNat), ?_, ?_⟩
  · unfold Operators.shiftWithMirror
    rw [if_neg (not_not.mpr hd), dif_pos hax, if_neg hs]
    simp only []
    rw [if_neg]
    rintro ⟨r, b, hb⟩
    have := hin b (unravelIdx sh r b)
    omega
  · intro x y hb hin0 hlo hhi
    have hval : ravelNat sh (fun b => (Operators.mirroredRange (sh b) (if (b : ℤ) = (a : ℤ) then s else 0)
        (unravelIdx sh (ravelIdx sh x) b)).toNat) = ravelIdx sh y := by
      rw [ravelIdx_val, unravel_ravel]
      congr 1
      funext b
      by_cases hba : b = a
      · subst hba
        rw [if_pos rfl]
        have hx := (x b).isLt
        have : Operators.mirroredRange (sh b) s (x b) = (y b : ℤ) := by
          simp only [Operators.mirroredRange]
          split <;> split <;> omega
        rw [this]; simp
      · have hb' : ¬ ((b : ℤ) = (a : ℤ)) := fun hh => hba (Fin.ext (by exact_mod_cast hh))
        rw [if_neg hb', mirroredRange_zero (x b).isLt, hb b hba]; simp
    simp only [mulVec, dotProduct, Operators.rowPick, Matrix.of_apply, hval]
    simp only [Fin.val_inj, ite_mul, one_mul, zero_mul, Finset.sum_ite_eq', Finset.mem_univ, if_true,
      unravel_ravel]

/-- C04 (rejections): on a nonempty grid the operator exists exactly for `-n ≤ s < n` (valid axis and dimension).
Distances below `-n` pass meanas's own check but are rejected by numpy. -/
theorem C04_shift_with_mirror_ok_iff {d : ℕ} {sh : Fin d → ℕ} (hpos : ∀ b, 0 < sh b) (axis s : ℤ) :
    (∃ M : Matrix (Fin (size sh)) (Fin (size sh)) K, Operators.shiftWithMirror sh axis s = .ok M) ↔
      ((d = 2 ∨ d = 3) ∧ ∃ a : Fin d, (a : ℤ) = axis ∧ -(sh a : ℤ) ≤ s ∧ s < sh a) := by
  constructor
  · rintro ⟨M, hM⟩
    unfold Operators.shiftWithMirror at hM
    by_cases hd : d = 2 ∨ d = 3
    · by_cases hax : 0 ≤ axis ∧ axis < d
      · rw [if_neg (not_not.mpr hd), dif_pos hax] at hM
        have ha : (((⟨axis.toNat, by omega⟩ : Fin d) : ℕ) : ℤ) = axis := by simp; omega
        refine ⟨hd, ⟨axis.toNat, by omega⟩, ha, ?_, ?_⟩
        · by_contra hlt
          by_cases hs : s ≥ sh ⟨axis.toNat, by omega⟩
          · rw [if_pos hs] at hM; cases hM
          · rw [if_neg hs] at hM
            simp only [] at hM
            rw [if_pos] at hM
            · cases hM
            · refine ⟨ravelIdx sh (fun b => ⟨0, hpos b⟩), ⟨axis.toNat, by omega⟩, Or.inr ?_⟩
              rw [unravel_ravel, if_pos ha]
              have := hpos ⟨axis.toNat, by omega⟩
              simp only [Operators.mirroredRange]
              split <;> split <;> omega
        · by_contra hge
          rw [if_pos (by omega)] at hM; cases hM
      · rw [if_neg (not_not.mpr hd), dif_neg hax] at hM; cases hM
    · rw [if_pos hd] at hM; cases hM
  · rintro ⟨hd, a, rfl, h1, h2⟩
    obtain ⟨M, hM, -⟩ := C04_shift_with_mirror (K := K) hd a s h1 h2 (fun _ => 0)
    exact ⟨M, hM⟩

example : (∃ M : Matrix (Fin (size ![3, 2])) (Fin (size ![3, 2])) ℚ, Operators.shiftWithMirror ![3, 2] 0 (-3) = .ok M)
    ∧ ¬ (∃ M : Matrix (Fin (size ![3, 2])) (Fin (size ![3, 2])) ℚ, Operators.shiftWithMirror ![3, 2] 0 (-4) = .ok M) := by
  have hp : ∀ b, 0 < (![3, 2] : Fin 2 → ℕ) b := by decide
  rw [C04_shift_with_mirror_ok_iff hp, C04_shift_with_mirror_ok_iff hp]
  constructor
  · exact ⟨Or.inl rfl, 0, rfl, by decide, by decide⟩
  · rintro ⟨-, a, ha, h1, -⟩
    have : a = 0 := by apply Fin.ext; simp; omega
    subst this
    exact absurd h1 (by decide)

/-! ## C05 — vector identities -/

/-- C05: `div_b (curl_b F) = 0` in every cell, for any (or no) widths. -/
theorem C05_div_curl_back {sh : Fin 3 → ℕ} (dx : Option (DxList sh K)) (F : VField sh K) (x : Idx sh) :
    divBack dx (curlBack dx F) x = 0 := divBack_curlBack dx F x

/-- C05: `div_f (curl_f F) = 0`. -/
theorem C05_div_curl_forward {sh : Fin 3 → ℕ} (dx : Option (DxList sh K)) (F : VField sh K) (x : Idx sh) :
    divForward dx (curlForward dx F) x = 0 := divForward_curlForward dx F x

/-- C05: the forward curl of a forward gradient vanishes. -/
theorem C05_curl_grad_forward {sh : Fin 3 → ℕ} (dx : Option (DxList sh K)) (f : Arr sh K) (c : Fin 3) (x : Idx sh) :
    curlForward dx (gradForward dx f) c x = 0 := by
  have : gradForward dx f = fun a => derivForward dx a f := by funext a x; rw [derivForward_eq]; rfl
  rw [this]
  revert c; apply forall_fin3
  · rw [curlForward_0, derivForward_comm dx dx (by decide), sub_self]
  · rw [curlForward_1, derivForward_comm dx dx (by decide), sub_self]
  · rw [curlForward_2, derivForward_comm dx dx (by decide), sub_self]

/-- C05: the backward curl of a backward gradient vanishes. -/
theorem C05_curl_grad_back {sh : Fin 3 → ℕ} (dx : Option (DxList sh K)) (f : Arr sh K) (c : Fin 3) (x : Idx sh) :
    curlBack dx (gradBack dx f) c x = 0 := by
  have : gradBack dx f = fun a => derivBack dx a f := by funext a x; rw [derivBack_eq]; rfl
  rw [this]
  revert c; apply forall_fin3
  · rw [curlBack_0, derivBack_comm dx dx (by decide), sub_self]
  · rw [curlBack_1, derivBack_comm dx dx (by decide), sub_self]
  · rw [curlBack_2, derivBack_comm dx dx (by decide), sub_self]

-- The mixed combination is *not* zero in general, so the identities above are not vacuous consequences of the model:
-- the forward divergence of the backward curl of a spike is nonzero.
example : divForward (sh := ![3, 3, 1]) (K := ℚ) none (curlBack none (fun c x => if c = 2 ∧ (x 0 : ℕ) = 0 ∧ (x 1 : ℕ) = 0 then 1 else 0))
    (fun a => if h : a = 0 then ⟨2, by subst h; decide⟩ else ⟨0, by fin_cases a <;> decide⟩) = 1 := by
  decide +kernel

/-! ## C06 — adjointness -/

/-- C06: unscaled derivatives are negative adjoints. -/
theorem C06_deriv_adjoint {d : ℕ} {sh : Fin d → ℕ} (a : Fin d) (f g : Arr sh K) :
    ∑ x, g x * derivBack none a f x = -∑ x, f x * derivForward none a g x := by
  have := sum_by_parts a (fun _ => 1) f g (fun _ => rfl)
  simpa [derivBack_eq, derivForward_eq] using this

/-- C06: unscaled curls are adjoint. -/
theorem C06_curl_adjoint {sh : Fin 3 → ℕ} (E H : VField sh K) :
    ∑ c, ∑ x, E c x * curlBack none H c x = ∑ c, ∑ x, H c x * curlForward none E c x := by
  have k : ∀ (a : Fin 3) (f g : Arr sh K), _ := fun a f g => C06_deriv_adjoint a f g
  simp only [Fin.sum_univ_three, curlBack_0, curlBack_1, curlBack_2, curlForward_0, curlForward_1, curlForward_2,
    mul_sub, Finset.sum_sub_distrib]
  rw [k 1 (H 2) (E 0), k 2 (H 1) (E 0), k 2 (H 0) (E 1), k 0 (H 2) (E 1), k 0 (H 1) (E 2), k 1 (H 0) (E 2)]
  ring

/-- C06 with cell widths: derivatives are negative adjoints with respect to sums weighted by the E volume and the H
volume (any common factor `u` that is constant along the axis). -/
theorem C06_deriv_adjoint_weighted {d : ℕ} {sh : Fin d → ℕ} (a : Fin d) (dxE dxH : DxList sh K)
    (hE : Nonzero dxE) (hH : Nonzero dxH) (u f g : Arr sh K) (hu : ∀ x y : Idx sh, (∀ b, b ≠ a → x b = y b) → u x = u y) :
    ∑ x, (dxH a (x a) * u x) * (g x * derivBack (some dxH) a f x)
      = -∑ x, (dxE a (x a) * u x) * (f x * derivForward (some dxE) a g x) :=
  sum_by_parts_weighted a dxE dxH hE hH u f g (fun x => hu _ _ fun _ hb => shiftIdx_of_ne hb 1 x)

/-- C06 with cell widths: `∑ V_E E·(curl_b H) = ∑ V_H H·(curl_f E)` where `V_E`, `V_H` are the Yee-cell volumes. -/
theorem C06_curl_adjoint_weighted {sh : Fin 3 → ℕ} (dxE dxH : DxList sh K) (hE : Nonzero dxE) (hH : Nonzero dxH)
    (E H : VField sh K) :
    ∑ c, ∑ x, volE dxE dxH c x * (E c x * curlBack (some dxH) H c x)
      = ∑ c, ∑ x, volH dxE dxH c x * (H c x * curlForward (some dxE) E c x) := by
  have k := fun (a : Fin 3) (u f g : Arr sh K) (hu : ∀ x, u (shiftIdx a 1 x) = u x) =>
    sum_by_parts_weighted a dxE dxH hE hH u f g hu
  have n01 : (0 : Fin 3) ≠ 1 := by decide
  have n02 : (0 : Fin 3) ≠ 2 := by decide
  have n12 : (1 : Fin 3) ≠ 2 := by decide
  have k1 := k 1 (fun x => dxE 0 (x 0) * dxH 2 (x 2)) (H 2) (E 0)
    (fun x => by simp only [shiftIdx_of_ne n01, shiftIdx_of_ne n12.symm])
  have k2 := k 2 (fun x => dxE 0 (x 0) * dxH 1 (x 1)) (H 1) (E 0)
    (fun x => by simp only [shiftIdx_of_ne n02, shiftIdx_of_ne n12])
  have k3 := k 2 (fun x => dxH 0 (x 0) * dxE 1 (x 1)) (H 0) (E 1)
    (fun x => by simp only [shiftIdx_of_ne n02, shiftIdx_of_ne n12])
  have k4 := k 0 (fun x => dxE 1 (x 1) * dxH 2 (x 2)) (H 2) (E 1)
    (fun x => by simp only [shiftIdx_of_ne n01.symm, shiftIdx_of_ne n02.symm])
  have k5 := k 0 (fun x => dxH 1 (x 1) * dxE 2 (x 2)) (H 1) (E 2)
    (fun x => by simp only [shiftIdx_of_ne n01.symm, shiftIdx_of_ne n02.symm])
  have k6 := k 1 (fun x => dxH 0 (x 0) * dxE 2 (x 2)) (H 0) (E 2)
    (fun x => by simp only [shiftIdx_of_ne n01, shiftIdx_of_ne n12.symm])
  simp only [Fin.sum_univ_three, curlBack_0, curlBack_1, curlBack_2, curlForward_0, curlForward_1, curlForward_2,
    volE_0, volE_1, volE_2, volH_0, volH_1, volH_2, mul_sub, Finset.sum_sub_distrib]
  simp only [mul_assoc, mul_comm, mul_left_comm] at k1 k2 k3 k4 k5 k6 ⊢
  linear_combination k1 - k2 + k3 - k4 + k5 - k6

-- The hypotheses are met by a non-uniform grid with different E and H widths, where the weights matter: with
-- unit weights the two sums would differ.
example : Nonzero (sh := ![2, 2, 1]) (K := ℚ) (fun _ i => (i : ℚ) + 1) ∧ Nonzero (sh := ![2, 2, 1]) (K := ℚ) (fun _ i => (i : ℚ) + 2) := by
  constructor <;> intro a i <;> positivity

/-! ## C07 — curl parts -/

/-- C07: the two parts add up to the curl, component by component. -/
theorem C07_curl_forward_parts {sh : Fin 3 → ℕ} (dx : Option (DxList sh K)) (e : VField sh K) (c : Fin 3) (x : Idx sh) :
    (curlForwardParts dx e c).1 x + (curlForwardParts dx e c).2 x = curlForward dx e c x := by
  revert c; apply forall_fin3
  · show -derivForward dx 2 (e 1) x + derivForward dx 1 (e 2) x = _; rw [curlForward_0]; ring
  · show derivForward dx 2 (e 0) x + -derivForward dx 0 (e 2) x = _; rw [curlForward_1]; ring
  · show -derivForward dx 1 (e 0) x + derivForward dx 0 (e 1) x = _; rw [curlForward_2]; ring

/-- C07, backward variant. -/
theorem C07_curl_back_parts {sh : Fin 3 → ℕ} (dx : Option (DxList sh K)) (e : VField sh K) (c : Fin 3) (x : Idx sh) :
    (curlBackParts dx e c).1 x + (curlBackParts dx e c).2 x = curlBack dx e c x := by
  revert c; apply forall_fin3
  · show -derivBack dx 2 (e 1) x + derivBack dx 1 (e 2) x = _; rw [curlBack_0]; ring
  · show derivBack dx 2 (e 0) x + -derivBack dx 0 (e 2) x = _; rw [curlBack_1]; ring
  · show -derivBack dx 1 (e 0) x + derivBack dx 0 (e 1) x = _; rw [curlBack_2]; ring

/-- The axis along which part `p` of component `c` differentiates (specification): part 0 of x is d/dz, part 1 is d/dy, … -/
def partAxis (c : Fin 3) (p : Fin 2) : Fin 3 := (![![2, 1], ![2, 0], ![1, 0]] : Fin 3 → Fin 2 → Fin 3) c p

/-- C07: each part only differentiates along one axis — it vanishes if the field does not vary along that axis. -/
theorem C07_parts_single_axis {sh : Fin 3 → ℕ} (dx : Option (DxList sh K)) (e : VField sh K) (c : Fin 3) (p : Fin 2)
    (hconst : ∀ c' (x y : Idx sh), (∀ b, b ≠ partAxis c p → x b = y b) → e c' x = e c' y) (x : Idx sh) :
    (if p = 0 then (curlForwardParts dx e c).1 x else (curlForwardParts dx e c).2 x) = 0 ∧
    (if p = 0 then (curlBackParts dx e c).1 x else (curlBackParts dx e c).2 x) = 0 := by
  have key : ∀ (a : Fin 3) (f : Arr sh K), (∀ (x y : Idx sh), (∀ b, b ≠ a → x b = y b) → f x = f y) → ∀ x,
      derivForward dx a f x = 0 ∧ derivBack dx a f x = 0 := by
    intro a f hf x
    rw [derivForward_eq, derivBack_eq, hf (shiftIdx a 1 x) x (fun b hb => shiftIdx_of_ne hb 1 x),
      hf (shiftIdx a (-1) x) x (fun b hb => shiftIdx_of_ne hb (-1) x)]
    simp
  revert hconst
  match c, p with
  | 0, 0 => intro h; exact ⟨neg_eq_zero.mpr (key 2 (e 1) (h 1) x).1, neg_eq_zero.mpr (key 2 (e 1) (h 1) x).2⟩
  | 0, 1 => intro h; exact ⟨(key 1 (e 2) (h 2) x).1, (key 1 (e 2) (h 2) x).2⟩
  | 1, 0 => intro h; exact ⟨(key 2 (e 0) (h 0) x).1, (key 2 (e 0) (h 0) x).2⟩
  | 1, 1 => intro h; exact ⟨neg_eq_zero.mpr (key 0 (e 2) (h 2) x).1, neg_eq_zero.mpr (key 0 (e 2) (h 2) x).2⟩
  | 2, 0 => intro h; exact ⟨neg_eq_zero.mpr (key 1 (e 0) (h 0) x).1, neg_eq_zero.mpr (key 1 (e 0) (h 0) x).2⟩
  | 2, 1 => intro h; exact ⟨(key 0 (e 1) (h 1) x).1, (key 0 (e 1) (h 1) x).2⟩

/-! ## C08 — averaging and cross product -/

/-- C08: `avg_forward` averages with the next cell, `avg_back` with the previous one (periodically). -/
theorem C08_avg {d : ℕ} {sh : Fin d → ℕ} (hd : d = 2 ∨ d = 3) (a : Fin d) (f : Arr sh K) :
    ∃ Mf Mb : Matrix (Fin (size sh)) (Fin (size sh)) K,
      Operators.avgForward sh (a : ℤ) = .ok Mf ∧ Operators.avgBack sh (a : ℤ) = .ok Mb ∧ Mb = Mfᵀ ∧
      (∀ x, (Mf *ᵥ fun r => f (unravelIdx sh r)) (ravelIdx sh x) = 1 / 2 * (f x + roll f (-1) a x)) ∧
      (∀ x, (Mb *ᵥ fun r => f (unravelIdx sh r)) (ravelIdx sh x) = 1 / 2 * (f x + roll f 1 a x)) := by
  have hM : ∀ (B : Matrix (Idx sh) (Idx sh) K) x,
      ((Matrix.reindex (ravelEquiv sh) (ravelEquiv sh) B) *ᵥ fun r => f (unravelIdx sh r)) (ravelIdx sh x) = (B *ᵥ f) x := by
    intro B x
    simp only [mulVec, dotProduct, reindex_apply, submatrix_apply, ravelEquiv_symm_apply, unravel_ravel]
    exact Equiv.sum_comp (ravelEquiv sh).symm (fun y => B x y * f y)
  have hone : (1 : Matrix (Fin (size sh)) (Fin (size sh)) K) = Matrix.reindex (ravelEquiv sh) (ravelEquiv sh) 1 := by
    simp [reindex_apply]
  have hf : Operators.avgForward sh (a : ℤ) = .ok (Matrix.reindex (ravelEquiv sh) (ravelEquiv sh)
      ((1 / 2 : K) • (1 + OperatorsS.shiftCirc a 1 : Matrix (Idx sh) (Idx sh) K))) := by
    unfold Operators.avgForward
    rw [if_neg (not_not.mpr hd), Operators.shiftCirc_ok hd a 1]
    show Except.ok _ = _
    congr 1
    rw [hone]; rfl
  have htr : (OperatorsS.shiftCirc a 1 : Matrix (Idx sh) (Idx sh) K)ᵀ = OperatorsS.shiftCirc a (-1) := by
    ext x y
    simp only [OperatorsS.shiftCirc, transpose_apply, Matrix.of_apply]
    congr 1
    rw [eq_iff_iff, shiftIdx_eq_iff]
  refine ⟨_, _, hf, by unfold Operators.avgBack; rw [hf]; rfl, rfl, ?_, ?_⟩
  · intro x
    rw [hM, smul_mulVec, add_mulVec, one_mulVec]
    simp [OperatorsS.shiftCirc_mulVec, roll_apply]
  · intro x
    have : (Matrix.reindex (ravelEquiv sh) (ravelEquiv sh) ((1 / 2 : K) • (1 + OperatorsS.shiftCirc a 1 : Matrix (Idx sh) (Idx sh) K)))ᵀ
        = Matrix.reindex (ravelEquiv sh) (ravelEquiv sh) ((1 / 2 : K) • (1 + OperatorsS.shiftCirc a (-1) : Matrix (Idx sh) (Idx sh) K)) := by
      rw [← htr]
      ext r c; simp [transpose_apply, one_apply, eq_comm]
    rw [this, hM, smul_mulVec, add_mulVec, one_mulVec]
    simp [OperatorsS.shiftCirc_mulVec, roll_apply]

/-- C08: averaging keeps the total (characteristic ≠ 2) and constant fields. -/
theorem C08_avg_preserves {d : ℕ} {sh : Fin d → ℕ} (hd : d = 2 ∨ d = 3) (h2 : (2 : K) ≠ 0) (a : Fin d) (f : Arr sh K) :
    ∃ Mf Mb : Matrix (Fin (size sh)) (Fin (size sh)) K,
      Operators.avgForward sh (a : ℤ) = .ok Mf ∧ Operators.avgBack sh (a : ℤ) = .ok Mb ∧
      (∑ r, (Mf *ᵥ fun r => f (unravelIdx sh r)) r = ∑ x, f x) ∧
      (∑ r, (Mb *ᵥ fun r => f (unravelIdx sh r)) r = ∑ x, f x) ∧
      (∀ k, f = (fun _ => k) → ∀ r, (Mf *ᵥ fun r => f (unravelIdx sh r)) r = k ∧ (Mb *ᵥ fun r => f (unravelIdx sh r)) r = k) := by
  obtain ⟨Mf, Mb, h1, h3, -, hf, hb⟩ := C08_avg hd a f
  refine ⟨Mf, Mb, h1, h3, ?_, ?_, ?_⟩
  · rw [← Equiv.sum_comp (ravelEquiv sh)]
    simp only [ravelEquiv_apply, hf, roll_apply]
    rw [← Finset.mul_sum, Finset.sum_add_distrib, sum_shiftIdx]
    field_simp; ring
  · rw [← Equiv.sum_comp (ravelEquiv sh)]
    simp only [ravelEquiv_apply, hb, roll_apply]
    rw [← Finset.mul_sum, Finset.sum_add_distrib, sum_shiftIdx]
    field_simp; ring
  · intro k hk r
    obtain ⟨x, rfl⟩ := (ravelEquiv sh).surjective r
    simp only [ravelEquiv_apply, hf, hb, roll_apply]
    subst hk
    constructor <;> field_simp <;> ring

/-- C08: `vec_cross(b) @ vec(a)` is the pointwise cross product `b × a`. -/
theorem C08_vec_cross {d : ℕ} {sh : Fin d → ℕ} (b a : VField sh K) (x : Idx sh) :
    unvecField (Operators.vecCross (vecField b) *ᵥ vecField a) 0 x = b 1 x * a 2 x - b 2 x * a 1 x ∧
    unvecField (Operators.vecCross (vecField b) *ᵥ vecField a) 1 x = b 2 x * a 0 x - b 0 x * a 2 x ∧
    unvecField (Operators.vecCross (vecField b) *ᵥ vecField a) 2 x = b 0 x * a 1 x - b 1 x * a 0 x := by
  have e : Operators.vecCross (vecField b) = Matrix.reindex (Operators.vecEquiv 3 sh) (Operators.vecEquiv 3 sh)
      (OperatorsS.cross fun c => Matrix.diagonal (b c)) := by
    rw [← Operators.cross_reindex, Operators.vecCross]
    congr 1
    funext c
    ext r s
    simp only [vecField, diagonal_apply, reindex_apply, submatrix_apply, ravelEquiv_symm_apply, unravelIdx_inj,
      Equiv.symm_apply_apply]
  rw [e]
  simp only [unvec_mulVec_vec]
  refine ⟨?_, ?_, ?_⟩ <;>
    simp [OperatorsS.cross, OperatorsS.blockArray_mulVec, Fin.sum_univ_three, mulVec_diagonal] <;> ring

/-- C08: the cross product operator is antisymmetric. -/
theorem C08_vec_cross_antisymm {n : ℕ} (b : Fin (3 * n) → K) : (Operators.vecCross b)ᵀ = -Operators.vecCross b := by
  ext r c
  obtain ⟨⟨r1, r2⟩, rfl⟩ := finProdFinEquiv.surjective r
  obtain ⟨⟨c1, c2⟩, rfl⟩ := finProdFinEquiv.surjective c
  simp only [Operators.vecCross, Operators.cross, Operators.blockArray3, transpose_apply, Matrix.of_apply,
    Equiv.symm_apply_apply, Matrix.neg_apply]
  have h : ∀ k, (Matrix.diagonal fun r => b (finProdFinEquiv (k, r))) c2 r2
      = (Matrix.diagonal fun r => b (finProdFinEquiv (k, r))) r2 c2 := by
    intro k
    rcases eq_or_ne c2 r2 with rfl | hne
    · rfl
    · rw [diagonal_apply_ne _ hne, diagonal_apply_ne _ hne.symm]
  match r1, c1 with
  | 0, 0 => show (0 : K) = -0; simp
  | 1, 1 => show (0 : K) = -0; simp
  | 2, 2 => show (0 : K) = -0; simp
  | 0, 1 => show (Matrix.diagonal _) c2 r2 = - -(Matrix.diagonal _) r2 c2; rw [h, neg_neg]
  | 0, 2 => show -(Matrix.diagonal _) c2 r2 = -(Matrix.diagonal _) r2 c2; rw [h]
  | 1, 0 => show -(Matrix.diagonal _) c2 r2 = -(Matrix.diagonal _) r2 c2; rw [h]
  | 1, 2 => show (Matrix.diagonal _) c2 r2 = - -(Matrix.diagonal _) r2 c2; rw [h, neg_neg]
  | 2, 0 => show (Matrix.diagonal _) c2 r2 = - -(Matrix.diagonal _) r2 c2; rw [h, neg_neg]
  | 2, 1 => show -(Matrix.diagonal _) c2 r2 = -(Matrix.diagonal _) r2 c2; rw [h]

end Meanas.Props
