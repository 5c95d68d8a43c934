/-
C171: stacks of identical periods (Bragg mirrors), for `e_full` of meanas/fdfd/operators.py:40-96 on grids with one cell in the two transverse directions.
-/
import Verif.Props.Stack

namespace Meanas.Props

open Matrix Complex Fdfd Spec ScpmlLossy Interface Stack

variable {sh : Fin 3 → ℕ}

/-- What a user chooses for one plane of cells of the period: the widths of the E and H grids, permittivity and permeability. -/
structure Layer where
  wE : ℂ
  wH : ℂ
  ε : ℂ
  μ : ℂ

/-- `N` copies of a period of `p` planes of cells stand behind each other from plane `l` on; everywhere else there is one uniform medium. -/
structure Repeats (a c : Fin 3) (l p N : ℕ) (out : Layer) (cell : ℕ → Layer) (dx : Dx sh) (eps : Vec sh) (mu : Option (Vec sh)) : Prop where
  pol : c ≠ a
  thin : ∀ b, b ≠ a → sh b = 1
  two : 1 ≤ l
  room : l + p * N + 1 < sh a
  outer : ∀ x : Idx sh, (x a : ℕ) < l ∨ l + p * N ≤ (x a : ℕ) → (⟨dx.1 a (x a), dx.2 a (x a), eps (c, x), (mu.getD 1) (oth a c, x)⟩ : Layer) = out
  inner : ∀ (x : Idx sh) (j i : ℕ), j < N → i < p → (x a : ℕ) = l + p * j + i →
    (⟨dx.1 a (x a), dx.2 a (x a), eps (c, x), (mu.getD 1) (oth a c, x)⟩ : Layer) = cell i

/-- What is assumed of the numbers: no zero widths or permeabilities, and the dispersion relation of the grid outside (away from the band edge). -/
structure PeriodData (p : ℕ) (ω κ : ℂ) (out : Layer) (cell : ℕ → Layer) : Prop where
  outW : out.wE ≠ 0 ∧ out.wH ≠ 0 ∧ out.μ ≠ 0
  same : out.wE = out.wH
  cellW : ∀ i, i < p → (cell i).wE ≠ 0 ∧ (cell i).wH ≠ 0 ∧ (cell i).μ ≠ 0
  disp : (2 * sin (κ / 2)) ^ 2 = out.wH ^ 2 * ω ^ 2 * out.ε * out.μ
  edge : sin κ ≠ 0

/-- The numbers `0, 1, 2x, 4x² - 1, …` (`sin (N K) / sin K` for `x = cos K`). -/
def sines {R : Type*} [CommRing R] (x : R) : ℕ → R
  | 0 => 0
  | 1 => 1
  | n + 2 => 2 * x * sines x (n + 1) - sines x n

namespace Bragg

/-- One cell, for the field and its flux. -/
noncomputable def stepM (q v : ℂ) : Matrix (Fin 2) (Fin 2) ℂ := !![1 - v / q, 1 / q; -v, 1]

theorem stepM_det {q : ℂ} (hq : q ≠ 0) (v : ℂ) : (stepM q v).det = 1 := by
  rw [stepM, Matrix.det_fin_two_of]; field_simp; ring

/-- The first `k` cells of a line. -/
noncomputable def tm (q v : ℕ → ℂ) : ℕ → Matrix (Fin 2) (Fin 2) ℂ
  | 0 => 1
  | k + 1 => stepM (q k) (v k) * tm q v k

theorem tm_det {q v : ℕ → ℂ} (p : ℕ) (hq : ∀ i, i < p → q i ≠ 0) : (tm q v p).det = 1 := by
  induction p with
  | zero => simp [tm]
  | succ p ih => rw [tm, Matrix.det_mul, stepM_det (hq p (by omega)), ih fun i hi => hq i (by omega), one_mul]

theorem tm_congr {q v q' v' : ℕ → ℂ} (p : ℕ) (hq : ∀ i, i < p → q i = q' i) (hv : ∀ i, i < p → v i = v' i) : tm q v p = tm q' v' p := by
  induction p with
  | zero => rfl
  | succ p ih => rw [tm, tm, hq p (by omega), hv p (by omega), ih (fun i hi => hq i (by omega)) fun i hi => hv i (by omega)]

/-- Field and flux. -/
noncomputable def st (q f : ℕ → ℂ) (i : ℕ) : Fin 2 → ℂ := ![f i, q (i - 1) * (f i - f (i - 1))]

theorem st_succ {n : ℕ} {q v f : ℕ → ℂ} (hf : Eqn n q v f) {i : ℕ} (h1 : 1 ≤ i) (hi : i + 1 < n) (hq : q i ≠ 0) : st q f (i + 1) = stepM (q i) (v i) *ᵥ st q f i := by
  obtain ⟨k, rfl⟩ : ∃ k, i = k + 1 := ⟨i - 1, by omega⟩
  have h := hf k hi
  rw [show k + 1 + 1 = k + 2 from rfl] at *
  funext b
  fin_cases b
  · simp [st, stepM, Matrix.mulVec, dotProduct, Fin.sum_univ_two]
    field_simp
    linear_combination h
  · simp [st, stepM, Matrix.mulVec, dotProduct, Fin.sum_univ_two]
    linear_combination h

theorem st_add {n : ℕ} {q v f : ℕ → ℂ} (hf : Eqn n q v f) {i : ℕ} (h1 : 1 ≤ i) (k : ℕ) (hi : i + k < n) (hq : ∀ j, j < k → q (i + j) ≠ 0) :
    st q f (i + k) = tm (fun j => q (i + j)) (fun j => v (i + j)) k *ᵥ st q f i := by
  induction k with
  | zero => simp [tm]
  | succ k ih =>
    rw [← add_assoc, st_succ hf (by omega) (by omega) (hq k (by omega)), ih (by omega) fun j hj => hq j (by omega), tm, Matrix.mulVec_mulVec]

theorem st_periods {n l p : ℕ} {q v f cq cv : ℕ → ℂ} (hf : Eqn n q v f) (h1 : 1 ≤ l) (N : ℕ) (hn : l + p * N < n) (hc : ∀ i, i < p → cq i ≠ 0)
    (hq : ∀ j i, j < N → i < p → q (l + p * j + i) = cq i) (hv : ∀ j i, j < N → i < p → v (l + p * j + i) = cv i) :
    st q f (l + p * N) = tm cq cv p ^ N *ᵥ st q f l := by
  induction N with
  | zero => simp
  | succ N ih =>
    rw [Nat.mul_succ] at hn
    rw [Nat.mul_succ, ← add_assoc, st_add hf (by omega) p (by omega) (fun j hj => by rw [hq N j (by omega) hj]; exact hc j hj),
      ih (by omega) (fun j i hj => hq j i (by omega)) (fun j i hj => hv j i (by omega)), tm_congr p (hq N · (by omega)) (hv N · (by omega)), Matrix.mulVec_mulVec, pow_succ']

/-- Field and flux of a pair of waves. -/
noncomputable def portM (Q κ : ℂ) : Matrix (Fin 2) (Fin 2) ℂ := !![1, 1; Q * (1 - exp (I * κ)), Q * (1 - exp (-I * κ))]

theorem portM_det {Q κ : ℂ} (hQ : Q ≠ 0) (hκ : sin κ ≠ 0) : (portM Q κ).det ≠ 0 := by
  have h3 : 2 * I * sin κ = exp (I * κ) - exp (-I * κ) := by
    rw [sin, show I * κ = κ * I by ring, show -I * κ = -κ * I by ring]
    linear_combination (exp (-κ * I) - exp (κ * I)) * I_mul_I
  rw [portM, Matrix.det_fin_two_of, show 1 * (Q * (1 - exp (-I * κ))) - 1 * (Q * (1 - exp (I * κ))) = Q * (2 * I * sin κ) by rw [h3]; ring]
  exact mul_ne_zero hQ (mul_ne_zero (mul_ne_zero two_ne_zero I_ne_zero) hκ)

theorem portM_waves (Q κ A B : ℂ) : portM Q κ *ᵥ ![A, B] = ![waves κ A B 0, Q * (waves κ A B 0 - waves κ A B (-1))] := by
  funext b
  fin_cases b
  · simp [portM, Matrix.mulVec, dotProduct, Fin.sum_univ_two, waves]
  · simp [portM, Matrix.mulVec, dotProduct, Fin.sum_univ_two, waves]
    ring

theorem conj_pow {P P' : Matrix (Fin 2) (Fin 2) ℂ} (h : P * P' = 1) (h' : P' * P = 1) (M : Matrix (Fin 2) (Fin 2) ℂ) (n : ℕ) : (P' * M * P) ^ n = P' * M ^ n * P := by
  induction n with
  | zero => rw [pow_zero, pow_zero, mul_one, h']
  | succ n ih => rw [pow_succ, ih, pow_succ, show P' * M ^ n * P * (P' * M * P) = P' * M ^ n * (P * P') * M * P by simp only [mul_assoc], h, mul_one, mul_assoc P' (M ^ n) M]

/-- The transfer matrix of a period for the waves outside. -/
noncomputable def W (ω κ : ℂ) (out : Layer) (cell : ℕ → Layer) (p : ℕ) : Matrix (Fin 2) (Fin 2) ℂ :=
  (portM (out.wE * out.μ)⁻¹ κ)⁻¹ * tm (fun i => ((cell i).wE * (cell i).μ)⁻¹) (fun i => ω ^ 2 * ((cell i).wH * (cell i).ε)) p * portM (out.wE * out.μ)⁻¹ κ

theorem W_det {p : ℕ} {ω κ : ℂ} {out : Layer} {cell : ℕ → Layer} (hD : PeriodData p ω κ out cell) : (W ω κ out cell p).det = 1 := by
  have hdet := portM_det (inv_ne_zero (mul_ne_zero hD.outW.1 hD.outW.2.2)) hD.edge
  rw [W, Matrix.det_mul, Matrix.det_mul, tm_det p fun i hi => inv_ne_zero (mul_ne_zero (hD.cellW i hi).1 (hD.cellW i hi).2.2), mul_one, ← Matrix.det_mul,
    Matrix.nonsing_inv_mul _ (isUnit_iff_ne_zero.2 hdet), Matrix.det_one]

/-- Powers of a matrix of determinant one. -/
theorem pow_sines {X : Matrix (Fin 2) (Fin 2) ℂ} (hX : X.det = 1) (n : ℕ) :
    X ^ (n + 1) = sines ((X 0 0 + X 1 1) / 2) (n + 1) • X - sines ((X 0 0 + X 1 1) / 2) n • (1 : Matrix (Fin 2) (Fin 2) ℂ) := by
  rw [Matrix.det_fin_two] at hX
  have h2 : X * X = (2 * ((X 0 0 + X 1 1) / 2)) • X - (1 : Matrix (Fin 2) (Fin 2) ℂ) := by
    ext i j
    fin_cases i <;> fin_cases j <;> simp [Matrix.mul_apply, Fin.sum_univ_two]
    · linear_combination -hX
    · ring
    · ring
    · linear_combination -hX
  generalize (X 0 0 + X 1 1) / 2 = x at *
  induction n with
  | zero => simp [sines]
  | succ n ih =>
    rw [pow_succ, ih, sub_mul, smul_mul_assoc, h2, smul_mul_assoc, one_mul, sines]
    module

/-- What a matrix of determinant one says about incidence from the left … -/
theorem coeff_left {X : Matrix (Fin 2) (Fin 2) ℂ} (hX : X.det = 1) {r t : ℂ} (h : ![t, 0] = X *ᵥ ![1, r]) : X 1 1 * t = 1 ∧ r = -X 1 0 * t := by
  rw [Matrix.det_fin_two] at hX
  have h0 := congrFun h 0
  have h1 := congrFun h 1
  simp [Matrix.mulVec, dotProduct, Fin.sum_univ_two] at h0 h1
  constructor
  · linear_combination X 1 1 * h0 + hX - X 0 1 * h1
  · linear_combination X 1 0 * h0 - r * hX - X 0 0 * h1

/-- … and from the right. -/
theorem coeff_right {X : Matrix (Fin 2) (Fin 2) ℂ} {r t : ℂ} (h : ![r, 1] = X *ᵥ ![0, t]) : X 1 1 * t = 1 ∧ r = X 0 1 * t := by
  have h0 := congrFun h 0
  have h1 := congrFun h 1
  simp [Matrix.mulVec, dotProduct, Fin.sum_univ_two] at h0 h1
  exact ⟨h1.symm, h0⟩

theorem sines_ofReal (x : ℝ) (n : ℕ) : sines (x : ℂ) n = (sines x n : ℝ) := by
  suffices h : sines (x : ℂ) n = (sines x n : ℝ) ∧ sines (x : ℂ) (n + 1) = (sines x (n + 1) : ℝ) from h.1
  induction n with
  | zero => simp [sines]
  | succ n ih => exact ⟨ih.2, by rw [sines, sines, ih.1, ih.2]; push_cast; ring⟩

theorem sines_inv (x : ℝ) (n : ℕ) : sines x (n + 1) ^ 2 - 2 * x * sines x (n + 1) * sines x n + sines x n ^ 2 = 1 := by
  induction n with
  | zero => simp [sines]
  | succ n ih => rw [sines]; linear_combination ih

theorem sines_sin (K : ℝ) (n : ℕ) : sines (Real.cos K) n * Real.sin K = Real.sin (n * K) := by
  suffices h : sines (Real.cos K) n * Real.sin K = Real.sin (n * K) ∧ sines (Real.cos K) (n + 1) * Real.sin K = Real.sin ((n + 1 : ℕ) * K) from h.1
  induction n with
  | zero => simp [sines]
  | succ n ih =>
    refine ⟨ih.2, ?_⟩
    rw [sines, sub_mul, mul_assoc, ih.1, ih.2, show ((n + 1 + 1 : ℕ) : ℝ) * K = (n + 1 : ℕ) * K + K by push_cast; ring, Real.sin_add, show (n : ℝ) * K = (n + 1 : ℕ) * K - K by push_cast; ring,
      Real.sin_sub]
    ring

theorem sines_ge {x : ℝ} (hx : 1 ≤ |x|) (n : ℕ) : (n + 1) * |x| ^ n ≤ |sines x (n + 1)| := by
  have key : ∀ n, |x| * |sines x n| + |x| ^ n ≤ |sines x (n + 1)| := by
    intro n
    induction n with
    | zero => simp [sines]
    | succ n ih =>
      have h1 : 2 * |x| * |sines x (n + 1)| - |sines x n| ≤ |sines x (n + 2)| := by
        rw [sines]
        have := abs_sub_abs_le_abs_sub (2 * x * sines x (n + 1)) (sines x n)
        rwa [abs_mul, abs_mul, abs_two] at this
      have h2 : |x| * (|x| * |sines x n| + |x| ^ n) ≤ |x| * |sines x (n + 1)| := mul_le_mul_of_nonneg_left ih (abs_nonneg _)
      have h3 : |sines x n| ≤ |x| * |x| * |sines x n| := le_mul_of_one_le_left (abs_nonneg _) (one_le_mul_of_one_le_of_one_le hx hx)
      rw [pow_succ]
      nlinarith
  induction n with
  | zero => simp [sines]
  | succ n ih =>
    have h1 := key (n + 1)
    have h2 := mul_le_mul_of_nonneg_left ih (abs_nonneg x)
    push_cast
    have e : |x| * ((n + 1) * |x| ^ n) = (n + 1) * |x| ^ (n + 1) := by ring
    linarith

end Bragg

/-- A layer without loss or gain. -/
def Layer.Real (L : Layer) : Prop := L.wE.im = 0 ∧ L.wH.im = 0 ∧ L.ε.im = 0 ∧ L.μ.im = 0

open Bragg

section
variable {a c : Fin 3} {l p N : ℕ} {ω κ : ℂ} {out : Layer} {cell : ℕ → Layer} {dx : Dx sh} {eps : Vec sh} {mu : Option (Vec sh)}

namespace Repeats

theorem toStack (R : Repeats a c l p N out cell dx eps mu) (hD : PeriodData p ω κ out cell) :
    Stack a c l (l + p * N) out.wH out.ε out.μ out.wH out.ε out.μ dx eps mu where
  pol := R.pol
  thin := R.thin
  two := R.two
  le := by omega
  room := R.room
  leftW x hx := by
    have h := R.outer x (Or.inl hx)
    exact ⟨(congrArg Layer.wE h).trans hD.same, congrArg Layer.wH h⟩
  leftM x hx := by
    have h := R.outer x (Or.inl hx)
    exact ⟨congrArg Layer.ε h, congrArg Layer.μ h⟩
  rightW x hx := by
    have h := R.outer x (Or.inr hx)
    exact ⟨(congrArg Layer.wE h).trans hD.same, fun _ => congrArg Layer.wH h⟩
  rightM x hx := by
    have h := R.outer x (Or.inr hx)
    exact ⟨congrArg Layer.μ h, fun _ => congrArg Layer.ε h⟩

/-- Every plane is outside or in one of the periods. -/
theorem cases (R : Repeats a c l p N out cell dx eps mu) (x : Idx sh) :
    (⟨dx.1 a (x a), dx.2 a (x a), eps (c, x), (mu.getD 1) (oth a c, x)⟩ : Layer) = out ∨
      ∃ i, i < p ∧ (⟨dx.1 a (x a), dx.2 a (x a), eps (c, x), (mu.getD 1) (oth a c, x)⟩ : Layer) = cell i := by
  by_cases h : (x a : ℕ) < l ∨ l + p * N ≤ (x a : ℕ)
  · exact Or.inl (R.outer x h)
  · push Not at h
    obtain ⟨k, hk⟩ : ∃ k, (x a : ℕ) = l + k := ⟨(x a : ℕ) - l, by omega⟩
    have hkp : k < p * N := by omega
    have hp : 0 < p := Nat.pos_of_ne_zero fun h0 => by rw [h0] at hkp; simp at hkp
    refine Or.inr ⟨k % p, Nat.mod_lt _ hp, R.inner x (k / p) (k % p) (Nat.div_lt_of_lt_mul hkp) (Nat.mod_lt _ hp) ?_⟩
    rw [hk, add_assoc, Nat.div_add_mod]

theorem nonzero (R : Repeats a c l p N out cell dx eps mu) (hD : PeriodData p ω κ out cell) (x : Idx sh) :
    dx.1 a (x a) ≠ 0 ∧ dx.2 a (x a) ≠ 0 ∧ (mu.getD 1) (oth a c, x) ≠ 0 := by
  rcases R.cases x with h | ⟨i, hi, h⟩
  · exact ⟨fun h0 => hD.outW.1 (by rw [← h]; exact h0), fun h0 => hD.outW.2.1 (by rw [← h]; exact h0), fun h0 => hD.outW.2.2 (by rw [← h]; exact h0)⟩
  · have hc := hD.cellW i hi
    rw [← h] at hc
    exact hc

/-- The line equation and the two ports. -/
theorem transfer (R : Repeats a c l p N out cell dx eps mu) (hD : PeriodData p ω κ out cell) {E : Vec sh} (hE : InnerFree a c ω dx eps mu E) {A B C D : ℂ}
    (hP : Ports a c l (l + p * N) κ κ E A B C D) : ![C, D] = W ω κ out cell p ^ N *ᵥ ![A, B] := by
  have S := R.toStack hD
  have hroom := R.room
  have htwo := R.two
  obtain ⟨x0, -⟩ := S.exists_cell
  have hwid : ∀ i, dx.2 a i ≠ 0 := fun i => by
    have := (R.nonzero hD (at' x0 i)).2.1
    rwa [at_same] at this
  have hf := (free_iff S.thin x0 S.pol ω dx hwid eps mu E).1 hE
  obtain ⟨hl, hr⟩ := (S.ports_iff x0 E A B C D).1 hP
  have e : ∀ (i : ℕ) (hn : i < sh a), (at' x0 (⟨i, hn⟩ : Fin (sh a)) a : ℕ) = i := fun i hn => by rw [at_same]
  set Q := (out.wE * out.μ)⁻¹ with hQd
  have hQ : Q ≠ 0 := inv_ne_zero (mul_ne_zero hD.outW.1 hD.outW.2.2)
  have hin : ∀ j i, j < N → i < p → l + p * j + i < sh a := fun j i hj hi => by
    have : p * j + p ≤ p * N := by rw [← Nat.mul_succ]; exact Nat.mul_le_mul_left _ hj
    omega
  have hst := st_periods (cq := fun i => ((cell i).wE * (cell i).μ)⁻¹) (cv := fun i => ω ^ 2 * ((cell i).wH * (cell i).ε)) hf htwo N (by omega)
    (fun i hi => inv_ne_zero (mul_ne_zero (hD.cellW i hi).1 (hD.cellW i hi).2.2))
    (fun j i hj hi => by
      have h := qs_at (c := c) S.thin x0 dx mu (at' x0 (⟨l + p * j + i, hin j i hj hi⟩ : Fin (sh a)))
      have h2 := R.inner _ j i hj hi (e _ (hin j i hj hi))
      rw [e] at h
      rw [h, ← h2])
    (fun j i hj hi => by
      have h := vs_at (c := c) S.thin x0 ω dx eps (at' x0 (⟨l + p * j + i, hin j i hj hi⟩ : Fin (sh a)))
      have h2 := R.inner _ j i hj hi (e _ (hin j i hj hi))
      rw [e] at h
      rw [h, ← h2])
  have hleft : st (qs a c x0 dx mu) (fs a c x0 E) l = portM Q κ *ᵥ ![A, B] := by
    rw [portM_waves, st, hl l le_rfl, hl (l - 1) (by omega), S.qs_left x0 (by omega), sub_self, Nat.cast_sub htwo, Nat.cast_one, ← hD.same, sub_sub_cancel_left]
  have hright : st (qs a c x0 dx mu) (fs a c x0 E) (l + p * N) = portM Q κ *ᵥ ![C, D] := by
    obtain ⟨k, hk⟩ : ∃ k, l + p * N = k + 1 := ⟨l + p * N - 1, by omega⟩
    have heq := hf k (by omega)
    have hv : vs a c x0 ω dx eps (k + 1) = ω ^ 2 * (out.wH * out.ε) := by
      have h := vs_at (c := c) S.thin x0 ω dx eps (at' x0 (⟨k + 1, by omega⟩ : Fin (sh a)))
      have h2 := R.outer (at' x0 (⟨k + 1, by omega⟩ : Fin (sh a))) (Or.inr (by rw [e]; omega))
      rw [e] at h
      rw [h, ← h2]
    have hq : qs a c x0 dx mu (k + 1) = Q := by rw [S.qs_right x0 (by omega) (by omega), hQd, hD.same]
    have h0 : fs a c x0 E (k + 1) = waves κ C D 0 := by
      rw [hr (k + 1) (by omega) (by omega), ← hk, sub_self]
    have h1 : fs a c x0 E (k + 2) = waves κ C D (0 + 1) := by
      rw [hr (k + 2) (by omega) (by omega), hk]; congr 1; push_cast; ring
    have hrec := waves_rec κ C D 0
    rw [hv, hq, h0, h1] at heq
    have hV : ω ^ 2 * (out.wH * out.ε) = Q * (2 * sin (κ / 2)) ^ 2 := by
      rw [hD.disp, hQd, hD.same]
      obtain ⟨_, _, h3⟩ := hD.outW
      field_simp
    rw [portM_waves, st, hk, h0, Nat.add_sub_cancel]
    refine congrArg (fun z => ![waves κ C D 0, z]) ?_
    rw [zero_sub] at hrec
    rw [hV] at heq
    linear_combination Q * hrec - heq
  rw [hleft, hright] at hst
  have hdet := portM_det hQ hD.edge
  have hu : IsUnit (portM Q κ).det := isUnit_iff_ne_zero.2 hdet
  rw [W, conj_pow (Matrix.mul_nonsing_inv _ hu) (Matrix.nonsing_inv_mul _ hu), ← Matrix.mulVec_mulVec, ← Matrix.mulVec_mulVec, ← hst, Matrix.mulVec_mulVec, Matrix.nonsing_inv_mul _ hu, Matrix.one_mulVec]

end Repeats

end

namespace Bragg

theorem conj_eq {z : ℂ} (h : z.im = 0) : (starRingEnd ℂ) z = z := conj_eq_iff_im.2 h

/-- The exchange of the two waves. -/
def swapM : Matrix (Fin 2) (Fin 2) ℂ := !![0, 1; 1, 0]

theorem swapM_sq : swapM * swapM = 1 := by
  ext i j; fin_cases i <;> fin_cases j <;> simp [swapM, Matrix.mul_apply, Fin.sum_univ_two]

theorem tm_real {q v : ℕ → ℂ} (p : ℕ) (hq : ∀ i, i < p → (starRingEnd ℂ) (q i) = q i) (hv : ∀ i, i < p → (starRingEnd ℂ) (v i) = v i) :
    (starRingEnd ℂ).mapMatrix (tm q v p) = tm q v p := by
  induction p with
  | zero => simp [tm]
  | succ p ih =>
    rw [tm, map_mul, ih (fun i hi => hq i (by omega)) fun i hi => hv i (by omega)]
    congr 1
    ext i j
    fin_cases i <;> fin_cases j <;> simp [stepM, hq p (by omega), hv p (by omega)]

theorem portM_conj {Q κ : ℂ} (hQ : (starRingEnd ℂ) Q = Q) (hκ : (starRingEnd ℂ) κ = κ) : (starRingEnd ℂ).mapMatrix (portM Q κ) = portM Q κ * swapM := by
  ext i j
  fin_cases i <;> fin_cases j <;> simp [portM, swapM, Matrix.mul_apply, Fin.sum_univ_two, hQ, hκ, ← exp_conj]

/-- Time reversal. -/
theorem W_conj {p : ℕ} {ω κ : ℝ} {out : Layer} {cell : ℕ → Layer} (hD : PeriodData p ω κ out cell) (hout : out.Real) (hcell : ∀ i, i < p → (cell i).Real) (n : ℕ) :
    (starRingEnd ℂ).mapMatrix (W ω κ out cell p ^ n) = swapM * W ω κ out cell p ^ n * swapM := by
  have hdet := portM_det (inv_ne_zero (mul_ne_zero hD.outW.1 hD.outW.2.2)) hD.edge
  have hu := isUnit_iff_ne_zero.2 hdet
  have hP := portM_conj (Q := (out.wE * out.μ)⁻¹) (κ := κ) (by rw [map_inv₀, map_mul, conj_eq hout.1, conj_eq hout.2.2.2]) (conj_ofReal κ)
  have h1 : (starRingEnd ℂ).mapMatrix (W ω κ out cell p) = swapM * W ω κ out cell p * swapM := by
    rw [W, map_mul, map_mul, tm_real p (fun i hi => by rw [map_inv₀, map_mul, conj_eq (hcell i hi).1, conj_eq (hcell i hi).2.2.2])
      (fun i hi => by rw [map_mul, map_mul, map_pow, conj_ofReal, conj_eq (hcell i hi).2.1, conj_eq (hcell i hi).2.2.1]), hP]
    generalize portM (out.wE * out.μ)⁻¹ (κ : ℂ) = P at *
    have hPi : (starRingEnd ℂ).mapMatrix P⁻¹ = swapM * P⁻¹ := by
      have h2 : (starRingEnd ℂ).mapMatrix P⁻¹ * (P * swapM) = 1 := by rw [← hP, ← map_mul, Matrix.nonsing_inv_mul _ hu, map_one]
      have h3 : (P * swapM) * (swapM * P⁻¹) = 1 := by
        rw [show P * swapM * (swapM * P⁻¹) = P * (swapM * swapM) * P⁻¹ by simp only [mul_assoc], swapM_sq, mul_one, Matrix.mul_nonsing_inv _ hu]
      rw [← mul_one ((starRingEnd ℂ).mapMatrix P⁻¹), ← h3, ← mul_assoc, h2, one_mul]
    rw [hPi]
    simp only [mul_assoc]
  rw [map_pow, h1, conj_pow swapM_sq swapM_sq]

theorem W_entries {p : ℕ} {ω κ : ℝ} {out : Layer} {cell : ℕ → Layer} (hD : PeriodData p ω κ out cell) (hout : out.Real) (hcell : ∀ i, i < p → (cell i).Real) (n : ℕ) :
    (W ω κ out cell p ^ n) 0 0 = (starRingEnd ℂ) ((W ω κ out cell p ^ n) 1 1) ∧ (W ω κ out cell p ^ n) 0 1 = (starRingEnd ℂ) ((W ω κ out cell p ^ n) 1 0) := by
  have h := W_conj hD hout hcell n
  generalize W ω κ out cell p ^ n = X at *
  have h0 := congrFun (congrFun h 1) 1
  have h1 := congrFun (congrFun h 1) 0
  simp only [RingHom.mapMatrix_apply, Matrix.map_apply, swapM, Matrix.mul_apply, Fin.sum_univ_two, Matrix.of_apply, Matrix.cons_val', Matrix.cons_val_zero, Matrix.cons_val_one, Matrix.cons_val_fin_one,
    zero_mul, one_mul, mul_zero, mul_one, zero_add, add_zero] at h0 h1
  exact ⟨h0.symm, h1.symm⟩

end Bragg

section
variable {sh₁ : Fin 3 → ℕ} {a c a₁ c₁ : Fin 3} {l l₁ p N : ℕ} {out : Layer} {cell : ℕ → Layer} {dx : Dx sh} {eps : Vec sh} {mu : Option (Vec sh)}
  {dx₁ : Dx sh₁} {eps₁ : Vec sh₁} {mu₁ : Option (Vec sh₁)}

/-- **C171.** A period has a transfer matrix of determinant one, the same in every grid, at every place, along every axis and for every number of copies: the waves behind `N` copies are its `N`-th power applied to the waves
in front. -/
theorem C171_transfer {ω κ : ℂ} (hD : PeriodData p ω κ out cell) : ∃ X : Matrix (Fin 2) (Fin 2) ℂ, X.det = 1 ∧
    ∀ (sh : Fin 3 → ℕ) (a c : Fin 3) (l N : ℕ) (dx : Dx sh) (eps : Vec sh) (mu : Option (Vec sh)) (E : Vec sh) (A B C D : ℂ), Repeats a c l p N out cell dx eps mu →
      InnerFree a c ω dx eps mu E → Ports a c l (l + p * N) κ κ E A B C D → ![C, D] = X ^ N *ᵥ ![A, B] :=
  ⟨W ω κ out cell p, W_det hD, fun _ _ _ _ _ _ _ _ _ _ _ _ _ R hE hP => R.transfer hD hE hP⟩

/-- **C171.** Any media (also with loss): what `N + 1` copies reflect and transmit follows from what one period reflects and transmits, in any other simulation, by
`1 / t_{N+1} = s_{N+1} / t - s_N` and `r_{N+1} / t_{N+1} = s_{N+1} r / t`, where `s` are the numbers `sines x` with `x = (1 + t² - r r') / (2 t)`. -/
theorem C171_repeated {ω κ : ℂ} (hD : PeriodData p ω κ out cell) (R₁ : Repeats a₁ c₁ l₁ p 1 out cell dx₁ eps₁ mu₁) {E₁ E₁' : Vec sh₁}
    (hE₁ : InnerFree a₁ c₁ ω dx₁ eps₁ mu₁ E₁) (hE₁' : InnerFree a₁ c₁ ω dx₁ eps₁ mu₁ E₁') {r t r' t' : ℂ}
    (hP₁ : Ports a₁ c₁ l₁ (l₁ + p * 1) κ κ E₁ 1 r t 0) (hP₁' : Ports a₁ c₁ l₁ (l₁ + p * 1) κ κ E₁' 0 t' r' 1)
    (R : Repeats a c l p (N + 1) out cell dx eps mu) {E : Vec sh} (hE : InnerFree a c ω dx eps mu E) {rN tN : ℂ} (hP : Ports a c l (l + p * (N + 1)) κ κ E 1 rN tN 0) :
    t ≠ 0 ∧ t' = t ∧ tN ≠ 0 ∧ 1 / tN = sines ((1 + t ^ 2 - r * r') / (2 * t)) (N + 1) / t - sines ((1 + t ^ 2 - r * r') / (2 * t)) N ∧
      rN / tN = sines ((1 + t ^ 2 - r * r') / (2 * t)) (N + 1) * (r / t) := by
  have h1 := R₁.transfer hD hE₁ hP₁
  have h1' := R₁.transfer hD hE₁' hP₁'
  have h2 := R.transfer hD hE hP
  have hdet := W_det hD
  generalize W ω κ out cell p = X at *
  rw [pow_one] at h1 h1'
  obtain ⟨b1, b2⟩ := coeff_left hdet h1
  obtain ⟨c1, c2⟩ := coeff_right h1'
  obtain ⟨d1, d2⟩ := coeff_left (by rw [Matrix.det_pow, hdet, one_pow]) h2
  have ht : t ≠ 0 := right_ne_zero_of_mul_eq_one b1
  have htN : tN ≠ 0 := right_ne_zero_of_mul_eq_one d1
  have hX11 : X 1 1 = 1 / t := eq_div_of_mul_eq ht b1
  have htt : t' = t := by
    rw [hX11] at c1
    field_simp at c1
    exact c1
  subst htt
  have hx : (X 0 0 + X 1 1) / 2 = (1 + t' ^ 2 - r * r') / (2 * t') := by
    rw [Matrix.det_fin_two] at hdet
    rw [div_eq_div_iff two_ne_zero (mul_ne_zero two_ne_zero ht), b2, c2]
    linear_combination 2 * b1 + 2 * t' ^ 2 * hdet - 2 * X 0 0 * t' * b1
  rw [pow_sines hdet, hx] at d1 d2
  simp at d1 d2
  refine ⟨ht, rfl, htN, ?_, ?_⟩
  · generalize (1 + t' ^ 2 - r * r') / (2 * t') = x at *
    rw [hX11] at d1
    rw [eq_comm, eq_div_iff htN, ← d1]; ring
  · generalize (1 + t' ^ 2 - r * r') / (2 * t') = x at *
    rw [div_eq_iff htN, d2, b2]
    field_simp

/-- **C171.** Bloch waves of the endless row of periods: there is a field that comes back multiplied by `lam` behind one period if and only if `lam² - 2 x lam + 1 = 0`, with the same `x`. -/
theorem C171_bloch {ω κ : ℂ} (hD : PeriodData p ω κ out cell) (R₁ : Repeats a₁ c₁ l₁ p 1 out cell dx₁ eps₁ mu₁) {E₁ E₁' : Vec sh₁}
    (hE₁ : InnerFree a₁ c₁ ω dx₁ eps₁ mu₁ E₁) (hE₁' : InnerFree a₁ c₁ ω dx₁ eps₁ mu₁ E₁') {r t r' t' : ℂ}
    (hP₁ : Ports a₁ c₁ l₁ (l₁ + p * 1) κ κ E₁ 1 r t 0) (hP₁' : Ports a₁ c₁ l₁ (l₁ + p * 1) κ κ E₁' 0 t' r' 1) (lam : ℂ) :
    (∃ E A B, InnerFree a₁ c₁ ω dx₁ eps₁ mu₁ E ∧ (A ≠ 0 ∨ B ≠ 0) ∧ Ports a₁ c₁ l₁ (l₁ + p * 1) κ κ E A B (lam * A) (lam * B)) ↔
      lam ^ 2 - 2 * ((1 + t ^ 2 - r * r') / (2 * t)) * lam + 1 = 0 := by
  have h1 := R₁.transfer hD hE₁ hP₁
  have h1' := R₁.transfer hD hE₁' hP₁'
  have hdet := W_det hD
  have htr := fun E A B C D (hE : InnerFree a₁ c₁ ω dx₁ eps₁ mu₁ E) (hP : Ports a₁ c₁ l₁ (l₁ + p * 1) κ κ E A B C D) => R₁.transfer hD hE hP
  generalize W ω κ out cell p = X at *
  rw [pow_one] at h1 h1' htr
  obtain ⟨b1, b2⟩ := coeff_left hdet h1
  obtain ⟨c1, c2⟩ := coeff_right h1'
  have ht : t ≠ 0 := right_ne_zero_of_mul_eq_one b1
  have hX11 : X 1 1 = 1 / t := eq_div_of_mul_eq ht b1
  have htt : t' = t := by
    rw [hX11] at c1
    field_simp at c1
    exact c1
  subst htt
  rw [Matrix.det_fin_two] at hdet
  have hx : 2 * ((1 + t' ^ 2 - r * r') / (2 * t')) = X 0 0 + X 1 1 := by
    rw [mul_div_assoc', eq_comm, eq_div_iff (mul_ne_zero two_ne_zero ht), b2, c2]
    linear_combination 2 * b1 + 2 * t' ^ 2 * hdet - 2 * X 0 0 * t' * b1
  rw [hx]
  have hchar : lam ^ 2 - (X 0 0 + X 1 1) * lam + 1 = (lam - X 0 0) * (lam - X 1 1) - X 0 1 * X 1 0 := by linear_combination -hdet
  rw [hchar]
  constructor
  · rintro ⟨E, A, B, hE, hAB, hP⟩
    have h := htr E A B _ _ hE hP
    have h0 := congrFun h 0
    have h1 := congrFun h 1
    simp only [Matrix.mulVec, dotProduct, Fin.sum_univ_two, Matrix.cons_val_zero, Matrix.cons_val_one] at h0 h1
    rcases hAB with hA | hB
    · refine (mul_eq_zero.1 (?_ : A * ((lam - X 0 0) * (lam - X 1 1) - X 0 1 * X 1 0) = 0)).resolve_left hA
      linear_combination (lam - X 1 1) * h0 + X 0 1 * h1
    · refine (mul_eq_zero.1 (?_ : B * ((lam - X 0 0) * (lam - X 1 1) - X 0 1 * X 1 0) = 0)).resolve_left hB
      linear_combination (lam - X 0 0) * h1 + X 1 0 * h0
  · intro hl
    obtain ⟨A, B, hAB, e0, e1⟩ : ∃ A B : ℂ, (A ≠ 0 ∨ B ≠ 0) ∧ X 0 0 * A + X 0 1 * B = lam * A ∧ X 1 0 * A + X 1 1 * B = lam * B := by
      by_cases hz : X 0 1 = 0 ∧ lam - X 0 0 = 0
      · by_cases hz' : X 1 0 = 0 ∧ lam - X 1 1 = 0
        · exact ⟨1, 0, Or.inl one_ne_zero, by linear_combination -hz.2, by linear_combination hz'.1⟩
        · refine ⟨lam - X 1 1, X 1 0, ?_, ?_, by ring⟩
          · by_contra h; push Not at h; exact hz' ⟨h.2, h.1⟩
          · linear_combination -hl
      · refine ⟨X 0 1, lam - X 0 0, ?_, by ring, ?_⟩
        · by_contra h; push Not at h; exact hz h
        · linear_combination -hl
    refine ⟨A • E₁ + (lam * B) • E₁', A, B, fun x hx hx' => ?_, hAB, fun x hx => ?_, fun x hx => ?_⟩
    · rw [Matrix.mulVec_add, Matrix.mulVec_smul, Matrix.mulVec_smul, Pi.add_apply, Pi.smul_apply, Pi.smul_apply, hE₁ x hx hx', hE₁' x hx hx', smul_zero, smul_zero, add_zero]
    · have hB : A * r + lam * B * t' = B := by rw [b2]; linear_combination -t' * e1 + B * b1
      rw [Pi.add_apply, Pi.smul_apply, Pi.smul_apply, smul_eq_mul, smul_eq_mul, hP₁.left x hx, hP₁'.left x hx]
      linear_combination exp (I * κ * (((x a₁ : ℕ) : ℂ) - l₁)) * hB
    · have hC : A * t' + lam * B * r' = lam * A := by rw [c2]; linear_combination (-(X 0 1 * t')) * e1 + A * t' * hdet * (-1) + (X 0 0 * A + X 0 1 * B) * b1 + e0
      rw [Pi.add_apply, Pi.smul_apply, Pi.smul_apply, smul_eq_mul, smul_eq_mul, hP₁.right x hx, hP₁'.right x hx]
      linear_combination exp (-I * κ * (((x a₁ : ℕ) : ℂ) - (l₁ + p * 1 : ℕ))) * hC

end

namespace Bragg

/-- Everything for lossless media, from the left coefficients alone. -/
theorem lossless {p : ℕ} {ω κ : ℝ} {out : Layer} {cell : ℕ → Layer} (hD : PeriodData p ω κ out cell) (hout : out.Real) (hcell : ∀ i, i < p → (cell i).Real) {n : ℕ} {r t rN tN : ℂ}
    (h1 : ![t, 0] = W ω κ out cell p *ᵥ ![1, r]) (h2 : ![tN, 0] = W ω κ out cell p ^ n *ᵥ ![1, rN]) :
    t ≠ 0 ∧ tN ≠ 0 ∧ normSq rN + normSq tN = 1 ∧ normSq r + normSq t = 1 ∧ 1 / normSq tN = 1 + sines (1 / t).re n ^ 2 * (normSq r / normSq t) := by
  have hdet := W_det hD
  have hent := W_entries hD hout hcell
  generalize W ω κ out cell p = X at *
  have hpower : ∀ {n : ℕ} {r t : ℂ}, ![t, 0] = X ^ n *ᵥ ![1, r] → t ≠ 0 ∧ normSq r + normSq t = 1 := by
    intro n r t h
    have hd : (X ^ n).det = 1 := by rw [Matrix.det_pow, hdet, one_pow]
    obtain ⟨b1, b2⟩ := coeff_left hd h
    obtain ⟨c1, c2⟩ := hent n
    have ht : t ≠ 0 := right_ne_zero_of_mul_eq_one b1
    rw [Matrix.det_fin_two, c1, c2, ← normSq_eq_conj_mul_self, ← normSq_eq_conj_mul_self] at hd
    have hd' : normSq ((X ^ n) 1 1) - normSq ((X ^ n) 1 0) = 1 := by exact_mod_cast hd
    have b1' := congrArg normSq b1
    rw [normSq_mul, map_one] at b1'
    refine ⟨ht, ?_⟩
    rw [b2, neg_mul, normSq_neg, normSq_mul]
    linear_combination b1' - normSq t * hd'
  have h1' : ![t, 0] = X ^ 1 *ᵥ ![1, r] := by rw [pow_one]; exact h1
  obtain ⟨ht, hp⟩ := hpower h1'
  obtain ⟨htN, hpN⟩ := hpower h2
  refine ⟨ht, htN, hpN, hp, ?_⟩
  have hnt : normSq t ≠ 0 := fun h => ht (normSq_eq_zero.1 h)
  have hntN : normSq tN ≠ 0 := fun h => htN (normSq_eq_zero.1 h)
  cases n with
  | zero =>
    simp only [pow_zero, Matrix.one_mulVec] at h2
    have e0 := congrFun h2 0
    simp only [Matrix.cons_val_zero] at e0
    rw [e0]; simp [sines]
  | succ n =>
    obtain ⟨b1, b2⟩ := coeff_left hdet h1
    obtain ⟨-, d2⟩ := coeff_left (by rw [Matrix.det_pow, hdet, one_pow]) h2
    have hX11 : X 1 1 = 1 / t := eq_div_of_mul_eq ht b1
    have hx : (X 0 0 + X 1 1) / 2 = (((1 / t).re : ℝ) : ℂ) := by
      have := (hent 1).1
      rw [pow_one] at this
      rw [this, ← hX11, add_comm, add_conj]; push_cast; ring
    rw [pow_sines hdet, hx, sines_ofReal] at d2
    generalize sines (1 / t).re (n + 1) = s at *
    simp at d2
    have e1 := congrArg normSq d2
    have e2 := congrArg normSq b2
    rw [neg_mul, normSq_neg, normSq_mul] at e2
    rw [normSq_neg, normSq_mul, normSq_mul, normSq_ofReal] at e1
    rw [e2, mul_div_assoc, div_self hnt, mul_one, div_eq_iff hntN]
    linear_combination e1 - hpN

end Bragg

section
variable {sh₁ : Fin 3 → ℕ} {a c a₁ c₁ : Fin 3} {l l₁ p N : ℕ} {ω κ : ℝ} {out : Layer} {cell : ℕ → Layer} {dx : Dx sh} {eps : Vec sh} {mu : Option (Vec sh)}
  {dx₁ : Dx sh₁} {eps₁ : Vec sh₁} {mu₁ : Option (Vec sh₁)}

/-- **C171.** Lossless media: power is conserved, and the transmission of `N` copies is `1 / (1 + s_N² R / T)` for the reflection `R` and transmission `T` of one period and `x = Re (1 / t)`. -/
theorem C171_lossless (hD : PeriodData p ω κ out cell) (hout : out.Real) (hcell : ∀ i, i < p → (cell i).Real) (R₁ : Repeats a₁ c₁ l₁ p 1 out cell dx₁ eps₁ mu₁) {E₁ : Vec sh₁}
    (hE₁ : InnerFree a₁ c₁ ω dx₁ eps₁ mu₁ E₁) {r t : ℂ} (hP₁ : Ports a₁ c₁ l₁ (l₁ + p * 1) κ κ E₁ 1 r t 0)
    (R : Repeats a c l p N out cell dx eps mu) {E : Vec sh} (hE : InnerFree a c ω dx eps mu E) {rN tN : ℂ} (hP : Ports a c l (l + p * N) κ κ E 1 rN tN 0) :
    t ≠ 0 ∧ tN ≠ 0 ∧ normSq rN + normSq tN = 1 ∧ normSq r + normSq t = 1 ∧ 1 / normSq tN = 1 + sines (1 / t).re N ^ 2 * (normSq r / normSq t) := by
  have h1 := R₁.transfer hD hE₁ hP₁
  rw [pow_one] at h1
  exact lossless hD hout hcell h1 (R.transfer hD hE hP)

/-- **C171.** In a gap of the row (`|x| ≥ 1`) the transmission of `N + 1` copies is at most `1 / (1 + ((N + 1) |x|^N)² R / T)`: it falls exponentially inside the gap. -/
theorem C171_gap (hD : PeriodData p ω κ out cell) (hout : out.Real) (hcell : ∀ i, i < p → (cell i).Real) (R₁ : Repeats a₁ c₁ l₁ p 1 out cell dx₁ eps₁ mu₁) {E₁ : Vec sh₁}
    (hE₁ : InnerFree a₁ c₁ ω dx₁ eps₁ mu₁ E₁) {r t : ℂ} (hP₁ : Ports a₁ c₁ l₁ (l₁ + p * 1) κ κ E₁ 1 r t 0) (hgap : 1 ≤ |(1 / t).re|)
    (R : Repeats a c l p (N + 1) out cell dx eps mu) {E : Vec sh} (hE : InnerFree a c ω dx eps mu E) {rN tN : ℂ} (hP : Ports a c l (l + p * (N + 1)) κ κ E 1 rN tN 0) :
    normSq tN * (1 + ((N + 1) * |(1 / t).re| ^ N) ^ 2 * (normSq r / normSq t)) ≤ 1 := by
  obtain ⟨ht, htN, -, -, h⟩ := C171_lossless hD hout hcell R₁ hE₁ hP₁ R hE hP
  have h1 := sines_ge hgap N
  have h2 : ((N + 1) * |(1 / t).re| ^ N) ^ 2 ≤ sines (1 / t).re (N + 1) ^ 2 := by
    rw [← sq_abs (sines _ _)]; exact pow_le_pow_left₀ (by positivity) h1 2
  have h3 : 0 < normSq tN := normSq_pos.2 htN
  have h4 : 0 ≤ normSq r / normSq t := div_nonneg (normSq_nonneg _) (normSq_nonneg _)
  calc normSq tN * (1 + ((N + 1) * |(1 / t).re| ^ N) ^ 2 * (normSq r / normSq t)) ≤ normSq tN * (1 + sines (1 / t).re (N + 1) ^ 2 * (normSq r / normSq t)) :=
        mul_le_mul_of_nonneg_left (by have := mul_le_mul_of_nonneg_right h2 h4; linarith) h3.le
    _ = 1 := by rw [← h]; field_simp

/-- **C171.** So enough copies make a mirror: in a gap (also at its edge, if the period reflects at all) the reflection of `N` copies is as close to one as wanted for all large `N`, in all grids. -/
theorem C171_mirror (hD : PeriodData p ω κ out cell) (hout : out.Real) (hcell : ∀ i, i < p → (cell i).Real) (R₁ : Repeats a₁ c₁ l₁ p 1 out cell dx₁ eps₁ mu₁) {E₁ : Vec sh₁}
    (hE₁ : InnerFree a₁ c₁ ω dx₁ eps₁ mu₁ E₁) {r t : ℂ} (hP₁ : Ports a₁ c₁ l₁ (l₁ + p * 1) κ κ E₁ 1 r t 0) (hgap : 1 ≤ |(1 / t).re|) (hr : r ≠ 0) {δ : ℝ} (hδ : 0 < δ) :
    ∃ N0 : ℕ, ∀ (sh : Fin 3 → ℕ) (a c : Fin 3) (l N : ℕ) (dx : Dx sh) (eps : Vec sh) (mu : Option (Vec sh)) (E : Vec sh) (rN tN : ℂ), N0 ≤ N → Repeats a c l p N out cell dx eps mu →
      InnerFree a c ω dx eps mu E → Ports a c l (l + p * N) κ κ E 1 rN tN 0 → 1 - δ ≤ normSq rN := by
  have h1 := R₁.transfer hD hE₁ hP₁
  rw [pow_one] at h1
  obtain ⟨n0, hn0⟩ := exists_nat_gt (normSq t / normSq r / δ)
  refine ⟨n0 + 1, fun sh a c l N dx eps mu E rN tN hN R hE hP => ?_⟩
  obtain ⟨N, rfl⟩ : ∃ k, N = k + 1 := ⟨N - 1, by omega⟩
  have hg := C171_gap hD hout hcell R₁ hE₁ hP₁ hgap R hE hP
  obtain ⟨ht, htN, hp, -, -⟩ := C171_lossless hD hout hcell R₁ hE₁ hP₁ R hE hP
  have hrr : 0 < normSq r := normSq_pos.2 hr
  have htt : 0 < normSq t := normSq_pos.2 ht
  have hNN : 0 < normSq tN := normSq_pos.2 htN
  have hk : (n0 : ℝ) ≤ ((N + 1) * |(1 / t).re| ^ N) ^ 2 := by
    have e1 : (1 : ℝ) ≤ |(1 / t).re| ^ N := one_le_pow₀ hgap
    have e2 : (n0 : ℝ) ≤ N := by exact_mod_cast (by omega : n0 ≤ N)
    have e3 : (N : ℝ) + 1 ≤ (N + 1) * |(1 / t).re| ^ N := le_mul_of_one_le_right (by positivity) e1
    nlinarith [e3, (Nat.cast_nonneg N : (0 : ℝ) ≤ N)]
  have hq : 0 < normSq r / normSq t := div_pos hrr htt
  have hb : 1 / δ < ((N + 1) * |(1 / t).re| ^ N) ^ 2 * (normSq r / normSq t) := by
    have : normSq t / normSq r / δ * (normSq r / normSq t) = 1 / δ := by field_simp
    rw [← this]
    exact mul_lt_mul_of_pos_right (lt_of_lt_of_le hn0 hk) hq
  have hc : normSq tN * (1 / δ) ≤ 1 := by nlinarith
  have hd : normSq tN ≤ δ := by
    rw [mul_one_div, div_le_one hδ] at hc; exact hc
  linarith

/-- **C171.** In a band (`|x| < 1`) the transmission never falls below `(1 - x²) / (1 - x² + R / T)`, however many copies there are. -/
theorem C171_band (hD : PeriodData p ω κ out cell) (hout : out.Real) (hcell : ∀ i, i < p → (cell i).Real) (R₁ : Repeats a₁ c₁ l₁ p 1 out cell dx₁ eps₁ mu₁) {E₁ : Vec sh₁}
    (hE₁ : InnerFree a₁ c₁ ω dx₁ eps₁ mu₁ E₁) {r t : ℂ} (hP₁ : Ports a₁ c₁ l₁ (l₁ + p * 1) κ κ E₁ 1 r t 0) (hband : |(1 / t).re| < 1)
    (R : Repeats a c l p N out cell dx eps mu) {E : Vec sh} (hE : InnerFree a c ω dx eps mu E) {rN tN : ℂ} (hP : Ports a c l (l + p * N) κ κ E 1 rN tN 0) :
    (1 - (1 / t).re ^ 2) / (1 - (1 / t).re ^ 2 + normSq r / normSq t) ≤ normSq tN := by
  obtain ⟨ht, htN, -, -, h⟩ := C171_lossless hD hout hcell R₁ hE₁ hP₁ R hE hP
  generalize (1 / t).re = x at *
  have hx : 0 < 1 - x ^ 2 := by rw [sub_pos, ← sq_abs]; exact pow_lt_one₀ (abs_nonneg _) hband two_ne_zero
  have hs : (1 - x ^ 2) * sines x N ^ 2 ≤ 1 := by
    have := sines_inv x N
    nlinarith [sq_nonneg (sines x (N + 1) - x * sines x N)]
  have h3 : 0 < normSq tN := normSq_pos.2 htN
  have h4 : 0 ≤ normSq r / normSq t := div_nonneg (normSq_nonneg _) (normSq_nonneg _)
  rw [div_le_iff₀ (by linarith)]
  have h5 : normSq tN * (1 + sines x N ^ 2 * (normSq r / normSq t)) = 1 := by rw [← h]; field_simp
  have h6 := mul_le_mul_of_nonneg_right hs (mul_nonneg h3.le h4)
  linear_combination h6 - (1 - x ^ 2) * h5

/-- **C171.** Windows: `N` copies transmit everything wherever `Re (1 / t) = cos (k π / N)` with `0 < k < N`. -/
theorem C171_windows (hD : PeriodData p ω κ out cell) (hout : out.Real) (hcell : ∀ i, i < p → (cell i).Real) (R₁ : Repeats a₁ c₁ l₁ p 1 out cell dx₁ eps₁ mu₁) {E₁ : Vec sh₁}
    (hE₁ : InnerFree a₁ c₁ ω dx₁ eps₁ mu₁ E₁) {r t : ℂ} (hP₁ : Ports a₁ c₁ l₁ (l₁ + p * 1) κ κ E₁ 1 r t 0) {k : ℕ} (hk : 0 < k) (hkN : k < N) (hx : (1 / t).re = Real.cos (k * Real.pi / N))
    (R : Repeats a c l p N out cell dx eps mu) {E : Vec sh} (hE : InnerFree a c ω dx eps mu E) {rN tN : ℂ} (hP : Ports a c l (l + p * N) κ κ E 1 rN tN 0) :
    rN = 0 ∧ normSq tN = 1 := by
  obtain ⟨-, -, hp, -, h⟩ := C171_lossless hD hout hcell R₁ hE₁ hP₁ R hE hP
  have hN : (0 : ℝ) < N := by exact_mod_cast (by omega : 0 < N)
  have hs := sines_sin (k * Real.pi / N) N
  rw [mul_div_cancel₀ _ hN.ne', Real.sin_nat_mul_pi] at hs
  have hpos : 0 < Real.sin (k * Real.pi / N) := by
    have hk' : (0 : ℝ) < k := by exact_mod_cast hk
    have hkN' : (k : ℝ) < N := by exact_mod_cast hkN
    refine Real.sin_pos_of_pos_of_lt_pi (by positivity) ?_
    rw [div_lt_iff₀ hN, mul_comm]
    exact mul_lt_mul_of_pos_left hkN' Real.pi_pos
  rw [hx, (mul_eq_zero.1 hs).resolve_right hpos.ne', zero_pow two_ne_zero, zero_mul, add_zero, one_div, inv_eq_one] at h
  rw [h] at hp
  exact ⟨normSq_eq_zero.1 (by linarith), h⟩

end

/-- **C171.** What the gap condition means for a period of a single plane of cells: `Re (1 / t) = 1 - ω² wE wH ε μ / 2`, whatever is outside. -/
theorem C171_single {a₁ c₁ : Fin 3} {l₁ : ℕ} {ω κ : ℝ} {out : Layer} {cell : ℕ → Layer} {dx₁ : Dx sh} {eps₁ : Vec sh} {mu₁ : Option (Vec sh)} (hD : PeriodData 1 ω κ out cell) (hout : out.Real)
    (hcell : (cell 0).Real) (R₁ : Repeats a₁ c₁ l₁ 1 1 out cell dx₁ eps₁ mu₁) {E₁ : Vec sh} (hE₁ : InnerFree a₁ c₁ ω dx₁ eps₁ mu₁ E₁) {r t : ℂ} (hP₁ : Ports a₁ c₁ l₁ (l₁ + 1 * 1) κ κ E₁ 1 r t 0) :
    (((1 / t).re : ℝ) : ℂ) = 1 - ω ^ 2 * ((cell 0).wE * (cell 0).wH * (cell 0).ε * (cell 0).μ) / 2 := by
  have hcell' : ∀ i, i < 1 → (cell i).Real := fun i hi => by rw [Nat.lt_one_iff.1 hi]; exact hcell
  have h1 := R₁.transfer hD hE₁ hP₁
  rw [pow_one] at h1
  obtain ⟨b1, -⟩ := coeff_left (W_det hD) h1
  have h2 := (W_entries hD hout hcell' 1).1
  rw [pow_one] at h2
  have ht : t ≠ 0 := right_ne_zero_of_mul_eq_one b1
  have hX11 : W ω κ out cell 1 1 1 = 1 / t := eq_div_of_mul_eq ht b1
  have hdet := portM_det (inv_ne_zero (mul_ne_zero hD.outW.1 hD.outW.2.2)) hD.edge
  have htr : Matrix.trace (W ω κ out cell 1) = 2 - ω ^ 2 * ((cell 0).wE * (cell 0).wH * (cell 0).ε * (cell 0).μ) := by
    rw [W, Matrix.trace_mul_comm, ← mul_assoc, Matrix.mul_nonsing_inv _ (isUnit_iff_ne_zero.2 hdet), one_mul, tm, tm, mul_one, stepM, Matrix.trace_fin_two_of]
    obtain ⟨_, _, _⟩ := hD.cellW 0 one_pos
    field_simp
    ring
  rw [Matrix.trace_fin_two, h2, hX11, add_comm, add_conj] at htr
  have : (2 : ℂ) * ((1 / t).re : ℝ) = 2 - ω ^ 2 * ((cell 0).wE * (cell 0).wH * (cell 0).ε * (cell 0).μ) := by rw [← htr]; push_cast; ring
  linear_combination this / 2

/-! The hypotheses are met: planes of unit cells with `ε = 5` in vacuum, at `ω = 1` (phase `π/3` per cell), on the row of `N + 4` cells. Each `N` has a field with a wave coming in from the left, and the reflection tends
to one, since `Re (1 / t) = 1 - 5/2`. -/
namespace Bragg

/-- `N` planes with `ε = 5`. -/
noncomputable def exEps (N : ℕ) : Vec ![N + 4, 1, 1] := fun q => if 2 ≤ (q.2 0 : ℕ) ∧ (q.2 0 : ℕ) < 2 + N then 5 else 1

theorem ex_repeats (N : ℕ) : Repeats (sh := ![N + 4, 1, 1]) 0 1 2 1 N ⟨1, 1, 1, 1⟩ (fun _ => ⟨1, 1, 5, 1⟩) (cDx (fun _ _ => 1, fun _ _ => 1)) (exEps N) (realMu (some fun _ => 1)) where
  pol := by decide
  thin b hb := by fin_cases b <;> first | rfl | exact absurd rfl hb
  two := by norm_num
  room := show 2 + 1 * N + 1 < N + 4 by omega
  outer x hx := by
    simp only [cDx, realMu, exEps, Option.map_some, Option.getD_some, ofReal_one]
    rw [if_neg (by omega)]
  inner x j i hj hi hx := by
    simp only [cDx, realMu, exEps, Option.map_some, Option.getD_some, ofReal_one]
    rw [if_pos (by omega)]

theorem ex_disp : (2 * Real.sin (Real.pi / 3 / 2)) ^ 2 = 1 ^ 2 * 1 ^ 2 * 1 * 1 := by
  rw [show Real.pi / 3 / 2 = Real.pi / 6 by ring, Real.sin_pi_div_six]; norm_num

theorem ex_data : PeriodData 1 (1 : ℝ) (Real.pi / 3 : ℝ) ⟨1, 1, 1, 1⟩ (fun _ => ⟨1, 1, 5, 1⟩) where
  outW := by simp
  same := rfl
  cellW _ _ := by simp
  disp := show (2 * sin (((Real.pi / 3 : ℝ) : ℂ) / 2)) ^ 2 = 1 ^ 2 * ((1 : ℝ) : ℂ) ^ 2 * 1 * 1 by exact_mod_cast ex_disp
  edge := by rw [← ofReal_sin]; exact ofReal_ne_zero.2 (Real.sin_pos_of_pos_of_lt_pi (by positivity) (by linarith [Real.pi_pos])).ne'

theorem ex_field (N : ℕ) : ∃ (E : Vec ![N + 4, 1, 1]) (r t : ℂ), InnerFree 0 1 (1 : ℝ) (cDx (fun _ _ => 1, fun _ _ => 1)) (exEps N) (realMu (some fun _ => 1)) E ∧
    Ports 0 1 2 (2 + 1 * N) (Real.pi / 3 : ℝ) (Real.pi / 3 : ℝ) E 1 r t 0 := by
  have hS := (ex_repeats N).toStack ex_data
  obtain ⟨o, ⟨E, h1, h2⟩, -⟩ := C161_scattering (a := 0) (c := 1) (l := 2) (m := 2 + 1 * N) (ω := 1) (w1 := 1) (w2 := 1) (e1 := 1) (e2 := 1) (μ1 := 1) (μ2 := 1) (κ1 := Real.pi / 3) (κ2 := Real.pi / 3)
    (d := (fun _ _ => 1, fun _ _ => 1)) (eps := exEps N) (mur := some fun _ => 1)
    ⟨by exact_mod_cast hS, ⟨fun _ _ => one_pos, fun _ _ => one_pos⟩, fun p => one_pos, by positivity, by linarith [Real.pi_pos], by positivity, by linarith [Real.pi_pos], ex_disp, ex_disp⟩
    (fun x _ _ => by simp only [exEps]; split_ifs <;> simp) 1 0
  exact ⟨E, _, _, h1, h2⟩

example {δ : ℝ} (hδ : 0 < δ) : ∃ N0 : ℕ, ∀ N, N0 ≤ N → ∃ (E : Vec ![N + 4, 1, 1]) (r t : ℂ), InnerFree 0 1 (1 : ℝ) (cDx (fun _ _ => 1, fun _ _ => 1)) (exEps N) (realMu (some fun _ => 1)) E ∧
    Ports 0 1 2 (2 + 1 * N) (Real.pi / 3 : ℝ) (Real.pi / 3 : ℝ) E 1 r t 0 ∧ 1 - δ ≤ normSq r := by
  obtain ⟨E, r, t, h1, h2⟩ := ex_field 1
  have hout : (⟨1, 1, 1, 1⟩ : Layer).Real := by simp [Layer.Real]
  have hcell : (⟨1, 1, 5, 1⟩ : Layer).Real := by simp [Layer.Real]
  have hx := C171_single ex_data hout hcell (ex_repeats 1) h1 h2
  have hx' : (1 / t).re = -(3 / 2) := by
    have : (((1 / t).re : ℝ) : ℂ) = ((-(3 / 2) : ℝ) : ℂ) := by rw [hx]; push_cast; norm_num
    exact_mod_cast this
  have hr : r ≠ 0 := by
    rintro rfl
    obtain ⟨ht, -, -, hp, -⟩ := C171_lossless ex_data hout (fun _ _ => hcell) (ex_repeats 1) h1 h2 (ex_repeats 1) h1 h2
    have e1 := abs_re_le_norm (1 / t)
    rw [hx', norm_div, norm_one] at e1
    rw [map_zero, zero_add, normSq_eq_norm_sq] at hp
    have e2 : ‖t‖ = 1 := by
      have := norm_nonneg t
      nlinarith
    rw [e2] at e1
    norm_num [abs_of_pos] at e1
  obtain ⟨N0, hN0⟩ := C171_mirror ex_data hout (fun _ _ => hcell) (ex_repeats 1) h1 h2 (by rw [hx']; norm_num [abs_of_pos]) hr hδ
  refine ⟨N0, fun N hN => ?_⟩
  obtain ⟨E', r', t', h1', h2'⟩ := ex_field N
  exact ⟨E', r', t', h1', h2', hN0 _ _ _ _ _ _ _ _ _ _ _ hN (ex_repeats N) h1' h2'⟩

end Bragg

end Meanas.Props
