/-
C161: scattering by any stack of layers, for `e_full` of meanas/fdfd/operators.py:40-96 on grids with one cell in the two transverse directions.
-/
import Verif.Props.Interface
import Verif.Props.Resonances

namespace Meanas.Props

open Matrix Complex Fdfd Spec ScpmlLossy Interface

variable {sh : Fin 3 → ℕ}

/-- A stack: from plane `l` on the left of axis `a` and from plane `m` on the right, widths and media are uniform; whatever is in between is arbitrary. -/
structure Stack (a c : Fin 3) (l m : ℕ) (w1 e1 μ1 w2 e2 μ2 : ℂ) (dx : Dx sh) (eps : Vec sh) (mu : Option (Vec sh)) : Prop where
  pol : c ≠ a
  thin : ∀ b, b ≠ a → sh b = 1
  two : 1 ≤ l
  le : l ≤ m
  room : m + 1 < sh a
  leftW : ∀ x : Idx sh, (x a : ℕ) < l → dx.1 a (x a) = w1 ∧ dx.2 a (x a) = w1
  leftM : ∀ x : Idx sh, (x a : ℕ) < l → eps (c, x) = e1 ∧ (mu.getD 1) (oth a c, x) = μ1
  rightW : ∀ x : Idx sh, m ≤ (x a : ℕ) → dx.1 a (x a) = w2 ∧ (m < (x a : ℕ) → dx.2 a (x a) = w2)
  rightM : ∀ x : Idx sh, m ≤ (x a : ℕ) → (mu.getD 1) (oth a c, x) = μ2 ∧ (m < (x a : ℕ) → eps (c, x) = e2)

/-- The FDFD equation without sources in all inner cells of the line. -/
def InnerFree (a c : Fin 3) (ω : ℂ) (dx : Dx sh) (eps : Vec sh) (mu : Option (Vec sh)) (E : Vec sh) : Prop :=
  ∀ x : Idx sh, 0 < (x a : ℕ) → (x a : ℕ) + 1 < sh a → (eFull ω dx eps mu none none *ᵥ E) (c, x) = 0

/-- Waves outside the stack: `A` comes in from the left, `B` goes out to the left, `C` goes out to the right and `D` comes in from the right (`e^{+iωt}`; `κ` is the phase per cell). -/
structure Ports (a c : Fin 3) (l m : ℕ) (κ1 κ2 : ℂ) (E : Vec sh) (A B C D : ℂ) : Prop where
  left : ∀ x : Idx sh, (x a : ℕ) ≤ l → E (c, x) = A * exp (-I * κ1 * (((x a : ℕ) : ℂ) - l)) + B * exp (I * κ1 * (((x a : ℕ) : ℂ) - l))
  right : ∀ x : Idx sh, m ≤ (x a : ℕ) → E (c, x) = C * exp (-I * κ2 * (((x a : ℕ) : ℂ) - m)) + D * exp (I * κ2 * (((x a : ℕ) : ℂ) - m))

namespace Stack

/-- The difference equation along a line. -/
def Eqn (n : ℕ) (q v : ℕ → ℂ) (f : ℕ → ℂ) : Prop :=
  ∀ i, i + 2 < n → q (i + 1) * (f (i + 2) - f (i + 1)) - q i * (f (i + 1) - f i) + v (i + 1) * f (i + 1) = 0

/-- Discrete Wronskian. -/
theorem wronskian {n : ℕ} {q v f g : ℕ → ℂ} (hf : Eqn n q v f) (hg : Eqn n q v g) (i : ℕ) (hi : i + 1 < n) :
    q i * (f i * g (i + 1) - g i * f (i + 1)) = q 0 * (f 0 * g 1 - g 0 * f 1) := by
  induction i with
  | zero => rfl
  | succ i ih =>
    rw [← ih (by omega)]
    have h1 := hf i hi
    have h2 := hg i hi
    rw [show i + 1 + 1 = i + 2 from rfl]
    linear_combination f (i + 1) * h2 - g (i + 1) * h1

/-- Power along the line. -/
theorem power {n : ℕ} {q : ℕ → ℝ} {v f : ℕ → ℂ} (hf : Eqn n (fun i => q i) v f) {i j : ℕ} (hij : i ≤ j) (hj : j + 1 < n) :
    q j * ((starRingEnd ℂ) (f j) * f (j + 1)).im = q i * ((starRingEnd ℂ) (f i) * f (i + 1)).im - ∑ k ∈ Finset.Ioc i j, (v k).im * normSq (f k) := by
  induction j, hij using Nat.le_induction with
  | base => simp
  | succ j hij ih =>
    have h1 := hf j hj
    rw [Finset.sum_Ioc_succ_top (by omega), ← sub_sub, ← ih (by omega)]
    have h2 := congrArg (fun z => ((starRingEnd ℂ) (f (j + 1)) * z).im) h1
    simp only [mul_zero, zero_im] at h2
    rw [show j + 1 + 1 = j + 2 from rfl]
    simp only [mul_im, mul_re, add_im, add_re, sub_im, sub_re, ofReal_re, ofReal_im, conj_re, conj_im, normSq_apply] at h2 ⊢
    linear_combination h2

/-- Solutions exist for all starting values. -/
noncomputable def sol (q v : ℕ → ℂ) (f0 f1 : ℂ) : ℕ → ℂ × ℂ
  | 0 => (f0, f1)
  | i + 1 => let p := sol q v f0 f1 i; (p.2, p.2 + (q i * (p.2 - p.1) - v (i + 1) * p.2) / q (i + 1))

theorem sol_eqn (n : ℕ) (q v : ℕ → ℂ) (hq : ∀ i, q i ≠ 0) (f0 f1 : ℂ) : Eqn n q v fun i => (sol q v f0 f1 i).1 := by
  intro i _
  have h1 : (sol q v f0 f1 (i + 1)).1 = (sol q v f0 f1 i).2 := rfl
  have h2 : (sol q v f0 f1 (i + 2)).1 = (sol q v f0 f1 (i + 1)).2 := rfl
  have h3 : (sol q v f0 f1 (i + 1)).2 = (sol q v f0 f1 i).2 + (q i * ((sol q v f0 f1 i).2 - (sol q v f0 f1 i).1) - v (i + 1) * (sol q v f0 f1 i).2) / q (i + 1) := rfl
  simp only [h2, h1, h3]
  have := hq (i + 1)
  field_simp
  ring

/-- A pair of waves. -/
noncomputable def waves (κ A B : ℂ) (u : ℂ) : ℂ := A * exp (-I * κ * u) + B * exp (I * κ * u)

/-- Two values determine the amplitudes. -/
theorem waves_fit (κ : ℂ) (hκ : sin κ ≠ 0) (u y0 y1 : ℂ) : ∃ A B, waves κ A B u = y0 ∧ waves κ A B (u + 1) = y1 := by
  refine ⟨exp (I * κ * u) * (y0 * exp (I * κ) - y1) / (2 * I * sin κ), exp (-I * κ * u) * (y1 - y0 * exp (-I * κ)) / (2 * I * sin κ), ?_, ?_⟩
  all_goals
    have h1 : exp (-I * κ * u) * exp (I * κ * u) = 1 := by rw [← exp_add]; ring_nf; exact exp_zero
    have h2 : exp (I * κ) * exp (-I * κ) = 1 := by rw [← exp_add]; ring_nf; exact exp_zero
    have h3 : 2 * I * sin κ = exp (I * κ) - exp (-I * κ) := by
      rw [sin, show I * κ = κ * I by ring, show -I * κ = -κ * I by ring]
      linear_combination (exp (-κ * I) - exp (κ * I)) * I_mul_I
    have h4 : exp (I * κ) - exp (-I * κ) ≠ 0 := by rw [← h3]; exact mul_ne_zero (mul_ne_zero two_ne_zero I_ne_zero) hκ
    rw [h3, waves]
  · generalize exp (-I * κ * u) = p at *
    generalize exp (I * κ * u) = p' at *
    generalize exp (I * κ) = z at *
    generalize exp (-I * κ) = z' at *
    field_simp
    linear_combination (y0 * z - y0 * z') * h1
  · rw [show -I * κ * (u + 1) = -I * κ * u + -I * κ by ring, show I * κ * (u + 1) = I * κ * u + I * κ by ring, exp_add, exp_add]
    generalize exp (-I * κ * u) = p at *
    generalize exp (I * κ * u) = p' at *
    generalize exp (I * κ) = z at *
    generalize exp (-I * κ) = z' at *
    field_simp
    linear_combination (y1 * z - y1 * z') * h1

theorem waves_zero (κ : ℂ) (hκ : sin κ ≠ 0) (u A B : ℂ) (h0 : waves κ A B u = 0) (h1 : waves κ A B (u + 1) = 0) : A = 0 ∧ B = 0 := by
  rw [waves] at h0 h1
  rw [show -I * κ * (u + 1) = -I * κ * u + -I * κ by ring, show I * κ * (u + 1) = I * κ * u + I * κ by ring, exp_add, exp_add] at h1
  have h2 : exp (I * κ) - exp (-I * κ) ≠ 0 := by
    have h3 : 2 * I * sin κ = exp (I * κ) - exp (-I * κ) := by
      rw [sin, show I * κ = κ * I by ring, show -I * κ = -κ * I by ring]
      linear_combination (exp (-κ * I) - exp (κ * I)) * I_mul_I
    rw [← h3]; exact mul_ne_zero (mul_ne_zero two_ne_zero I_ne_zero) hκ
  constructor
  · have : A * (exp (-I * κ * u) * (exp (I * κ) - exp (-I * κ))) = 0 := by linear_combination exp (I * κ) * h0 - h1
    exact (mul_eq_zero.1 this).resolve_right (mul_ne_zero (exp_ne_zero _) h2)
  · have : B * (exp (I * κ * u) * (exp (I * κ) - exp (-I * κ))) = 0 := by linear_combination h1 - exp (-I * κ) * h0
    exact (mul_eq_zero.1 this).resolve_right (mul_ne_zero (exp_ne_zero _) h2)

theorem waves_rec (κ A B u : ℂ) : waves κ A B (u + 1) + waves κ A B (u - 1) = (2 - (2 * sin (κ / 2)) ^ 2) * waves κ A B u := by
  rw [show (2 - (2 * sin (κ / 2)) ^ 2) = 2 * cos κ by rw [cos_half]; ring]
  exact two_cos κ A B u

/-- In a uniform part the solution is a pair of waves. -/
theorem uniform {n : ℕ} {q v f : ℕ → ℂ} (hf : Eqn n q v f) {i0 j0 : ℕ} (hj : j0 < n) {Q V κ : ℂ} (hQ : Q ≠ 0) (hκ : sin κ ≠ 0) (hd : Q * (2 * sin (κ / 2)) ^ 2 = V)
    (hq : ∀ i, i0 ≤ i → i < j0 → q i = Q) (hv : ∀ i, i0 < i → i < j0 → v i = V) (u : ℂ) :
    ∃ A B, ∀ i, i0 ≤ i → i ≤ j0 → f i = waves κ A B ((i : ℂ) - u) := by
  obtain ⟨A, B, h0, h1⟩ := waves_fit κ hκ ((i0 : ℂ) - u) (f i0) (f (i0 + 1))
  refine ⟨A, B, ?_⟩
  have key : ∀ k, (i0 + k ≤ j0 → f (i0 + k) = waves κ A B (((i0 + k : ℕ) : ℂ) - u)) ∧ (i0 + k + 1 ≤ j0 → f (i0 + k + 1) = waves κ A B (((i0 + k + 1 : ℕ) : ℂ) - u)) := by
    intro k
    induction k with
    | zero =>
      refine ⟨fun _ => h0.symm, fun _ => ?_⟩
      rw [add_zero, ← h1]; congr 1; push_cast; ring
    | succ k ih =>
      refine ⟨fun h => ih.2 h, fun h => ?_⟩
      have e := hf (i0 + k) (by omega)
      rw [hq (i0 + k + 1) (by omega) (by omega), hq (i0 + k) (by omega) (by omega), hv (i0 + k + 1) (by omega) (by omega), ← hd, ih.1 (by omega), ih.2 (by omega)] at e
      have w := waves_rec κ A B (((i0 + k + 1 : ℕ) : ℂ) - u)
      rw [show ((i0 + k + 1 : ℕ) : ℂ) - u + 1 = ((i0 + (k + 1) + 1 : ℕ) : ℂ) - u by push_cast; ring,
        show ((i0 + k + 1 : ℕ) : ℂ) - u - 1 = ((i0 + k : ℕ) : ℂ) - u by push_cast; ring] at w
      have : Q * (f (i0 + k + 2) - waves κ A B (((i0 + (k + 1) + 1 : ℕ) : ℂ) - u)) = 0 := by linear_combination e - Q * w
      exact sub_eq_zero.1 ((mul_eq_zero.1 this).resolve_left hQ)
  intro i h1 h2
  obtain ⟨k, rfl⟩ := Nat.exists_eq_add_of_le h1
  exact (key k).1 h2

theorem waves_wronskian (κ A B A' B' u : ℂ) : waves κ A B u * waves κ A' B' (u + 1) - waves κ A' B' u * waves κ A B (u + 1) = 2 * I * sin κ * (A * B' - B * A') := by
  have h1 : exp (-I * κ * u) * exp (I * κ * u) = 1 := by rw [← exp_add]; ring_nf; exact exp_zero
  have h3 : 2 * I * sin κ = exp (I * κ) - exp (-I * κ) := by
    rw [sin, show I * κ = κ * I by ring, show -I * κ = -κ * I by ring]
    linear_combination (exp (-κ * I) - exp (κ * I)) * I_mul_I
  rw [h3]
  simp only [waves]
  rw [show -I * κ * (u + 1) = -I * κ * u + -I * κ by ring, show I * κ * (u + 1) = I * κ * u + I * κ by ring, exp_add, exp_add]
  linear_combination (exp (I * κ) - exp (-I * κ)) * (A * B' - B * A') * h1

theorem waves_power (κ : ℝ) (A B : ℂ) (u : ℝ) : ((starRingEnd ℂ) (waves κ A B u) * waves κ A B (u + 1)).im = Real.sin κ * (normSq B - normSq A) := by
  have hc : (starRingEnd ℂ) (waves κ A B u) = waves κ ((starRingEnd ℂ) B) ((starRingEnd ℂ) A) u := by
    simp only [waves, map_add, map_mul, ← exp_conj, map_neg, conj_I, conj_ofReal, neg_neg, neg_mul]; ring
  have hc' : (starRingEnd ℂ) (waves κ A B (u + 1)) = waves κ ((starRingEnd ℂ) B) ((starRingEnd ℂ) A) (u + 1) := by
    have : ((u + 1 : ℝ) : ℂ) = u + 1 := by push_cast; ring
    rw [← this]
    simp only [waves, map_add, map_mul, ← exp_conj, map_neg, conj_I, conj_ofReal, neg_neg, neg_mul]; ring
  have h := waves_wronskian κ ((starRingEnd ℂ) B) ((starRingEnd ℂ) A) A B u
  rw [← hc, ← hc'] at h
  have h2 := congrArg im h
  rw [show 2 * I * sin (κ : ℂ) * ((starRingEnd ℂ) B * B - (starRingEnd ℂ) A * A) = ((2 * Real.sin κ * (normSq B - normSq A) : ℝ) : ℂ) * I by
    push_cast; rw [normSq_eq_conj_mul_self, normSq_eq_conj_mul_self]; ring] at h2
  simp only [mul_im, sub_im, conj_re, conj_im, ofReal_re, ofReal_im, I_re, I_im] at h2 ⊢
  linarith

/-- The cells of the line. -/
def at' {a : Fin 3} (x0 : Idx sh) (i : Fin (sh a)) : Idx sh := Function.update x0 a i

theorem at_same {a : Fin 3} (x0 : Idx sh) (i : Fin (sh a)) : at' x0 i a = i := Function.update_self ..

theorem at_self {a : Fin 3} (hth : ∀ b, b ≠ a → sh b = 1) (x0 x : Idx sh) : at' x0 (x a) = x := by
  funext b
  by_cases h : b = a
  · subst h; exact at_same x0 _
  · rw [at', Function.update_of_ne h]
    have := hth b h
    have h1 := (x0 b).isLt
    have h2 := (x b).isLt
    exact Fin.ext (by omega)

/-- Inverse of width times permeability along the line. -/
noncomputable def qs (a c : Fin 3) (x0 : Idx sh) (dx : Dx sh) (mu : Option (Vec sh)) (i : ℕ) : ℂ :=
  if h : i < sh a then (dx.1 a ⟨i, h⟩ * (mu.getD 1) (oth a c, at' x0 ⟨i, h⟩))⁻¹ else 1

/-- `ω²` times dual width times permittivity along the line. -/
noncomputable def vs (a c : Fin 3) (x0 : Idx sh) (ω : ℂ) (dx : Dx sh) (eps : Vec sh) (i : ℕ) : ℂ :=
  if h : i < sh a then ω ^ 2 * (dx.2 a ⟨i, h⟩ * eps (c, at' x0 ⟨i, h⟩)) else 0

/-- The field along the line. -/
noncomputable def fs (a c : Fin 3) (x0 : Idx sh) (E : Vec sh) (i : ℕ) : ℂ := if h : i < sh a then E (c, at' x0 ⟨i, h⟩) else 0

section
variable {a c : Fin 3} (hth : ∀ b, b ≠ a → sh b = 1) (x0 : Idx sh)
include hth

theorem qs_at (dx : Dx sh) (mu : Option (Vec sh)) (x : Idx sh) : qs a c x0 dx mu (x a) = (dx.1 a (x a) * (mu.getD 1) (oth a c, x))⁻¹ := by
  rw [qs, dif_pos (x a).isLt, Fin.eta, at_self hth]

theorem vs_at (ω : ℂ) (dx : Dx sh) (eps : Vec sh) (x : Idx sh) : vs a c x0 ω dx eps (x a) = ω ^ 2 * (dx.2 a (x a) * eps (c, x)) := by
  rw [vs, dif_pos (x a).isLt, Fin.eta, at_self hth]

theorem fs_at (E : Vec sh) (x : Idx sh) : fs a c x0 E (x a) = E (c, x) := by
  rw [fs, dif_pos (x a).isLt, Fin.eta, at_self hth]

/-- The FDFD equation is the difference equation along the line. -/
theorem free_iff (hc : c ≠ a) (ω : ℂ) (dx : Dx sh) (hdx : ∀ i, dx.2 a i ≠ 0) (eps : Vec sh) (mu : Option (Vec sh)) (E : Vec sh) :
    InnerFree a c ω dx eps mu E ↔ Eqn (sh a) (qs a c x0 dx mu) (vs a c x0 ω dx eps) (fs a c x0 E) := by
  have key : ∀ i (hi : i + 2 < sh a), (eFull ω dx eps mu none none *ᵥ E) (c, at' x0 (⟨i + 1, by omega⟩ : Fin (sh a))) * -dx.2 a ⟨i + 1, by omega⟩
      = qs a c x0 dx mu (i + 1) * (fs a c x0 E (i + 2) - fs a c x0 E (i + 1)) - qs a c x0 dx mu i * (fs a c x0 E (i + 1) - fs a c x0 E i)
        + vs a c x0 ω dx eps (i + 1) * fs a c x0 E (i + 1) := by
    intro i hi
    set x : Idx sh := at' x0 (⟨i + 1, by omega⟩ : Fin (sh a)) with hx
    have hxa : x a = ⟨i + 1, by omega⟩ := at_same x0 _
    have hxv : (x a : ℕ) = i + 1 := by rw [hxa]
    have hd : shiftIdx a (-1) x a = ⟨i, by omega⟩ := Fin.ext (by rw [shift_down (by rw [hxv]; omega), hxv]; rfl)
    have h := cell hc hth ω dx eps mu (E := E) (F := fs a c x0 E) (fun x => (fs_at hth x0 E x).symm) x (by omega) (by omega)
    have q1 := qs_at (c := c) hth x0 dx mu x
    have q0 := qs_at (c := c) hth x0 dx mu (shiftIdx a (-1) x)
    have v1 := vs_at (c := c) hth x0 ω dx eps x
    rw [hd] at q0
    rw [hxa] at q1 v1
    simp only at q0 q1 v1
    rw [h, q0, q1, v1, hd, hxv, hxa]
    have hne := hdx ⟨i + 1, by omega⟩
    simp only [mul_inv, div_eq_mul_inv, Nat.add_sub_cancel]
    field_simp
    ring
  constructor
  · intro h i hi
    have h1 := h (at' x0 (⟨i + 1, by omega⟩ : Fin (sh a))) (by rw [at_same]; simp) (by rw [at_same]; simpa using hi)
    rw [← key i hi, h1, zero_mul]
  · intro h x hx hx'
    obtain ⟨i, hi⟩ : ∃ i, (x a : ℕ) = i + 1 := ⟨(x a : ℕ) - 1, by omega⟩
    have h1 := key i (by omega)
    rw [h i (by omega)] at h1
    have h2 : at' x0 (⟨i + 1, by omega⟩ : Fin (sh a)) = x := by
      refine Eq.trans ?_ (at_self hth x0 x)
      congr 1; exact Fin.ext hi.symm
    rw [h2] at h1
    exact (mul_eq_zero.1 h1).resolve_right (neg_ne_zero.2 (hdx _))

end

/-- What all statements assume of the numbers: no zero widths or permeabilities, and the dispersion relation of the grid on both sides (away from the band edge). -/
structure Data (a c : Fin 3) (ω w1 e1 μ1 w2 e2 μ2 κ1 κ2 : ℂ) (dx : Dx sh) (mu : Option (Vec sh)) : Prop where
  wid : ∀ i, dx.1 a i ≠ 0 ∧ dx.2 a i ≠ 0
  mag : ∀ x, (mu.getD 1) (oth a c, x) ≠ 0
  disp1 : (2 * sin (κ1 / 2)) ^ 2 = w1 ^ 2 * ω ^ 2 * e1 * μ1
  disp2 : (2 * sin (κ2 / 2)) ^ 2 = w2 ^ 2 * ω ^ 2 * e2 * μ2
  edge1 : sin κ1 ≠ 0
  edge2 : sin κ2 ≠ 0

section
variable {a c : Fin 3} {l m : ℕ} {ω w1 e1 μ1 w2 e2 μ2 κ1 κ2 : ℂ} {dx : Dx sh} {eps : Vec sh} {mu : Option (Vec sh)}
  (S : Stack a c l m w1 e1 μ1 w2 e2 μ2 dx eps mu) (hD : Data a c ω w1 e1 μ1 w2 e2 μ2 κ1 κ2 dx mu)
include S

theorem exists_cell : ∃ _ : Idx sh, True := by
  have := S.room
  have hp : ∀ b, 0 < sh b := fun b => by
    by_cases h : b = a
    · subst h; omega
    · rw [S.thin b h]; exact one_pos
  exact ⟨fun b => ⟨0, hp b⟩, trivial⟩

theorem qs_left (x0 : Idx sh) {i : ℕ} (hi : i < l) : qs a c x0 dx mu i = (w1 * μ1)⁻¹ := by
  have := S.room
  have := S.le
  have h := qs_at (c := c) S.thin x0 dx mu (at' x0 (⟨i, by omega⟩ : Fin (sh a)))
  have e : (at' x0 (⟨i, by omega⟩ : Fin (sh a)) a : ℕ) = i := by rw [at_same]
  have h1 := S.leftW _ (by rw [e]; exact hi)
  have h2 := S.leftM _ (by rw [e]; exact hi)
  rw [e, h1.1, h2.2] at h
  exact h

theorem vs_left (x0 : Idx sh) {i : ℕ} (hi : i < l) : vs a c x0 ω dx eps i = ω ^ 2 * (w1 * e1) := by
  have := S.room
  have := S.le
  have h := vs_at (c := c) S.thin x0 ω dx eps (at' x0 (⟨i, by omega⟩ : Fin (sh a)))
  have e : (at' x0 (⟨i, by omega⟩ : Fin (sh a)) a : ℕ) = i := by rw [at_same]
  have h1 := S.leftW _ (by rw [e]; exact hi)
  have h2 := S.leftM _ (by rw [e]; exact hi)
  rw [e, h1.2, h2.1] at h
  exact h

theorem qs_right (x0 : Idx sh) {i : ℕ} (hi : m ≤ i) (hn : i < sh a) : qs a c x0 dx mu i = (w2 * μ2)⁻¹ := by
  have h := qs_at (c := c) S.thin x0 dx mu (at' x0 (⟨i, hn⟩ : Fin (sh a)))
  have e : (at' x0 (⟨i, hn⟩ : Fin (sh a)) a : ℕ) = i := by rw [at_same]
  have h1 := S.rightW _ (by rw [e]; exact hi)
  have h2 := S.rightM _ (by rw [e]; exact hi)
  rw [e, h1.1, h2.1] at h
  exact h

theorem vs_right (x0 : Idx sh) {i : ℕ} (hi : m < i) (hn : i < sh a) : vs a c x0 ω dx eps i = ω ^ 2 * (w2 * e2) := by
  have h := vs_at (c := c) S.thin x0 ω dx eps (at' x0 (⟨i, hn⟩ : Fin (sh a)))
  have e : (at' x0 (⟨i, hn⟩ : Fin (sh a)) a : ℕ) = i := by rw [at_same]
  have h1 := (S.rightW _ (by rw [e]; exact hi.le)).2 (by rw [e]; exact hi)
  have h2 := (S.rightM _ (by rw [e]; exact hi.le)).2 (by rw [e]; exact hi)
  rw [e, h1, h2] at h
  exact h

theorem ports_iff (x0 : Idx sh) (E : Vec sh) (A B C D : ℂ) : Ports a c l m κ1 κ2 E A B C D ↔
    (∀ i, i ≤ l → fs a c x0 E i = waves κ1 A B ((i : ℂ) - l)) ∧ ∀ i, m ≤ i → i < sh a → fs a c x0 E i = waves κ2 C D ((i : ℂ) - m) := by
  have h1 := S.room
  have h2 := S.le
  have e : ∀ (i : ℕ) (hn : i < sh a), (at' x0 (⟨i, hn⟩ : Fin (sh a)) a : ℕ) = i := fun i hn => by rw [at_same]
  constructor
  · rintro ⟨hl, hr⟩
    refine ⟨fun i hi => ?_, fun i hi hn => ?_⟩
    · have := hl (at' x0 (⟨i, by omega⟩ : Fin (sh a))) (by rw [e]; exact hi)
      rw [← fs_at S.thin x0 E, e] at this
      exact this
    · have := hr (at' x0 (⟨i, hn⟩ : Fin (sh a))) (by rw [e]; exact hi)
      rw [← fs_at S.thin x0 E, e] at this
      exact this
  · rintro ⟨hl, hr⟩
    refine ⟨fun x hx => ?_, fun x hx => ?_⟩
    · rw [← fs_at S.thin x0 E]; exact hl _ hx
    · rw [← fs_at S.thin x0 E]; exact hr _ hx (x a).isLt

end

end Stack

open Stack

section
variable {a c : Fin 3} {l m : ℕ} {ω w1 e1 μ1 w2 e2 μ2 κ1 κ2 : ℂ} {dx : Dx sh} {eps : Vec sh} {mu : Option (Vec sh)}

/-- **C161.** Outside any stack, every field without sources consists of an incoming and an outgoing wave on each side, with unique amplitudes. -/
theorem C161_ports (S : Stack a c l m w1 e1 μ1 w2 e2 μ2 dx eps mu) (hD : Data a c ω w1 e1 μ1 w2 e2 μ2 κ1 κ2 dx mu) (E : Vec sh) (hE : InnerFree a c ω dx eps mu E) :
    ∃ A B C D, Ports a c l m κ1 κ2 E A B C D ∧ ∀ A' B' C' D', Ports a c l m κ1 κ2 E A' B' C' D' → A' = A ∧ B' = B ∧ C' = C ∧ D' = D := by
  obtain ⟨x0, -⟩ := S.exists_cell
  have hroom := S.room
  have hle := S.le
  have htwo := S.two
  have hf := (free_iff S.thin x0 S.pol ω dx (fun i => (hD.wid i).2) eps mu E).1 hE
  have hxl : (at' x0 (⟨0, by omega⟩ : Fin (sh a)) a : ℕ) < l := by rw [at_same]; exact htwo
  have hxr : m ≤ (at' x0 (⟨m, by omega⟩ : Fin (sh a)) a : ℕ) := by rw [at_same]
  have hw1 : w1 ≠ 0 := by rw [← (S.leftW _ hxl).1]; exact (hD.wid _).1
  have hw2 : w2 ≠ 0 := by rw [← (S.rightW _ hxr).1]; exact (hD.wid _).1
  have hμ1 : μ1 ≠ 0 := by rw [← (S.leftM _ hxl).2]; exact hD.mag _
  have hμ2 : μ2 ≠ 0 := by rw [← (S.rightM _ hxr).1]; exact hD.mag _
  obtain ⟨A, B, hAB⟩ := uniform hf (i0 := 0) (j0 := l) (by omega) (inv_ne_zero (mul_ne_zero hw1 hμ1)) hD.edge1 (V := ω ^ 2 * (w1 * e1)) (by rw [hD.disp1]; field_simp)
    (fun i _ h => S.qs_left x0 h) (fun i _ h => S.vs_left x0 h) (l : ℂ)
  obtain ⟨C, D, hCD⟩ := uniform hf (i0 := m) (j0 := sh a - 1) (by omega) (inv_ne_zero (mul_ne_zero hw2 hμ2)) hD.edge2 (V := ω ^ 2 * (w2 * e2)) (by rw [hD.disp2]; field_simp)
    (fun i h h' => S.qs_right x0 h (by omega)) (fun i h h' => S.vs_right x0 h (by omega)) (m : ℂ)
  refine ⟨A, B, C, D, (S.ports_iff x0 E A B C D).2 ⟨fun i hi => hAB i (Nat.zero_le _) hi, fun i hi hn => hCD i hi (by omega)⟩, fun A' B' C' D' hP => ?_⟩
  obtain ⟨hl, hr⟩ := (S.ports_iff x0 E A' B' C' D').1 hP
  have hsub : ∀ κ A B A' B' u : ℂ, waves κ (A' - A) (B' - B) u = waves κ A' B' u - waves κ A B u := fun κ A B A' B' u => by simp only [waves]; ring
  obtain ⟨h1, h2⟩ := waves_zero κ1 hD.edge1 (((0 : ℕ) : ℂ) - l) (A' - A) (B' - B) (by rw [hsub, ← hl 0 (by omega), ← hAB 0 le_rfl (by omega), sub_self])
    (by rw [show ((0 : ℕ) : ℂ) - l + 1 = ((1 : ℕ) : ℂ) - l by push_cast; ring, hsub, ← hl 1 (by omega), ← hAB 1 (by omega) (by omega), sub_self])
  obtain ⟨h3, h4⟩ := waves_zero κ2 hD.edge2 ((m : ℂ) - m) (C' - C) (D' - D) (by rw [hsub, ← hr m le_rfl (by omega), ← hCD m le_rfl (by omega), sub_self])
    (by rw [show (m : ℂ) - m + 1 = ((m + 1 : ℕ) : ℂ) - m by push_cast; ring, hsub, ← hr (m + 1) (by omega) (by omega), ← hCD (m + 1) (by omega) (by omega), sub_self])
  exact ⟨sub_eq_zero.1 h1, sub_eq_zero.1 h2, sub_eq_zero.1 h3, sub_eq_zero.1 h4⟩

/-- **C161.** Reciprocity: for any two fields of any stack (complex widths, permittivities and permeabilities, so also lossy media and absorbing layers)
`S₁ (A B' - B A') = S₂ (C D' - D C')`, with `S = sin κ / (μ w)`. -/
theorem C161_reciprocity (S : Stack a c l m w1 e1 μ1 w2 e2 μ2 dx eps mu) (hD : Data a c ω w1 e1 μ1 w2 e2 μ2 κ1 κ2 dx mu) {E E' : Vec sh}
    (hE : InnerFree a c ω dx eps mu E) (hE' : InnerFree a c ω dx eps mu E') {A B C D A' B' C' D' : ℂ} (hP : Ports a c l m κ1 κ2 E A B C D) (hP' : Ports a c l m κ1 κ2 E' A' B' C' D') :
    sin κ1 / (μ1 * w1) * (A * B' - B * A') = sin κ2 / (μ2 * w2) * (C * D' - D * C') := by
  obtain ⟨x0, -⟩ := S.exists_cell
  have hroom := S.room
  have hle := S.le
  have htwo := S.two
  have hf := (free_iff S.thin x0 S.pol ω dx (fun i => (hD.wid i).2) eps mu E).1 hE
  have hf' := (free_iff S.thin x0 S.pol ω dx (fun i => (hD.wid i).2) eps mu E').1 hE'
  obtain ⟨hl, hr⟩ := (S.ports_iff x0 E A B C D).1 hP
  obtain ⟨hl', hr'⟩ := (S.ports_iff x0 E' A' B' C' D').1 hP'
  have hw := wronskian hf hf' m hroom
  rw [S.qs_left x0 (i := 0) (by omega), S.qs_right x0 le_rfl (by omega), hr m le_rfl (by omega), hr (m + 1) (by omega) hroom, hr' m le_rfl (by omega), hr' (m + 1) (by omega) hroom,
    hl 0 (by omega), hl 1 htwo, hl' 0 (by omega), hl' 1 htwo, show ((m + 1 : ℕ) : ℂ) - m = (m : ℂ) - m + 1 by push_cast; ring,
    show ((1 : ℕ) : ℂ) - l = ((0 : ℕ) : ℂ) - l + 1 by push_cast; ring, waves_wronskian, waves_wronskian] at hw
  have h2 : (2 * I : ℂ) ≠ 0 := mul_ne_zero two_ne_zero I_ne_zero
  refine mul_left_cancel₀ h2 ?_
  rw [mul_inv, mul_inv] at hw
  simp only [div_eq_mul_inv, mul_inv]
  linear_combination -hw

end

/-- Real positive widths and permeability; the power brought by the waves and the power absorbed. -/
structure RealStack (a c : Fin 3) (l m : ℕ) (ω w1 e1 μ1 w2 e2 μ2 κ1 κ2 : ℝ) (d : DxList sh ℝ × DxList sh ℝ) (eps : Vec sh) (mur : Option (Pos sh → ℝ)) : Prop where
  stack : Stack a c l m w1 e1 μ1 w2 e2 μ2 (cDx d) eps (realMu mur)
  grid : PosGrid d
  mag : ∀ p, 0 < muR mur p
  κ1_pos : 0 < κ1
  κ1_lt : κ1 < Real.pi
  κ2_pos : 0 < κ2
  κ2_lt : κ2 < Real.pi
  disp1 : (2 * Real.sin (κ1 / 2)) ^ 2 = w1 ^ 2 * ω ^ 2 * e1 * μ1
  disp2 : (2 * Real.sin (κ2 / 2)) ^ 2 = w2 ^ 2 * ω ^ 2 * e2 * μ2

namespace RealStack

variable {a c : Fin 3} {l m : ℕ} {ω w1 e1 μ1 w2 e2 μ2 κ1 κ2 : ℝ} {d : DxList sh ℝ × DxList sh ℝ} {eps : Vec sh} {mur : Option (Pos sh → ℝ)}

theorem muV_getD (mu : Option (Vec sh)) : mu.getD 1 = muV mu := by cases mu <;> rfl

theorem data (R : RealStack a c l m ω w1 e1 μ1 w2 e2 μ2 κ1 κ2 d eps mur) :
    Data a c (ω : ℂ) w1 e1 μ1 w2 e2 μ2 κ1 κ2 (cDx d) (realMu mur) where
  wid i := ⟨ofReal_ne_zero.2 (R.grid.1 a i).ne', ofReal_ne_zero.2 (R.grid.2 a i).ne'⟩
  mag x := by rw [muV_getD, muV_realMu]; exact ofReal_ne_zero.2 (R.mag _).ne'
  disp1 := by exact_mod_cast R.disp1
  disp2 := by exact_mod_cast R.disp2
  edge1 := by rw [← ofReal_sin]; exact ofReal_ne_zero.2 (Real.sin_pos_of_pos_of_lt_pi R.κ1_pos R.κ1_lt).ne'
  edge2 := by rw [← ofReal_sin]; exact ofReal_ne_zero.2 (Real.sin_pos_of_pos_of_lt_pi R.κ2_pos R.κ2_lt).ne'

theorem pos (R : RealStack a c l m ω w1 e1 μ1 w2 e2 μ2 κ1 κ2 d eps mur) : 0 < Real.sin κ1 / (μ1 * w1) ∧ 0 < Real.sin κ2 / (μ2 * w2) := by
  obtain ⟨x0, -⟩ := R.stack.exists_cell
  have hroom := R.stack.room
  have htwo := R.stack.two
  have hle := R.stack.le
  have hxl : (at' x0 (⟨0, by omega⟩ : Fin (sh a)) a : ℕ) < l := by rw [at_same]; exact htwo
  have hxr : m ≤ (at' x0 (⟨m, by omega⟩ : Fin (sh a)) a : ℕ) := by rw [at_same]
  have hw1 : w1 = d.1 a _ := ofReal_injective (R.stack.leftW _ hxl).1.symm
  have hw2 : w2 = d.1 a _ := ofReal_injective (R.stack.rightW _ hxr).1.symm
  have hμ1 : μ1 = muR mur _ := ofReal_injective (by rw [← muV_realMu, ← muV_getD]; exact (R.stack.leftM _ hxl).2.symm)
  have hμ2 : μ2 = muR mur _ := ofReal_injective (by rw [← muV_realMu, ← muV_getD]; exact (R.stack.rightM _ hxr).1.symm)
  constructor
  · exact div_pos (Real.sin_pos_of_pos_of_lt_pi R.κ1_pos R.κ1_lt) (mul_pos (by rw [hμ1]; exact R.mag _) (by rw [hw1]; exact R.grid.1 _ _))
  · exact div_pos (Real.sin_pos_of_pos_of_lt_pi R.κ2_pos R.κ2_lt) (mul_pos (by rw [hμ2]; exact R.mag _) (by rw [hw2]; exact R.grid.1 _ _))

end RealStack

section
variable {a c : Fin 3} {l m : ℕ} {ω w1 e1 μ1 w2 e2 μ2 κ1 κ2 : ℝ} {d : DxList sh ℝ × DxList sh ℝ} {eps : Vec sh} {mur : Option (Pos sh → ℝ)}

/-- **C161.** Power: what comes in minus what goes out, on both sides, is what the media in the stack absorb, `ω² ∫ -Im ε |E|²` over the planes from `l` to `m`. -/
theorem C161_power (R : RealStack a c l m ω w1 e1 μ1 w2 e2 μ2 κ1 κ2 d eps mur) {E : Vec sh} (hE : InnerFree a c ω (cDx d) eps (realMu mur) E) {A B C D : ℂ}
    (hP : Ports a c l m κ1 κ2 E A B C D) :
    Real.sin κ1 / (μ1 * w1) * (normSq A - normSq B) + Real.sin κ2 / (μ2 * w2) * (normSq D - normSq C)
      = ω ^ 2 * ∑ x ∈ Finset.univ.filter (fun x : Idx sh => l ≤ (x a : ℕ) ∧ (x a : ℕ) ≤ m), d.2 a (x a) * (-(eps (c, x)).im * normSq (E (c, x))) := by
  obtain ⟨x0, -⟩ := R.stack.exists_cell
  have S := R.stack
  have hroom := S.room
  have htwo := S.two
  have hle := S.le
  have hf := (free_iff S.thin x0 S.pol (ω : ℂ) (cDx d) (fun i => (R.data.wid i).2) eps (realMu mur) E).1 hE
  obtain ⟨hl, hr⟩ := (S.ports_iff x0 E A B C D).1 hP
  have hq : ∀ i, qs a c x0 (cDx d) (realMu mur) i = (((qs a c x0 (cDx d) (realMu mur) i).re : ℝ) : ℂ) := by
    intro i
    rw [qs]
    split
    · rw [RealStack.muV_getD, muV_realMu, show (cDx d).1 a _ = ((d.1 a _ : ℝ) : ℂ) from rfl, ← ofReal_mul, ← ofReal_inv, ofReal_re]
    · simp
  have hf' : Eqn (sh a) (fun i => (((qs a c x0 (cDx d) (realMu mur) i).re : ℝ) : ℂ)) (vs a c x0 ω (cDx d) eps) (fs a c x0 E) := by
    intro i hi
    have := hf i hi
    rw [hq i, hq (i + 1)] at this
    exact this
  have hp := power hf' (i := l - 1) (j := m) (by omega) hroom
  rw [S.qs_left x0 (i := l - 1) (by omega), S.qs_right x0 le_rfl (by omega), hr m le_rfl (by omega), hr (m + 1) (by omega) hroom, hl (l - 1) (by omega), hl (l - 1 + 1) (by omega)] at hp
  have hwl := waves_power κ1 A B (((l - 1 : ℕ) : ℝ) - l)
  have hwr := waves_power κ2 C D ((m : ℝ) - m)
  rw [show ((m + 1 : ℕ) : ℂ) - m = (((m : ℝ) - m : ℝ) : ℂ) + 1 by push_cast; ring, show ((m : ℕ) : ℂ) - m = (((m : ℝ) - m : ℝ) : ℂ) by push_cast; ring, hwr,
    show ((l - 1 + 1 : ℕ) : ℂ) - l = ((((l - 1 : ℕ) : ℝ) - l : ℝ) : ℂ) + 1 by push_cast; ring, show ((l - 1 : ℕ) : ℂ) - l = ((((l - 1 : ℕ) : ℝ) - l : ℝ) : ℂ) by push_cast; ring, hwl,
    ← ofReal_mul, ← ofReal_mul, ← ofReal_inv, ← ofReal_inv, ofReal_re, ofReal_re] at hp
  have hsum : ∑ k ∈ Finset.Ioc (l - 1) m, (vs a c x0 ω (cDx d) eps k).im * normSq (fs a c x0 E k)
      = -(ω ^ 2 * ∑ x ∈ Finset.univ.filter (fun x : Idx sh => l ≤ (x a : ℕ) ∧ (x a : ℕ) ≤ m), d.2 a (x a) * (-(eps (c, x)).im * normSq (E (c, x)))) := by
    rw [Finset.mul_sum, ← Finset.sum_neg_distrib]
    symm
    refine Finset.sum_bij (fun x _ => (x a : ℕ)) (fun x hx => ?_) (fun x _ y _ h => ?_) (fun k hk => ?_) (fun x hx => ?_)
    · rw [Finset.mem_filter] at hx
      rw [Finset.mem_Ioc]; omega
    · rw [← at_self S.thin x0 x, ← at_self S.thin x0 y, show x a = y a from Fin.ext h]
    · rw [Finset.mem_Ioc] at hk
      exact ⟨at' x0 (⟨k, by omega⟩ : Fin (sh a)), by rw [Finset.mem_filter, at_same]; exact ⟨Finset.mem_univ _, by simp only; omega⟩, by rw [at_same]⟩
    · rw [fs_at S.thin, vs_at S.thin, show (cDx d).2 a (x a) = ((d.2 a (x a) : ℝ) : ℂ) from rfl, ← ofReal_pow, im_ofReal_mul, im_ofReal_mul]
      ring
  rw [hsum] at hp
  rw [div_eq_mul_inv, div_eq_mul_inv, mul_comm μ1, mul_comm μ2]
  linear_combination hp

/-- The stack absorbs or transmits, but does not amplify. -/
def Passive (a c : Fin 3) (l m : ℕ) (eps : Vec sh) : Prop := ∀ x : Idx sh, l ≤ (x a : ℕ) → (x a : ℕ) ≤ m → (eps (c, x)).im ≤ 0

theorem absorbed_nonneg (R : RealStack a c l m ω w1 e1 μ1 w2 e2 μ2 κ1 κ2 d eps mur) (hp : Passive a c l m eps) (E : Vec sh) :
    0 ≤ ω ^ 2 * ∑ x ∈ Finset.univ.filter (fun x : Idx sh => l ≤ (x a : ℕ) ∧ (x a : ℕ) ≤ m), d.2 a (x a) * (-(eps (c, x)).im * normSq (E (c, x))) := by
  refine mul_nonneg (sq_nonneg _) (Finset.sum_nonneg fun x hx => ?_)
  rw [Finset.mem_filter] at hx
  exact mul_nonneg (R.grid.2 _ _).le (mul_nonneg (neg_nonneg.2 (hp x hx.2.1 hx.2.2)) (normSq_nonneg _))

theorem InnerFree.comb {a c : Fin 3} {ω : ℂ} {dx : Dx sh} {eps : Vec sh} {mu : Option (Vec sh)} {E E' : Vec sh} (h : InnerFree a c ω dx eps mu E) (h' : InnerFree a c ω dx eps mu E')
    (s t : ℂ) : InnerFree a c ω dx eps mu (s • E + t • E') := by
  intro x h1 h2
  rw [mulVec_add, mulVec_smul, mulVec_smul, Pi.add_apply, Pi.smul_apply, Pi.smul_apply, h x h1 h2, h' x h1 h2]; simp

theorem Ports.comb {a c : Fin 3} {l m : ℕ} {κ1 κ2 : ℂ} {E E' : Vec sh} {A B C D A' B' C' D' : ℂ} (h : Ports a c l m κ1 κ2 E A B C D) (h' : Ports a c l m κ1 κ2 E' A' B' C' D') (s t : ℂ) :
    Ports a c l m κ1 κ2 (s • E + t • E') (s * A + t * A') (s * B + t * B') (s * C + t * C') (s * D + t * D') := by
  refine ⟨fun x hx => ?_, fun x hx => ?_⟩
  · rw [Pi.add_apply, Pi.smul_apply, Pi.smul_apply, h.left x hx, h'.left x hx, smul_eq_mul, smul_eq_mul]; ring
  · rw [Pi.add_apply, Pi.smul_apply, Pi.smul_apply, h.right x hx, h'.right x hx, smul_eq_mul, smul_eq_mul]; ring

/-- A field with given amplitudes on the left. -/
theorem Stack.from_left {a c : Fin 3} {l m : ℕ} {ω w1 e1 μ1 w2 e2 μ2 κ1 κ2 : ℂ} {dx : Dx sh} {eps : Vec sh} {mu : Option (Vec sh)}
    (S : Stack a c l m w1 e1 μ1 w2 e2 μ2 dx eps mu) (hD : Data a c ω w1 e1 μ1 w2 e2 μ2 κ1 κ2 dx mu) (A B : ℂ) :
    ∃ E C D, InnerFree a c ω dx eps mu E ∧ Ports a c l m κ1 κ2 E A B C D := by
  obtain ⟨x0, -⟩ := S.exists_cell
  have hroom := S.room
  have htwo := S.two
  have hle := S.le
  have hq : ∀ i, qs a c x0 dx mu i ≠ 0 := fun i => by
    rw [qs]; split
    · exact inv_ne_zero (mul_ne_zero (hD.wid _).1 (hD.mag _))
    · exact one_ne_zero
  let f : ℕ → ℂ := fun i => (sol (qs a c x0 dx mu) (vs a c x0 ω dx eps) (waves κ1 A B (((0 : ℕ) : ℂ) - l)) (waves κ1 A B (((1 : ℕ) : ℂ) - l)) i).1
  let E : Vec sh := fun q => f (q.2 a)
  have hfs : ∀ i, i < sh a → fs a c x0 E i = f i := fun i hi => by
    rw [fs, dif_pos hi]; show f (at' x0 (⟨i, hi⟩ : Fin (sh a)) a : ℕ) = f i; rw [at_same]
  have hE : InnerFree a c ω dx eps mu E := by
    rw [free_iff S.thin x0 S.pol ω dx (fun i => (hD.wid i).2) eps mu E]
    intro i hi
    rw [hfs (i + 2) hi, hfs (i + 1) (by omega), hfs i (by omega)]
    exact sol_eqn (sh a) _ _ hq _ _ i hi
  obtain ⟨A', B', C, D, hP, -⟩ := C161_ports S hD E hE
  obtain ⟨hl, -⟩ := (S.ports_iff x0 E A' B' C D).1 hP
  have hsub : ∀ κ A B A' B' u : ℂ, waves κ (A' - A) (B' - B) u = waves κ A' B' u - waves κ A B u := fun κ A B A' B' u => by simp only [waves]; ring
  obtain ⟨h1, h2⟩ := waves_zero κ1 hD.edge1 (((0 : ℕ) : ℂ) - l) (A' - A) (B' - B) (by rw [hsub, ← hl 0 (by omega), hfs 0 (by omega)]; exact sub_self _)
    (by rw [show ((0 : ℕ) : ℂ) - l + 1 = ((1 : ℕ) : ℂ) - l by push_cast; ring, hsub, ← hl 1 htwo, hfs 1 (by omega)]; exact sub_self _)
  rw [sub_eq_zero.1 h1, sub_eq_zero.1 h2] at hP
  exact ⟨E, C, D, hE, hP⟩

theorem Stack.silent (R : RealStack a c l m ω w1 e1 μ1 w2 e2 μ2 κ1 κ2 d eps mur) (hp : Passive a c l m eps) {E : Vec sh} (hE : InnerFree a c ω (cDx d) eps (realMu mur) E) {B C : ℂ}
    (hP : Ports a c l m κ1 κ2 E 0 B C 0) : B = 0 ∧ C = 0 := by
  have h1 := C161_power R hE hP
  have h2 := absorbed_nonneg R hp E
  rw [← h1] at h2
  simp only [map_zero, zero_sub] at h2
  obtain ⟨p1, p2⟩ := R.pos
  have h3 := mul_nonneg p1.le (normSq_nonneg B)
  have h4 := mul_nonneg p2.le (normSq_nonneg C)
  constructor
  · exact normSq_eq_zero.1 ((mul_eq_zero.1 (show Real.sin κ1 / (μ1 * w1) * normSq B = 0 by linarith)).resolve_left p1.ne')
  · exact normSq_eq_zero.1 ((mul_eq_zero.1 (show Real.sin κ2 / (μ2 * w2) * normSq C = 0 by linarith)).resolve_left p2.ne')

/-- **C161.** Every passive stack scatters: for all incoming waves, from both sides at once, there is a field, and the outgoing waves are unique. -/
theorem C161_scattering (R : RealStack a c l m ω w1 e1 μ1 w2 e2 μ2 κ1 κ2 d eps mur) (hp : Passive a c l m eps) (A D : ℂ) :
    ∃! o : ℂ × ℂ, ∃ E, InnerFree a c ω (cDx d) eps (realMu mur) E ∧ Ports a c l m κ1 κ2 E A o.1 o.2 D := by
  obtain ⟨E1, C1, D1, hE1, hP1⟩ := R.stack.from_left R.data 1 0
  obtain ⟨E2, C2, D2, hE2, hP2⟩ := R.stack.from_left R.data 0 1
  have hD2 : D2 ≠ 0 := fun h => by
    rw [h] at hP2
    exact one_ne_zero (Stack.silent R hp hE2 hP2).1
  refine ⟨((D - A * D1) / D2, A * C1 + (D - A * D1) / D2 * C2), ⟨A • E1 + ((D - A * D1) / D2) • E2, hE1.comb hE2 _ _, ?_⟩, ?_⟩
  · have := hP1.comb hP2 A ((D - A * D1) / D2)
    rw [show A * 1 + (D - A * D1) / D2 * 0 = A by ring, show A * 0 + (D - A * D1) / D2 * 1 = (D - A * D1) / D2 by ring,
      show A * D1 + (D - A * D1) / D2 * D2 = D by field_simp; ring] at this
    exact this
  · rintro ⟨B', C'⟩ ⟨E, hE, hP⟩
    have h1 := hP1.comb hP2 A ((D - A * D1) / D2)
    have h2 := hP.comb h1 1 (-1)
    have h3 := hE.comb (hE1.comb hE2 A ((D - A * D1) / D2)) 1 (-1)
    rw [show 1 * A + -1 * (A * 1 + (D - A * D1) / D2 * 0) = 0 by ring, show 1 * D + -1 * (A * D1 + (D - A * D1) / D2 * D2) = 0 by field_simp; ring] at h2
    obtain ⟨h4, h5⟩ := Stack.silent R hp h3 h2
    simp only at h4 h5
    refine Prod.ext ?_ ?_
    · show B' = (D - A * D1) / D2
      linear_combination h4
    · show C' = A * C1 + (D - A * D1) / D2 * C2
      linear_combination h5

/-- **C161.** Reflection and transmission from the two sides of a lossless stack: the transmitted amplitudes are reciprocal, both reflections have the same modulus, and reflected and transmitted
power add up to the incident power. -/
theorem C161_coefficients (R : RealStack a c l m ω w1 e1 μ1 w2 e2 μ2 κ1 κ2 d eps mur) (hreal : ∀ x : Idx sh, l ≤ (x a : ℕ) → (x a : ℕ) ≤ m → (eps (c, x)).im = 0) {E E' : Vec sh}
    (hE : InnerFree a c ω (cDx d) eps (realMu mur) E) (hE' : InnerFree a c ω (cDx d) eps (realMu mur) E') {r t r' t' : ℂ}
    (hP : Ports a c l m κ1 κ2 E 1 r t 0) (hP' : Ports a c l m κ1 κ2 E' 0 t' r' 1) :
    ((Real.sin κ1 / (μ1 * w1) : ℝ) : ℂ) * t' = ((Real.sin κ2 / (μ2 * w2) : ℝ) : ℂ) * t ∧ normSq r' = normSq r ∧
      normSq r + Real.sin κ2 / (μ2 * w2) / (Real.sin κ1 / (μ1 * w1)) * normSq t = 1 := by
  obtain ⟨p1, p2⟩ := R.pos
  have h1 := C161_reciprocity R.stack R.data hE hE' hP hP'
  have habs : ∀ E : Vec sh, ω ^ 2 * ∑ x ∈ Finset.univ.filter (fun x : Idx sh => l ≤ (x a : ℕ) ∧ (x a : ℕ) ≤ m), d.2 a (x a) * (-(eps (c, x)).im * normSq (E (c, x))) = 0 := by
    intro E
    rw [Finset.sum_eq_zero, mul_zero]
    intro x hx
    rw [Finset.mem_filter] at hx
    rw [hreal x hx.2.1 hx.2.2]; simp
  have h2 := C161_power R hE hP
  have h3 := C161_power R hE' hP'
  rw [habs] at h2 h3
  have h1' : ((Real.sin κ1 / (μ1 * w1) : ℝ) : ℂ) * t' = ((Real.sin κ2 / (μ2 * w2) : ℝ) : ℂ) * t := by
    push_cast
    linear_combination h1
  have h4 := congrArg normSq h1'
  rw [normSq_mul, normSq_mul, normSq_ofReal, normSq_ofReal] at h4
  simp only [map_zero, map_one] at h2 h3
  generalize Real.sin κ1 / (μ1 * w1) = S1 at *
  generalize Real.sin κ2 / (μ2 * w2) = S2 at *
  have h5 : normSq r + S2 / S1 * normSq t = 1 := by
    field_simp
    linarith
  refine ⟨h1', ?_, h5⟩
  have h6 : S1 * S2 * normSq r' = S1 * S2 * normSq r := by
    have e1 : S2 * normSq r' = S2 - S1 * normSq t' := by linarith
    have e2 : S1 * normSq r = S1 - S2 * normSq t := by linarith
    linear_combination S1 * e1 - S2 * e2 - h4
  exact mul_left_cancel₀ (mul_pos p1 p2).ne' h6

end

/-! The hypotheses are met: in a row of 8 unit cells at `ω = 1` (phase `π/3` per cell in vacuum), planes 3 and 4 filled with any media without gain are a passive stack; every pair of incoming waves
has one pair of outgoing waves. -/
example (ε3 ε4 : ℂ) (h3 : ε3.im ≤ 0) (h4 : ε4.im ≤ 0) (A D : ℂ) :
    ∃! o : ℂ × ℂ, ∃ E, InnerFree (sh := ![8, 1, 1]) 0 1 (1 : ℝ) (cDx (fun _ _ => 1, fun _ _ => 1)) (fun q => if (q.2 0 : ℕ) = 3 then ε3 else if (q.2 0 : ℕ) = 4 then ε4 else 1)
      (realMu (some fun _ => 1)) E ∧ Ports 0 1 3 4 (Real.pi / 3 : ℝ) (Real.pi / 3 : ℝ) E A o.1 o.2 D := by
  have hp := Real.pi_pos
  have d1 : (2 * Real.sin (Real.pi / 3 / 2)) ^ 2 = 1 ^ 2 * 1 ^ 2 * 1 * 1 := by
    rw [show Real.pi / 3 / 2 = Real.pi / 6 by ring, Real.sin_pi_div_six]; norm_num
  refine C161_scattering (w1 := 1) (w2 := 1) (e1 := 1) (e2 := 1) (μ1 := 1) (μ2 := 1) ⟨⟨by decide, by decide, by norm_num, by norm_num, by decide, fun x hx => ?_, fun x hx => ?_, fun x hx => ?_,
    fun x hx => ?_⟩, ⟨fun _ _ => one_pos, fun _ _ => one_pos⟩, fun p => one_pos, by positivity, by linarith, by positivity, by linarith, d1, d1⟩ ?_ A D
  · simp [cDx]
  · simp only [realMu, Option.map_some, Option.getD_some, ofReal_one, and_true]
    rw [if_neg (by omega), if_neg (by omega)]
  · simp [cDx]
  · simp only [realMu, Option.map_some, Option.getD_some, ofReal_one, true_and]
    intro h
    rw [if_neg (by omega), if_neg (by omega)]
  · intro x h1 h2
    by_cases h : (x 0 : ℕ) = 3
    · simp only [h, if_true]; exact h3
    · have h' : (x 0 : ℕ) = 4 := by omega
      simp only [h', if_true]; exact h4

end Meanas.Props
