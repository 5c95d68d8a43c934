/-
C152 (SCPML layers return the designed amplitude up to second order in the cell width; open space), part 2: the layers made by
`stretch_with_scpml` (meanas/fdfd/scpml.py:98-163) with a profile of `prepare_s_function` (scpml.py:18-38) at the two ends of a grid along one
axis, in `fdfd.operators.e_full` (meanas/fdfd/operators.py:40-96). The grid wraps around, so a wave leaving at one end crosses both layers and
comes back at the other end.
-/
import Verif.Props.ScpmlWave

namespace Meanas.Props

open Matrix Complex Fdfd Spec Solvers Scpml ScpmlLossy

variable {sh : Fin 3 → ℕ}

namespace ScpmlOpen

/-- The grid `g` comes from a grid with the uniform cell width `w` along `a` (any widths along the other axes) by one call of `stretch_with_scpml` at the front and
one at the back, in any order, with the same arguments and the profile `prepare_s_function(ln_R, m)` (`None` is `ln_R = -16, m = 4`). -/
def Layers (a : Fin 3) (w : ℝ) (t : ℕ) (ω ε lnR m : ℝ) (g : Dx sh) : Prop :=
  ∃ (g₀ g₁ : Dx sh) (s : Option (ℂ → ℂ)) (p q : ℤ), (∀ i, g₀.1 a i = w ∧ g₀.2 a i = w) ∧ (s = some (sFactorC lnR m) ∨ s = none ∧ lnR = -16 ∧ m = 4) ∧ 0 < p ∧ q < 0 ∧
    ((stretchWithScpml g₀ a p ω ε t s = okGrid g₁ ∧ stretchWithScpml g₁ a q ω ε t s = okGrid g) ∨
     (stretchWithScpml g₀ a q ω ε t s = okGrid g₁ ∧ stretchWithScpml g₁ a p ω ε t s = okGrid g))

theorem pos_uniform {n : ℕ} {w : ℝ} {dx : Fin n → ℂ} {i j : ℕ} (hij : i ≤ j) (hj : j ≤ n) (h : ∀ l : Fin n, i ≤ (l : ℕ) → (l : ℕ) < j → dx l = w) :
    pos dx j - pos dx i = ((j - i : ℝ) : ℂ) * w := by
  simp only [pos, ← Finset.sum_sub_distrib]
  have e : ∀ l : Fin n, ((if (l : ℕ) < j then dx l else 0) - if (l : ℕ) < i then dx l else 0) = if i ≤ (l : ℕ) ∧ (l : ℕ) < j then (w : ℂ) else 0 := by
    intro l
    by_cases h1 : (l : ℕ) < i
    · rw [if_pos h1, if_pos (by omega), if_neg (by omega), sub_self]
    · by_cases h2 : (l : ℕ) < j
      · rw [if_pos h2, if_neg h1, if_pos ⟨by omega, h2⟩, sub_zero, h l (by omega) h2]
      · rw [if_neg h2, if_neg h1, if_neg (by omega), sub_zero]
  rw [Finset.sum_congr rfl fun l _ => e l, Fin.sum_univ_eq_sum_range (fun l => if i ≤ l ∧ l < j then (w : ℂ) else 0) n, ← Finset.sum_filter]
  have hf : (Finset.range n).filter (fun l => i ≤ l ∧ l < j) = Finset.Ico i j := by
    ext l; simp only [Finset.mem_filter, Finset.mem_range, Finset.mem_Ico]; omega
  rw [hf, Finset.sum_const, Nat.card_Ico, nsmul_eq_mul, Nat.cast_sub hij]; push_cast; ring

/-- The factor of the code for a depth `l` in a layer of thickness `D`. -/
theorem factor_lam {k lnR m D y w : ℝ} (hk : 0 < k) (hD : 0 < D) (hy : 0 ≤ y) {num d v : ℂ} (hn : num = y) (hd : d = D)
    (h : (factor (sFactorC lnR m) num d k).map ((w : ℂ) * ·) = some v) : I * k * v = w * lam1 k (-lnR / 2) D m y := by
  have hD' : (D : ℂ) ≠ 0 := by exact_mod_cast hD.ne'
  have hk' : (k : ℂ) ≠ 0 := by exact_mod_cast hk.ne'
  rw [hn, hd, factor_some hD' hk.ne', Option.map_some, Option.some.injEq, ← ofReal_div, sFactorC_real (div_nonneg hy hD.le), sFactor] at h
  rw [← h, lam1]
  push_cast
  field_simp
  linear_combination ((w : ℂ) * (m + 1) * lnR * ((y / D) ^ m : ℝ)) * I_sq

/-- Depth in the layers of the widths in front of and around node `i`. -/
noncomputable def depA (n t : ℕ) (w : ℝ) (i : ℕ) : ℝ := if i < t then (t - i - 1 / 2) * w else if n - t ≤ i then (i + 1 / 2 - (n - t : ℕ)) * w else 0
noncomputable def depB (n t : ℕ) (w : ℝ) (i : ℕ) : ℝ := if i < t then (t - i) * w else if n - t ≤ i then (i - (n - t : ℕ)) * w else 0

theorem lam1_zero {k ρ D m : ℝ} (hm : 2 ≤ m) : lam1 k ρ D m 0 = I * k := by simp [lam1, Real.zero_rpow (show m ≠ 0 by linarith)]

theorem front_widths {a : Fin 3} {w : ℝ} {t : ℕ} {ω ε lnR m k D : ℝ} (hk : 0 < k) (hke : k = Real.sqrt ε * ω) (hw : 0 < w) (ht0 : 0 < t) (ht : t ≤ sh a) (hD : t * w = D)
    {g₀ g : Dx sh} {s : Option (ℂ → ℂ)} (hs : s.getD (sFactorC (-16) 4) = sFactorC lnR m) {p : ℤ} (hp : 0 < p)
    (h0 : ∀ i : Fin (sh a), (i : ℕ) < t → g₀.1 a i = w ∧ g₀.2 a i = w) (h : stretchWithScpml g₀ a p ω ε t s = okGrid g) (i : Fin (sh a)) :
    ((i : ℕ) < t → I * k * g.1 a i = w * lam1 k (-lnR / 2) D m ((t - i - 1 / 2) * w) ∧ I * k * g.2 a i = w * lam1 k (-lnR / 2) D m ((t - i) * w)) ∧
    (¬ (i : ℕ) < t → g.1 a i = g₀.1 a i ∧ g.2 a i = g₀.2 a i) := by
  have hc : sCorrection ε (ω : ℂ) = k := by rw [hke]; rfl
  simp only [stretchWithScpml, hs, hc] at h
  rw [stretch_front _ _ hp _ ht] at h
  simp only [okGrid, Except.ok.injEq, Prod.mk.injEq] at h
  have hA := congrFun (congrFun h.1 a) i
  have hB := congrFun (congrFun h.2 a) i
  simp only [Function.update_self] at hA hB
  have hDp : 0 < D := by rw [← hD]; exact mul_pos (by exact_mod_cast ht0) hw
  have hd : pos (g₀.1 a) t - pos (g₀.1 a) 0 = (D : ℂ) := by
    rw [pos_uniform (Nat.zero_le _) ht fun l _ hl => (h0 l hl).1, ← hD]; push_cast; ring
  constructor
  · intro hi
    have hi' : ((i : ℕ) + 1 : ℝ) ≤ t := by exact_mod_cast hi
    rw [if_pos hi] at hA hB
    have p1 := pos_uniform (w := w) (dx := g₀.1 a) (i := i) (j := t) hi.le ht fun l _ hl => (h0 l hl).1
    have p2 := pos_uniform (w := w) (dx := g₀.1 a) (i := i + 1) (j := t) hi ht fun l _ hl => (h0 l hl).1
    rw [(h0 i hi).1] at hA
    rw [(h0 i hi).2] at hB
    refine ⟨factor_lam hk hDp (mul_nonneg (by linarith) hw.le) ?_ hd hA, factor_lam hk hDp (mul_nonneg (by linarith) hw.le) ?_ hd hB⟩
    · push_cast at p1 p2 ⊢
      linear_combination (1 / 2) * p1 + (1 / 2) * p2
    · rw [p1]; push_cast; ring
  · intro hi
    rw [if_neg hi] at hA hB
    exact ⟨(Option.some.inj hA).symm, (Option.some.inj hB).symm⟩

theorem back_widths {a : Fin 3} {w : ℝ} {t : ℕ} {ω ε lnR m k D : ℝ} (hk : 0 < k) (hke : k = Real.sqrt ε * ω) (hw : 0 < w) (ht0 : 0 < t) (ht : t ≤ sh a) (hD : t * w = D)
    {g₀ g : Dx sh} {s : Option (ℂ → ℂ)} (hs : s.getD (sFactorC (-16) 4) = sFactorC lnR m) {q : ℤ} (hq : q < 0)
    (h0 : ∀ i : Fin (sh a), sh a - t ≤ (i : ℕ) → g₀.1 a i = w ∧ g₀.2 a i = w) (h : stretchWithScpml g₀ a q ω ε t s = okGrid g) (i : Fin (sh a)) :
    (sh a - t ≤ (i : ℕ) → I * k * g.1 a i = w * lam1 k (-lnR / 2) D m ((i + 1 / 2 - (sh a - t : ℕ)) * w) ∧ I * k * g.2 a i = w * lam1 k (-lnR / 2) D m ((i - (sh a - t : ℕ)) * w)) ∧
    (¬ sh a - t ≤ (i : ℕ) → g.1 a i = g₀.1 a i ∧ g.2 a i = g₀.2 a i) := by
  have hc : sCorrection ε (ω : ℂ) = k := by rw [hke]; rfl
  simp only [stretchWithScpml, hs, hc] at h
  rw [stretch_back _ _ (show ¬ 0 < q by omega) _ ht0.ne' ht] at h
  simp only [okGrid, Except.ok.injEq, Prod.mk.injEq] at h
  have hA := congrFun (congrFun h.1 a) i
  have hB := congrFun (congrFun h.2 a) i
  simp only [Function.update_self] at hA hB
  have hDp : 0 < D := by rw [← hD]; exact mul_pos (by exact_mod_cast ht0) hw
  have hd : pos (g₀.1 a) (sh a) - pos (g₀.1 a) (sh a - t) = (D : ℂ) := by
    rw [pos_uniform (Nat.sub_le _ _) le_rfl fun l hl _ => (h0 l hl).1, ← hD, Nat.cast_sub ht]; push_cast; ring
  constructor
  · intro hi
    have hi' : ((sh a - t : ℕ) : ℝ) ≤ (i : ℕ) := by exact_mod_cast hi
    rw [if_pos hi] at hA hB
    have p1 := pos_uniform (w := w) (dx := g₀.1 a) (i := sh a - t) (j := i) hi i.isLt.le fun l hl _ => (h0 l hl).1
    have p2 := pos_uniform (w := w) (dx := g₀.1 a) (i := sh a - t) (j := i + 1) (by omega) i.isLt fun l hl _ => (h0 l hl).1
    rw [(h0 i hi).1] at hA
    rw [(h0 i hi).2] at hB
    refine ⟨factor_lam hk hDp (mul_nonneg (by linarith) hw.le) ?_ hd hA, factor_lam hk hDp (mul_nonneg (by linarith) hw.le) ?_ hd hB⟩
    · push_cast at p1 p2 ⊢
      linear_combination (1 / 2) * p1 + (1 / 2) * p2
    · rw [p1]; push_cast; ring
  · intro hi
    rw [if_neg hi] at hA hB
    exact ⟨(Option.some.inj hA).symm, (Option.some.inj hB).symm⟩

/-- The widths of the two calls. -/
theorem widths {a : Fin 3} {w : ℝ} {t : ℕ} {ω ε lnR m k D : ℝ} (hk : 0 < k) (hke : k = Real.sqrt ε * ω) (hw : 0 < w) (ht0 : 0 < t) (ht : 2 * t ≤ sh a) (hD : t * w = D) (hm : 2 ≤ m)
    {g : Dx sh} (hg : Layers a w t ω ε lnR m g) (i : Fin (sh a)) :
    I * k * g.1 a i = w * lam1 k (-lnR / 2) D m (depA (sh a) t w i) ∧ I * k * g.2 a i = w * lam1 k (-lnR / 2) D m (depB (sh a) t w i) := by
  obtain ⟨g₀, g₁, s, p, q, h0, hs, hp, hq, h⟩ := hg
  have hs' : s.getD (sFactorC (-16) 4) = sFactorC lnR m := by
    rcases hs with rfl | ⟨rfl, rfl, rfl⟩ <;> rfl
  rw [depA, depB]
  rcases h with ⟨h1, h2⟩ | ⟨h1, h2⟩
  · have F := fun j => front_widths (m := m) hk hke hw ht0 (by omega) hD hs' hp (fun i _ => h0 i) h1 j
    have B := back_widths (m := m) hk hke hw ht0 (by omega) hD hs' hq (fun j hj => by rw [((F j).2 (by omega)).1, ((F j).2 (by omega)).2]; exact h0 j) h2 i
    by_cases c1 : (i : ℕ) < t
    · rw [if_pos c1, if_pos c1, (B.2 (by omega)).1, (B.2 (by omega)).2]; exact (F i).1 c1
    · rw [if_neg c1, if_neg c1]
      by_cases c2 : sh a - t ≤ (i : ℕ)
      · rw [if_pos c2, if_pos c2]; exact B.1 c2
      · rw [if_neg c2, if_neg c2, (B.2 c2).1, (B.2 c2).2, ((F i).2 c1).1, ((F i).2 c1).2, (h0 i).1, (h0 i).2, lam1_zero hm]
        constructor <;> ring
  · have B := fun j => back_widths (m := m) hk hke hw ht0 (by omega) hD hs' hq (fun i _ => h0 i) h1 j
    have F := front_widths (m := m) hk hke hw ht0 (by omega) hD hs' hp (fun j hj => by rw [((B j).2 (by omega)).1, ((B j).2 (by omega)).2]; exact h0 j) h2 i
    by_cases c1 : (i : ℕ) < t
    · rw [if_pos c1, if_pos c1]; exact F.1 c1
    · rw [if_neg c1, if_neg c1, (F.2 c1).1, (F.2 c1).2]
      by_cases c2 : sh a - t ≤ (i : ℕ)
      · rw [if_pos c2, if_pos c2]; exact (B i).1 c2
      · rw [if_neg c2, if_neg c2, ((B i).2 c2).1, ((B i).2 c2).2, (h0 i).1, (h0 i).2, lam1_zero hm]
        constructor <;> ring


theorem lam1_ne {k ρ D m y : ℝ} (hk : 0 < k) : lam1 k ρ D m y ≠ 0 := by
  intro h
  have := congrArg Complex.im h
  simp [lam1] at this
  exact hk.ne' this

/-- Amplitudes of the waves of the lattice in the two nodes at the face of each layer: `p` runs forward (`hop²` per cell), `q` backward; `R` at the back layer (high
indices), `L` at the front layer. -/
structure Amplitudes (a c : Fin 3) (u : ℂ) (t : ℕ) (E : Vec sh) (pR qR pL qL : ℂ) : Prop where
  r0 : ∀ x : Idx sh, (x a : ℕ) = sh a - t → E (c, x) = pR + qR
  r1 : ∀ x : Idx sh, (x a : ℕ) + 1 = sh a - t → E (c, x) = pR * (starRingEnd ℂ) u ^ 2 + qR * u ^ 2
  l0 : ∀ x : Idx sh, (x a : ℕ) = t → E (c, x) = pL + qL
  l1 : ∀ x : Idx sh, (x a : ℕ) = t + 1 → E (c, x) = pL * u ^ 2 + qL * (starRingEnd ℂ) u ^ 2

/-- The wave equation at a node of the homogeneous medium without current. -/
theorem node_eq {a c : Fin 3} (hc : c ≠ a) (hth : ∀ b, b ≠ a → sh b = 1) {ω ε k : ℝ} (hke : k ^ 2 = ω ^ 2 * ε) {g : Dx sh} {eps : Vec sh} {mu : Option (Vec sh)} {E J : Vec sh}
    (h : eFull ω g eps mu none none *ᵥ E = (-I * ω) • J) {x : Idx sh} (hb : g.2 a (x a) ≠ 0) (he : eps (c, x) = ε) (hJ : J (c, x) = 0) :
    flux1 a c g mu E x = flux1 a c g mu E (shiftIdx a (-1) x) - g.2 a (x a) * k ^ 2 * E (c, x) := by
  have h1 := congrFun h (c, x)
  rw [eFull_1d a hth, if_neg hc, Pi.smul_apply, hJ, smul_zero, he] at h1
  have hke' : (k : ℂ) ^ 2 = ω ^ 2 * ε := by exact_mod_cast hke
  field_simp at h1
  linear_combination -h1 + g.2 a (x a) * E (c, x) * hke'

theorem shift_val {n : ℕ} (i : Fin n) (s : ℤ) (v : ℕ) (hv : v < n) (h : (i : ℤ) + s = v ∨ (i : ℤ) + s = v + n ∨ (i : ℤ) + s + n = v) : ((wrap i s : Fin n) : ℕ) = v := by
  have h1 := wrap_val i s
  have h2 : ((i : ℤ) + s) % (n : ℤ) = v := by
    have h3 : ((v : ℤ)) % (n : ℤ) = v := Int.emod_eq_of_lt (by omega) (by omega)
    rcases h with h | h | h
    · rw [h, h3]
    · rw [h, Int.add_emod_right, h3]
    · rw [← h3, ← h, Int.add_emod_right]
  rw [h2] at h1
  exact_mod_cast h1

theorem edgeR {u v z p q F₀ Fm : ℂ} (uv : u * v = 1) (hz : z = v - u) (h0 : z ≠ 0) (h1 : p + q = p * v ^ 2 + q * u ^ 2 - z * Fm) (h2 : F₀ = Fm - z * (p + q)) :
    F₀ = p * u - q * v := by
  subst hz
  apply mul_left_cancel₀ h0
  linear_combination (v - u) * h2 + h1 + (p + q) * uv

theorem edgeL {u v z p q F₁ F₂ : ℂ} (uv : u * v = 1) (hz : z = v - u) (h0 : z ≠ 0) (h1 : p * u ^ 2 + q * v ^ 2 = p + q - z * F₂) (h2 : F₂ = F₁ - z * (p + q)) :
    F₁ = p * v - q * u := by
  subst hz
  apply mul_left_cancel₀ h0
  linear_combination -(v - u) * h2 + h1 - (p + q) * uv

theorem shift_self (a : Fin 3) (s : ℤ) (x : Idx sh) : shiftIdx a s x a = wrap (x a) s := by simp [shiftIdx]

/-- The widths of the two layers for waves of wave number `k`. -/
def LayerWidths (k ρ D m : ℝ) (n t : ℕ) (w : ℝ) (g1 g2 : Fin n → ℂ) : Prop :=
  ∀ i : Fin n, I * k * g1 i = w * lam1 k ρ D m (depA n t w i) ∧ I * k * g2 i = w * lam1 k ρ D m (depB n t w i)

/-- The wave equation with wave number `k` at the node `i`: `(e' - e) / g1` minus the same one cell before, over `g2`, plus `k² e`, is `s`. -/
def WaveAt {n : ℕ} (k : ℝ) (g1 g2 e : Fin n → ℂ) (s : ℂ) (i : Fin n) : Prop :=
  (e (wrap i 1) - e i) / g1 i - (e i - e (wrap i (-1))) / g1 (wrap i (-1)) + g2 i * k ^ 2 * e i = g2 i * s

/-- Amplitudes of the waves of the lattice in the two nodes at the face of each layer. -/
structure Amps {n : ℕ} (u : ℂ) (t : ℕ) (e : Fin n → ℂ) (pR qR pL qL : ℂ) : Prop where
  r0 : ∀ i : Fin n, (i : ℕ) = n - t → e i = pR + qR
  r1 : ∀ i : Fin n, (i : ℕ) + 1 = n - t → e i = pR * (starRingEnd ℂ) u ^ 2 + qR * u ^ 2
  l0 : ∀ i : Fin n, (i : ℕ) = t → e i = pL + qL
  l1 : ∀ i : Fin n, (i : ℕ) = t + 1 → e i = pL * u ^ 2 + qL * (starRingEnd ℂ) u ^ 2

set_option maxHeartbeats 400000 in
theorem seq_layers {k₀ ρ₀ D m : ℝ} (hk₀ : 0 ≤ k₀) (hρ₀ : 0 ≤ ρ₀) (hD : 0 < D) (hm : 2 ≤ m) : ∃ C : ℝ, 0 ≤ C ∧
    ∀ (k ρ : ℝ), 0 < k → k ≤ k₀ → 0 ≤ ρ → ρ ≤ ρ₀ → ∀ (n t : ℕ) (w : ℝ) (g1 g2 e : Fin n → ℂ) (pR qR pL qL : ℂ), 0 < w → t * w = D → k * w ≤ 1 → C * w ^ 2 ≤ 1 / 2 → 2 * t < n →
      LayerWidths k ρ D m n t w g1 g2 → (∀ i : Fin n, (i : ℕ) ≤ t ∨ n - t ≤ (i : ℕ) → WaveAt k g1 g2 e 0 i) → Amps (hop (k * w / 2)) t e pR qR pL qL →
      ‖pL - Complex.exp (-2 * ρ - 2 * I * (k * D)) * pR‖ ≤ C * w ^ 2 * (‖pR‖ + ‖qL‖) ∧ ‖qR - Complex.exp (-2 * ρ - 2 * I * (k * D)) * qL‖ ≤ C * w ^ 2 * (‖pR‖ + ‖qL‖) := by
  obtain ⟨C, hC, key⟩ := layer_path hk₀ hρ₀ hD hm
  refine ⟨2 * C, by positivity, ?_⟩
  intro k ρ hk hk0 hρ hρ0 n t w g1 g2 e pR qR pL qL hw ht hkw hsmall h2t W hwave hamp
  have key := key k ρ hk hk0 hρ hρ0
  have ht0 : 0 < t := by
    rcases Nat.eq_zero_or_pos t with rfl | h
    · simp at ht; linarith
    · exact h
  have hIk : I * (k : ℂ) ≠ 0 := mul_ne_zero I_ne_zero (by exact_mod_cast hk.ne')
  have hw' : (w : ℂ) ≠ 0 := by exact_mod_cast hw.ne'
  have hne1 : ∀ i, g1 i ≠ 0 := fun i h0 => by
    have := (W i).1; rw [h0, mul_zero] at this
    exact mul_ne_zero hw' (lam1_ne hk) this.symm
  let iR : Fin n := ⟨n - t, by omega⟩
  let xs : ℤ → Fin n := fun j => wrap iR j
  have xval : ∀ (j : ℤ) (v : ℕ), v < n → ((n - t : ℕ) + j = v ∨ (n - t : ℕ) + j = v + n ∨ ((n - t : ℕ) : ℤ) + j + n = v) → (xs j : ℕ) = v := by
    intro j v hv h
    exact shift_val _ _ _ hv h
  have xsucc : ∀ j, wrap (xs j) 1 = xs (j + 1) := fun j => wrap_wrap _ _ _
  have xpred : ∀ j, wrap (xs j) (-1) = xs (j - 1) := fun j => wrap_wrap _ _ _
  -- indices along the path
  have idx : ∀ j : ℕ, j ≤ 2 * t → (xs j : ℕ) = if j < t then n - t + j else j - t := by
    intro j hj
    split_ifs with h
    · exact xval _ _ (by omega) (by omega)
    · exact xval _ _ (by omega) (by omega)
  have inL : ∀ j : ℕ, j ≤ 2 * t → (xs j : ℕ) ≤ t ∨ n - t ≤ (xs j : ℕ) := by
    intro j hj; rw [idx j hj]; split_ifs <;> omega
  have dA : ∀ j : ℕ, j < 2 * t → depA n t w (xs j) = yH t w j := by
    intro j hj
    rw [idx j hj.le, depA, yH]
    by_cases h : j < t
    · rw [if_pos h, if_pos h, if_neg (by omega), if_pos (by omega)]; push_cast; ring
    · rw [if_neg h, if_neg h, if_pos (by omega), Nat.cast_sub (by omega)]; ring
  have dB : ∀ j : ℕ, j < 2 * t → depB n t w (xs j) = yE t w j := by
    intro j hj
    rw [idx j hj.le, depB, yE]
    by_cases h : j < t
    · rw [if_pos h, if_pos h.le, if_neg (by omega), if_pos (by omega)]; push_cast; ring
    · rw [if_neg h, if_pos (by omega), Nat.cast_sub (by omega)]
      by_cases h' : j ≤ t
      · obtain rfl : j = t := by omega
        rw [if_pos le_rfl]; ring
      · rw [if_neg h']; ring
  let F : ℤ → ℂ := fun j => (e (xs (j + 1)) - e (xs j)) / g1 (xs j) / (-(I * k))
  have stepE : ∀ j : ℤ, e (xs (j + 1)) = e (xs j) - I * k * g1 (xs j) * F j := by
    intro j
    have := hne1 (xs j)
    simp only [F]
    have e1 : I * (k : ℂ) * g1 (xs j) * ((e (xs (j + 1)) - e (xs j)) / g1 (xs j) / -(I * k))
        = -((I * (k : ℂ)) / (I * k) * (g1 (xs j) / g1 (xs j)) * (e (xs (j + 1)) - e (xs j))) := by rw [div_neg]; ring
    rw [e1, div_self hIk, div_self this]
    ring
  have stepF : ∀ j : ℤ, ((xs (j + 1) : ℕ) ≤ t ∨ n - t ≤ (xs (j + 1) : ℕ)) → F (j + 1) = F j - I * k * g2 (xs (j + 1)) * e (xs (j + 1)) := by
    intro j hj
    have h1 := hwave (xs (j + 1)) hj
    rw [WaveAt, xpred, xsucc, add_sub_cancel_right, mul_zero] at h1
    simp only [F]
    have h2 : (e (xs (j + 1 + 1)) - e (xs (j + 1))) / g1 (xs (j + 1)) = (e (xs (j + 1)) - e (xs j)) / g1 (xs j) - g2 (xs (j + 1)) * k ^ 2 * e (xs (j + 1)) := by linear_combination h1
    rw [h2, sub_div]
    congr 1
    rw [div_eq_iff (neg_ne_zero.2 hIk)]
    linear_combination (g2 (xs (j + 1)) * k ^ 2 * e (xs (j + 1))) * I_sq
  set u := hop (k * w / 2) with hu
  have hθ : (k * w / 2) ^ 2 ≤ 1 := by
    have : 0 < k * w := mul_pos hk hw
    nlinarith
  have uu : u * (starRingEnd ℂ) u = 1 := hop_mul_conj hθ
  have udiff : (starRingEnd ℂ) u = u + I * (k * w) := by
    rw [hu, hop_conj, hop]; push_cast; ring
  have hz : I * (k * w : ℂ) = (starRingEnd ℂ) u - u := by rw [udiff]; ring
  have hkw0 : I * (k * w : ℂ) ≠ 0 := by rw [← mul_assoc]; exact mul_ne_zero hIk hw'
  -- amplitudes at the right
  have vm1 : (xs (-1) : ℕ) = n - t - 1 := xval _ _ (by omega) (by omega)
  have v0 : (xs 0 : ℕ) = n - t := by simpa using xval 0 (n - t) (by omega) (by omega)
  have wm1 : I * k * g1 (xs (-1)) = I * (k * w) := by
    rw [(W _).1, vm1, depA, if_neg (by omega), if_neg (by omega), lam1_zero hm]; ring
  have w0 : I * k * g2 (xs 0) = I * (k * w) := by
    rw [(W _).2, v0, depB, if_neg (by omega), if_pos le_rfl, sub_self, zero_mul, lam1_zero hm]; ring
  have F0 : F 0 = pR * u - qR * (starRingEnd ℂ) u := by
    have h1 := stepE (-1)
    have h2 := stepF (-1) (Or.inr (by show n - t ≤ (xs 0 : ℕ); rw [v0]))
    rw [show (-1 : ℤ) + 1 = 0 by norm_num] at h1 h2
    rw [hamp.r0 _ v0, hamp.r1 _ (by rw [vm1]; omega), wm1] at h1
    rw [hamp.r0 _ v0, w0] at h2
    exact edgeR uu hz hkw0 h1 h2
  -- amplitudes at the left
  have v2t : (xs (2 * t : ℕ) : ℕ) = t := by rw [idx _ le_rfl, if_neg (by omega)]; omega
  have w2t : I * k * g2 (xs (2 * t : ℕ)) = I * (k * w) := by
    rw [(W _).2, v2t, depB, if_neg (by omega), if_neg (by omega), lam1_zero hm]; ring
  have w2t' : I * k * g1 (xs (2 * t : ℕ)) = I * (k * w) := by
    rw [(W _).1, v2t, depA, if_neg (by omega), if_neg (by omega), lam1_zero hm]; ring
  have FL : F (2 * t - 1 : ℕ) = pL * (starRingEnd ℂ) u - qL * u := by
    by_cases hn : t + 1 < n
    · have v2t1 : (xs ((2 * t : ℕ) + 1) : ℕ) = t + 1 := xval _ _ hn (by omega)
      have h1 := stepE (2 * t : ℕ)
      have h2 := stepF (2 * t - 1 : ℕ) (by
        rw [show ((2 * t - 1 : ℕ) : ℤ) + 1 = (2 * t : ℕ) by omega]; exact inL _ le_rfl)
      rw [show ((2 * t - 1 : ℕ) : ℤ) + 1 = (2 * t : ℕ) by omega, w2t, hamp.l0 _ v2t] at h2
      rw [hamp.l0 _ v2t, hamp.l1 _ v2t1, w2t'] at h1
      exact edgeL uu hz hkw0 h1 h2
    · omega
  have K := key t w hw ht hkw (fun j => e (xs j)) (fun j => F j) pR qR pL qL ?_ ?_ (by simpa using hamp.r0 _ v0) (by simpa using F0) (hamp.l0 _ v2t) FL
  · have eT : cross k ρ D m (-1) = Complex.exp (-2 * ρ - 2 * I * (k * D)) := by
      rw [cross, lam, div_self hD.ne', Real.one_rpow]; congr 1; push_cast; ring
    rw [cross_inv, eT] at K
    have nT : ‖Complex.exp (-2 * ρ - 2 * I * (k * D))‖ ≤ 1 := by
      rw [← eT, (norm_cross hD).1]; exact Real.exp_le_one_iff.2 (by linarith)
    set T := Complex.exp (-2 * ρ - 2 * I * (k * D)) with hT
    have hT0 : T ≠ 0 := Complex.exp_ne_zero _
    obtain ⟨K1, K2⟩ := K
    have hq : qR - T * qL = -(T * (qL - T⁻¹ * qR)) := by field_simp; ring
    have K3 : ‖qR - T * qL‖ ≤ C * w ^ 2 * (‖pR‖ + ‖qR‖) := by
      rw [hq, norm_neg, norm_mul]
      exact (mul_le_of_le_one_left (norm_nonneg _) nT).trans K2
    have n1 := norm_nonneg pR; have n2 := norm_nonneg qR; have n3 := norm_nonneg qL
    have hCw : 0 ≤ C * w ^ 2 := by positivity
    have K4 : ‖qR‖ ≤ ‖qL‖ + C * w ^ 2 * (‖pR‖ + ‖qR‖) := by
      have : ‖qR‖ ≤ ‖T * qL‖ + ‖qR - T * qL‖ := by
        have := norm_add_le (T * qL) (qR - T * qL); rwa [add_sub_cancel] at this
      rw [norm_mul] at this
      have := mul_le_of_le_one_left n3 nT
      linarith
    have K5 : ‖pR‖ + ‖qR‖ ≤ 2 * (‖pR‖ + ‖qL‖) := by
      have : C * w ^ 2 * (‖pR‖ + ‖qR‖) ≤ 1 / 4 * (‖pR‖ + ‖qR‖) := mul_le_mul_of_nonneg_right (by linarith) (by positivity)
      linarith
    have K6 : C * w ^ 2 * (‖pR‖ + ‖qR‖) ≤ 2 * C * w ^ 2 * (‖pR‖ + ‖qL‖) := by
      calc _ ≤ C * w ^ 2 * (2 * (‖pR‖ + ‖qL‖)) := mul_le_mul_of_nonneg_left K5 hCw
        _ = _ := by ring
    exact ⟨K1.trans K6, K3.trans K6⟩
  · intro j hj
    have h1 := stepE j
    have := (W (xs j)).1
    rw [dA j hj] at this
    rw [this] at h1
    exact_mod_cast h1
  · intro j hj
    have h1 := stepF j (by exact_mod_cast inL (j + 1) hj.le)
    have h2 := (W (xs ((j + 1 : ℕ) : ℤ))).2
    rw [dB (j + 1) hj] at h2
    push_cast at h2
    rw [h2] at h1
    exact_mod_cast h1

end ScpmlOpen

open ScpmlOpen

/-- C152: what comes out of the layers. `pR, qL`: the waves that enter the two layers, `pL, qR`: the waves that come out of them. With layers of
fixed thickness `D`, the outgoing waves are the entering waves of the opposite ends times `exp(ln_R - 2 i √ε ω D)`, up to `C w²`; the constant does
not depend on the grid, nor on the media and currents between the layers. -/
theorem C152_layers {ω ε lnR m D : ℝ} (hω : 0 < ω) (hε : 0 < ε) (hR : lnR ≤ 0) (hm : 2 ≤ m) (hD : 0 < D) :
    ∃ C : ℝ, 0 ≤ C ∧ ∀ (sh : Fin 3 → ℕ) (a c : Fin 3) (w : ℝ) (t : ℕ) (g : Dx sh) (eps : Vec sh) (mu : Option (Vec sh)) (E J : Vec sh) (pR qR pL qL : ℂ),
      (∀ b, b ≠ a → sh b = 1) → c ≠ a → 0 < w → t * w = D → Real.sqrt ε * ω * w ≤ 1 → C * w ^ 2 ≤ 1 / 2 → 2 * t < sh a → Layers a w t ω ε lnR m g →
      eFull ω g eps mu none none *ᵥ E = (-I * ω) • J →
      (∀ x : Idx sh, (x a : ℕ) ≤ t ∨ sh a - t ≤ (x a : ℕ) → eps (c, x) = ε ∧ J (c, x) = 0) →
      (∀ x : Idx sh, (x a : ℕ) ≤ t ∨ sh a - t ≤ (x a : ℕ) + 1 → (mu.getD 1) (oth a c, x) = 1) →
      Amplitudes a c (hop (Real.sqrt ε * ω * w / 2)) t E pR qR pL qL →
      ‖pL - Complex.exp (lnR - 2 * I * (Real.sqrt ε * ω * D)) * pR‖ ≤ C * w ^ 2 * (‖pR‖ + ‖qL‖) ∧
      ‖qR - Complex.exp (lnR - 2 * I * (Real.sqrt ε * ω * D)) * qL‖ ≤ C * w ^ 2 * (‖pR‖ + ‖qL‖) := by
  set k := Real.sqrt ε * ω with hkdef
  have hk : 0 < k := mul_pos (Real.sqrt_pos.2 hε) hω
  have hk2 : k ^ 2 = ω ^ 2 * ε := by rw [hkdef, mul_pow, Real.sq_sqrt hε.le]; ring
  obtain ⟨C, hC, key⟩ := seq_layers hk.le (show 0 ≤ -lnR / 2 by linarith) hD hm
  refine ⟨C, hC, ?_⟩
  intro sh a c w t g eps mu E J pR qR pL qL hth hc hw ht hkw hsmall h2t hg hE hhom hmu hamp
  have ht0 : 0 < t := by
    rcases Nat.eq_zero_or_pos t with rfl | h
    · simp at ht; linarith
    · exact h
  have W := widths hk hkdef hw ht0 h2t.le ht hm hg
  have hw' : (w : ℂ) ≠ 0 := by exact_mod_cast hw.ne'
  have hne2 : ∀ i, g.2 a i ≠ 0 := fun i h0 => by
    have := (W i).2; rw [h0, mul_zero] at this
    exact mul_ne_zero hw' (lam1_ne hk) this.symm
  have hmu' : ∀ x : Idx sh, (x a : ℕ) ≤ t ∨ sh a - t ≤ (x a : ℕ) + 1 → muV mu (oth a c, x) = 1 := by
    intro x hx
    have := hmu x hx
    cases mu <;> exact this
  let at_ : Fin (sh a) → Idx sh := fun i b => if h : b = a then ⟨i, by subst h; exact i.isLt⟩ else ⟨0, by rw [hth b h]; exact one_pos⟩
  have hat : ∀ i, (at_ i a : ℕ) = i := fun i => by simp [at_]
  have hat' : ∀ i, at_ i a = i := fun i => Fin.ext (hat i)
  have hsh : ∀ i s, shiftIdx a s (at_ i) = at_ (wrap i s) := by
    intro i s
    funext b
    by_cases hb : b = a
    · subst hb; rw [shift_self, hat', hat']
    · apply Fin.ext
      have := (shiftIdx a s (at_ i) b).isLt; have := (at_ (wrap i s) b).isLt; have := hth b hb
      omega
  have eT : (lnR - 2 * I * ((Real.sqrt ε : ℂ) * ω * D) : ℂ) = -2 * ((-lnR / 2 : ℝ) : ℂ) - 2 * I * (k * D) := by rw [hkdef]; push_cast; ring
  rw [eT]
  refine key k (-lnR / 2) hk le_rfl (by linarith) le_rfl (sh a) t w (g.1 a) (g.2 a) (fun i => E (c, at_ i)) pR qR pL qL hw ht hkw hsmall h2t W (fun i hi => ?_)
    ⟨fun i hi => hamp.r0 _ (by rw [hat, hi]), fun i hi => hamp.r1 _ (by rw [hat, hi]), fun i hi => hamp.l0 _ (by rw [hat, hi]), fun i hi => hamp.l1 _ (by rw [hat, hi])⟩
  have h1 := node_eq hc hth hk2 hE (x := at_ i) (hne2 _) (hhom _ (by rw [hat]; exact hi)).1 (hhom _ (by rw [hat]; exact hi)).2
  have hv : ((wrap i (-1) : Fin (sh a)) : ℕ) ≤ t ∨ sh a - t ≤ ((wrap i (-1) : Fin (sh a)) : ℕ) + 1 := by
    rcases Nat.eq_zero_or_pos (i : ℕ) with h0 | h0
    · rw [shift_val i (-1) (sh a - 1) (by omega) (by omega)]; omega
    · rw [shift_val i (-1) ((i : ℕ) - 1) (by omega) (by omega)]; omega
  rw [flux1, flux1, hsh, hsh, hsh, wrap_wrap, show (-1 : ℤ) + 1 = 0 by norm_num, wrap_zero, hmu' _ (by rw [hat]; omega), hmu' _ (by rw [hat]; exact hv), div_one, div_one, hat', hat'] at h1
  rw [WaveAt, mul_zero]
  linear_combination h1

namespace ScpmlOpen

/-- The field of the currents `J` on the infinite lattice without boundaries: every current sheet emits a wave to both sides. -/
noncomputable def free (a c : Fin 3) (ω ε w : ℝ) (J : Vec sh) (i : ℤ) : ℂ :=
  ∑ y : Idx sh, -(w / (2 * Real.sqrt ε * Real.sqrt (1 - (Real.sqrt ε * ω * w / 2) ^ 2)) : ℝ) * J (c, y) * hop (Real.sqrt ε * ω * w / 2) ^ (2 * (i - (y a : ℕ)).natAbs)

theorem pw {u v : ℂ} (uv : u * v = 1) (s : ℤ) :
    u ^ (2 * (s + 1).natAbs) + u ^ (2 * (s - 1).natAbs) - (u ^ 2 + v ^ 2) * u ^ (2 * s.natAbs) = if s = 0 then u ^ 2 - v ^ 2 else 0 := by
  have gen : ∀ n : ℕ, u ^ (2 * (n + 1 + 1)) + u ^ (2 * n) - (u ^ 2 + v ^ 2) * u ^ (2 * (n + 1)) = 0 := by
    intro n
    rw [show 2 * (n + 1 + 1) = 2 * n + 4 by ring, show 2 * (n + 1) = 2 * n + 2 by ring, pow_add, pow_add]
    linear_combination (-(u ^ (2 * n)) * (u * v + 1)) * uv
  rcases lt_trichotomy s 0 with h | h | h
  · rw [if_neg h.ne]
    obtain ⟨n, rfl⟩ : ∃ n : ℕ, s = -((n : ℤ) + 1) := ⟨(-s - 1).toNat, by omega⟩
    rw [show (-((n : ℤ) + 1) + 1).natAbs = n by omega, show (-((n : ℤ) + 1) - 1).natAbs = n + 1 + 1 by omega, show (-((n : ℤ) + 1)).natAbs = n + 1 by omega]
    linear_combination gen n
  · subst h; simp
  · rw [if_neg h.ne']
    obtain ⟨n, rfl⟩ : ∃ n : ℕ, s = (n : ℤ) + 1 := ⟨(s - 1).toNat, by omega⟩
    rw [show ((n : ℤ) + 1 + 1).natAbs = n + 1 + 1 by omega, show ((n : ℤ) + 1 - 1).natAbs = n by omega, show ((n : ℤ) + 1).natAbs = n + 1 by omega]
    exact gen n

/-- Solutions of the homogeneous difference equation are sums of two waves. -/
theorem two_waves {u v : ℂ} (uv : u * v = 1) (hne : u ^ 2 - v ^ 2 ≠ 0) {N : ℕ} {d : ℕ → ℂ} (h : ∀ j, j + 2 ≤ N → d (j + 2) = (u ^ 2 + v ^ 2) * d (j + 1) - d j) :
    ∃ p q : ℂ, ∀ j ≤ N, d j = p * u ^ (2 * j) + q * v ^ (2 * j) := by
  refine ⟨(d 1 - v ^ 2 * d 0) / (u ^ 2 - v ^ 2), (u ^ 2 * d 0 - d 1) / (u ^ 2 - v ^ 2), ?_⟩
  set p := (d 1 - v ^ 2 * d 0) / (u ^ 2 - v ^ 2) with hp
  set q := (u ^ 2 * d 0 - d 1) / (u ^ 2 - v ^ 2) with hq
  have h0 : d 0 = p * u ^ (2 * 0) + q * v ^ (2 * 0) := by rw [hp, hq]; field_simp; ring
  have h1 : d 1 = p * u ^ (2 * 1) + q * v ^ (2 * 1) := by rw [hp, hq]; field_simp; ring
  intro j
  induction j using Nat.strong_induction_on with
  | _ j ih =>
    intro hj
    match j, ih, hj with
    | 0, _, _ => exact h0
    | 1, _, _ => exact h1
    | j + 2, ih, hj =>
      rw [h j hj, ih (j + 1) (by omega) (by omega), ih j (by omega) (by omega)]
      rw [show 2 * (j + 2) = 2 * j + 4 by ring, show 2 * (j + 1) = 2 * j + 2 by ring, pow_add, pow_add, pow_add, pow_add]
      linear_combination (p * u ^ (2 * j) + q * v ^ (2 * j)) * (u * v + 1) * uv

/-- Summing up the reflections. -/
theorem close_loop {T p q fR fL pR qL : ℂ} {τ δ a b : ℝ} (ha : ‖p‖ = a) (hb : ‖q‖ = b) (hT : ‖T‖ = τ) (hδ : 0 ≤ δ) {x y : ℂ} (hx : ‖x‖ = a) (hy : ‖y‖ = b)
    (hpR : pR = x + fR) (hqL : qL = q + fL) (h1 : ‖p - T * pR‖ ≤ δ * (‖pR‖ + ‖qL‖)) (h2 : ‖y - T * qL‖ ≤ δ * (‖pR‖ + ‖qL‖)) (hη : τ + 2 * δ < 1) :
    a + b ≤ (τ + 2 * δ) / (1 - (τ + 2 * δ)) * (‖fR‖ + ‖fL‖) := by
  have hτ : 0 ≤ τ := hT ▸ norm_nonneg _
  have n1 : ‖pR‖ ≤ a + ‖fR‖ := by rw [hpR, ← hx]; exact norm_add_le _ _
  have n2 : ‖qL‖ ≤ b + ‖fL‖ := by rw [hqL, ← hb]; exact norm_add_le _ _
  have m1 : a ≤ τ * ‖pR‖ + δ * (‖pR‖ + ‖qL‖) := by
    have := norm_add_le (T * pR) (p - T * pR)
    rw [add_sub_cancel, norm_mul, hT, ha] at this; linarith
  have m2 : b ≤ τ * ‖qL‖ + δ * (‖pR‖ + ‖qL‖) := by
    have := norm_add_le (T * qL) (y - T * qL)
    rw [add_sub_cancel, norm_mul, hT, hy] at this; linarith
  have key : (a + b) * (1 - (τ + 2 * δ)) ≤ (τ + 2 * δ) * (‖fR‖ + ‖fL‖) := by
    have : (τ + 2 * δ) * (‖pR‖ + ‖qL‖) ≤ (τ + 2 * δ) * (a + ‖fR‖ + (b + ‖fL‖)) := mul_le_mul_of_nonneg_left (by linarith) (by linarith)
    nlinarith
  rw [div_mul_eq_mul_div, le_div_iff₀ (by linarith)]
  exact key

end ScpmlOpen

/-- C152: a homogeneous medium between and in the layers: every field is the field of the same currents on the infinite lattice, up to
`η / (1 - η)` times the waves that enter the layers, `η = exp(ln_R) + C w²`, whatever the number of cells and the currents. -/
theorem C152_open {ω ε lnR m D : ℝ} (hω : 0 < ω) (hε : 0 < ε) (hR : lnR ≤ 0) (hm : 2 ≤ m) (hD : 0 < D) :
    ∃ C : ℝ, 0 ≤ C ∧ ∀ (sh : Fin 3 → ℕ) (a c : Fin 3) (w : ℝ) (t : ℕ) (g : Dx sh) (eps : Vec sh) (mu : Option (Vec sh)) (E J : Vec sh),
      (∀ b, b ≠ a → sh b = 1) → c ≠ a → 0 < w → t * w = D → Real.sqrt ε * ω * w ≤ 1 → Real.exp lnR + C * w ^ 2 < 1 → C * w ^ 2 ≤ 1 → 2 * t < sh a →
      Layers a w t ω ε lnR m g → eFull ω g eps mu none none *ᵥ E = (-I * ω) • J →
      (∀ x : Idx sh, eps (c, x) = ε ∧ (mu.getD 1) (oth a c, x) = 1) → (∀ x : Idx sh, (x a : ℕ) ≤ t ∨ sh a - t ≤ (x a : ℕ) → J (c, x) = 0) →
      ∀ x : Idx sh, t ≤ (x a : ℕ) → (x a : ℕ) ≤ sh a - t →
        ‖E (c, x) - free a c ω ε w J (x a : ℕ)‖
          ≤ (Real.exp lnR + C * w ^ 2) / (1 - (Real.exp lnR + C * w ^ 2)) * (‖free a c ω ε w J (sh a - t : ℕ)‖ + ‖free a c ω ε w J t‖) := by
  obtain ⟨C, hC, key⟩ := C152_layers hω hε hR hm hD
  refine ⟨2 * C, by positivity, ?_⟩
  intro sh a c w t g eps mu E J hth hc hw ht hkw hη hsmall h2t hg hE hhom hJ
  set k := Real.sqrt ε * ω with hkdef
  have hk : 0 < k := mul_pos (Real.sqrt_pos.2 hε) hω
  have hk2 : k ^ 2 = ω ^ 2 * ε := by rw [hkdef, mul_pow, Real.sq_sqrt hε.le]; ring
  have ht0 : 0 < t := by
    rcases Nat.eq_zero_or_pos t with rfl | h
    · simp at ht; linarith
    · exact h
  have W := widths hk hkdef hw ht0 h2t.le ht hm hg
  have hIk : I * (k : ℂ) ≠ 0 := mul_ne_zero I_ne_zero (by exact_mod_cast hk.ne')
  have hw' : (w : ℂ) ≠ 0 := by exact_mod_cast hw.ne'
  have hkw0 : 0 < k * w := mul_pos hk hw
  have hθ : (k * w / 2) ^ 2 ≤ 1 / 4 := by nlinarith
  set u := hop (k * w / 2) with hu
  set v := (starRingEnd ℂ) u with hv
  have uv : u * v = 1 := hop_mul_conj (by linarith)
  have nu : ‖u‖ = 1 := norm_hop (by linarith)
  have nv : ‖v‖ = 1 := by rw [hv, RCLike.norm_conj, nu]
  have udiff : u - v = -(I * (k * w)) := by rw [hv, hu, hop_conj, hop]; push_cast; ring
  set σ := Real.sqrt (1 - (k * w / 2) ^ 2) with hσ
  have hσ0 : 0 < σ := Real.sqrt_pos.2 (by linarith)
  have usum : u + v = 2 * σ := by rw [hv, hu, hop_conj, hop]; push_cast; ring
  have u2 : u ^ 2 - v ^ 2 = -(I * (k * w)) * (2 * σ) := by rw [← udiff, ← usum]; ring
  have hne : u ^ 2 - v ^ 2 ≠ 0 := by
    rw [u2]
    refine mul_ne_zero (neg_ne_zero.2 ?_) (mul_ne_zero two_ne_zero (by exact_mod_cast hσ0.ne'))
    rw [← mul_assoc]; exact mul_ne_zero hIk hw'
  have u2s : u ^ 2 + v ^ 2 = 2 - k ^ 2 * w ^ 2 := by
    have h1 : (u - v) ^ 2 = -(k ^ 2 * w ^ 2) := by rw [udiff]; linear_combination ((k : ℂ) ^ 2 * w ^ 2) * I_sq
    linear_combination h1 + 2 * uv
  -- widths between the layers
  have gw1 : ∀ i : Fin (sh a), t ≤ (i : ℕ) → (i : ℕ) < sh a - t → g.1 a i = w := by
    intro i h1 h2
    have := (W i).1
    rw [depA, if_neg (by omega), if_neg (by omega), lam1_zero hm, mul_comm (w : ℂ)] at this
    exact mul_left_cancel₀ hIk this
  have gw2 : ∀ i : Fin (sh a), t ≤ (i : ℕ) → (i : ℕ) < sh a - t → g.2 a i = w := by
    intro i h1 h2
    have := (W i).2
    rw [depB, if_neg (by omega), if_neg (by omega), lam1_zero hm, mul_comm (w : ℂ)] at this
    exact mul_left_cancel₀ hIk this
  have hmuV : ∀ x : Idx sh, muV mu (oth a c, x) = 1 := fun x => by
    have := (hhom x).2
    cases mu <;> exact this
  -- cells in a row
  let xL : Idx sh := fun b => if h : b = a then ⟨t, by subst h; omega⟩ else ⟨0, by rw [hth b h]; exact one_pos⟩
  have hxL : (xL a : ℕ) = t := by simp [xL]
  let xs : ℕ → Idx sh := fun j => shiftIdx a j xL
  have xval : ∀ j, j ≤ sh a - 2 * t → (xs j a : ℕ) = t + j := by
    intro j hj
    simp only [xs]; rw [shift_self]
    exact shift_val _ _ _ (by omega) (by rw [hxL]; omega)
  have xuniq : ∀ x y : Idx sh, (x a : ℕ) = (y a : ℕ) → x = y := by
    intro x y h
    funext b
    by_cases hb : b = a
    · subst hb; exact Fin.ext h
    · apply Fin.ext
      have := (x b).isLt; have := (y b).isLt; have := hth b hb
      omega
  have xsucc : ∀ j, shiftIdx a 1 (xs j) = xs (j + 1) := fun j => by simp only [xs]; rw [shiftIdx_shiftIdx]; rfl
  have xpred : ∀ j, shiftIdx a (-1) (xs (j + 1)) = xs j := fun j => by simp only [xs]; rw [shiftIdx_shiftIdx]; push_cast; rw [add_neg_cancel_right]
  -- recurrences
  have recE : ∀ j, j + 2 ≤ sh a - 2 * t → E (c, xs (j + 2)) + E (c, xs j) - (u ^ 2 + v ^ 2) * E (c, xs (j + 1)) = I * ω * w ^ 2 * J (c, xs (j + 1)) := by
    intro j hj
    have h1 := congrFun hE (c, xs (j + 1))
    have x0 := xval j (by omega); have x1 := xval (j + 1) (by omega)
    rw [eFull_1d a hth, if_neg hc, xpred, flux1, flux1, hmuV, hmuV, xsucc, xsucc, gw1 _ (by rw [x1]; omega) (by rw [x1]; omega), gw1 _ (by rw [x0]; omega) (by rw [x0]; omega),
      gw2 _ (by rw [x1]; omega) (by rw [x1]; omega), (hhom _).1, Pi.smul_apply, smul_eq_mul] at h1
    have hk2' : (k : ℂ) ^ 2 = ω ^ 2 * ε := by exact_mod_cast hk2
    field_simp at h1
    rw [u2s, hk2']
    linear_combination -h1
  let A : ℂ := -((w / (2 * Real.sqrt ε * σ) : ℝ) : ℂ)
  have hA : A * (u ^ 2 - v ^ 2) = I * ω * w ^ 2 := by
    have h1 : (Real.sqrt ε : ℂ) ≠ 0 := by exact_mod_cast (Real.sqrt_pos.2 hε).ne'
    have h2 : (σ : ℂ) ≠ 0 := by exact_mod_cast hσ0.ne'
    simp only [A]
    rw [u2, hkdef]
    push_cast
    field_simp
  have recF : ∀ j, j + 2 ≤ sh a - 2 * t → free a c ω ε w J (t + (j + 2) : ℕ) + free a c ω ε w J (t + j : ℕ) - (u ^ 2 + v ^ 2) * free a c ω ε w J (t + (j + 1) : ℕ)
      = I * ω * w ^ 2 * J (c, xs (j + 1)) := by
    intro j hj
    simp only [free]
    rw [Finset.mul_sum, ← Finset.sum_add_distrib, ← Finset.sum_sub_distrib, Finset.sum_eq_single (xs (j + 1))]
    · have h1 := pw uv 0
      rw [if_pos rfl] at h1
      rw [xval (j + 1) (by omega)]
      rw [show (((t + (j + 2) : ℕ) : ℤ) - (t + (j + 1) : ℕ)) = 0 + 1 by push_cast; ring, show (((t + j : ℕ) : ℤ) - (t + (j + 1) : ℕ)) = 0 - 1 by push_cast; ring, sub_self]
      rw [← hA]
      simp only [A]
      linear_combination (-((w / (2 * Real.sqrt ε * σ) : ℝ) : ℂ) * J (c, xs (j + 1))) * h1
    · intro y _ hy
      have h1 := pw uv (((t + (j + 1) : ℕ) : ℤ) - (y a : ℕ))
      rw [if_neg (fun h => hy (xuniq _ _ (by rw [xval (j + 1) (by omega)]; omega)))] at h1
      rw [show (((t + (j + 2) : ℕ) : ℤ) - (y a : ℕ)) = ((t + (j + 1) : ℕ) : ℤ) - (y a : ℕ) + 1 by push_cast; ring,
        show (((t + j : ℕ) : ℤ) - (y a : ℕ)) = ((t + (j + 1) : ℕ) : ℤ) - (y a : ℕ) - 1 by push_cast; ring]
      linear_combination (-((w / (2 * Real.sqrt ε * σ) : ℝ) : ℂ) * J (c, y)) * h1
    · intro h; exact absurd (Finset.mem_univ _) h
  obtain ⟨p, q, hpq⟩ := two_waves (d := fun j => E (c, xs j) - free a c ω ε w J (t + j : ℕ)) (N := sh a - 2 * t) uv hne (by
    intro j hj
    linear_combination recE j hj - recF j hj)
  have hN : 1 ≤ sh a - 2 * t := by omega
  -- the waves of the currents at the two faces
  have fL : free a c ω ε w J (t + 1 : ℕ) = free a c ω ε w J (t : ℕ) * v ^ 2 := by
    simp only [free]
    rw [Finset.sum_mul]
    refine Finset.sum_congr rfl fun y _ => ?_
    by_cases hy : (y a : ℕ) ≤ t
    · rw [hJ y (Or.inl hy)]; ring
    · obtain ⟨n, hn⟩ : ∃ n : ℕ, (y a : ℕ) = t + 1 + n := ⟨(y a : ℕ) - (t + 1), by omega⟩
      rw [hn, show (((t + 1 : ℕ) : ℤ) - (t + 1 + n : ℕ)).natAbs = n by push_cast; omega, show (((t : ℕ) : ℤ) - (t + 1 + n : ℕ)).natAbs = n + 1 by push_cast; omega,
        show 2 * (n + 1) = 2 * n + 2 by ring, pow_add]
      linear_combination (-(-((w / (2 * Real.sqrt ε * σ) : ℝ) : ℂ) * J (c, y) * u ^ (2 * n)) * (u * v + 1)) * uv
  have fR : free a c ω ε w J (sh a - t - 1 : ℕ) = free a c ω ε w J (sh a - t : ℕ) * v ^ 2 := by
    simp only [free]
    rw [Finset.sum_mul]
    refine Finset.sum_congr rfl fun y _ => ?_
    by_cases hy : sh a - t ≤ (y a : ℕ)
    · rw [hJ y (Or.inr hy)]; ring
    · obtain ⟨n, hn⟩ : ∃ n : ℕ, sh a - t = (y a : ℕ) + 1 + n := ⟨sh a - t - ((y a : ℕ) + 1), by omega⟩
      rw [hn, show ((((y a : ℕ) + 1 + n - 1 : ℕ) : ℤ) - (y a : ℕ)).natAbs = n by omega, show ((((y a : ℕ) + 1 + n : ℕ) : ℤ) - (y a : ℕ)).natAbs = n + 1 by push_cast; omega,
        show 2 * (n + 1) = 2 * n + 2 by ring, pow_add]
      linear_combination (-(-((w / (2 * Real.sqrt ε * σ) : ℝ) : ℂ) * J (c, y) * u ^ (2 * n)) * (u * v + 1)) * uv
  set N := sh a - 2 * t with hNdef
  have cell : ∀ x : Idx sh, t ≤ (x a : ℕ) → (x a : ℕ) ≤ sh a - t → E (c, x) = free a c ω ε w J (x a : ℕ) + (p * u ^ (2 * ((x a : ℕ) - t)) + q * v ^ (2 * ((x a : ℕ) - t))) := by
    intro x h1 h2
    have h3 := hpq ((x a : ℕ) - t) (by omega)
    have h4 : xs ((x a : ℕ) - t) = x := xuniq _ _ (by rw [xval _ (by omega)]; omega)
    rw [h4, show t + ((x a : ℕ) - t) = (x a : ℕ) by omega] at h3
    rw [← h3]; ring
  have K := key sh a c w t g eps mu E J (p * u ^ (2 * N) + free a c ω ε w J (sh a - t : ℕ)) (q * v ^ (2 * N)) p (q + free a c ω ε w J (t : ℕ)) hth hc hw ht hkw (by linarith) h2t hg hE
    (fun x hx => ⟨(hhom x).1, hJ x hx⟩) (fun x _ => (hhom x).2) ⟨?_, ?_, ?_, ?_⟩
  · have hT : ‖Complex.exp (lnR - 2 * I * ((Real.sqrt ε : ℂ) * ω * D))‖ = Real.exp lnR := by
      rw [Complex.norm_exp]; congr 1
      have : (lnR - 2 * I * ((Real.sqrt ε : ℂ) * ω * D) : ℂ) = lnR - ((2 * (Real.sqrt ε * ω * D) : ℝ) : ℂ) * I := by push_cast; ring
      rw [this]; simp
    intro x h1 h2
    have L := close_loop (p := p) (q := q) rfl rfl hT (show 0 ≤ C * w ^ 2 by positivity) (x := p * u ^ (2 * N)) (y := q * v ^ (2 * N)) (by rw [norm_mul, norm_pow, nu]; simp)
      (by rw [norm_mul, norm_pow, nv]; simp) rfl rfl K.1 K.2 (by linarith)
    rw [cell x h1 h2, add_sub_cancel_left]
    have e : Real.exp lnR + 2 * (C * w ^ 2) = Real.exp lnR + 2 * C * w ^ 2 := by ring
    rw [e] at L
    refine le_trans ?_ L
    refine (norm_add_le _ _).trans ?_
    rw [norm_mul, norm_mul, norm_pow, norm_pow, nu, nv]; simp
  · intro x hx
    rw [cell x (by omega) (by omega), hx, show sh a - t - t = N by omega]; ring
  · intro x hx
    have hx1 : (x a : ℕ) = sh a - t - 1 := by omega
    rw [cell x (by omega) (by omega), hx1, fR, show sh a - t - 1 - t = N - 1 by omega]
    obtain ⟨M, hM⟩ : ∃ M, N = M + 1 := ⟨N - 1, by omega⟩
    rw [hM, Nat.add_sub_cancel, show 2 * (M + 1) = 2 * M + 2 by ring, pow_add, pow_add]
    linear_combination (-(p * u ^ (2 * M) + q * v ^ (2 * M)) * (u * v + 1)) * uv
  · intro x hx
    rw [cell x (by omega) (by omega), hx, Nat.sub_self]; ring
  · intro x hx
    rw [cell x (by omega) (by omega), hx, fL, Nat.add_sub_cancel_left]
    ring

/-- C152: `free` is the field on the infinite lattice: it solves the wave equation at every integer position, and it moves outward on both sides
of the currents. -/
theorem C152_free {ω ε w : ℝ} (hω : 0 < ω) (hε : 0 < ε) (hw : 0 < w) (hkw : Real.sqrt ε * ω * w ≤ 1) (a c : Fin 3) (J : Vec sh) :
    (∀ i : ℤ, -((free a c ω ε w J (i + 1) - free a c ω ε w J i) / w - (free a c ω ε w J i - free a c ω ε w J (i - 1)) / w) / w - ω ^ 2 * ε * free a c ω ε w J i
        = -I * ω * ∑ y : Idx sh, if ((y a : ℕ) : ℤ) = i then J (c, y) else 0)
    ∧ (∀ i : ℤ, (∀ y : Idx sh, J (c, y) ≠ 0 → ((y a : ℕ) : ℤ) ≤ i) → ∀ n : ℕ, free a c ω ε w J (i + n) = free a c ω ε w J i * (hop (Real.sqrt ε * ω * w / 2) ^ 2) ^ n)
    ∧ (∀ i : ℤ, (∀ y : Idx sh, J (c, y) ≠ 0 → i ≤ ((y a : ℕ) : ℤ)) → ∀ n : ℕ, free a c ω ε w J (i - n) = free a c ω ε w J i * (hop (Real.sqrt ε * ω * w / 2) ^ 2) ^ n) := by
  set k := Real.sqrt ε * ω with hkdef
  have hk : 0 < k := mul_pos (Real.sqrt_pos.2 hε) hω
  have hkw0 : 0 < k * w := mul_pos hk hw
  have hθ : (k * w / 2) ^ 2 ≤ 1 / 4 := by nlinarith
  set u := hop (k * w / 2) with hu
  set v := (starRingEnd ℂ) u with hv
  have uv : u * v = 1 := hop_mul_conj (by linarith)
  have udiff : u - v = -(I * (k * w)) := by rw [hv, hu, hop_conj, hop]; push_cast; ring
  set σ := Real.sqrt (1 - (k * w / 2) ^ 2) with hσ
  have hσ0 : 0 < σ := Real.sqrt_pos.2 (by linarith)
  have usum : u + v = 2 * σ := by rw [hv, hu, hop_conj, hop]; push_cast; ring
  have u2 : u ^ 2 - v ^ 2 = -(I * (k * w)) * (2 * σ) := by rw [← udiff, ← usum]; ring
  have u2s : u ^ 2 + v ^ 2 = 2 - k ^ 2 * w ^ 2 := by
    have h1 : (u - v) ^ 2 = -(k ^ 2 * w ^ 2) := by rw [udiff]; linear_combination ((k : ℂ) ^ 2 * w ^ 2) * I_sq
    linear_combination h1 + 2 * uv
  have hA : -((w / (2 * Real.sqrt ε * σ) : ℝ) : ℂ) * (u ^ 2 - v ^ 2) = I * ω * w ^ 2 := by
    have h1 : (Real.sqrt ε : ℂ) ≠ 0 := by exact_mod_cast (Real.sqrt_pos.2 hε).ne'
    have h2 : (σ : ℂ) ≠ 0 := by exact_mod_cast hσ0.ne'
    rw [u2, hkdef]
    push_cast
    field_simp
  have hk2 : (k : ℂ) ^ 2 = ω ^ 2 * ε := by
    have : k ^ 2 = ω ^ 2 * ε := by rw [hkdef, mul_pow, Real.sq_sqrt hε.le]; ring
    exact_mod_cast this
  refine ⟨fun i => ?_, fun i hi n => ?_, fun i hi n => ?_⟩
  · have h : free a c ω ε w J (i + 1) + free a c ω ε w J (i - 1) - (u ^ 2 + v ^ 2) * free a c ω ε w J i = I * ω * w ^ 2 * ∑ y : Idx sh, if ((y a : ℕ) : ℤ) = i then J (c, y) else 0 := by
      simp only [free]
      rw [Finset.mul_sum, Finset.mul_sum, ← Finset.sum_add_distrib, ← Finset.sum_sub_distrib]
      refine Finset.sum_congr rfl fun y _ => ?_
      have h1 := pw uv (i - (y a : ℕ))
      rw [show i + 1 - ((y a : ℕ) : ℤ) = i - (y a : ℕ) + 1 by ring, show i - 1 - ((y a : ℕ) : ℤ) = i - (y a : ℕ) - 1 by ring]
      by_cases hy : ((y a : ℕ) : ℤ) = i
      · rw [if_pos (by omega)] at h1
        rw [if_pos hy, ← hA]
        linear_combination (-((w / (2 * Real.sqrt ε * σ) : ℝ) : ℂ) * J (c, y)) * h1
      · rw [if_neg (by omega)] at h1
        rw [if_neg hy]
        linear_combination (-((w / (2 * Real.sqrt ε * σ) : ℝ) : ℂ) * J (c, y)) * h1
    have hw' : (w : ℂ) ≠ 0 := by exact_mod_cast hw.ne'
    rw [u2s, hk2] at h
    field_simp
    linear_combination -h
  · simp only [free]
    rw [Finset.sum_mul]
    refine Finset.sum_congr rfl fun y _ => ?_
    by_cases hy : J (c, y) = 0
    · rw [hy]; ring
    · have := hi y hy
      rw [← pow_mul, mul_assoc _ (u ^ _), ← pow_add, show 2 * (i + n - ((y a : ℕ) : ℤ)).natAbs = 2 * (i - ((y a : ℕ) : ℤ)).natAbs + 2 * n by omega]
  · simp only [free]
    rw [Finset.sum_mul]
    refine Finset.sum_congr rfl fun y _ => ?_
    by_cases hy : J (c, y) = 0
    · rw [hy]; ring
    · have := hi y hy
      rw [← pow_mul, mul_assoc _ (u ^ _), ← pow_add, show 2 * (i - n - ((y a : ℕ) : ℤ)).natAbs = 2 * (i - ((y a : ℕ) : ℤ)).natAbs + 2 * n by omega]

/-- C152: for cells that are small enough the error is below the designed amplitude `exp(ln_R) / (1 - exp(ln_R))`, plus any `δ`. -/
theorem C152_converges {ω ε lnR m D : ℝ} (hω : 0 < ω) (hε : 0 < ε) (hR : lnR < 0) (hm : 2 ≤ m) (hD : 0 < D) {δ : ℝ} (hδ : 0 < δ) :
    ∃ h : ℝ, 0 < h ∧ ∀ (sh : Fin 3 → ℕ) (a c : Fin 3) (w : ℝ) (t : ℕ) (g : Dx sh) (eps : Vec sh) (mu : Option (Vec sh)) (E J : Vec sh),
      (∀ b, b ≠ a → sh b = 1) → c ≠ a → 0 < w → w ≤ h → t * w = D → 2 * t < sh a →
      Layers a w t ω ε lnR m g → eFull ω g eps mu none none *ᵥ E = (-I * ω) • J →
      (∀ x : Idx sh, eps (c, x) = ε ∧ (mu.getD 1) (oth a c, x) = 1) → (∀ x : Idx sh, (x a : ℕ) ≤ t ∨ sh a - t ≤ (x a : ℕ) → J (c, x) = 0) →
      ∀ x : Idx sh, t ≤ (x a : ℕ) → (x a : ℕ) ≤ sh a - t →
        ‖E (c, x) - free a c ω ε w J (x a : ℕ)‖
          ≤ (Real.exp lnR / (1 - Real.exp lnR) + δ) * (‖free a c ω ε w J (sh a - t : ℕ)‖ + ‖free a c ω ε w J t‖) := by
  obtain ⟨C, hC, key⟩ := C152_open hω hε hR.le hm hD
  have he : Real.exp lnR < 1 := by rw [← Real.exp_zero]; exact Real.exp_lt_exp.2 hR
  have hcont : ContinuousAt (fun w : ℝ => (Real.exp lnR + C * w ^ 2) / (1 - (Real.exp lnR + C * w ^ 2))) 0 := by
    refine ContinuousAt.div (by fun_prop) (by fun_prop) ?_
    simp; linarith
  have e1 : ∀ᶠ w in nhds (0 : ℝ), (Real.exp lnR + C * w ^ 2) / (1 - (Real.exp lnR + C * w ^ 2)) < Real.exp lnR / (1 - Real.exp lnR) + δ :=
    hcont.eventually_lt continuousAt_const (by simpa using hδ)
  have e2 : ∀ᶠ w in nhds (0 : ℝ), Real.exp lnR + C * w ^ 2 < 1 :=
    ContinuousAt.eventually_lt (by fun_prop) continuousAt_const (by simpa using hR)
  have e3 : ∀ᶠ w in nhds (0 : ℝ), C * w ^ 2 < 1 :=
    ContinuousAt.eventually_lt (by fun_prop) continuousAt_const (by simp)
  have e4 : ∀ᶠ w in nhds (0 : ℝ), Real.sqrt ε * ω * w < 1 :=
    ContinuousAt.eventually_lt (by fun_prop) continuousAt_const (by simp)
  obtain ⟨h, h0, hh⟩ := Metric.eventually_nhds_iff.1 ((e1.and e2).and (e3.and e4))
  refine ⟨h / 2, by positivity, ?_⟩
  intro sh a c w t g eps mu E J hth hc hw hwh ht h2t hg hE hhom hJ x h1 h2
  obtain ⟨⟨k1, k2⟩, k3, k4⟩ := hh (y := w) (by rw [Real.dist_eq, sub_zero, abs_of_pos hw]; linarith)
  refine (key sh a c w t g eps mu E J hth hc hw ht k4.le k2 k3.le h2t hg hE hhom hJ x h1 h2).trans ?_
  exact mul_le_mul_of_nonneg_right k1.le (by positivity)

/-- C152: a current on two neighbouring planes that emits to the right only (the source of test_fdfd_pml.py): left of it the field is at most the
designed amplitude (plus `δ`) times the emitted wave, right of it the magnitude is that of the emitted wave within the same error. -/
theorem C152_one_sided {ω ε lnR m D : ℝ} (hω : 0 < ω) (hε : 0 < ε) (hR : lnR < 0) (hm : 2 ≤ m) (hD : 0 < D) {δ : ℝ} (hδ : 0 < δ) :
    ∃ h : ℝ, 0 < h ∧ ∀ (sh : Fin 3 → ℕ) (a c : Fin 3) (w : ℝ) (t y : ℕ) (j : ℂ) (g : Dx sh) (eps : Vec sh) (mu : Option (Vec sh)) (E J : Vec sh),
      (∀ b, b ≠ a → sh b = 1) → c ≠ a → 0 < w → w ≤ h → t * w = D → t < y → y + 1 < sh a - t →
      Layers a w t ω ε lnR m g → eFull ω g eps mu none none *ᵥ E = (-I * ω) • J →
      (∀ x : Idx sh, eps (c, x) = ε ∧ (mu.getD 1) (oth a c, x) = 1) →
      (∀ x : Idx sh, J (c, x) = if (x a : ℕ) = y then j else if (x a : ℕ) = y + 1 then -(starRingEnd ℂ) (hop (Real.sqrt ε * ω * w / 2)) ^ 2 * j else 0) →
      ∀ x : Idx sh,
        (t ≤ (x a : ℕ) → (x a : ℕ) ≤ y → ‖E (c, x)‖ ≤ (Real.exp lnR / (1 - Real.exp lnR) + δ) * (ω * w ^ 2 * ‖j‖))
        ∧ (y + 1 ≤ (x a : ℕ) → (x a : ℕ) ≤ sh a - t → |‖E (c, x)‖ - ω * w ^ 2 * ‖j‖| ≤ (Real.exp lnR / (1 - Real.exp lnR) + δ) * (ω * w ^ 2 * ‖j‖)) := by
  obtain ⟨h, h0, key⟩ := C152_converges hω hε hR hm hD hδ
  refine ⟨min h (1 / (Real.sqrt ε * ω)), lt_min h0 (by positivity), ?_⟩
  intro sh a c w t y j g eps mu E J hth hc hw hwh ht hty hyt hg hE hhom hJ x
  have hk : 0 < Real.sqrt ε * ω := mul_pos (Real.sqrt_pos.2 hε) hω
  have hkw : Real.sqrt ε * ω * w ≤ 1 := by
    have := mul_le_mul_of_nonneg_left (hwh.trans (min_le_right _ _)) hk.le
    rwa [mul_one_div, div_self hk.ne'] at this
  have K := key sh a c w t g eps mu E J hth hc hw (hwh.trans (min_le_left _ _)) ht (by omega) hg hE hhom (fun x hx => by rw [hJ, if_neg (by omega), if_neg (by omega)]) x
  set k := Real.sqrt ε * ω with hkdef
  have hkw0 : 0 < k * w := mul_pos hk hw
  have hθ : (k * w / 2) ^ 2 ≤ 1 / 4 := by nlinarith
  set u := hop (k * w / 2) with hu
  set v := (starRingEnd ℂ) u with hv
  have uv : u * v = 1 := hop_mul_conj (by linarith)
  have nu : ‖u‖ = 1 := norm_hop (by linarith)
  have udiff : u - v = -(I * (k * w)) := by rw [hv, hu, hop_conj, hop]; push_cast; ring
  set σ := Real.sqrt (1 - (k * w / 2) ^ 2) with hσ
  have hσ0 : 0 < σ := Real.sqrt_pos.2 (by linarith)
  have usum : u + v = 2 * σ := by rw [hv, hu, hop_conj, hop]; push_cast; ring
  have u2 : u ^ 2 - v ^ 2 = -(I * (k * w)) * (2 * σ) := by rw [← udiff, ← usum]; ring
  -- the two sheets
  have at_ : ∀ i, i < sh a → ∃ z : Idx sh, (z a : ℕ) = i := fun i hi =>
    ⟨fun b => if h : b = a then ⟨i, by subst h; exact hi⟩ else ⟨0, by rw [hth b h]; exact one_pos⟩, by simp⟩
  have xuniq : ∀ x y : Idx sh, (x a : ℕ) = (y a : ℕ) → x = y := by
    intro x y h
    funext b
    by_cases hb : b = a
    · subst hb; exact Fin.ext h
    · apply Fin.ext
      have := (x b).isLt; have := (y b).isLt; have := hth b hb
      omega
  obtain ⟨z0, hz0⟩ := at_ y (by omega)
  obtain ⟨z1, hz1⟩ := at_ (y + 1) (by omega)
  have hz : z0 ≠ z1 := fun h => by rw [h] at hz0; omega
  have hfree : ∀ i : ℤ, free a c ω ε w J i = -((w / (2 * Real.sqrt ε * σ) : ℝ) : ℂ) * j * (u ^ (2 * (i - y).natAbs) - v ^ 2 * u ^ (2 * (i - (y + 1 : ℕ)).natAbs)) := by
    intro i
    simp only [free]
    rw [← Finset.sum_subset (Finset.subset_univ {z0, z1}), Finset.sum_pair hz, hJ, hJ, hz0, hz1, if_pos rfl, if_neg (by omega), if_pos rfl]
    · ring
    · intro z _ hz'
      simp only [Finset.mem_insert, Finset.mem_singleton, not_or] at hz'
      rw [hJ, if_neg (fun h => hz'.1 (xuniq _ _ (h.trans hz0.symm))), if_neg (fun h => hz'.2 (xuniq _ _ (h.trans hz1.symm)))]
      ring
  have dark : ∀ i : ℕ, i ≤ y → free a c ω ε w J i = 0 := by
    intro i hi
    obtain ⟨n, rfl⟩ : ∃ n, y = i + n := ⟨y - i, by omega⟩
    rw [hfree, show ((i : ℤ) - (i + n : ℕ)).natAbs = n by omega, show ((i : ℤ) - (i + n + 1 : ℕ)).natAbs = n + 1 by omega, show 2 * (n + 1) = 2 * n + 2 by ring, pow_add]
    linear_combination (((w / (2 * Real.sqrt ε * σ) : ℝ) : ℂ) * j * u ^ (2 * n) * (u * v + 1)) * uv
  have bright : ∀ i : ℕ, y + 1 ≤ i → ‖free a c ω ε w J i‖ = ω * w ^ 2 * ‖j‖ := by
    intro i hi
    obtain ⟨n, rfl⟩ : ∃ n, i = y + 1 + n := ⟨i - (y + 1), by omega⟩
    rw [hfree, show (((y + 1 + n : ℕ) : ℤ) - y).natAbs = n + 1 by omega, show (((y + 1 + n : ℕ) : ℤ) - (y + 1 : ℕ)).natAbs = n by omega, show 2 * (n + 1) = 2 * n + 2 by ring, pow_add,
      show u ^ (2 * n) * u ^ 2 - v ^ 2 * u ^ (2 * n) = u ^ (2 * n) * (u ^ 2 - v ^ 2) by ring, u2]
    have hs : 0 < Real.sqrt ε := Real.sqrt_pos.2 hε
    rw [norm_mul, norm_mul, norm_mul, norm_mul, norm_neg, norm_neg, norm_pow, nu, one_pow, one_mul, norm_mul, norm_mul, norm_mul, norm_I, one_mul]
    rw [Complex.norm_of_nonneg (by positivity), Complex.norm_of_nonneg hk.le, Complex.norm_of_nonneg hw.le, Complex.norm_of_nonneg hσ0.le, Complex.norm_ofNat, hkdef]
    field_simp
  rw [dark t hty.le, norm_zero, add_zero, bright _ (by omega)] at K
  refine ⟨fun h1 h2 => ?_, fun h1 h2 => ?_⟩
  · have := K h1 (by omega)
    rwa [dark _ h2, sub_zero] at this
  · have := K (by omega) h2
    rw [← bright _ h1]
    rw [← bright _ h1] at this
    exact (abs_norm_sub_norm_le _ _).trans this

/-- C152: such grids exist and the equation has exactly one solution on them, for every current. -/
theorem C152_meets {ω ε lnR m w : ℝ} (hω : 0 < ω) (hε : 0 < ε) (hR : lnR < 0) (hm : 2 ≤ m) (hw : 0 < w) (a : Fin 3) (hth : ∀ b, b ≠ a → sh b = 1) {t : ℕ} (ht : 0 < t) (h2t : 2 * t < sh a)
    (eps : Vec sh) (heps : ∀ p, 0 < (eps p).re ∧ (eps p).im ≤ 0) : ∃ g : Dx sh, Layers a w t ω ε lnR m g ∧ ∀ J, ∃! E, eFull ω g eps none none none *ᵥ E = (-I * ω) • J := by
  have hP : PreparedC (some (sFactorC lnR m)) := Or.inr ⟨lnR, m, hR, by linarith, rfl⟩
  obtain ⟨g₁, g, h1, h2, h3, h4⟩ := C144_stretch_both (sh := sh) (fun _ _ => w) (fun _ _ => w) (fun _ _ => hw) (fun _ _ => hw) a 1 (-1) one_pos (by norm_num) ω (by simpa using hω) ε hε
    t t ht ht (by omega) _ _ hP hP
  refine ⟨g, ⟨_, g₁, some (sFactorC lnR m), 1, -1, fun i => ⟨rfl, rfl⟩, Or.inl rfl, one_pos, by norm_num, Or.inl ⟨h1, h2⟩⟩, fun J => ?_⟩
  refine C144_exists_unique a hth ω hω g h3 eps none ⟨fun p h => ?_, fun p => (heps p).2, fun p _ => (heps p).1, by simp, by simp⟩ J
  have := (heps p).1
  rw [h] at this; simp at this

/-- The default layers (`ln_R = -16`, `m = 4`), a quarter of the grid each, on finer and finer grids: the dark side is dark. -/
example : ∃ r₀ : ℕ, ∀ r : ℕ, r₀ ≤ r → 0 < r → ∃ (g : Dx ![1, 40 * r, 1]) (E J : Vec ![1, 40 * r, 1]),
    Layers 1 (1 / (10 * r)) (10 * r) 2 1 (-16) 4 g ∧ eFull (2 : ℝ) g (fun _ => 1) none none none *ᵥ E = (-I * (2 : ℝ)) • J ∧ J ≠ 0 ∧
    ∀ x : Idx ![1, 40 * r, 1], 10 * r ≤ (x 1 : ℕ) → (x 1 : ℕ) ≤ 20 * r → ‖E (0, x)‖ ≤ (Real.exp (-16) / (1 - Real.exp (-16)) + 1 / 1000000) * (2 * (1 / (10 * r)) ^ 2 * ‖(1 : ℂ)‖) := by
  obtain ⟨h, h0, key⟩ := C152_one_sided (ω := 2) (ε := 1) (lnR := -16) (m := 4) (D := 1) (by norm_num) one_pos (by norm_num) (by norm_num) one_pos (δ := 1 / 1000000) (by norm_num)
  obtain ⟨r₀, hr₀⟩ := exists_nat_gt (1 / h)
  refine ⟨r₀, fun r hr hr0 => ?_⟩
  have hrr : (0 : ℝ) < r := by exact_mod_cast hr0
  have hth : ∀ b : Fin 3, b ≠ 1 → (![1, 40 * r, 1] : Fin 3 → ℕ) b = 1 := forall_fin3 (fun _ => rfl) (fun h => absurd rfl h) (fun _ => rfl)
  have h2t : 2 * (10 * r) < (![1, 40 * r, 1] : Fin 3 → ℕ) 1 := show 2 * (10 * r) < 40 * r by omega
  obtain ⟨g, hg, hE⟩ := C152_meets (sh := ![1, 40 * r, 1]) (ω := 2) (ε := 1) (lnR := -16) (m := 4) (w := 1 / (10 * r)) (by norm_num) one_pos (by norm_num) (by norm_num) (by positivity) 1 hth
    (t := 10 * r) (by omega) h2t (fun _ => 1) (by simp)
  let J : Vec ![1, 40 * r, 1] := fun p => if (p.2 1 : ℕ) = 20 * r then 1 else if (p.2 1 : ℕ) = 20 * r + 1 then -(starRingEnd ℂ) (hop (Real.sqrt 1 * 2 * (1 / (10 * r)) / 2)) ^ 2 * 1 else 0
  obtain ⟨E, hEJ, -⟩ := hE J
  have hwh : 1 / (10 * (r : ℝ)) ≤ h := by
    have h1 : 1 / h < r := hr₀.trans_le (by exact_mod_cast hr)
    rw [div_lt_iff₀ h0] at h1
    rw [div_le_iff₀ (by positivity)]
    nlinarith
  refine ⟨g, E, J, hg, hEJ, fun hJ => ?_, fun x h1 h2 => ?_⟩
  · let z : Idx ![1, 40 * r, 1] := fun b => if h : b = 1 then ⟨20 * r, by subst h; show 20 * r < 40 * r; omega⟩ else ⟨0, by rw [hth b h]; exact one_pos⟩
    have := congrFun hJ (0, z)
    have hz : (z 1 : ℕ) = 20 * r := by simp [z]
    simp only [J, hz, if_pos] at this
    simp at this
  · exact (key _ 1 0 (1 / (10 * r)) (10 * r) (20 * r) 1 g (fun _ => 1) none E J hth (by decide) (by positivity) hwh (by push_cast; field_simp) (by omega)
      (show 20 * r + 1 < 40 * r - 10 * r by omega) hg hEJ (fun x => ⟨by simp, by simp⟩) (fun x => rfl) x).1 h1 h2

end Meanas.Props
