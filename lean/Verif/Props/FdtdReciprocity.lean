/-
C116: reciprocity in the time domain.
-/
import Verif.Props.FdtdTransform

namespace Meanas.Props

open Fdtd Spec

variable {sh : Fin 3 → ℕ} {K : Type*} [Field K]

/-- The discrete convolution `Σ_{n ≤ N} a_{N-n} b_n` of two records. -/
def convolve (a b : ℕ → K) (N : ℕ) : K := ∑ n ∈ Finset.range (N + 1), a (N - n) * b n

theorem convolve_comm (a b : ℕ → K) (N : ℕ) : convolve a b N = convolve b a N := by
  unfold convolve
  rw [← Finset.sum_range_reflect]
  refine Finset.sum_congr rfl fun n hn => ?_
  have : n ≤ N := by simpa [Nat.lt_succ_iff] using hn
  rw [show N + 1 - 1 - n = N - n by omega, show N - (N - n) = n by omega, mul_comm]

/-- A record that starts at zero can be delayed by one sample. -/
theorem convolve_succ (a b : ℕ → K) (hb : b 0 = 0) (N : ℕ) :
    convolve a (fun n => b (n + 1)) N = convolve a b (N + 1) := by
  unfold convolve
  rw [Finset.sum_range_succ' _ (N + 1), hb, mul_zero, add_zero]
  refine Finset.sum_congr rfl fun n _ => ?_
  rw [Nat.add_sub_add_right]

theorem convolve_sub (a b b' : ℕ → K) (N : ℕ) : convolve a (fun n => b n - b' n) N = convolve a b N - convolve a b' N := by
  simp only [convolve, mul_sub, Finset.sum_sub_distrib]

/-- Volume-weighted convolution of two records of vector fields: `Σ_n Σ_x V a_{N-n}·b_n`. -/
def reaction (V : VField sh K) (a b : ℕ → VField sh K) (N : ℕ) : K :=
  ∑ c, ∑ x, V c x * convolve (fun n => a n c x) (fun n => b n c x) N

theorem reaction_eq (V : VField sh K) (a b : ℕ → VField sh K) (N : ℕ) :
    reaction V a b N = ∑ n ∈ Finset.range (N + 1), ∑ c, ∑ x, V c x * (a (N - n) c x * b n c x) := by
  simp only [reaction, convolve, Finset.mul_sum]
  rw [Finset.sum_comm' (t' := Finset.univ) (s' := fun _ => Finset.range (N + 1)) (by simp)]
  refine Finset.sum_congr rfl fun c _ => ?_
  rw [Finset.sum_comm]

/-- The state of rest. -/
def atRest : State sh K := ⟨fun _ _ => 0, fun _ _ => 0⟩

/-- One half of the balance: electric current of the second run against the first field, magnetic current of the first run against the
second field. The right side is symmetric in the two runs. -/
theorem reaction_balance (S : Sys sh K) (d : Dxes sh K) (hS : S.dxes = some d) (hE : Nonzero d.1) (hH : Nonzero d.2)
    (heps : ∀ c x, S.eps c x ≠ 0) (hmu : ∀ c x, muOr S.mu c x ≠ 0) (J1 M1 J2 M2 : ℕ → VField sh K) (N : ℕ) :
    let a : ℕ → State sh K := fun n => run S atRest (sourced S.dt J1 M1 n)
    let b : ℕ → State sh K := fun n => run S atRest (sourced S.dt J2 M2 n)
    S.dt * (reaction (volE d.1 d.2) (fun n => (a n).e) J2 N + reaction (volH d.1 d.2) M1 (fun n => (b (n + 1)).h) N)
      = ∑ c, ∑ x, (volE d.1 d.2 c x * S.eps c x
          * (convolve (fun n => (a n).e c x) (fun n => (b n).e c x) N - convolve (fun n => (a n).e c x) (fun n => (b n).e c x) (N + 1))
        + volH d.1 d.2 c x * muOr S.mu c x
          * (convolve (fun n => (a n).h c x) (fun n => (b n).h c x) (N + 1)
            - convolve (fun n => (a (n + 1)).h c x) (fun n => (b (n + 1)).h c x) N)) := by
  intro a b
  have hb0 : b 0 = atRest := rfl
  have fa : ∀ n c x, S.dt * (Functional.curlForward (some d.1) (a n).e c x) =
      -(muOr S.mu c x * ((a (n + 1)).h c x - (a n).h c x)) - S.dt * M1 n c x := by
    intro n c x
    have h := (sourced_step S d hS atRest J1 M1 n c x).1
    simp only [a]; rw [h]
    have := hmu c x
    field_simp
    ring
  have fb : ∀ n c x, S.dt * J2 n c x =
      S.dt * Functional.curlBack (some d.2) (b (n + 1)).h c x - S.eps c x * ((b (n + 1)).e c x - (b n).e c x) := by
    intro n c x
    have h := (sourced_step S d hS atRest J2 M2 n c x).2
    simp only [b]; rw [h]
    have := heps c x
    field_simp
    ring
  have key : S.dt * reaction (volE d.1 d.2) (fun n => (a n).e) J2 N
      = ∑ n ∈ Finset.range (N + 1), (∑ c, ∑ x, volH d.1 d.2 c x * ((b (n + 1)).h c x
            * (S.dt * Functional.curlForward (some d.1) (a (N - n)).e c x))
          - ∑ c, ∑ x, volE d.1 d.2 c x * S.eps c x * ((a (N - n)).e c x * ((b (n + 1)).e c x - (b n).e c x))) := by
    rw [reaction_eq, Finset.mul_sum]
    refine Finset.sum_congr rfl fun n _ => ?_
    have adj := C06_curl_adjoint_weighted d.1 d.2 hE hH (a (N - n)).e (b (n + 1)).h
    have e1 : ∑ c, ∑ x, volH d.1 d.2 c x * ((b (n + 1)).h c x * (S.dt * Functional.curlForward (some d.1) (a (N - n)).e c x))
        = S.dt * ∑ c, ∑ x, volE d.1 d.2 c x * ((a (N - n)).e c x * Functional.curlBack (some d.2) (b (n + 1)).h c x) := by
      rw [adj, Finset.mul_sum]
      refine Finset.sum_congr rfl fun c _ => ?_
      rw [Finset.mul_sum]
      exact Finset.sum_congr rfl fun x _ => by ring
    rw [e1, Finset.mul_sum, Finset.mul_sum, ← Finset.sum_sub_distrib]
    refine Finset.sum_congr rfl fun c _ => ?_
    rw [Finset.mul_sum, Finset.mul_sum, ← Finset.sum_sub_distrib]
    refine Finset.sum_congr rfl fun x _ => ?_
    linear_combination (volE d.1 d.2 c x * (a (N - n)).e c x) * fb n c x
  rw [mul_add, key, reaction_eq, Finset.mul_sum, ← Finset.sum_add_distrib]
  have step : ∀ n ∈ Finset.range (N + 1),
      ∑ c, ∑ x, volH d.1 d.2 c x * ((b (n + 1)).h c x * (S.dt * Functional.curlForward (some d.1) (a (N - n)).e c x))
          - ∑ c, ∑ x, volE d.1 d.2 c x * S.eps c x * ((a (N - n)).e c x * ((b (n + 1)).e c x - (b n).e c x))
          + S.dt * ∑ c, ∑ x, volH d.1 d.2 c x * (M1 (N - n) c x * (b (n + 1)).h c x)
        = ∑ c, ∑ x, (volE d.1 d.2 c x * S.eps c x * ((a (N - n)).e c x * (b n).e c x - (a (N - n)).e c x * (b (n + 1)).e c x)
          + volH d.1 d.2 c x * muOr S.mu c x * ((a (N - n)).h c x * (b (n + 1)).h c x - (a (N - n + 1)).h c x * (b (n + 1)).h c x)) := by
    intro n _
    rw [Finset.mul_sum, ← Finset.sum_sub_distrib, ← Finset.sum_add_distrib]
    refine Finset.sum_congr rfl fun c _ => ?_
    rw [Finset.mul_sum, ← Finset.sum_sub_distrib, ← Finset.sum_add_distrib]
    refine Finset.sum_congr rfl fun x _ => ?_
    rw [fa]; ring
  rw [Finset.sum_congr rfl step, Finset.sum_comm]
  refine Finset.sum_congr rfl fun c _ => ?_
  rw [Finset.sum_comm]
  refine Finset.sum_congr rfl fun x _ => ?_
  rw [← convolve_succ (fun n => (a n).e c x) (fun n => (b n).e c x) (by rw [hb0]; rfl),
    ← convolve_succ (fun n => (a n).h c x) (fun n => (b n).h c x) (by rw [hb0]; rfl)]
  simp only [convolve]
  rw [Finset.sum_add_distrib, ← Finset.mul_sum, ← Finset.mul_sum, Finset.sum_sub_distrib, Finset.sum_sub_distrib]

/-- **C116.** Two runs of the same system from rest with any electric and magnetic currents: at every step the convolution of the first
electric field with the second current minus that of the first magnetic field with the second magnetic current is unchanged when the two
runs are exchanged. -/
theorem C116_reciprocity (S : Sys sh K) (d : Dxes sh K) (hS : S.dxes = some d) (hE : Nonzero d.1) (hH : Nonzero d.2)
    (heps : ∀ c x, S.eps c x ≠ 0) (hmu : ∀ c x, muOr S.mu c x ≠ 0) (hdt : S.dt ≠ 0) (J1 M1 J2 M2 : ℕ → VField sh K) (N : ℕ) :
    let a : ℕ → State sh K := fun n => run S atRest (sourced S.dt J1 M1 n)
    let b : ℕ → State sh K := fun n => run S atRest (sourced S.dt J2 M2 n)
    reaction (volE d.1 d.2) (fun n => (a n).e) J2 N - reaction (volH d.1 d.2) (fun n => (a (n + 1)).h) M2 N
      = reaction (volE d.1 d.2) (fun n => (b n).e) J1 N - reaction (volH d.1 d.2) (fun n => (b (n + 1)).h) M1 N := by
  intro a b
  have h1 := reaction_balance S d hS hE hH heps hmu J1 M1 J2 M2 N
  have h2 := reaction_balance S d hS hE hH heps hmu J2 M2 J1 M1 N
  have hsymm : ∀ (V : VField sh K) (u v : ℕ → VField sh K), reaction V u v N = reaction V v u N := by
    intro V u v
    exact Finset.sum_congr rfl fun c _ => Finset.sum_congr rfl fun x _ => by rw [convolve_comm]
  have h3 : S.dt * (reaction (volE d.1 d.2) (fun n => (a n).e) J2 N + reaction (volH d.1 d.2) M1 (fun n => (b (n + 1)).h) N)
      = S.dt * (reaction (volE d.1 d.2) (fun n => (b n).e) J1 N + reaction (volH d.1 d.2) M2 (fun n => (a (n + 1)).h) N) := by
    rw [h1, h2]
    refine Finset.sum_congr rfl fun c _ => Finset.sum_congr rfl fun x _ => ?_
    rw [convolve_comm (fun n => (a n).e c x) _ N, convolve_comm (fun n => (a n).e c x) _ (N + 1),
      convolve_comm (fun n => (a n).h c x) _ (N + 1), convolve_comm (fun n => (a (n + 1)).h c x) _ N]
  have h4 := mul_left_cancel₀ hdt h3
  rw [hsymm _ (fun n => (a (n + 1)).h) M2, hsymm _ (fun n => (b (n + 1)).h) M1]
  linear_combination h4

/-- A point current along `c` at `x` with current moment `p n`: the density is the moment divided by the volume of the Yee cell. -/
def pointCurrent [DecidableEq (Idx sh)] (V : VField sh K) (c : Fin 3) (x : Idx sh) (p : ℕ → K) : ℕ → VField sh K := fun n c' x' =>
  if c' = c ∧ x' = x then p n / V c x else 0

theorem reaction_point (V : VField sh K) (c : Fin 3) (x : Idx sh) (hV : V c x ≠ 0) (u : ℕ → VField sh K) (p : ℕ → K) (N : ℕ) :
    reaction V u (pointCurrent V c x p) N = convolve (fun n => u n c x) p N := by
  have h0 : ∀ c' x', ¬(c' = c ∧ x' = x) → V c' x' * convolve (fun n => u n c' x') (fun n => pointCurrent V c x p n c' x') N = 0 := by
    intro c' x' h
    simp [convolve, pointCurrent, h]
  unfold reaction
  rw [Finset.sum_eq_single c (fun c' _ hc => Finset.sum_eq_zero fun x' _ => h0 c' x' (by tauto)) (by simp),
    Finset.sum_eq_single x (fun x' _ hx => h0 c x' (by tauto)) (by simp)]
  simp only [convolve, pointCurrent, and_self, if_true, Finset.mul_sum]
  refine Finset.sum_congr rfl fun n _ => ?_
  field_simp

/-- A convolution with a record that is not identically zero vanishes only for the zero record. -/
theorem convolve_cancel (u p : ℕ → K) (hp : ∃ n, p n ≠ 0) (h : ∀ N, convolve u p N = 0) (n : ℕ) : u n = 0 := by
  classical
  let n0 := Nat.find hp
  have hn0 : p n0 ≠ 0 := Nat.find_spec hp
  have hlt : ∀ m, m < n0 → p m = 0 := fun m hm => by
    have := Nat.find_min hp hm
    exact not_not.mp this
  induction n using Nat.strong_induction_on with
  | _ n ih =>
    have hN := h (n + n0)
    unfold convolve at hN
    rw [Finset.sum_eq_single n0] at hN
    · rw [Nat.add_sub_cancel] at hN
      exact (mul_eq_zero.mp hN).resolve_right hn0
    · intro m hm hne
      rcases lt_or_gt_of_ne hne with hl | hg
      · rw [hlt m hl, mul_zero]
      · rw [ih (n + n0 - m) (by have := Finset.mem_range.mp hm; omega), zero_mul]
    · intro hc
      exact absurd (Finset.mem_range.mpr (by omega)) hc

theorem volE_nz (dxE dxH : DxList sh K) (hE : Nonzero dxE) (hH : Nonzero dxH) (c : Fin 3) (x : Idx sh) : volE dxE dxH c x ≠ 0 :=
  Finset.prod_ne_zero_iff.mpr fun a _ => by
    split_ifs
    · exact hE _ _
    · exact hH _ _

/-- **C116.** Source and receiver can be exchanged: the field component recorded at `(c₂, x₂)` of the run driven by a point current at
`(c₁, x₁)` equals, sample by sample, the field recorded at `(c₁, x₁)` of the run driven by the same point current at `(c₂, x₂)`. The
materials and the grid may be anything, and so may the two directions. -/
theorem C116_exchange (S : Sys sh K) (d : Dxes sh K) (hS : S.dxes = some d) (hE : Nonzero d.1) (hH : Nonzero d.2)
    (heps : ∀ c x, S.eps c x ≠ 0) (hmu : ∀ c x, muOr S.mu c x ≠ 0) (hdt : S.dt ≠ 0) (c₁ c₂ : Fin 3) (x₁ x₂ : Idx sh)
    (p : ℕ → K) (hp : ∃ n, p n ≠ 0) (n : ℕ) :
    (run S atRest (sourced S.dt (pointCurrent (volE d.1 d.2) c₁ x₁ p) (fun _ _ _ => 0) n)).e c₂ x₂
      = (run S atRest (sourced S.dt (pointCurrent (volE d.1 d.2) c₂ x₂ p) (fun _ _ _ => 0) n)).e c₁ x₁ := by
  have hV := volE_nz d.1 d.2 hE hH
  refine sub_eq_zero.mp (convolve_cancel (fun n =>
    (run S atRest (sourced S.dt (pointCurrent (volE d.1 d.2) c₁ x₁ p) (fun _ _ _ => 0) n)).e c₂ x₂
      - (run S atRest (sourced S.dt (pointCurrent (volE d.1 d.2) c₂ x₂ p) (fun _ _ _ => 0) n)).e c₁ x₁) p hp (fun N => ?_) n)
  have h := C116_reciprocity S d hS hE hH heps hmu hdt (pointCurrent (volE d.1 d.2) c₁ x₁ p) (fun _ _ _ => 0)
    (pointCurrent (volE d.1 d.2) c₂ x₂ p) (fun _ _ _ => 0) N
  simp only [reaction_point _ _ _ (hV _ _)] at h
  have z : ∀ u : ℕ → VField sh K, reaction (volH d.1 d.2) u (fun _ _ _ => 0) N = 0 := by
    intro u; simp [reaction, convolve]
  rw [z, z, sub_zero, sub_zero] at h
  rw [convolve_comm, convolve_sub, convolve_comm p, convolve_comm p, h, sub_self]

/-- **C116.** Electric source and magnetic receiver: the magnetic field recorded at `(c₂, x₂)` after the H update of step `n` of the run
driven by an electric point current at `(c₁, x₁)` is minus the electric field recorded at `(c₁, x₁)` before step `n` of the run driven by
the same magnetic point current at `(c₂, x₂)`. -/
theorem C116_mixed (S : Sys sh K) (d : Dxes sh K) (hS : S.dxes = some d) (hE : Nonzero d.1) (hH : Nonzero d.2)
    (heps : ∀ c x, S.eps c x ≠ 0) (hmu : ∀ c x, muOr S.mu c x ≠ 0) (hdt : S.dt ≠ 0) (c₁ c₂ : Fin 3) (x₁ x₂ : Idx sh)
    (p : ℕ → K) (hp : ∃ n, p n ≠ 0) (n : ℕ) :
    (run S atRest (sourced S.dt (pointCurrent (volE d.1 d.2) c₁ x₁ p) (fun _ _ _ => 0) (n + 1))).h c₂ x₂
      = -(run S atRest (sourced S.dt (fun _ _ _ => 0) (pointCurrent (volH d.1 d.2) c₂ x₂ p) n)).e c₁ x₁ := by
  have hV := volE_nz d.1 d.2 hE hH
  have hV' : ∀ c x, volH d.1 d.2 c x ≠ 0 := volE_nz d.2 d.1 hH hE
  refine sub_eq_zero.mp (convolve_cancel (fun n =>
    (run S atRest (sourced S.dt (pointCurrent (volE d.1 d.2) c₁ x₁ p) (fun _ _ _ => 0) (n + 1))).h c₂ x₂
      - -(run S atRest (sourced S.dt (fun _ _ _ => 0) (pointCurrent (volH d.1 d.2) c₂ x₂ p) n)).e c₁ x₁) p hp (fun N => ?_) n)
  have h := C116_reciprocity S d hS hE hH heps hmu hdt (pointCurrent (volE d.1 d.2) c₁ x₁ p) (fun _ _ _ => 0)
    (fun _ _ _ => 0) (pointCurrent (volH d.1 d.2) c₂ x₂ p) N
  simp only [reaction_point _ _ _ (hV _ _), reaction_point _ _ _ (hV' _ _)] at h
  have z : ∀ (V : VField sh K) (u : ℕ → VField sh K), reaction V u (fun _ _ _ => 0) N = 0 := by
    intro V u; simp [reaction, convolve]
  rw [z, z, sub_zero, zero_sub] at h
  have e : convolve p (fun n => -(run S atRest (sourced S.dt (fun _ _ _ => 0) (pointCurrent (volH d.1 d.2) c₂ x₂ p) n)).e c₁ x₁) N
      = -convolve p (fun n => (run S atRest (sourced S.dt (fun _ _ _ => 0) (pointCurrent (volH d.1 d.2) c₂ x₂ p) n)).e c₁ x₁) N := by
    simp only [convolve, mul_neg, Finset.sum_neg_distrib]
  rw [convolve_comm, convolve_sub, e, convolve_comm p, convolve_comm p, ← h]
  ring

/-- The hypotheses: a grid with cells of different widths, a graded material and a pulse of one sample; sources along x and y in opposite
corners of a 3×3×3 grid. -/
example :
    let dx : DxList (fun _ : Fin 3 => 3) ℚ := fun _ i => 1 + (i : ℕ)
    let S : Sys (fun _ : Fin 3 => 3) ℚ := ⟨1 / 4, some (dx, dx), fun _ x => 2 + (x 0 : ℕ), none⟩
    let p : ℕ → ℚ := fun n => if n = 0 then 1 else 0
    ∀ n, (run S atRest (sourced S.dt (pointCurrent (volE dx dx) 0 (fun _ => 0) p) (fun _ _ _ => 0) n)).e 1 (fun _ => 2)
      = (run S atRest (sourced S.dt (pointCurrent (volE dx dx) 1 (fun _ => 2) p) (fun _ _ _ => 0) n)).e 0 (fun _ => 0) := by
  intro dx S p n
  have hn : Nonzero dx := fun a i => by simp only [dx]; positivity
  exact C116_exchange S (dx, dx) rfl hn hn (fun c x => by simp only [S]; positivity) (fun c x => by simp [muOr, S])
    (by norm_num [S]) 0 1 _ _ p ⟨0, by simp [p]⟩ n

end Meanas.Props
