/-
C147 (duality): exchanging E and H, epsilon and mu, the two conductor masks and the two sets of cell widths, on the grid moved by half a cell
along every axis, turns the equations of the code into themselves.
-/
import Verif.Props.Symmetry
import Verif.Props.ModeSymmetry

namespace Meanas.Props

open Matrix Complex Fdfd Spec

namespace Duality

variable {D : ℕ} {sg : Fin D → ℕ} {K : Type*} [Field K]

/-- The cell one step back along the axes in `S`. -/
def back (S : Fin D → Bool) (x : Idx sg) : Idx sg := fun b => if S b then wrap (x b) (-1) else x b

/-- Widths of the dual grid. Its E planes lie on the H planes of the old grid: the width of its E cell `i` is the old H width `i`, and its H width `i` is
the old E width `i - 1`. -/
def dualDx (d : DxList sg K × DxList sg K) : DxList sg K × DxList sg K := (d.2, fun a i => d.1 a (wrap i (-1)))

theorem back_up {S : Fin D → Bool} {a : Fin D} (h : S a = true) (x : Idx sg) : back S (shiftIdx a 1 x) = back (Function.update S a false) x := by
  funext b
  by_cases hb : b = a
  · subst hb; simp [back, h, shiftIdx_same]
  · simp [back, Function.update_of_ne hb, shiftIdx_of_ne hb]

theorem back_eq {S : Fin D → Bool} {a : Fin D} (h : S a = true) (x : Idx sg) : back S x = shiftIdx a (-1) (back (Function.update S a false) x) := by
  funext b
  by_cases hb : b = a
  · subst hb; simp [back, h, shiftIdx_same]
  · simp [back, Function.update_of_ne hb, shiftIdx_of_ne hb]

theorem back_down {S : Fin D → Bool} {a : Fin D} (h : S a = false) (x : Idx sg) : back S (shiftIdx a (-1) x) = back (Function.update S a true) x := by
  funext b
  by_cases hb : b = a
  · subst hb; simp [back, h, shiftIdx_same]
  · simp [back, Function.update_of_ne hb, shiftIdx_of_ne hb]

theorem back_eq' {S : Fin D → Bool} {a : Fin D} (h : S a = false) (x : Idx sg) : back S x = shiftIdx a 1 (back (Function.update S a true) x) := by
  funext b
  by_cases hb : b = a
  · subst hb; simp [back, h, shiftIdx_same]
  · simp [back, Function.update_of_ne hb, shiftIdx_of_ne hb]

/-- Forward derivatives on the dual grid are backward derivatives on the old one. -/
theorem fwd (d : DxList sg K × DxList sg K) {S : Fin D → Bool} {a : Fin D} (h : S a = true) (f : Arr sg K) (x : Idx sg) :
    Functional.derivForward (some (dualDx d).1) a (fun y => f (back S y)) x = Functional.derivBack (some d.2) a f (back (Function.update S a false) x) := by
  rw [derivForward_eq, derivBack_eq, back_up h, back_eq h]
  simp only [wOf_some, dualDx]
  rw [show back (Function.update S a false) x a = x a by simp [back]]

/-- Backward derivatives on the dual grid are forward derivatives on the old one. -/
theorem bwd (d : DxList sg K × DxList sg K) {S : Fin D → Bool} {a : Fin D} (h : S a = false) (f : Arr sg K) (x : Idx sg) :
    Functional.derivBack (some (dualDx d).2) a (fun y => f (back S y)) x = Functional.derivForward (some d.1) a f (back (Function.update S a true) x) := by
  rw [derivForward_eq, derivBack_eq, back_down h, back_eq' h]
  simp only [wOf_some, dualDx]
  rw [show back (Function.update S a true) x a = wrap (x a) (-1) by simp [back]]

theorem back_bijective (S : Fin D → Bool) : Function.Bijective (back (sg := sg) S) := by
  refine Function.bijective_iff_has_inverse.2 ⟨fun x b => if S b then wrap (x b) 1 else x b, fun x => ?_, fun x => ?_⟩ <;>
  · funext b
    by_cases h : S b <;> simp [back, h]

/-! ### Three dimensions -/

variable {sh : Fin 3 → ℕ}

/-- Cell of the old H sample that becomes the dual E sample of component `c`. -/
def iE (c : Fin 3) (x : Idx sh) : Idx sh := back (fun b => decide (b ≠ c)) x
/-- Cell of the old E sample that becomes the dual H sample of component `c`. -/
def iH (c : Fin 3) (x : Idx sh) : Idx sh := back (fun b => decide (b = c)) x
/-- Anything at the H samples, carried to the E samples of the dual grid. -/
def toE {A : Type*} (F : VField sh A) : VField sh A := fun c x => F c (iE c x)
/-- Anything at the E samples, carried to the H samples of the dual grid. -/
def toH {A : Type*} (F : VField sh A) : VField sh A := fun c x => F c (iH c x)

theorem curl_toE (d : Fdtd.Dxes sh K) (F : VField sh K) : Functional.curlForward (some (dualDx d).1) (toE F) = toH (Functional.curlBack (some d.2) F) := by
  funext c x
  show _ = Functional.curlBack (some d.2) F c (iH c x)
  rw [curlForward_lc, curlBack_lc]
  refine Finset.sum_congr rfl fun a _ => Finset.sum_congr rfl fun b _ => ?_
  by_cases hl : lc c a b = 0
  · rw [hl]; simp
  obtain ⟨n1, n2, n3⟩ := lc_ne hl
  congr 1
  refine (fwd d (S := fun b' => decide (b' ≠ b)) (by simpa using n1) (F b) x).trans ?_
  congr 1
  rw [iH]
  congr 1
  revert hl n1 n2 n3; clear * -; revert a b c; decide

theorem curl_toH (d : Fdtd.Dxes sh K) (F : VField sh K) : Functional.curlBack (some (dualDx d).2) (toH F) = toE (Functional.curlForward (some d.1) F) := by
  funext c x
  show _ = Functional.curlForward (some d.1) F c (iE c x)
  rw [curlForward_lc, curlBack_lc]
  refine Finset.sum_congr rfl fun a _ => Finset.sum_congr rfl fun b _ => ?_
  by_cases hl : lc c a b = 0
  · rw [hl]; simp
  obtain ⟨n1, n2, n3⟩ := lc_ne hl
  congr 1
  refine (bwd d (S := fun b' => decide (b' = b)) (by simpa using n1) (F b) x).trans ?_
  congr 1
  rw [iE]
  congr 1
  revert hl n1 n2 n3; clear * -; revert a b c; decide

/-- `toE` and `toH` of vectors and masks. -/
def vE {A : Type*} (v : Pos sh → A) : Pos sh → A := fun p => v (p.1, iE p.1 p.2)
def vH {A : Type*} (v : Pos sh → A) : Pos sh → A := fun p => v (p.1, iH p.1 p.2)

theorem cE_vE (d : Dx sh) (v : Vec sh) : cE (dualDx d) (vE v) = vH (cH d v) := by
  funext p
  exact congrFun (congrFun (curl_toE d (unS v)) p.1) p.2

theorem cH_vH (d : Dx sh) (v : Vec sh) : cH (dualDx d) (vH v) = vE (cE d v) := by
  funext p
  exact congrFun (congrFun (curl_toH d (unS v)) p.1) p.2

theorem openAt_vE (m : Option (Pos sh → Bool)) (p : Pos sh) : openAt (m.map vE) p = openAt m (p.1, iE p.1 p.2) := by cases m <;> rfl
theorem openAt_vH (m : Option (Pos sh → Bool)) (p : Pos sh) : openAt (m.map vH) p = openAt m (p.1, iH p.1 p.2) := by cases m <;> rfl

theorem hFull_mulVec_masks (ω : ℂ) (d : Dx sh) (eps : Vec sh) (mu : Option (Vec sh)) (pec pmc : Option (Pos sh → Bool)) (v : Vec sh)
    (p : Pos sh) :
    (hFull ω d eps mu pec pmc *ᵥ v) p = openAt pmc p * (cE d (fun q => openAt pec q * (cH d (fun r => openAt pmc r * v r) q / eps q)) p
      - ω ^ 2 * (muV mu p * (openAt pmc p * v p))) := by
  have h1 : ∀ (m : Option (Pos sh → Bool)) (u : Vec sh), notMask m *ᵥ u = fun q => (openAt m q : ℂ) * u q := by
    intro m u; funext q; rw [notMask_openAt, mulVec_diagonal]
  rw [hFull_eq]
  have h2 : ∀ u : Vec sh, (diagonal fun p => 1 / eps p) *ᵥ u = fun q => u q / eps q := by
    intro u; funext q; rw [mulVec_diagonal]; ring
  simp only [sub_mulVec, ← mulVec_mulVec, Fdfd.curlForward_mulVec, Fdfd.curlBack_mulVec, h1, h2, Pi.sub_apply, smul_mulVec, Pi.smul_apply, smul_eq_mul,
    mulVec_diagonal]

end Duality

open Duality

variable {sh : Fin 3 → ℕ} {K : Type*} [Field K]

/-- C147: `h_full` is `e_full` of the dual problem: permittivity and permeability exchanged, PEC and PMC exchanged, H in the place of E. -/
theorem C147_h_full (ω : ℂ) (d : Dx sh) (eps : Vec sh) (mu : Option (Vec sh)) (pec pmc : Option (Pos sh → Bool)) (H : Vec sh) :
    eFull ω (dualDx d) (vE (mu.getD 1)) (some (vH eps)) (pmc.map vE) (pec.map vH) *ᵥ vE H = vE (hFull ω d eps mu pec pmc *ᵥ H) := by
  have hV : muV mu = mu.getD 1 := by cases mu <;> rfl
  funext p
  show _ = (hFull ω d eps mu pec pmc *ᵥ H) (p.1, iE p.1 p.2)
  rw [eFull_mulVec_masks, hFull_mulVec_masks, openAt_vE, hV]
  have g1 : (fun r => (openAt (pmc.map vE) r : ℂ) * vE H r) = vE fun r => (openAt pmc r : ℂ) * H r := by
    funext r; rw [openAt_vE]; rfl
  have g2 : (fun q => (openAt (pec.map vH) q : ℂ) * (vH (cH d fun r => (openAt pmc r : ℂ) * H r) q / muV (some (vH eps)) q))
      = vH fun q => (openAt pec q : ℂ) * (cH d (fun r => (openAt pmc r : ℂ) * H r) q / eps q) := by
    funext q; rw [openAt_vH]; rfl
  rw [g1, cE_vE, g2, cH_vH]
  rfl

/-- C147: the fields of the dual problem. `E, H` satisfy the frequency-domain equations with currents `J, M` exactly if the dual fields `E' = H`, `H' = -E` satisfy those
of the dual media with the currents `J' = M`, `M' = -J`. -/
theorem C147_fields (ω : ℂ) (d : Dx sh) (eps mu E H J M : Vec sh) :
    ((∀ p, cE d E p = -I * ω * mu p * H p - M p) ∧ ∀ p, cH d H p = I * ω * eps p * E p + J p) ↔
      (∀ p, cE (dualDx d) (vE H) p = -I * ω * vH eps p * (-vH E p) - (-vH J p)) ∧
        ∀ p, cH (dualDx d) (fun q => -vH E q) p = I * ω * vE mu p * vE H p + vE M p := by
  have hn : cH (dualDx d) (fun q => -vH E q) = fun p => -vE (cE d E) p := by
    funext p
    rw [show (fun q => -vH E q) = fun q => (-1 : ℂ) * vH E q by funext q; simp, cH_smul, cH_vH]
    simp
  have sE : ∀ c, Function.Surjective (iE (sh := sh) c) := fun c => (back_bijective _).surjective
  have sH : ∀ c, Function.Surjective (iH (sh := sh) c) := fun c => (back_bijective _).surjective
  rw [cE_vE, hn]
  constructor
  · rintro ⟨h1, h2⟩
    refine ⟨fun p => ?_, fun p => ?_⟩
    · refine (h2 (p.1, iH p.1 p.2)).trans ?_
      simp only [vH]; ring
    · show -cE d E (p.1, iE p.1 p.2) = _
      rw [h1]
      simp only [vE]; ring
  · rintro ⟨h1, h2⟩
    refine ⟨?_, ?_⟩
    · rintro ⟨c, x⟩
      obtain ⟨x, rfl⟩ := sE c x
      have : -cE d E (c, iE c x) = I * ω * mu (c, iE c x) * H (c, iE c x) + M (c, iE c x) := h2 (c, x)
      linear_combination -this
    · rintro ⟨c, x⟩
      obtain ⟨x, rfl⟩ := sH c x
      have : cH d H (c, iH c x) = -I * ω * eps (c, iH c x) * (-E (c, iH c x)) - (-J (c, iH c x)) := h1 (c, x)
      linear_combination this

/-- One call of an FDTD script in the dual problem: the two updates are exchanged, and so are the two kinds of current. -/
def Duality.op : Fdtd.Op sh K → Fdtd.Op sh K
  | .stepE => .stepH
  | .stepH => .stepE
  | .injJ j => .injM (toH j)
  | .injM m => .injJ fun c x => -toE m c x

/-- C147: FDTD. The run of the dual problem with `maxwell_e` and `maxwell_h` exchanged has the fields `E' = H`, `H' = -E` after any sequence of calls. -/
theorem C147_fdtd (dt : K) (d : Fdtd.Dxes sh K) (ε : VField sh K) (μ : Option (VField sh K)) (s : Fdtd.State sh K) (ops : List (Fdtd.Op sh K)) :
    Fdtd.run ⟨dt, some (dualDx d), toE (μ.getD fun _ _ => 1), some (toH ε)⟩ ⟨toE s.h, fun c x => -toH s.e c x⟩ (ops.map Duality.op)
      = ⟨toE (Fdtd.run ⟨dt, some d, ε, μ⟩ s ops).h, fun c x => -toH (Fdtd.run ⟨dt, some d, ε, μ⟩ s ops).e c x⟩ := by
  induction ops generalizing s with
  | nil => rfl
  | cons o ops ih =>
    have e1 : ∀ (S : Fdtd.Sys sh K), Fdtd.run S s (o :: ops) = Fdtd.run S (Fdtd.step S s o) ops := fun _ => rfl
    have e2 : ∀ (S : Fdtd.Sys sh K) t, Fdtd.run S t ((o :: ops).map Duality.op) = Fdtd.run S (Fdtd.step S t (Duality.op o)) (ops.map Duality.op) :=
      fun _ _ => rfl
    rw [e1, e2, ← ih]
    congr 1
    cases o with
    | stepE =>
      simp only [Duality.op, Fdtd.step, Fdtd.maxwellH, Fdtd.maxwellE, curl_toE]
      congr 1; funext c x; simp only [toH]; ring
    | stepH =>
      have hn : Functional.curlBack (some (dualDx d).2) (fun c x => -toH s.e c x) = fun c x => -toE (Functional.curlForward (some d.1) s.e) c x := by
        rw [← curl_toH]
        funext c x
        rw [curlBack_lc, curlBack_lc, ← Finset.sum_neg_distrib]
        refine Finset.sum_congr rfl fun a _ => ?_
        rw [← Finset.sum_neg_distrib]
        refine Finset.sum_congr rfl fun b _ => ?_
        rw [derivBack_eq, derivBack_eq]; ring
      cases μ with
      | none =>
        simp only [Duality.op, Fdtd.step, Fdtd.maxwellH, Fdtd.maxwellE, hn, Option.getD_none]
        congr 1; funext c x; simp only [toE]; ring
      | some m =>
        simp only [Duality.op, Fdtd.step, Fdtd.maxwellH, Fdtd.maxwellE, hn, Option.getD_some]
        congr 1; funext c x; simp only [toE]; ring
    | injJ j =>
      simp only [Duality.op, Fdtd.step]
      congr 1; funext c x; simp only [toH]; ring
    | injM m =>
      cases μ with
      | none =>
        simp only [Duality.op, Fdtd.step, Option.getD_none]
        congr 1; funext c x; simp only [toE]; ring
      | some m =>
        simp only [Duality.op, Fdtd.step, Option.getD_some]
        congr 1; funext c x; simp only [toE]; ring

/-! ### Waveguides -/

namespace Duality

open Wg2

variable {s2 : Fin 2 → ℕ}

/-- Cells of the cross-section, as in three dimensions; there is no step along the waveguide. -/
def jE (c : Fin 3) (x : Idx s2) : Idx s2 := back (fun b => decide (b.castSucc ≠ c)) x
def jH (c : Fin 3) (x : Idx s2) : Idx s2 := back (fun b => decide (b.castSucc = c)) x
/-- Slices at the H samples, carried to the E samples of the dual cross-section, and the reverse. -/
def wE (v : V 3 s2) : V 3 s2 := fun p => v (p.1, jE p.1 p.2)
def wH (v : V 3 s2) : V 3 s2 := fun p => v (p.1, jH p.1 p.2)
/-- Transverse slices at the H samples. -/
def tE (v : V 2 s2) : V 2 s2 := fun p => v (p.1, jE p.1.castSucc p.2)

theorem fwd2 (d : Dx2 s2) (S T : Fin 2 → Bool) (a : Fin 2) (h : S a = true) (hT : T = Function.update S a false) (f : Idx s2 → ℂ) (x : Idx s2) :
    fw (dualDx d) a (fun y => f (back S y)) x = bw d a f (back T x) := by
  rw [hT]; exact fwd d h f x
theorem bwd2 (d : Dx2 s2) (S T : Fin 2 → Bool) (a : Fin 2) (h : S a = false) (hT : T = Function.update S a true) (f : Idx s2 → ℂ) (x : Idx s2) :
    bw (dualDx d) a (fun y => f (back S y)) x = fw d a f (back T x) := by
  rw [hT]; exact bwd d h f x

theorem jH_1 (x : Idx s2) : jH 1 x = jE 0 x :=
  congrArg (fun S => back S x) (by decide : (fun b : Fin 2 => decide (b.castSucc = (1 : Fin 3))) = fun b => decide (b.castSucc ≠ (0 : Fin 3)))
theorem jH_0 (x : Idx s2) : jH 0 x = jE 1 x :=
  congrArg (fun S => back S x) (by decide : (fun b : Fin 2 => decide (b.castSucc = (0 : Fin 3))) = fun b => decide (b.castSucc ≠ (1 : Fin 3)))

end Duality

open Wg2 in
/-- C147: `waveguide_2d.operator_h` is `operator_e` of the dual cross-section. -/
theorem C147_operator_h {s2 : Fin 2 → ℕ} (ω : ℂ) (d : Dx2 s2) (eps : V 3 s2) (mu : Option (V 3 s2)) (v : V 2 s2) :
    operatorE ω (dualDx d) (wE (mu.getD 1)) (some (wH eps)) *ᵥ tE v = tE (operatorH ω d eps mu *ᵥ v) := by
  have hc : ∀ y, (fw (dualDx d) 0 (part (tE v) 1) y - fw (dualDx d) 1 (part (tE v) 0) y) / wH eps (2, y)
      = (fun z => (bw d 0 (part v 1) z - bw d 1 (part v 0) z) / eps (2, z)) (jH 2 y) := by
    intro y
    have h1 := fwd2 d (fun b => decide (b.castSucc ≠ (1 : Fin 3))) (fun b => decide (b.castSucc = (2 : Fin 3))) 0 (by decide) (by decide) (part v 1) y
    have h2 := fwd2 d (fun b => decide (b.castSucc ≠ (0 : Fin 3))) (fun b => decide (b.castSucc = (2 : Fin 3))) 1 (by decide) (by decide) (part v 0) y
    exact congrArg₂ (· / ·) (congrArg₂ (· - ·) h1 h2) rfl
  have hd : ∀ y, (bw (dualDx d) 0 (fun z => wE (mu.getD 1) (0, z) * tE v (0, z)) y + bw (dualDx d) 1 (fun z => wE (mu.getD 1) (1, z) * tE v (1, z)) y) / wE (mu.getD 1) (2, y)
      = (fun u => (fw d 0 (fun z => mu.getD 1 (0, z) * v (0, z)) u + fw d 1 (fun z => mu.getD 1 (1, z) * v (1, z)) u) / mu.getD 1 (2, u)) (jE 2 y) := by
    intro y
    have h1 := bwd2 d (fun b => decide (b.castSucc ≠ (0 : Fin 3))) (fun b => decide (b.castSucc ≠ (2 : Fin 3))) 0 (by decide) (by decide) (fun z => mu.getD 1 (0, z) * v (0, z)) y
    have h2 := bwd2 d (fun b => decide (b.castSucc ≠ (1 : Fin 3))) (fun b => decide (b.castSucc ≠ (2 : Fin 3))) 1 (by decide) (by decide) (fun z => mu.getD 1 (1, z) * v (1, z)) y
    exact congrArg₂ (· / ·) (congrArg₂ (· + ·) h1 h2) rfl
  funext p
  obtain ⟨c, x⟩ := p
  have hj01 := Duality.jH_1 x
  have hj10 := Duality.jH_0 x
  fin_cases c
  · show (operatorE ω (dualDx d) (wE (mu.getD 1)) (some (wH eps)) *ᵥ tE v) (0, x) = (operatorH ω d eps mu *ᵥ v) (0, jE 0 x)
    rw [operatorE_0, operatorH_0]
    simp only [Option.getD_some, hc, hd]
    have h3 := bwd2 d (fun b => decide (b.castSucc = (2 : Fin 3))) (fun b => decide (b.castSucc ≠ (0 : Fin 3))) 1 (by decide) (by decide) (fun z => (bw d 0 (part v 1) z - bw d 1 (part v 0) z) / eps (2, z)) x
    have h4 := fwd2 d (fun b => decide (b.castSucc ≠ (2 : Fin 3))) (fun b => decide (b.castSucc ≠ (0 : Fin 3))) 0 (by decide) (by decide)
      (fun u => (fw d 0 (fun z => mu.getD 1 (0, z) * v (0, z)) u + fw d 1 (fun z => mu.getD 1 (1, z) * v (1, z)) u) / mu.getD 1 (2, u)) x
    refine congrArg₂ (· + ·) (congrArg₂ (· - ·) ?_ (congrArg₂ (· * ·) ?_ h3)) h4
    · show ω ^ 2 * (eps (1, jH 1 x) * (mu.getD 1 (0, jE 0 x) * v (0, jE 0 x))) = _
      rw [hj01]
    · show eps (1, jH 1 x) = _
      rw [hj01]
  · show (operatorE ω (dualDx d) (wE (mu.getD 1)) (some (wH eps)) *ᵥ tE v) (1, x) = (operatorH ω d eps mu *ᵥ v) (1, jE 1 x)
    rw [operatorE_1, operatorH_1]
    simp only [Option.getD_some, hc, hd]
    have h3 := bwd2 d (fun b => decide (b.castSucc = (2 : Fin 3))) (fun b => decide (b.castSucc ≠ (1 : Fin 3))) 0 (by decide) (by decide) (fun z => (bw d 0 (part v 1) z - bw d 1 (part v 0) z) / eps (2, z)) x
    have h4 := fwd2 d (fun b => decide (b.castSucc ≠ (2 : Fin 3))) (fun b => decide (b.castSucc ≠ (1 : Fin 3))) 1 (by decide) (by decide)
      (fun u => (fw d 0 (fun z => mu.getD 1 (0, z) * v (0, z)) u + fw d 1 (fun z => mu.getD 1 (1, z) * v (1, z)) u) / mu.getD 1 (2, u)) x
    refine congrArg₂ (· + ·) (congrArg₂ (· + ·) ?_ (congrArg₂ (· * ·) ?_ h3)) h4
    · show ω ^ 2 * (eps (0, jH 0 x) * (mu.getD 1 (1, jE 1 x) * v (1, jE 1 x))) = _
      rw [hj10]
    · show eps (0, jH 0 x) = _
      rw [hj10]

namespace Duality

open Wg2

variable {s2 : Fin 2 → ℕ}

theorem curlE_wE (β : ℂ) (d : Dx2 s2) (v : V 3 s2) : curlE β (dualDx d) *ᵥ wE v = wH (curlH β d *ᵥ v) := by
  funext p
  obtain ⟨c, x⟩ := p
  revert c; refine forall_fin3 ?_ ?_ ?_
  · rw [curlE_0]
    show _ = (curlH β d *ᵥ v) (0, jH 0 x)
    rw [curlH_0]
    refine congrArg₂ (· - ·) (fwd2 d (fun b => decide (b.castSucc ≠ (2 : Fin 3))) (fun b => decide (b.castSucc = (0 : Fin 3))) 1 (by decide) (by decide) (part v 2) x) ?_
    rw [jH_0]; rfl
  · rw [curlE_1]
    show _ = (curlH β d *ᵥ v) (1, jH 1 x)
    rw [curlH_1]
    refine congrArg₂ (· - ·) ?_ (fwd2 d (fun b => decide (b.castSucc ≠ (2 : Fin 3))) (fun b => decide (b.castSucc = (1 : Fin 3))) 0 (by decide) (by decide) (part v 2) x)
    rw [jH_1]; rfl
  · rw [curlE_2]
    show _ = (curlH β d *ᵥ v) (2, jH 2 x)
    rw [curlH_2]
    exact congrArg₂ (· - ·) (fwd2 d (fun b => decide (b.castSucc ≠ (1 : Fin 3))) (fun b => decide (b.castSucc = (2 : Fin 3))) 0 (by decide) (by decide) (part v 1) x)
      (fwd2 d (fun b => decide (b.castSucc ≠ (0 : Fin 3))) (fun b => decide (b.castSucc = (2 : Fin 3))) 1 (by decide) (by decide) (part v 0) x)

theorem curlH_wH (β : ℂ) (d : Dx2 s2) (v : V 3 s2) : curlH β (dualDx d) *ᵥ wH v = wE (curlE β d *ᵥ v) := by
  funext p
  obtain ⟨c, x⟩ := p
  revert c; refine forall_fin3 ?_ ?_ ?_
  · rw [curlH_0]
    show _ = (curlE β d *ᵥ v) (0, jE 0 x)
    rw [curlE_0]
    refine congrArg₂ (· - ·) (bwd2 d (fun b => decide (b.castSucc = (2 : Fin 3))) (fun b => decide (b.castSucc ≠ (0 : Fin 3))) 1 (by decide) (by decide) (part v 2) x) ?_
    rw [← jH_1]; rfl
  · rw [curlH_1]
    show _ = (curlE β d *ᵥ v) (1, jE 1 x)
    rw [curlE_1]
    refine congrArg₂ (· - ·) ?_ (bwd2 d (fun b => decide (b.castSucc = (2 : Fin 3))) (fun b => decide (b.castSucc ≠ (1 : Fin 3))) 0 (by decide) (by decide) (part v 2) x)
    rw [← jH_0]; rfl
  · rw [curlH_2]
    show _ = (curlE β d *ᵥ v) (2, jE 2 x)
    rw [curlE_2]
    exact congrArg₂ (· - ·) (bwd2 d (fun b => decide (b.castSucc = (1 : Fin 3))) (fun b => decide (b.castSucc ≠ (2 : Fin 3))) 0 (by decide) (by decide) (part v 1) x)
      (bwd2 d (fun b => decide (b.castSucc = (0 : Fin 3))) (fun b => decide (b.castSucc ≠ (2 : Fin 3))) 1 (by decide) (by decide) (part v 0) x)

theorem norm_wE (v : V 3 s2) : norm2 (wE v) = norm2 v := by
  rw [norm2, norm2]
  congr 1
  rw [Fintype.sum_prod_type, Fintype.sum_prod_type]
  refine Finset.sum_congr rfl fun c _ => ?_
  have hb : Function.Bijective (jE (s2 := s2) c) := back_bijective _
  exact hb.sum_comp fun x => ‖v (c, x)‖ ^ 2

end Duality

open Wg2 in
/-- C147: the modes of the dual cross-section are the dual fields of the modes, with the same wavenumber. -/
theorem C147_mode {s2 : Fin 2 → ℕ} (β ω : ℂ) (d : Dx2 s2) (eps mu e h : V 3 s2) :
    IsMode β ω d.1 d.2 (fld eps) (fld mu) (fld e) (fld h) ↔
      IsMode β ω (dualDx d).1 (dualDx d).2 (fld (wE mu)) (fld (wH eps)) (fld (wE h)) (fld fun p => -wH e p) := by
  have sE : ∀ c, Function.Surjective (jE (s2 := s2) c) := fun c => (back_bijective _).surjective
  have sH : ∀ c, Function.Surjective (jH (s2 := s2) c) := fun c => (back_bijective _).surjective
  rw [isMode_iff, isMode_iff, curlE_wE, show (fun p => -wH e p) = -wH e from rfl, mulVec_neg, curlH_wH]
  constructor
  · rintro ⟨h1, h2⟩
    refine ⟨fun p => ?_, fun p => ?_⟩
    · refine (h2 (p.1, jH p.1 p.2)).trans ?_
      simp only [wH]; ring
    · show -(curlE β d *ᵥ e) (p.1, jE p.1 p.2) = _
      rw [h1]
      simp only [wE]; ring
  · rintro ⟨h1, h2⟩
    refine ⟨?_, ?_⟩
    · rintro ⟨c, x⟩
      obtain ⟨x, rfl⟩ := sE c x
      have : -(curlE β d *ᵥ e) (c, jE c x) = I * ω * mu (c, jE c x) * h (c, jE c x) := h2 (c, x)
      linear_combination -this
    · rintro ⟨c, x⟩
      obtain ⟨x, rfl⟩ := sH c x
      have : (curlH β d *ᵥ h) (c, jH c x) = -I * ω * eps (c, jH c x) * (-e (c, jH c x)) := h1 (c, x)
      linear_combination this

open Wg2 in
/-- C147: the field conversions and error measures are dual to each other: `hxy2h` to `exy2e`, `hxy2e` to `exy2h` and `h_err` to `e_err`. -/
theorem C147_conversions {s2 : Fin 2 → ℕ} (β ω : ℂ) (d : Dx2 s2) (eps : V 3 s2) (mu : Option (V 3 s2)) (v : V 2 s2) (h : V 3 s2) :
    exy2e β (dualDx d) (wE (mu.getD 1)) *ᵥ tE v = wE (hxy2h β d mu *ᵥ v) ∧
    exy2h β ω (dualDx d) (wE (mu.getD 1)) (some (wH eps)) *ᵥ tE v = (fun p => -wH (hxy2e β ω d eps mu *ᵥ v) p) ∧
    eErr (wE h) β ω (dualDx d) (wE (mu.getD 1)) (some (wH eps)) = hErr h β ω d eps mu := by
  have c1 : exy2e β (dualDx d) (wE (mu.getD 1)) *ᵥ tE v = wE (hxy2h β d mu *ᵥ v) := by
    funext p
    obtain ⟨c, x⟩ := p
    revert c; refine forall_fin3 ?_ ?_ ?_
    · rw [exy2e_0]; exact (hxy2h_0 β d mu v _).symm
    · rw [exy2e_1]; exact (hxy2h_1 β d mu v _).symm
    · rw [exy2e_2]
      refine Eq.trans ?_ (hxy2h_2 β d mu v _).symm
      have h1 := bwd2 d (fun b => decide (b.castSucc ≠ (0 : Fin 3))) (fun b => decide (b.castSucc ≠ (2 : Fin 3))) 0 (by decide) (by decide) (fun z => mu.getD 1 (0, z) * v (0, z)) x
      have h2 := bwd2 d (fun b => decide (b.castSucc ≠ (1 : Fin 3))) (fun b => decide (b.castSucc ≠ (2 : Fin 3))) 1 (by decide) (by decide) (fun z => mu.getD 1 (1, z) * v (1, z)) x
      exact congrArg₂ (· / ·) (congrArg₂ (· + ·) h1 h2) rfl
  refine ⟨c1, ?_, ?_⟩
  · funext p
    rw [exy2h, ← mulVec_mulVec, c1, Wg2.e2h_mulVec, curlE_wE, hxy2e, ← mulVec_mulVec]
    simp only [wH, h2e_mulVec, Option.getD_some]
    rw [neg_mul, neg_mul, div_neg]
  · have hop : (curlH β (dualDx d) *ᵥ ((diagonal fun p => 1 / wH eps p) *ᵥ (curlE β (dualDx d) *ᵥ wE h)) - ω ^ 2 • (wE (mu.getD 1) * wE h) : V 3 s2)
        = wE (curlE β d *ᵥ ((diagonal fun p => 1 / eps p) *ᵥ (curlH β d *ᵥ h)) - ω ^ 2 • (mu.getD 1 * h)) := by
      have : (diagonal fun p => 1 / wH eps p) *ᵥ wH (curlH β d *ᵥ h) = wH ((diagonal fun p => 1 / eps p) *ᵥ (curlH β d *ᵥ h)) := by
        funext p
        simp only [mulVec_diagonal, wH]
      rw [curlE_wE, this, curlH_wH]; rfl
    simp only [eErr, hErr, hop, norm_wE]
    cases mu with
    | none => simp only [Option.getD_none, one_mul]
    | some m => simp only [Option.getD_some]

/-! ### A case that is not its own dual -/

/-- Three cells of different widths along x: the dual widths are a different set, so the exchange is not a relabelling of one field array. -/
example : (dualDx ((fun _ i => (i.val : ℚ) + 1, fun _ i => (i.val : ℚ) + 10) : DxList ![3, 1, 1] ℚ × DxList ![3, 1, 1] ℚ)).2 0 (0 : Fin 3) = 3 ∧
    (dualDx ((fun _ i => (i.val : ℚ) + 1, fun _ i => (i.val : ℚ) + 10) : DxList ![3, 1, 1] ℚ × DxList ![3, 1, 1] ℚ)).1 0 (0 : Fin 3) = 10 := by
  constructor <;> (dsimp only [dualDx]; norm_num [wrap, Int.toNat])

end Meanas.Props
