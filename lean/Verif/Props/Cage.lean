/-
C149 (shielding): a closed shell of perfect electric conductor separates what it encloses from everything outside, in the operators and in the
solutions; the same for a shell of perfect magnetic conductor in h_full.
-/
import Verif.Props.Duality
import Verif.Props.FdfdSolvers

namespace Meanas.Props

open Matrix Complex Fdfd Spec Solvers Duality

variable {sh : Fin 3 → ℕ}

/-- Geometry of the Yee grid, independent of the code: the edge `p` (position of an E component) bounds the face `q` (position of an H component). The
face normal to `q.1` in cell `q.2` has four edges: along each of the other two axes, the one in the same cell and the one a cell further along the third
axis. -/
def Bounds (p q : Pos sh) : Prop :=
  p.1 ≠ q.1 ∧ (p.2 = q.2 ∨ ∃ b, b ≠ q.1 ∧ b ≠ p.1 ∧ p.2 = shiftIdx b 1 q.2)

/-- The wall `W` encloses the edges `S`: a face with one edge in `S` has all its edges in `S` or in `W`. -/
def Encloses (W S : Pos sh → Prop) : Prop := ∀ q p p', Bounds p q → Bounds p' q → S p → S p' ∨ W p'

/-- The same for faces: all faces around an edge that touches `S` are in `S` or in `W`. -/
def EnclosesFaces (W S : Pos sh → Prop) : Prop := ∀ p q q', Bounds p q → Bounds p q' → S q → S q' ∨ W q'

/-- All positions of `W` are in the mask. -/
def Covers (m : Option (Pos sh → Bool)) (W : Pos sh → Prop) : Prop := ∃ f, m = some f ∧ ∀ p, W p → f p = true

namespace Cage

theorem cE_local (d : Dx sh) (u v : Vec sh) (q : Pos sh) (h : ∀ p, Bounds p q → u p = v p) : cE d u q = cE d v q := by
  have h1 : ∀ c, c ≠ q.1 → u (c, q.2) = v (c, q.2) := fun c hc => h (c, q.2) ⟨hc, .inl rfl⟩
  have h2 : ∀ c b, c ≠ q.1 → b ≠ q.1 → b ≠ c → u (c, shiftIdx b 1 q.2) = v (c, shiftIdx b 1 q.2) :=
    fun c b hc hb hbc => h (c, shiftIdx b 1 q.2) ⟨hc, .inr ⟨b, hb, hbc, rfl⟩⟩
  obtain ⟨c, x⟩ := q
  simp only at h1 h2
  revert h1 h2
  revert c
  refine forall_fin3 ?_ ?_ ?_ <;> intro _ h1 h2 <;>
    simp only [vecS_apply, curlForward_0, curlForward_1, curlForward_2, derivForward_eq, unS_apply]
  · rw [h1 1 (by decide), h1 2 (by decide), h2 1 2 (by decide) (by decide) (by decide), h2 2 1 (by decide) (by decide) (by decide)]
  · rw [h1 0 (by decide), h1 2 (by decide), h2 0 2 (by decide) (by decide) (by decide), h2 2 0 (by decide) (by decide) (by decide)]
  · rw [h1 0 (by decide), h1 1 (by decide), h2 0 1 (by decide) (by decide) (by decide), h2 1 0 (by decide) (by decide) (by decide)]

theorem cH_local (d : Dx sh) (u v : Vec sh) (p : Pos sh) (h : ∀ q, Bounds p q → u q = v q) : cH d u p = cH d v p := by
  have h1 : ∀ c, c ≠ p.1 → u (c, p.2) = v (c, p.2) := fun c hc => h (c, p.2) ⟨hc.symm, .inl rfl⟩
  have h2 : ∀ c b, c ≠ p.1 → b ≠ p.1 → b ≠ c → u (c, shiftIdx b (-1) p.2) = v (c, shiftIdx b (-1) p.2) :=
    fun c b hc hb hbc => h (c, shiftIdx b (-1) p.2) ⟨hc.symm, .inr ⟨b, hbc, hb, by simp⟩⟩
  obtain ⟨c, x⟩ := p
  simp only at h1 h2
  revert h1 h2
  revert c
  refine forall_fin3 ?_ ?_ ?_ <;> intro _ h1 h2 <;>
    simp only [vecS_apply, curlBack_0, curlBack_1, curlBack_2, derivBack_eq, unS_apply]
  · rw [h1 1 (by decide), h1 2 (by decide), h2 1 2 (by decide) (by decide) (by decide), h2 2 1 (by decide) (by decide) (by decide)]
  · rw [h1 0 (by decide), h1 2 (by decide), h2 0 2 (by decide) (by decide) (by decide), h2 2 0 (by decide) (by decide) (by decide)]
  · rw [h1 0 (by decide), h1 1 (by decide), h2 0 1 (by decide) (by decide) (by decide), h2 1 0 (by decide) (by decide) (by decide)]

theorem openAt_covers {m : Option (Pos sh → Bool)} {W : Pos sh → Prop} (h : Covers m W) {p : Pos sh} (hp : W p) : openAt m p = 0 := by
  obtain ⟨f, rfl, hf⟩ := h
  simp [openAt, hf p hp]

end Cage

open Cage

/-- What two simulations have in common inside the wall: conductors and permittivity on the edges `S`, magnetic conductors and permeability on the faces
that touch them, and a conducting wall. Everything else may differ. -/
structure SameInside (W S : Pos sh → Prop) (eps eps' : Vec sh) (mu mu' : Option (Vec sh)) (pec pec' pmc pmc' : Option (Pos sh → Bool)) : Prop where
  /-- the wall conducts -/
  wall : Covers pec W
  /-- in both -/
  wall' : Covers pec' W
  /-- conductors inside -/
  pecEq : ∀ p, S p → openAt pec p = openAt pec' p
  /-- permittivity inside -/
  epsEq : ∀ p, S p → eps p = eps' p
  /-- magnetic conductors inside -/
  pmcEq : ∀ p q, S p → Bounds p q → openAt pmc q = openAt pmc' q
  /-- permeability inside -/
  muEq : ∀ p q, S p → Bounds p q → muV mu q = muV mu' q

/-- C149: the equations inside a closed conducting wall involve nothing from outside: fields that agree inside give the same `e_full E` inside, whatever
fields, media and further conductors are outside. -/
theorem C149_local (W S : Pos sh → Prop) (hW : Encloses W S) (ω : ℂ) (d : Dx sh) (eps eps' : Vec sh) (mu mu' : Option (Vec sh))
    (pec pec' pmc pmc' : Option (Pos sh → Bool)) (hm : SameInside W S eps eps' mu mu' pec pec' pmc pmc') (E E' : Vec sh)
    (hE : ∀ p, S p → E p = E' p) (p : Pos sh) (hp : S p) :
    (eFull ω d eps mu pec pmc *ᵥ E) p = (eFull ω d eps' mu' pec' pmc' *ᵥ E') p := by
  rw [eFull_mulVec_masks, eFull_mulVec_masks, hm.pecEq p hp, hm.epsEq p hp, hE p hp]
  congr 2
  refine cH_local d _ _ p fun q hq => ?_
  rw [hm.pmcEq p q hp hq, hm.muEq p q hp hq]
  congr 2
  refine cE_local d _ _ q fun r hr => ?_
  rcases hW q p r hq hr hp with h | h
  · rw [hm.pecEq r h, hE r h]
  · rw [openAt_covers hm.wall h, openAt_covers hm.wall' h]; simp

open Classical in
/-- The field inside, extended by zero. -/
noncomputable def inside (S : Pos sh → Prop) (v : Vec sh) : Vec sh := fun p => if S p then v p else 0

/-- C149: the system falls apart. Cutting the field off at the wall cuts off the result: a solution with sources inside only stays a solution when the field
outside is deleted, and a resonance of the enclosed cavity is a resonance of the whole system. -/
theorem C149_splits (W S : Pos sh → Prop) (hW : Encloses W S) (ω : ℂ) (d : Dx sh) (eps : Vec sh) (mu : Option (Vec sh))
    (pec pmc : Option (Pos sh → Bool)) (hwall : Covers pec W) (E : Vec sh) :
    eFull ω d eps mu pec pmc *ᵥ inside S E = inside S (eFull ω d eps mu pec pmc *ᵥ E) := by
  funext p
  by_cases hp : S p
  · rw [inside, if_pos hp]
    refine C149_local W S hW ω d eps eps mu mu pec pec pmc pmc ⟨hwall, hwall, fun _ _ => rfl, fun _ _ => rfl, fun _ _ _ _ => rfl, fun _ _ _ _ => rfl⟩
      _ _ (fun q hq => ?_) p hp
    rw [inside, if_pos hq]
  · rw [inside, if_neg hp, eFull_mulVec_masks]
    by_cases hw : W p
    · rw [openAt_covers hwall hw]; simp
    · have : cH d (fun q => openAt pmc q * (cE d (fun r => openAt pec r * inside S E r) q / muV mu q)) p = cH d (fun _ => 0 * 0) p := by
        refine cH_local d _ _ p fun q hq => ?_
        have : cE d (fun r => openAt pec r * inside S E r) q = cE d (fun _ => 0 * 0) q := by
          refine cE_local d _ _ q fun r hr => ?_
          have hr' : ¬ S r := fun h => (hW q r p hr hq h).elim hp hw
          simp only [inside, if_neg hr', mul_zero]
        rw [this, cE_smul]; simp
      rw [this, cH_smul]
      simp [inside, hp]

/-- C149: matrix entries of `e_full` between the inside and the rest vanish, in both directions. -/
theorem C149_entries (W S : Pos sh → Prop) (hW : Encloses W S) (ω : ℂ) (d : Dx sh) (eps : Vec sh) (mu : Option (Vec sh))
    (pec pmc : Option (Pos sh → Bool)) (hwall : Covers pec W) (p r : Pos sh) (hp : S p) (hr : ¬ S r) :
    eFull ω d eps mu pec pmc p r = 0 ∧ eFull ω d eps mu pec pmc r p = 0 := by
  classical
  have h := C149_splits W S hW ω d eps mu pec pmc hwall
  have e1 : inside S (Pi.single r (1 : ℂ)) = (0 : Vec sh) := by
    funext q
    by_cases hq : S q
    · rw [inside, if_pos hq, Pi.single_eq_of_ne (by rintro rfl; exact hr hq)]; rfl
    · rw [inside, if_neg hq]; rfl
  have e2 : inside S (Pi.single p (1 : ℂ)) = (Pi.single p 1 : Vec sh) := by
    funext q
    by_cases hq : S q
    · rw [inside, if_pos hq]
    · rw [inside, if_neg hq, Pi.single_eq_of_ne (by rintro rfl; exact hq hp)]
  have h1 := congrFun (h (Pi.single r 1)) p
  have h2 := congrFun (h (Pi.single p 1)) r
  rw [e1, mulVec_zero, inside, if_pos hp, mulVec_single_one] at h1
  rw [e2, inside, if_neg hr, mulVec_single_one] at h2
  exact ⟨h1.symm, h2⟩

/-- C149: shielding. Two simulations with the same sources and media inside a closed conducting wall have the same field inside, whatever the sources, media
and conductors outside, provided one of them is lossy (or has gain of one sign), so that its solution is unique. -/
theorem C149_shielded (W S : Pos sh → Prop) (hW : Encloses W S) (ω : ℂ) (d : DxList sh ℝ × DxList sh ℝ) (hd : PosGrid d) (eps eps' : Vec sh)
    (mu : Option (Pos sh → ℝ)) (hmu : ∀ m, mu = some m → ∀ p, m p ≠ 0) (mu' : Option (Vec sh)) (pec pec' pmc pmc' : Option (Pos sh → Bool))
    (hm : SameInside W S eps eps' (realMu mu) mu' pec pec' pmc pmc')
    (hloss : (∀ p, (ω ^ 2 * eps p).im < 0) ∨ ∀ p, 0 < (ω ^ 2 * eps p).im) (J J' E E' : Vec sh) (hJ : ∀ p, S p → J p = J' p)
    (h : eFull ω (cDx d) eps (realMu mu) pec pmc *ᵥ E = (-I * ω) • J) (h' : eFull ω (cDx d) eps' mu' pec' pmc' *ᵥ E' = (-I * ω) • J')
    (p : Pos sh) (hp : S p) (hopen : ∀ m, pec = some m → m p = false) : E p = E' p := by
  have key : eFull ω (cDx d) eps (realMu mu) pec pmc *ᵥ inside S E = eFull ω (cDx d) eps (realMu mu) pec pmc *ᵥ inside S E' := by
    rw [C149_splits W S hW ω _ eps _ pec pmc hm.wall, C149_splits W S hW ω _ eps _ pec pmc hm.wall]
    funext q
    by_cases hq : S q
    · rw [inside, inside, if_pos hq, if_pos hq, h,
        C149_local W S hW ω (cDx d) eps eps' (realMu mu) mu' pec pec' pmc pmc' hm E' E' (fun _ _ => rfl) q hq, h', Pi.smul_apply, Pi.smul_apply, hJ q hq]
    · rw [inside, inside, if_neg hq, if_neg hq]
  have := C83_unique ω d hd eps mu hmu pec pmc hloss _ _ key p hopen
  rwa [inside, inside, if_pos hp, if_pos hp] at this

/-- C149: without sources inside there is no field inside. -/
theorem C149_dark (W S : Pos sh → Prop) (hW : Encloses W S) (ω : ℂ) (d : DxList sh ℝ × DxList sh ℝ) (hd : PosGrid d) (eps : Vec sh)
    (mu : Option (Pos sh → ℝ)) (hmu : ∀ m, mu = some m → ∀ p, m p ≠ 0) (pec pmc : Option (Pos sh → Bool)) (hwall : Covers pec W)
    (hloss : (∀ p, (ω ^ 2 * eps p).im < 0) ∨ ∀ p, 0 < (ω ^ 2 * eps p).im) (J E : Vec sh) (hJ : ∀ p, S p → J p = 0)
    (h : eFull ω (cDx d) eps (realMu mu) pec pmc *ᵥ E = (-I * ω) • J) (p : Pos sh) (hp : S p) (hopen : ∀ m, pec = some m → m p = false) : E p = 0 :=
  C149_shielded W S hW ω d hd eps eps mu hmu (realMu mu) pec pec pmc pmc
    ⟨hwall, hwall, fun _ _ => rfl, fun _ _ => rfl, fun _ _ _ _ => rfl, fun _ _ _ _ => rfl⟩ hloss J 0 E 0 hJ h
    (by rw [mulVec_zero, smul_zero]) p hp hopen

/-- C149: the magnetic field that `e2h` derives from fields vanishing in the conductors depends on the field inside only. -/
theorem C149_magnetic_field (W S : Pos sh → Prop) (hW : Encloses W S) (ω : ℂ) (d : Dx sh) (mu mu' : Option (Vec sh)) (pmc pmc' : Option (Pos sh → Bool))
    (E E' : Vec sh) (hE : ∀ p, S p → E p = E' p) (h0 : ∀ p, W p → E p = 0 ∧ E' p = 0) (p q : Pos sh) (hp : S p) (hq : Bounds p q)
    (hpmc : openAt pmc q = openAt pmc' q) (hmu : muV mu q = muV mu' q) :
    (Fdfd.e2h ω d mu pmc *ᵥ E) q = (Fdfd.e2h ω d mu' pmc' *ᵥ E') q := by
  have key : ∀ (mu : Option (Vec sh)) (m : Option (Pos sh → Bool)) (v : Vec sh),
      (Fdfd.e2h ω d mu m *ᵥ v) q = openAt m q * (cE d v q / (-I * ω) / muV mu q) := by
    intro mu m v
    rcases m with _ | m
    · rw [e2h_mulVec]; simp [openAt]
    · rw [C28_pmc_e2h, e2h_mulVec]; simp only [openAt]; split <;> simp
  rw [key, key, hpmc, hmu]
  congr 3
  refine cE_local d _ _ q fun r hr => ?_
  rcases hW q p r hq hr hp with h | h
  · exact hE r h
  · rw [(h0 r h).1, (h0 r h).2]

/-- C149: `generic` with an exact matrix solver. Solving the two problems gives the same field inside the wall. -/
theorem C149_generic {R : Type} (hasH : Bool) (solve : Mat sh → Vec sh → Opts sh R → Vec sh) (hs : Exact solve) (opts opts' : Opts sh R)
    (P P' : Problem sh) (W S : Pos sh → Prop) (hW : Encloses W S) (d : DxList sh ℝ × DxList sh ℝ) (hd : PosGrid d) (hdx : P.dxes = cDx d)
    (hdx' : P'.dxes = cDx d) (hω : P'.ω = P.ω) (mu : Option (Pos sh → ℝ)) (hmu : ∀ m, mu = some m → ∀ p, m p ≠ 0) (hPmu : P.mu = realMu mu)
    (hadj : P.adjoint = false) (hadj' : P'.adjoint = false) (hm : SameInside W S P.eps P'.eps P.mu P'.mu P.pec P'.pec P.pmc P'.pmc)
    (hloss : (∀ p, (P.ω ^ 2 * P.eps p).im < 0) ∨ ∀ p, 0 < (P.ω ^ 2 * P.eps p).im) (hJ : ∀ p, S p → P.J p = P'.J p)
    (hsol : ∃ E, eFull P.ω P.dxes P.eps P.mu P.pec P.pmc *ᵥ E = (-I * P.ω) • P.J)
    (hsol' : ∃ E, eFull P'.ω P'.dxes P'.eps P'.mu P'.pec P'.pmc *ᵥ E = (-I * P'.ω) • P'.J) :
    ∃ E E', (generic hasH solve opts P).1 = .ok E ∧ (generic hasH solve opts' P').1 = .ok E' ∧
      ∀ p, S p → (∀ m, P.pec = some m → m p = false) → E p = E' p := by
  obtain ⟨E, h1, h2⟩ := C32_solves_partial hasH solve hs opts P (by rw [hdx]; exact hd.nz) hadj hsol
  obtain ⟨E', h1', h2'⟩ := C32_solves_partial hasH solve hs opts' P' (by rw [hdx']; exact hd.nz) hadj' hsol'
  refine ⟨E, E', h1, h1', fun p hp ho => ?_⟩
  rw [hdx, hPmu] at h2
  rw [hdx', hω] at h2'
  exact C149_shielded W S hW P.ω d hd P.eps P'.eps mu hmu P'.mu P.pec P'.pec P.pmc P'.pmc (hPmu ▸ hm) hloss P.J P'.J E E' hJ h2 h2' p hp ho

/-- C149, magnetic walls: a closed wall of perfect magnetic conductor splits `h_full` in the same way. -/
theorem C149_magnetic_wall (W S : Pos sh → Prop) (hW : EnclosesFaces W S) (ω : ℂ) (d : Dx sh) (eps : Vec sh) (mu : Option (Vec sh))
    (pec pmc : Option (Pos sh → Bool)) (hwall : Covers pmc W) (H : Vec sh) :
    hFull ω d eps mu pec pmc *ᵥ inside S H = inside S (hFull ω d eps mu pec pmc *ᵥ H) := by
  funext p
  by_cases hp : S p
  · rw [inside, if_pos hp, hFull_mulVec_masks, hFull_mulVec_masks, inside, if_pos hp]
    have : cE d (fun q => openAt pec q * (cH d (fun r => openAt pmc r * inside S H r) q / eps q)) p
        = cE d (fun q => openAt pec q * (cH d (fun r => openAt pmc r * H r) q / eps q)) p := by
      refine cE_local d _ _ p fun q hq => ?_
      have : cH d (fun r => openAt pmc r * inside S H r) q = cH d (fun r => openAt pmc r * H r) q := by
        refine cH_local d _ _ q fun r hr => ?_
        rcases hW q p r hq hr hp with h | h
        · simp only [inside, if_pos h]
        · rw [openAt_covers hwall h]; simp
      rw [this]
    rw [this]
  · rw [inside, if_neg hp, hFull_mulVec_masks]
    by_cases hw : W p
    · rw [openAt_covers hwall hw]; simp
    · have : cE d (fun q => openAt pec q * (cH d (fun r => openAt pmc r * inside S H r) q / eps q)) p = cE d (fun _ => 0 * 0) p := by
        refine cE_local d _ _ p fun q hq => ?_
        have : cH d (fun r => openAt pmc r * inside S H r) q = cH d (fun _ => 0 * 0) q := by
          refine cH_local d _ _ q fun r hr => ?_
          have hr' : ¬ S r := fun h => (hW q r p hr hq h).elim hp hw
          simp only [inside, if_neg hr', mul_zero]
        rw [this, cH_smul]; simp
      rw [this, cE_smul]
      simp [inside, hp]

/-! ### The metal box -/

/-- Edges strictly inside the box between the grid planes `lo` and `hi`. -/
def InBox (lo hi : Fin 3 → ℕ) (p : Pos sh) : Prop :=
  lo p.1 ≤ (p.2 p.1 : ℕ) ∧ (p.2 p.1 : ℕ) < hi p.1 ∧ ∀ b, b ≠ p.1 → lo b < (p.2 b : ℕ) ∧ (p.2 b : ℕ) < hi b

/-- Edges on the six sides of the box. -/
def OnBox (lo hi : Fin 3 → ℕ) (p : Pos sh) : Prop :=
  lo p.1 ≤ (p.2 p.1 : ℕ) ∧ (p.2 p.1 : ℕ) < hi p.1 ∧ (∀ b, b ≠ p.1 → lo b ≤ (p.2 b : ℕ) ∧ (p.2 b : ℕ) ≤ hi b) ∧
    ∃ b, b ≠ p.1 ∧ ((p.2 b : ℕ) = lo b ∨ (p.2 b : ℕ) = hi b)

theorem Cage.bounds_val {p q : Pos sh} (h : Bounds p q) (b : Fin 3) :
    p.2 b = q.2 b ∨ b ≠ q.1 ∧ b ≠ p.1 ∧ p.2 b = wrap (q.2 b) 1 := by
  obtain ⟨_, h | ⟨a, h1, h2, h⟩⟩ := h
  · exact .inl (by rw [h])
  · by_cases hb : b = a
    · subst hb; exact .inr ⟨h1, h2, by rw [h, shiftIdx_same]⟩
    · exact .inl (by rw [h, shiftIdx_of_ne hb])

theorem Cage.wrap_cases {n : ℕ} (i : Fin n) : ((wrap i 1 : Fin n) : ℕ) = i + 1 ∧ (i : ℕ) + 1 < n ∨ ((wrap i 1 : Fin n) : ℕ) = 0 ∧ (i : ℕ) + 1 = n := by
  have h := wrap_val i 1
  have hi := i.isLt
  by_cases hn : (i : ℕ) + 1 < n
  · rw [Int.emod_eq_of_lt (by omega) (by omega)] at h; omega
  · have : ((i : ℤ) + 1) = n := by omega
    rw [this, Int.emod_self] at h; omega

/-- C149: the metal box. Marking the tangential edges on the six sides of any box as PEC encloses the edges inside it. The box may start at the first grid
plane; it has to end before the last cell. -/
theorem C149_box (lo hi : Fin 3 → ℕ) (hhi : ∀ a, hi a < sh a) : Encloses (sh := sh) (OnBox lo hi) (InBox lo hi) := by
  intro q p p' hp hp' ⟨i1, i2, i3⟩
  -- the face lies in the box
  have f1 : lo q.1 < (q.2 q.1 : ℕ) ∧ (q.2 q.1 : ℕ) < hi q.1 := by
    rcases bounds_val hp q.1 with h | h
    · rw [← h]; exact i3 _ hp.1.symm
    · exact absurd rfl h.1
  have f2 : ∀ b, b ≠ q.1 → lo b ≤ (q.2 b : ℕ) ∧ (q.2 b : ℕ) < hi b := by
    intro b hb
    by_cases hbp : b = p.1
    · subst hbp
      rcases bounds_val hp p.1 with h | h
      · rw [← h]; exact ⟨i1, i2⟩
      · exact absurd rfl h.2.1
    · have := i3 b hbp
      rcases bounds_val hp b with h | ⟨_, _, h⟩
      · rw [← h]; exact ⟨this.1.le, this.2⟩
      · rw [h] at this
        rcases wrap_cases (q.2 b) with w | w <;> omega
  -- so do its edges
  have g1 : lo p'.1 ≤ (p'.2 p'.1 : ℕ) ∧ (p'.2 p'.1 : ℕ) < hi p'.1 := by
    rcases bounds_val hp' p'.1 with h | h
    · rw [h]; exact f2 _ hp'.1
    · exact absurd rfl h.2.1
  have g2 : ∀ b, b ≠ p'.1 → lo b ≤ (p'.2 b : ℕ) ∧ (p'.2 b : ℕ) ≤ hi b := by
    intro b hb
    rcases bounds_val hp' b with h | ⟨hq, _, h⟩
    · rw [h]
      by_cases hbq : b = q.1
      · subst hbq; exact ⟨f1.1.le, f1.2.le⟩
      · exact ⟨(f2 b hbq).1, (f2 b hbq).2.le⟩
    · rw [h]
      have := f2 b hq
      have := hhi b
      rcases wrap_cases (q.2 b) with w | w <;> omega
  by_cases hs : ∃ b, b ≠ p'.1 ∧ ((p'.2 b : ℕ) = lo b ∨ (p'.2 b : ℕ) = hi b)
  · exact .inr ⟨g1.1, g1.2, g2, hs⟩
  · push Not at hs
    refine .inl ⟨g1.1, g1.2, fun b hb => ?_⟩
    have := g2 b hb
    have := hs b hb
    omega

/-- C149: in a metal box without sources there is no field, whatever is outside (lossy system). -/
theorem C149_dark_box (lo hi : Fin 3 → ℕ) (hhi : ∀ a, hi a < sh a) (ω : ℂ) (d : DxList sh ℝ × DxList sh ℝ) (hd : PosGrid d) (eps : Vec sh)
    (mu : Option (Pos sh → ℝ)) (hmu : ∀ m, mu = some m → ∀ p, m p ≠ 0) (pec : Pos sh → Bool) (pmc : Option (Pos sh → Bool))
    (hwall : ∀ p, OnBox lo hi p → pec p = true) (hloss : (∀ p, (ω ^ 2 * eps p).im < 0) ∨ ∀ p, 0 < (ω ^ 2 * eps p).im) (J E : Vec sh)
    (hJ : ∀ p, InBox lo hi p → J p = 0) (h : eFull ω (cDx d) eps (realMu mu) (some pec) pmc *ᵥ E = (-I * ω) • J) (p : Pos sh)
    (hp : InBox lo hi p) (hopen : pec p = false) : E p = 0 :=
  C149_dark _ _ (C149_box lo hi hhi) ω d hd eps mu hmu (some pec) pmc ⟨pec, rfl, hwall⟩ hloss J E hJ h p hp (by rintro _ ⟨⟩; exact hopen)

/-- Faces strictly inside the box between the planes through the centres of the cells `lo` and `hi`; the face normal to `c` in cell `x` joins the centres of
the cells `x - 1` and `x` along `c`. -/
def InMagBox (lo hi : Fin 3 → ℕ) (q : Pos sh) : Prop :=
  lo q.1 < (q.2 q.1 : ℕ) ∧ (q.2 q.1 : ℕ) ≤ hi q.1 ∧ ∀ b, b ≠ q.1 → lo b < (q.2 b : ℕ) ∧ (q.2 b : ℕ) < hi b

/-- Faces on the six sides of that box. -/
def OnMagBox (lo hi : Fin 3 → ℕ) (q : Pos sh) : Prop :=
  lo q.1 < (q.2 q.1 : ℕ) ∧ (q.2 q.1 : ℕ) ≤ hi q.1 ∧ (∀ b, b ≠ q.1 → lo b ≤ (q.2 b : ℕ) ∧ (q.2 b : ℕ) ≤ hi b) ∧
    ∃ b, b ≠ q.1 ∧ ((q.2 b : ℕ) = lo b ∨ (q.2 b : ℕ) = hi b)

/-- C149: marking the tangential faces on the six sides of any box through cell centres as PMC encloses the faces inside it. -/
theorem C149_magnetic_box (lo hi : Fin 3 → ℕ) (hhi : ∀ a, hi a < sh a) : EnclosesFaces (sh := sh) (OnMagBox lo hi) (InMagBox lo hi) := by
  intro p q q' hq hq' ⟨i1, i2, i3⟩
  -- the loop of faces around the edge lies in the box
  have f1 : lo p.1 < (p.2 p.1 : ℕ) ∧ (p.2 p.1 : ℕ) < hi p.1 := by
    rcases bounds_val hq p.1 with h | h
    · rw [h]; exact i3 _ hq.1
    · exact absurd rfl h.2.1
  have f2 : ∀ b, b ≠ p.1 → lo b < (p.2 b : ℕ) ∧ (p.2 b : ℕ) ≤ hi b := by
    intro b hb
    by_cases hbq : b = q.1
    · subst hbq
      rcases bounds_val hq q.1 with h | h
      · rw [h]; exact ⟨i1, i2⟩
      · exact absurd rfl h.1
    · have := i3 b hbq
      rcases bounds_val hq b with h | ⟨_, _, h⟩
      · rw [h]; exact ⟨this.1, this.2.le⟩
      · rw [h]
        have := hhi b
        rcases wrap_cases (q.2 b) with w | w <;> omega
  have g1 : lo q'.1 < (q'.2 q'.1 : ℕ) ∧ (q'.2 q'.1 : ℕ) ≤ hi q'.1 := by
    rcases bounds_val hq' q'.1 with h | h
    · rw [← h]; exact f2 _ hq'.1.symm
    · exact absurd rfl h.1
  have g2 : ∀ b, b ≠ q'.1 → lo b ≤ (q'.2 b : ℕ) ∧ (q'.2 b : ℕ) ≤ hi b := by
    intro b hb
    rcases bounds_val hq' b with h | ⟨_, hp, h⟩
    · rw [← h]
      by_cases hbp : b = p.1
      · subst hbp; exact ⟨f1.1.le, f1.2.le⟩
      · exact ⟨(f2 b hbp).1.le, (f2 b hbp).2⟩
    · have := f2 b hp
      rw [h] at this
      rcases wrap_cases (q'.2 b) with w | w <;> omega
  by_cases hs : ∃ b, b ≠ q'.1 ∧ ((q'.2 b : ℕ) = lo b ∨ (q'.2 b : ℕ) = hi b)
  · exact .inr ⟨g1.1, g1.2, g2, hs⟩
  · push Not at hs
    refine .inl ⟨g1.1, g1.2, fun b hb => ?_⟩
    have := g2 b hb
    have := hs b hb
    omega

/-- The box from plane 0 to plane 3 of any grid of at least four cells along every axis has edges inside, and the mask of its sides covers them. -/
example (hsh : ∀ a, 4 ≤ sh a) : ∃ p : Pos sh, InBox (fun _ => 0) (fun _ => 3) p := by
  refine ⟨(0, fun a => ⟨1, by have := hsh a; omega⟩), ?_, ?_, ?_⟩ <;> simp

open Classical in
example (lo hi : Fin 3 → ℕ) : Covers (sh := sh) (some fun p => decide (OnBox lo hi p)) (OnBox lo hi) := ⟨_, rfl, fun p hp => by simpa using hp⟩

end Meanas.Props
