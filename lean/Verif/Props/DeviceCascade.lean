/-
C180 (devices in a row, and the position of the ports): how the scattering matrices of C179 combine. The model is that of C179: the fields `e_full` (meanas/fdfd/operators.py:40-96)
sends to zero between two ports, with the modes of `operator_e` (meanas/fdfd/waveguide_2d.py) as waves at the ports. `cascade` is the specification (Redheffer's product); it models no code.
-/
import Verif.Props.DeviceScatteringMatrix
namespace Meanas.Props
open Matrix Complex Wg3 Spec Fdfd

variable {sh : Fin 3 → ℕ} {axis : Fin 3}

section cascade
variable {S S₁ S' : Slices sh axis} {ω : ℂ} {dxes dxes₀ dxes₁ dxes₂ : Dx sh} {d d₁ d' : ℝ} {eps eps₀ eps₁ eps₂ : VField sh ℂ} {mu mu₀ mu₁ mu₂ : Option (VField sh ℂ)}
  {κ κ₁ κ' : Type*} [Fintype κ] [Fintype κ₁] [Fintype κ'] {b : Module.Basis κ ℂ (Wg2.V 2 (sh2 S))} {k : κ → ℂ} {b₁ : Module.Basis κ₁ ℂ (Wg2.V 2 (sh2 S₁))} {k₁ : κ₁ → ℂ}
  {b' : Module.Basis κ' ℂ (Wg2.V 2 (sh2 S'))} {k' : κ' → ℂ} {i j l : ℕ}

/-- What goes out of one device comes into the other. -/
theorem portWaves_swap (hS : FullWindow S) (v : κ → Wg2.V 2 (sh2 S)) (k : κ → ℂ) (t : Bool) {f g : κ → ℂ} {E : VField sh ℂ} :
    SumOfWaves axis j (portWaves S hS dxes₀ d eps₀ v k t) (Sum.elim g f) E ↔ SumOfWaves axis j (portWaves S hS dxes₀ d eps₀ v k !t) (Sum.elim f g) E := by
  refine forall_congr' fun c => forall_congr' fun x => imp_congr_right fun _ => ?_
  rw [Fintype.sum_sum_type, Fintype.sum_sum_type, add_comm]
  cases t <;> rfl

/-- A field scattered by two devices in a row is scattered by each of them. -/
theorem scatters_iff (P : LeadAt S ω dxes eps mu i dxes₀ d eps₀ mu₀ b k) (M : LeadAt S₁ ω dxes eps mu j dxes₁ d₁ eps₁ mu₁ b₁ k₁) (Q : LeadAt S' ω dxes eps mu l dxes₂ d' eps₂ mu₂ b' k')
    (hij : i ≤ j) (hjl : j ≤ l) (s t s' : Bool) {r o : κ → ℂ} {r' o' : κ' → ℂ} {E : VField sh ℂ} :
    ScattersTo ω dxes eps mu axis i l (portWaves S P.guide.full dxes₀ d eps₀ b k s) (portWaves S' Q.guide.full dxes₂ d' eps₂ b' k' s') (Sum.elim r r') (Sum.elim o o') E ↔
      ∃ f g : κ₁ → ℂ,
        ScattersTo ω dxes eps mu axis i j (portWaves S P.guide.full dxes₀ d eps₀ b k s) (portWaves S₁ M.guide.full dxes₁ d₁ eps₁ b₁ k₁ t) (Sum.elim r g) (Sum.elim o f) E ∧
        ScattersTo ω dxes eps mu axis j l (portWaves S₁ M.guide.full dxes₁ d₁ eps₁ b₁ k₁ !t) (portWaves S' Q.guide.full dxes₂ d' eps₂ b' k' s') (Sum.elim f r') (Sum.elim g o') E := by
  constructor
  · rintro ⟨h, h1, h2⟩
    obtain ⟨G, hG, hGE⟩ := continued P Q (hij.trans hjl) s s' h h1 h2
    obtain ⟨u, hu, -⟩ := M.unique t (E := G) fun c x h3 h4 => hG c x (by omega) (by omega)
    have hu' : SumOfWaves axis j (portWaves S₁ M.guide.full dxes₁ d₁ eps₁ b₁ k₁ t) (Sum.elim (fun n => u (.inl n)) fun n => u (.inr n)) E := by
      intro c x hx
      rw [← hGE c x (by omega) (by omega), hu c x hx]
      exact Finset.sum_congr rfl fun n _ => by cases n <;> rfl
    exact ⟨fun n => u (.inr n), fun n => u (.inl n), ⟨fun c x h3 h4 => h c x h3 (by omega), h1, hu'⟩,
      ⟨fun c x h3 h4 => h c x (by omega) h4, (portWaves_swap M.guide.full b₁ k₁ t).1 hu', h2⟩⟩
  · rintro ⟨f, g, ⟨h, h1, -⟩, h', -, h2⟩
    refine ⟨fun c x h3 h4 => ?_, h1, h2⟩
    by_cases hx : (x axis : ℕ) ≤ j
    · exact h c x h3 hx
    · exact h' c x (by omega) h4

/-- Fields of the two devices with the same waves between them are parts of one field. -/
theorem scatters_glue (hj0 : 0 < j) (hl : l + 1 < sh axis) (hij : i ≤ j) (hjl : j ≤ l) {W : κ ⊕ κ → VField sh ℂ} {V V' : κ₁ ⊕ κ₁ → VField sh ℂ} {W' : κ' ⊕ κ' → VField sh ℂ}
    (hV : ∀ f g : κ₁ → ℂ, ∀ E, SumOfWaves axis j V (Sum.elim g f) E ↔ SumOfWaves axis j V' (Sum.elim f g) E) {r o : κ → ℂ} {r' o' : κ' → ℂ} {f g : κ₁ → ℂ} {E F : VField sh ℂ}
    (hE : ScattersTo ω dxes eps mu axis i j W V (Sum.elim r g) (Sum.elim o f) E) (hF : ScattersTo ω dxes eps mu axis j l V' W' (Sum.elim f r') (Sum.elim g o') F) :
    ∃ G, ScattersTo ω dxes eps mu axis i j W V (Sum.elim r g) (Sum.elim o f) G ∧ ScattersTo ω dxes eps mu axis j l V' W' (Sum.elim f r') (Sum.elim g o') G := by
  let G : VField sh ℂ := fun c x => if (x axis : ℕ) < j then E c x else F c x
  have hF1 := (hV f g F).2 hF.2.1
  have same : ∀ c (x : Idx sh), (x axis : ℕ) = j ∨ (x axis : ℕ) = j + 1 → E c x = F c x := fun c x hx => (hE.2.2 c x hx).trans (hF1 c x hx).symm
  have gE : ∀ c (x : Idx sh), (x axis : ℕ) ≤ j + 1 → G c x = E c x := by
    intro c x hx
    show (if _ then _ else _) = _
    split_ifs
    · rfl
    · exact (same c x (by omega)).symm
  have gF : ∀ c (x : Idx sh), j ≤ (x axis : ℕ) → G c x = F c x := fun c x hx => if_neg (by omega)
  refine ⟨G, ⟨fun c x h3 h4 => ?_, fun c x hx => ?_, fun c x hx => ?_⟩, ⟨fun c x h3 h4 => ?_, fun c x hx => ?_, fun c x hx => ?_⟩⟩
  · rw [← hE.1 c x h3 h4]
    exact eFull_planes ω dxes eps mu (a := axis) (by omega) (by omega) fun c y _ _ => gE c y (by omega)
  · rw [gE c x (by omega)]; exact hE.2.1 c x hx
  · rw [gE c x (by omega)]; exact hE.2.2 c x hx
  · rw [← hF.1 c x h3 h4]
    exact eFull_planes ω dxes eps mu (a := axis) (by omega) (by omega) fun c y _ _ => gF c y (by omega)
  · rw [gF c x (by omega)]; exact hF.2.1 c x hx
  · rw [gF c x (by omega)]; exact hF.2.2 c x hx

/-- The scattering matrix of two devices in a row, from their matrices `A` and `B` (Redheffer's product): waves that go back and forth between them are summed up by the inverse. -/
noncomputable def cascade [DecidableEq κ₁] (A : Matrix (κ ⊕ κ₁) (κ ⊕ κ₁) ℂ) (B : Matrix (κ₁ ⊕ κ') (κ₁ ⊕ κ') ℂ) : Matrix (κ ⊕ κ') (κ ⊕ κ') ℂ :=
  let D := (1 - A.toBlocks₂₂ * B.toBlocks₁₁)⁻¹
  fromBlocks (A.toBlocks₁₁ + A.toBlocks₁₂ * B.toBlocks₁₁ * D * A.toBlocks₂₁) (A.toBlocks₁₂ * B.toBlocks₁₂ + A.toBlocks₁₂ * B.toBlocks₁₁ * D * A.toBlocks₂₂ * B.toBlocks₁₂)
    (B.toBlocks₂₁ * D * A.toBlocks₂₁) (B.toBlocks₂₂ + B.toBlocks₂₁ * D * A.toBlocks₂₂ * B.toBlocks₁₂)

theorem blocks_mulVec (A : Matrix (κ ⊕ κ₁) (κ ⊕ κ₁) ℂ) (r : κ → ℂ) (g : κ₁ → ℂ) :
    A *ᵥ Sum.elim r g = Sum.elim (A.toBlocks₁₁ *ᵥ r + A.toBlocks₁₂ *ᵥ g) (A.toBlocks₂₁ *ᵥ r + A.toBlocks₂₂ *ᵥ g) := by
  conv_lhs => rw [← fromBlocks_toBlocks A]
  rw [fromBlocks_mulVec]
  rfl

/-- Elimination of the waves between the devices. -/
theorem cascade_solve [DecidableEq κ₁] {A : Matrix (κ ⊕ κ₁) (κ ⊕ κ₁) ℂ} {B : Matrix (κ₁ ⊕ κ') (κ₁ ⊕ κ') ℂ} (hD : IsUnit (1 - A.toBlocks₂₂ * B.toBlocks₁₁)) {r o : κ → ℂ} {r' o' : κ' → ℂ}
    {f g : κ₁ → ℂ} (h1 : Sum.elim o f = A *ᵥ Sum.elim r g) (h2 : Sum.elim g o' = B *ᵥ Sum.elim f r') : Sum.elim o o' = cascade A B *ᵥ Sum.elim r r' := by
  rw [blocks_mulVec, Sum.elim_eq_iff] at h1 h2
  obtain ⟨ho, hf⟩ := h1
  obtain ⟨hg, ho'⟩ := h2
  have e : (1 - A.toBlocks₂₂ * B.toBlocks₁₁) *ᵥ f = A.toBlocks₂₁ *ᵥ r + A.toBlocks₂₂ *ᵥ (B.toBlocks₁₂ *ᵥ r') := by
    rw [sub_mulVec, one_mulVec, ← mulVec_mulVec, sub_eq_iff_eq_add]
    conv_lhs => rw [hf, hg, mulVec_add]
    abel
  have hf' : f = (1 - A.toBlocks₂₂ * B.toBlocks₁₁)⁻¹ *ᵥ (A.toBlocks₂₁ *ᵥ r + A.toBlocks₂₂ *ᵥ (B.toBlocks₁₂ *ᵥ r')) := by
    rw [← e, mulVec_mulVec, nonsing_inv_mul _ ((isUnit_iff_isUnit_det _).1 hD), one_mulVec]
  rw [cascade, fromBlocks_mulVec]
  simp only [Sum.elim_comp_inl, Sum.elim_comp_inr]
  rw [ho, ho', hg]
  simp only [mulVec_add] at hf'
  generalize (1 - A.toBlocks₂₂ * B.toBlocks₁₁)⁻¹ = D at hf' ⊢
  refine congrArg₂ Sum.elim ?_ ?_
  · rw [mulVec_add, hf']
    simp only [mulVec_add, add_mulVec, mulVec_mulVec, Matrix.mul_assoc]
    abel
  · rw [hf']
    simp only [mulVec_add, add_mulVec, mulVec_mulVec, Matrix.mul_assoc]
    abel

/-- **C180.** Two devices in a row, joined by a guide: if neither traps a field by itself, their combination traps none if and only if the waves between them cannot build up by themselves,
`1 - A₂₂ B₁₁` being invertible, and then its scattering matrix is that of `cascade`. -/
theorem C180_cascade [DecidableEq κ] [DecidableEq κ₁] [DecidableEq κ'] (P : LeadAt S ω dxes eps mu i dxes₀ d eps₀ mu₀ b k) (M : LeadAt S₁ ω dxes eps mu j dxes₁ d₁ eps₁ mu₁ b₁ k₁)
    (Q : LeadAt S' ω dxes eps mu l dxes₂ d' eps₂ mu₂ b' k') (hij : i ≤ j) (hjl : j ≤ l) (s t s' : Bool) {A : Matrix (κ ⊕ κ₁) (κ ⊕ κ₁) ℂ} {B : Matrix (κ₁ ⊕ κ') (κ₁ ⊕ κ') ℂ} :
    let W := portWaves S P.guide.full dxes₀ d eps₀ b k s
    let V := portWaves S₁ M.guide.full dxes₁ d₁ eps₁ b₁ k₁ t
    let V' := portWaves S₁ M.guide.full dxes₁ d₁ eps₁ b₁ k₁ !t
    let W' := portWaves S' Q.guide.full dxes₂ d' eps₂ b' k' s'
    NoTrapped ω dxes eps mu axis i j W V → NoTrapped ω dxes eps mu axis j l V' W' →
    IsScatteringMatrix ω dxes eps mu axis i j W V A → IsScatteringMatrix ω dxes eps mu axis j l V' W' B →
      (NoTrapped ω dxes eps mu axis i l W W' ↔ IsUnit (1 - A.toBlocks₂₂ * B.toBlocks₁₁)) ∧
      (IsUnit (1 - A.toBlocks₂₂ * B.toBlocks₁₁) → IsScatteringMatrix ω dxes eps mu axis i l W W' (cascade A B)) := by
  intro W V V' W' n1 n2 hA hB
  have hl := Q.room; have hj0 := M.inside
  have hswap : ∀ f g : κ₁ → ℂ, ∀ E, SumOfWaves axis j V (Sum.elim g f) E ↔ SumOfWaves axis j V' (Sum.elim f g) E := fun f g E => portWaves_swap M.guide.full b₁ k₁ t
  have ex1 := fun r => ((C179_iff P M hij s t).1 n1 r).1
  have ex2 := fun r => ((C179_iff M Q hjl (!t) s').1 n2 r).1
  obtain ⟨T1, -, u1, a1⟩ := C179_matrix P M hij s t n1
  obtain ⟨T2, -, u2, a2⟩ := C179_matrix M Q hjl (!t) s' n2
  rw [← u1 A hA] at a1
  rw [← u2 B hB] at a2
  have key : NoTrapped ω dxes eps mu axis i l W W' ↔ IsUnit (1 - A.toBlocks₂₂ * B.toBlocks₁₁) := by
    constructor
    · intro hn
      rw [← mulVec_injective_iff_isUnit]
      refine (injective_iff_map_eq_zero (mulVecLin (1 - A.toBlocks₂₂ * B.toBlocks₁₁))).2 fun f hf => ?_
      rw [mulVecLin_apply, sub_mulVec, one_mulVec, ← mulVec_mulVec, sub_eq_zero] at hf
      obtain ⟨o, E, hE⟩ := ex1 (Sum.elim 0 (B.toBlocks₁₁ *ᵥ f))
      obtain ⟨o', F, hF⟩ := ex2 (Sum.elim f 0)
      have e1 := a1 _ _ _ hE
      have e2 := a2 _ _ _ hF
      rw [blocks_mulVec] at e1 e2
      simp only [mulVec_zero, zero_add, add_zero] at e1 e2
      rw [← hf] at e1
      rw [e1] at hE; rw [e2] at hF
      obtain ⟨G, hG⟩ := scatters_glue hj0 (by omega) hij hjl hswap hE hF
      have hG' := (scatters_iff P M Q hij hjl s t s').2 ⟨_, _, hG⟩
      have hz := hn G _ _ hG'.1 hG'.2.1 hG'.2.2
      have := M.zero t (fun c x hx => hz c x (by omega) (by omega)) hG.1.2.2
      funext n
      exact congrFun this (.inr n)
    · intro hu E u u' hE h1 h2
      obtain ⟨f, g, s1, s2⟩ := (scatters_iff P M Q hij hjl s t s' (r := 0) (r' := 0) (o := u) (o' := u')).1 ⟨hE, h1, h2⟩
      have e1 := a1 _ _ _ s1
      have e2 := a2 _ _ _ s2
      rw [blocks_mulVec, Sum.elim_eq_iff] at e1 e2
      simp only [mulVec_zero, zero_add, add_zero] at e1 e2
      have hf : f = 0 := by
        have : (1 - A.toBlocks₂₂ * B.toBlocks₁₁) *ᵥ f = 0 := by
          rw [sub_mulVec, one_mulVec, ← mulVec_mulVec, ← e2.1, ← e1.2, sub_self]
        exact (mulVec_injective_iff_isUnit.2 hu) (this.trans (mulVec_zero _).symm)
      have hg : g = 0 := by rw [e2.1, hf, mulVec_zero]
      subst hf hg
      have z1 := n1 E u 0 s1.1 s1.2.1 s1.2.2
      have z2 := n2 E 0 u' s2.1 s2.2.1 s2.2.2
      intro c x h3 h4
      by_cases hx : (x axis : ℕ) ≤ j
      · exact z1 c x h3 (by omega)
      · exact z2 c x (by omega) h4
  refine ⟨key, fun hu => ?_⟩
  have hn := key.2 hu
  obtain ⟨T, hT, -, aT⟩ := C179_matrix P Q (hij.trans hjl) s s' hn
  have : T = cascade A B := by
    refine ext_of_mulVec_single fun p => ?_
    obtain ⟨o, E, hE⟩ := ((C179_iff P Q (hij.trans hjl) s s').1 hn (Pi.single p 1)).1
    rw [← aT _ _ _ hE]
    have hr : (Pi.single p 1 : κ ⊕ κ' → ℂ) = Sum.elim (fun n => (Pi.single p 1 : κ ⊕ κ' → ℂ) (.inl n)) fun n => (Pi.single p 1 : κ ⊕ κ' → ℂ) (.inr n) := by
      funext q; cases q <;> rfl
    have ho : o = Sum.elim (fun n => o (.inl n)) fun n => o (.inr n) := by funext q; cases q <;> rfl
    obtain ⟨f, g, s1, s2⟩ := (scatters_iff P M Q hij hjl s t s').1 (show ScattersTo ω dxes eps mu axis i l W W' (Sum.elim (fun n => (Pi.single p 1 : κ ⊕ κ' → ℂ) (.inl n)) fun n => (Pi.single p 1 : κ ⊕ κ' → ℂ) (.inr n)) (Sum.elim (fun n => o (.inl n)) fun n => o (.inr n)) E from hE)
    rw [hr, ho]
    exact cascade_solve hu (a1 _ _ _ s1) (a2 _ _ _ s2)
  exact this ▸ hT

/-- Columns of a scattering matrix. -/
theorem isScatteringMatrix_iff [DecidableEq κ] [DecidableEq κ'] {W : κ ⊕ κ → VField sh ℂ} {W' : κ' ⊕ κ' → VField sh ℂ} {T : Matrix (κ ⊕ κ') (κ ⊕ κ') ℂ} :
    IsScatteringMatrix ω dxes eps mu axis i j W W' T ↔ ∀ p, ∃ E, ScattersTo ω dxes eps mu axis i j W W' (fun q => if p = q then 1 else 0) (fun q => T q p) E := Iff.rfl

/-- In a guide a field has the same amplitudes at neighbouring planes. -/
theorem port_step (P : LeadAt S ω dxes eps mu i dxes₀ d eps₀ mu₀ b k) (Q : LeadAt S' ω dxes eps mu j dxes₂ d' eps₂ mu₂ b' k') (Q1 : LeadAt S' ω dxes eps mu (j + 1) dxes₂ d' eps₂ mu₂ b' k')
    (hij : i ≤ j) (s s' : Bool) (r o : κ ⊕ κ' → ℂ) :
    let W := portWaves S P.guide.full dxes₀ d eps₀ b k s
    let W' := portWaves S' Q.guide.full dxes₂ d' eps₂ b' k' s'
    (∀ E, ScattersTo ω dxes eps mu axis i (j + 1) W W' r o E → ScattersTo ω dxes eps mu axis i j W W' r o E) ∧
      ∀ E, ScattersTo ω dxes eps mu axis i j W W' r o E → ∃ F, ScattersTo ω dxes eps mu axis i (j + 1) W W' r o F ∧ ∀ c (x : Idx sh), (x axis : ℕ) ≤ j + 1 → F c x = E c x := by
  intro W W'
  have hP := P.inside; have hR := Q1.room; have hQ0 := Q.inside
  constructor
  · rintro E ⟨h, h1, h2⟩
    refine ⟨fun c x h3 h4 => h c x h3 (by omega), h1, ?_⟩
    obtain ⟨G, hG, hGE⟩ := continued P Q1 (by omega) s s' h h1 h2
    have f1 := FreeOn.congr Q.inside Q.before Q.near (E := G) fun c x h3 h4 => hG c x (by omega) (by omega)
    have f2 := FreeOn.congr Q1.inside Q1.before Q1.near (E := G) fun c x h3 h4 => hG c x (by omega) (by omega)
    have f : FreeOn ω dxes₂ eps₂ mu₂ axis j (j + 2) G := fun c x h3 h4 => by
      by_cases hx : (x axis : ℕ) ≤ j + 1
      · exact f1 c x h3 hx
      · exact f2 c x (by omega) h4
    have hB := Q.guide.waves_free Q.eig Q.cutoff s' (Sum.elim (fun n => r (.inr n)) fun n => o (.inr n)) Q.inside (j := j + 2) (by omega)
    obtain ⟨u, hu, -⟩ := C177_complete Q.guide b' k' Q.eig Q.cutoff Q.edge Q.inside (show j ≤ j + 2 by omega) (by omega) f
    obtain ⟨v, hv, -⟩ := C177_complete Q.guide b' k' Q.eig Q.cutoff Q.edge Q.inside (show j ≤ j + 2 by omega) (by omega) hB
    obtain ⟨w, -, hw⟩ := C177_complete Q.guide b' k' Q.eig Q.cutoff Q.edge (i := j + 1) (j := j + 1) (by omega) le_rfl (by omega) fun c x h3 h4 => f c x (by omega) (by omega)
    have huv : u = v := by
      refine (hw u fun c x h3 h4 => hu c x (by omega) (Or.inl (by omega))).trans (hw v fun c x h3 h4 => ?_).symm
      rw [← hv c x (by omega) (Or.inl (by omega)), hGE c x (by omega) (by omega)]
      exact h2 c x (by omega)
    intro c x hx
    rw [← hGE c x (by omega) (by omega), hu c x (by omega) (Or.inl (by omega)), huv, ← hv c x (by omega) (Or.inl (by omega))]
  · rintro E ⟨h, h1, h2⟩
    let B : VField sh ℂ := fun c x => ∑ n, (Sum.elim (fun n => r (.inr n)) fun n => o (.inr n)) n * W' n c x
    have hB : FreeOn ω dxes eps mu axis (j + 1) (j + 2) B := FreeOn.congr Q1.inside Q1.before.symm Q1.near.symm (Q.guide.waves_free Q.eig Q.cutoff s' _ (by omega) (by omega))
    let F : VField sh ℂ := fun c x => if (x axis : ℕ) ≤ j + 1 then E c x else B c x
    have fE : ∀ c (x : Idx sh), (x axis : ℕ) ≤ j + 1 → F c x = E c x := fun c x hx => if_pos hx
    have fB : ∀ c (x : Idx sh), j ≤ (x axis : ℕ) → F c x = B c x := by
      intro c x hx
      show (if _ then _ else _) = _
      split_ifs
      · exact h2 c x (by omega)
      · rfl
    refine ⟨F, ⟨fun c x h3 h4 => ?_, fun c x hx => ?_, fun c x hx => fB c x (by omega)⟩, fE⟩
    · by_cases hx : (x axis : ℕ) ≤ j
      · rw [← h c x h3 hx]
        exact eFull_planes ω dxes eps mu (a := axis) (by omega) (by omega) fun c y _ _ => fE c y (by omega)
      · rw [← hB c x (by omega) (by omega)]
        exact eFull_planes ω dxes eps mu (a := axis) (by omega) (by omega) fun c y _ _ => fB c y (by omega)
    · rw [fE c x (by omega)]; exact h1 c x hx

/-- The second port can be moved along its guide. -/
theorem port_moved [DecidableEq κ] [DecidableEq κ'] (P : LeadAt S ω dxes eps mu i dxes₀ d eps₀ mu₀ b k) {hS' : FullWindow S'} (hij : i ≤ j) (hjl : j ≤ l)
    (Q : ∀ m, j ≤ m → m ≤ l → LeadAt S' ω dxes eps mu m dxes₂ d' eps₂ mu₂ b' k') (s s' : Bool) (T : Matrix (κ ⊕ κ') (κ ⊕ κ') ℂ) :
    let W := portWaves S P.guide.full dxes₀ d eps₀ b k s
    let W' := portWaves S' hS' dxes₂ d' eps₂ b' k' s'
    (NoTrapped ω dxes eps mu axis i j W W' ↔ NoTrapped ω dxes eps mu axis i l W W') ∧
      (IsScatteringMatrix ω dxes eps mu axis i j W W' T ↔ IsScatteringMatrix ω dxes eps mu axis i l W W' T) := by
  intro W W'
  induction l, hjl using Nat.le_induction with
  | base => exact ⟨Iff.rfl, Iff.rfl⟩
  | succ m hm ih =>
    have ih := ih fun n h1 h2 => Q n h1 (by omega)
    have st := fun r o => port_step P (Q m hm (by omega)) (Q (m + 1) (by omega) le_rfl) (by omega) s s' r o
    refine ⟨ih.1.trans ⟨fun hn => ?_, fun hn => ?_⟩, ih.2.trans ⟨fun hs p => ?_, fun hs p => ?_⟩⟩
    · intro E u u' hE h1 h2
      have hz := (st (Sum.elim 0 0) (Sum.elim u u')).1 E ⟨hE, h1, h2⟩
      have z := hn E u u' hz.1 hz.2.1 hz.2.2
      have hu' : Sum.elim (0 : κ' → ℂ) u' = 0 := (Q m hm (by omega)).zero s' (fun c x hx => z c x (by omega) (by omega)) hz.2.2
      intro c x h3 h4
      by_cases hx : (x axis : ℕ) ≤ m + 1
      · exact z c x h3 hx
      · rw [h2 c x (by omega), hu']
        simp
    · intro E u u' hE h1 h2
      obtain ⟨F, hF, hFE⟩ := (st (Sum.elim 0 0) (Sum.elim u u')).2 E ⟨hE, h1, h2⟩
      have z := hn F u u' hF.1 hF.2.1 hF.2.2
      intro c x h3 h4
      rw [← hFE c x h4]; exact z c x h3 (by omega)
    · obtain ⟨E, hE⟩ := isScatteringMatrix_iff.1 hs p
      obtain ⟨F, hF, -⟩ := (st _ _).2 E hE
      exact ⟨F, hF⟩
    · obtain ⟨E, hE⟩ := isScatteringMatrix_iff.1 hs p
      exact ⟨E, (st _ _).1 E hE⟩

/-- A piece of guide of length zero. -/
theorem port_pair [DecidableEq κ] (P : LeadAt S ω dxes eps mu i dxes₀ d eps₀ mu₀ b k) (s : Bool) :
    let W := portWaves S P.guide.full dxes₀ d eps₀ b k
    NoTrapped ω dxes eps mu axis i i (W s) (W !s) ∧ IsScatteringMatrix ω dxes eps mu axis i i (W s) (W !s) (fromBlocks 0 1 1 0) := by
  intro W
  refine ⟨fun E u u' hE h1 h2 => ?_, fun p => ?_⟩
  · obtain ⟨G, hG, hGE⟩ := continued P P le_rfl s (!s) hE h1 h2
    obtain ⟨w, -, hw⟩ := P.unique s (E := G) hG
    have h1G : SumOfWaves axis i (W s) (Sum.elim 0 u) G := fun c x hx => (hGE c x (by omega) (by omega)).trans (h1 c x hx)
    have h2G : SumOfWaves axis i (W s) (Sum.elim u' 0) G := (portWaves_swap P.guide.full b k s).2 fun c x hx => (hGE c x (by omega) (by omega)).trans (h2 c x hx)
    have h := (hw _ h1G).trans (hw _ h2G).symm
    have hu : u = 0 := by funext n; exact congrFun h (.inr n)
    intro c x h3 h4
    rw [h1 c x (by omega), hu]
    exact Finset.sum_eq_zero fun n _ => by cases n <;> simp
  · rcases p with n | n
    · refine ⟨W s (.inl n), fun c x h3 h4 => by omega, fun c x _ => ?_, fun c x _ => ?_⟩
      · rw [Fintype.sum_sum_type]; simp
      · rw [Fintype.sum_sum_type]; simp [one_apply]; cases s <;> rfl
    · refine ⟨W s (.inr n), fun c x h3 h4 => by omega, fun c x _ => ?_, fun c x _ => ?_⟩
      · rw [Fintype.sum_sum_type]; simp [one_apply]
      · rw [Fintype.sum_sum_type]; simp; cases s <;> rfl

omit [Fintype κ'] in
theorem cascade_straight [DecidableEq κ₁] (B : Matrix (κ₁ ⊕ κ') (κ₁ ⊕ κ') ℂ) : cascade (fromBlocks 0 1 1 0 : Matrix (κ₁ ⊕ κ₁) (κ₁ ⊕ κ₁) ℂ) B = B := by
  conv_rhs => rw [← fromBlocks_toBlocks B]
  simp [cascade]

/-- The same at the first port. -/
theorem port_step_left {h : ℕ} (P0 : LeadAt S ω dxes eps mu h dxes₀ d eps₀ mu₀ b k) (P : LeadAt S ω dxes eps mu (h + 1) dxes₀ d eps₀ mu₀ b k)
    (Q : LeadAt S' ω dxes eps mu j dxes₂ d' eps₂ mu₂ b' k') (hij : h + 1 ≤ j) (s s' : Bool) (r o : κ ⊕ κ' → ℂ) :
    let W := portWaves S P.guide.full dxes₀ d eps₀ b k s
    let W' := portWaves S' Q.guide.full dxes₂ d' eps₂ b' k' s'
    (∀ E, ScattersTo ω dxes eps mu axis h j W W' r o E → ScattersTo ω dxes eps mu axis (h + 1) j W W' r o E) ∧
      ∀ E, ScattersTo ω dxes eps mu axis (h + 1) j W W' r o E →
        ∃ F, ScattersTo ω dxes eps mu axis h j W W' r o F ∧ ∀ c (x : Idx sh), h + 1 ≤ (x axis : ℕ) → F c x = E c x := by
  intro W W'
  have hP := P0.inside; have hR := P.room; have hQR := Q.room
  constructor
  · rintro E ⟨hE, h1, h2⟩
    refine ⟨fun c x h3 h4 => hE c x (by omega) h4, ?_, h2⟩
    obtain ⟨G, hG, hGE⟩ := continued P0 Q (by omega) s s' hE h1 h2
    have f1 := FreeOn.congr P0.inside P0.before P0.near (E := G) fun c x h3 h4 => hG c x (by omega) (by omega)
    have f2 := FreeOn.congr P.inside P.before P.near (E := G) fun c x h3 h4 => hG c x (by omega) (by omega)
    have f : FreeOn ω dxes₀ eps₀ mu₀ axis h (h + 2) G := fun c x h3 h4 => by
      by_cases hx : (x axis : ℕ) ≤ h + 1
      · exact f1 c x h3 hx
      · exact f2 c x (by omega) h4
    have hB := P.guide.waves_free P.eig P.cutoff s (Sum.elim (fun n => r (.inl n)) fun n => o (.inl n)) P0.inside (j := h + 2) (by omega)
    obtain ⟨u, hu, -⟩ := C177_complete P.guide b k P.eig P.cutoff P.edge P0.inside (show h ≤ h + 2 by omega) (by omega) f
    obtain ⟨v, hv, -⟩ := C177_complete P.guide b k P.eig P.cutoff P.edge P0.inside (show h ≤ h + 2 by omega) (by omega) hB
    obtain ⟨w, -, hw⟩ := C177_complete P.guide b k P.eig P.cutoff P.edge (i := h) (j := h) P0.inside le_rfl (by omega) fun c x h3 h4 => f c x (by omega) (by omega)
    have huv : u = v := by
      refine (hw u fun c x h3 h4 => hu c x (by omega) (Or.inl (by omega))).trans (hw v fun c x h3 h4 => ?_).symm
      rw [← hv c x (by omega) (Or.inl (by omega)), hGE c x (by omega) (by omega)]
      exact h1 c x (by omega)
    intro c x hx
    rw [← hGE c x (by omega) (by omega), hu c x (by omega) (Or.inl (by omega)), huv, ← hv c x (by omega) (Or.inl (by omega))]
  · rintro E ⟨hE, h1, h2⟩
    let B : VField sh ℂ := fun c x => ∑ n, (Sum.elim (fun n => r (.inl n)) fun n => o (.inl n)) n * W n c x
    have hB : FreeOn ω dxes eps mu axis (h + 1) (h + 2) B := FreeOn.congr P.inside P.before.symm P.near.symm (P.guide.waves_free P.eig P.cutoff s _ (by omega) (by omega))
    let F : VField sh ℂ := fun c x => if h + 1 ≤ (x axis : ℕ) then E c x else B c x
    have fE : ∀ c (x : Idx sh), h + 1 ≤ (x axis : ℕ) → F c x = E c x := fun c x hx => if_pos hx
    have fB : ∀ c (x : Idx sh), (x axis : ℕ) ≤ h + 2 → F c x = B c x := by
      intro c x hx
      show (if _ then _ else _) = _
      split_ifs
      · exact h1 c x (by omega)
      · rfl
    refine ⟨F, ⟨fun c x h3 h4 => ?_, fun c x hx => fB c x (by omega), fun c x hx => ?_⟩, fE⟩
    · by_cases hx : h + 2 ≤ (x axis : ℕ)
      · rw [← hE c x (by omega) h4]
        exact eFull_planes ω dxes eps mu (a := axis) (by omega) (by omega) fun c y _ _ => fE c y (by omega)
      · rw [← hB c x (by omega) (by omega)]
        exact eFull_planes ω dxes eps mu (a := axis) (by omega) (by omega) fun c y _ _ => fB c y (by omega)
    · rw [fE c x (by omega)]; exact h2 c x hx

/-- The first port can be moved along its guide. -/
theorem port_moved_left [DecidableEq κ] [DecidableEq κ'] {h : ℕ} {hS : FullWindow S} (Q : LeadAt S' ω dxes eps mu j dxes₂ d' eps₂ mu₂ b' k') (hhi : h ≤ i) (hij : i ≤ j)
    (P : ∀ m, h ≤ m → m ≤ i → LeadAt S ω dxes eps mu m dxes₀ d eps₀ mu₀ b k) (s s' : Bool) (T : Matrix (κ ⊕ κ') (κ ⊕ κ') ℂ) :
    let W := portWaves S hS dxes₀ d eps₀ b k s
    let W' := portWaves S' Q.guide.full dxes₂ d' eps₂ b' k' s'
    (NoTrapped ω dxes eps mu axis h j W W' ↔ NoTrapped ω dxes eps mu axis i j W W') ∧
      (IsScatteringMatrix ω dxes eps mu axis h j W W' T ↔ IsScatteringMatrix ω dxes eps mu axis i j W W' T) := by
  intro W W'
  induction i, hhi using Nat.le_induction with
  | base => exact ⟨Iff.rfl, Iff.rfl⟩
  | succ m hm ih =>
    have ih := ih (by omega) fun n h1 h2 => P n h1 (by omega)
    have st := fun r o => port_step_left (P m hm (by omega)) (P (m + 1) (by omega) le_rfl) Q hij s s' r o
    refine ⟨ih.1.trans ⟨fun hn => ?_, fun hn => ?_⟩, ih.2.trans ⟨fun hs p => ?_, fun hs p => ?_⟩⟩
    · intro E u u' hE h1 h2
      obtain ⟨F, hF, hFE⟩ := (st (Sum.elim 0 0) (Sum.elim u u')).2 E ⟨hE, h1, h2⟩
      have z := hn F u u' hF.1 hF.2.1 hF.2.2
      intro c x h3 h4
      rw [← hFE c x h3]; exact z c x (by omega) h4
    · intro E u u' hE h1 h2
      have hz := (st (Sum.elim 0 0) (Sum.elim u u')).1 E ⟨hE, h1, h2⟩
      have z := hn E u u' hz.1 hz.2.1 hz.2.2
      have hu : Sum.elim (0 : κ → ℂ) u = 0 := (P (m + 1) (by omega) le_rfl).zero s (fun c x hx => z c x (by omega) (by omega)) hz.2.1
      intro c x h3 h4
      by_cases hx : m + 1 ≤ (x axis : ℕ)
      · exact z c x hx h4
      · rw [h1 c x (by omega), hu]
        simp
    · obtain ⟨E, hE⟩ := isScatteringMatrix_iff.1 hs p
      exact ⟨E, (st _ _).1 E hE⟩
    · obtain ⟨E, hE⟩ := isScatteringMatrix_iff.1 hs p
      obtain ⟨F, hF, -⟩ := (st _ _).2 E hE
      exact ⟨F, hF⟩

/-- **C180.** The position of a port does not matter: both ports of a device can be moved along their guides, outwards or inwards (the waves carry their phases with them), and trapped fields and the
scattering matrix stay the same. -/
theorem C180_ports_moved [DecidableEq κ] [DecidableEq κ'] {hS : FullWindow S} {hS' : FullWindow S'} {h : ℕ} (hhi : h ≤ i) (hij : i ≤ j) (hjl : j ≤ l)
    (P : ∀ m, h ≤ m → m ≤ i → LeadAt S ω dxes eps mu m dxes₀ d eps₀ mu₀ b k) (Q : ∀ m, j ≤ m → m ≤ l → LeadAt S' ω dxes eps mu m dxes₂ d' eps₂ mu₂ b' k') (s s' : Bool)
    (T : Matrix (κ ⊕ κ') (κ ⊕ κ') ℂ) :
    let W := portWaves S hS dxes₀ d eps₀ b k s
    let W' := portWaves S' hS' dxes₂ d' eps₂ b' k' s'
    (NoTrapped ω dxes eps mu axis i j W W' ↔ NoTrapped ω dxes eps mu axis h l W W') ∧
      (IsScatteringMatrix ω dxes eps mu axis i j W W' T ↔ IsScatteringMatrix ω dxes eps mu axis h l W W' T) := by
  intro W W'
  have m1 := port_moved (P i hhi le_rfl) hij hjl Q (hS' := hS') s s' T
  have m2 := port_moved_left (Q l hjl le_rfl) hhi (hij.trans hjl) P (hS := hS) s s' T
  exact ⟨m1.1.trans m2.1.symm, m1.2.trans m2.2.symm⟩

omit [Fintype κ'] in
/-- **C180.** A piece of guide inside a device, of any length: it traps nothing and passes every wave; and joined to a device it leaves the scattering matrix as it is. -/
theorem C180_straight [DecidableEq κ] (hij : i ≤ j) {hS : FullWindow S} (P : ∀ m, i ≤ m → m ≤ j → LeadAt S ω dxes eps mu m dxes₀ d eps₀ mu₀ b k) (s : Bool) :
    let W := portWaves S hS dxes₀ d eps₀ b k
    NoTrapped ω dxes eps mu axis i j (W s) (W !s) ∧ IsScatteringMatrix ω dxes eps mu axis i j (W s) (W !s) (fromBlocks 0 1 1 0) ∧
      ∀ B : Matrix (κ ⊕ κ') (κ ⊕ κ') ℂ, cascade (fromBlocks 0 1 1 0 : Matrix (κ ⊕ κ) (κ ⊕ κ) ℂ) B = B := by
  intro W
  have z := port_pair (P i le_rfl hij) s
  have m := port_moved (P i le_rfl hij) le_rfl hij P (hS' := hS) s (!s) (fromBlocks 0 1 1 0)
  exact ⟨m.1.1 z.1, m.2.1 z.2, cascade_straight⟩

end cascade

/-- The hypotheses of `C180_cascade` can be met: pieces of a straight guide of vacuum of any cross-section. -/
example (S : Slices sh axis) (hS : FullWindow S) {i j l : ℕ} (hi : 0 < i) (hij : i ≤ j) (hjl : j ≤ l) (hl : l + 2 < sh axis) :
    ∃ (b : Module.Basis (Fin 2 × Idx (sh2 S)) ℂ (Wg2.V 2 (sh2 S))) (k : Fin 2 × Idx (sh2 S) → ℂ)
      (_ : ∀ m, i ≤ m → m ≤ l → LeadAt S 4 (fun _ _ => 1, fun _ _ => 1) (fun _ _ => 1) none m (fun _ _ => 1, fun _ _ => 1) 1 (fun _ _ => 1) none b k),
      let W := portWaves S hS ((fun _ _ => 1, fun _ _ => 1) : Dx sh) 1 (fun _ _ => 1) b k
      NoTrapped 4 (fun _ _ => 1, fun _ _ => 1) (fun _ _ => 1) none axis i j (W true) (W false) ∧
      NoTrapped 4 (fun _ _ => 1, fun _ _ => 1) (fun _ _ => 1) none axis j l (W true) (W false) ∧
      IsScatteringMatrix 4 (fun _ _ => 1, fun _ _ => 1) (fun _ _ => 1) none axis i j (W true) (W false) (fromBlocks 0 1 1 0) ∧
      IsScatteringMatrix 4 (fun _ _ => 1, fun _ _ => 1) (fun _ _ => 1) none axis j l (W true) (W false) (fromBlocks 0 1 1 0) := by
  obtain ⟨U, b, k, h1, h2, h3⟩ := vacuum_section S hS
  have P : ∀ m, i ≤ m → m ≤ l → LeadAt S 4 (fun _ _ => 1, fun _ _ => 1) (fun _ _ => 1) none m (fun _ _ => 1, fun _ _ => 1) 1 (fun _ _ => 1) none b k := fun m h4 h5 =>
    ⟨U, h1, h2, h3, by omega, by omega, SameNear.refl .., SameNear.refl ..⟩
  have a := C180_straight (κ' := Unit) hij (hS := hS) (fun m h4 h5 => P m h4 (by omega)) true
  have c := C180_straight (κ' := Unit) hjl (hS := hS) (fun m h4 h5 => P m (by omega) h5) true
  exact ⟨b, k, P, a.1, c.1, a.2.1, c.2.1⟩

end Meanas.Props
