/-
C179 (the scattering matrix of a device between two waveguides exists and is unique).
-/
import Verif.Props.PortAmplitudes
namespace Meanas.Props
open Matrix Complex Wg3 Spec Fdfd

variable {sh : Fin 3 → ℕ} {axis : Fin 3}

/-- No trapped field: a field without currents between the ports that has no incoming wave at either port vanishes, from the first port to the second. -/
def NoTrapped (ω : ℂ) (dxes : Dx sh) (eps : VField sh ℂ) (mu : Option (VField sh ℂ)) (a : Fin 3) (i j : ℕ) {κ κ' : Type*} [Fintype κ] [Fintype κ']
    (W : κ ⊕ κ → VField sh ℂ) (W' : κ' ⊕ κ' → VField sh ℂ) : Prop :=
  ∀ (E : VField sh ℂ) (u : κ → ℂ) (u' : κ' → ℂ),
    (∀ c (x : Idx sh), i < (x a : ℕ) → (x a : ℕ) ≤ j → (eFull ω dxes (vecS eps) (mu.map vecS) none none *ᵥ vecS E) (c, x) = 0) →
    SumOfWaves a i W (Sum.elim 0 u) E → SumOfWaves a j W' (Sum.elim 0 u') E → ∀ c (x : Idx sh), i ≤ (x a : ℕ) → (x a : ℕ) ≤ j + 1 → E c x = 0

/-- The modes of a guide as channels of a port: those that travel in direction `s` come in, the others go out. -/
noncomputable def portWaves (S : Slices sh axis) (hS : FullWindow S) (dxes : Dx sh) (d : ℝ) (eps : VField sh ℂ) {κ : Type*} (v : κ → Wg2.V 2 (sh2 S)) (k : κ → ℂ) (s : Bool) :
    κ ⊕ κ → VField sh ℂ :=
  Sum.elim (fun n => guideWave S hS (profile S dxes eps (k n) (v n)) (halfFactor (k n) d s)) fun n => guideWave S hS (profile S dxes eps (k n) (v n)) (halfFactor (k n) d !s)

theorem SumOfWaves.lin {ι : Type*} [Fintype ι] {a : Fin 3} {i : ℕ} {W : ι → VField sh ℂ} {u v : ι → ℂ} {E F : VField sh ℂ} (r : ℂ) (hE : SumOfWaves a i W u E)
    (hF : SumOfWaves a i W v F) : SumOfWaves a i W (u + r • v) (E + r • F) := by
  intro c x hx
  show E c x + r * F c x = _
  rw [hE c x hx, hF c x hx, Finset.mul_sum, ← Finset.sum_add_distrib]
  refine Finset.sum_congr rfl fun n _ => ?_
  show _ = (u n + r * v n) * W n c x
  ring

theorem elim_sub {ι : Type*} (f g g' : ι → ℂ) : Sum.elim f g + (-1 : ℂ) • Sum.elim f g' = Sum.elim (0 : ι → ℂ) (g - g') := by
  funext p
  rcases p with n | n <;> simp [sub_eq_add_neg]

section lead
variable {S : Slices sh axis} {ω : ℂ} {dxes₀ : Dx sh} {d : ℝ} {eps₀ : VField sh ℂ} {mu₀ : Option (VField sh ℂ)} (U : UniformSection S ω dxes₀ d eps₀ mu₀)
  {κ : Type*} [Fintype κ] (b : Module.Basis κ ℂ (Wg2.V 2 (sh2 S))) (k : κ → ℂ)
include U

theorem port_unique (eig : ∀ n, sectionOp S ω dxes₀ eps₀ mu₀ *ᵥ b n = k n ^ 2 • b n)
    (hk : ∀ n, k n ≠ 0) (hk2 : ∀ n, (k n * d) ^ 2 ≠ 4) {dxes : Dx sh} {eps : VField sh ℂ} {mu : Option (VField sh ℂ)} {i : ℕ} (hi : 0 < i) (hi2 : i + 2 < sh axis)
    (M' : SameNear axis (i - 1) dxes eps mu dxes₀ eps₀ mu₀) (M : SameNear axis i dxes eps mu dxes₀ eps₀ mu₀) (s : Bool)
    {E : VField sh ℂ} (hE : FreeOn ω dxes eps mu axis i (i + 1) E) : ∃! u : κ ⊕ κ → ℂ, SumOfWaves axis i (portWaves S U.full dxes₀ d eps₀ b k s) u E := by
  obtain ⟨u, hu, huniq⟩ := (C177_port U b k eig hk hk2 hi hi2 M' M).2 E hE
  have conv : ∀ v : κ ⊕ κ → ℂ, ∀ c x, ∑ n, v n * portWaves S U.full dxes₀ d eps₀ b k s n c x
      = ∑ q : κ × Bool, (if q.2 = s then v (.inl q.1) else v (.inr q.1)) * guideWave S U.full (profile S dxes₀ eps₀ (k q.1) (b q.1)) (halfFactor (k q.1) d q.2) c x := by
    intro v c x
    rw [Fintype.sum_sum_type, Fintype.sum_prod_type, ← Finset.sum_add_distrib]
    refine Finset.sum_congr rfl fun n _ => ?_
    rw [Fintype.sum_bool]
    cases s
    · simp only [portWaves, Sum.elim_inl, Sum.elim_inr, Bool.not_false, Bool.true_eq_false, if_false, if_true]; ring
    · simp only [portWaves, Sum.elim_inl, Sum.elim_inr, Bool.not_true, Bool.false_eq_true, if_false, if_true]
  refine ⟨Sum.elim (fun n => u (n, s)) fun n => u (n, !s), fun c x hx => ?_, fun v hv => ?_⟩
  · rw [conv, hu c x hx]
    refine Finset.sum_congr rfl fun q _ => ?_
    obtain ⟨n, t⟩ := q
    cases s <;> cases t <;> simp
  · have := huniq (fun q => if q.2 = s then v (.inl q.1) else v (.inr q.1)) fun c x hx => by rw [hv c x hx, conv]
    funext p
    rcases p with n | n
    · rw [Sum.elim_inl, ← this]; simp
    · rw [Sum.elim_inr, ← this]; cases s <;> simp

/-- A free field that vanishes on two planes has no transverse H before them. -/
theorem UniformSection.zero_h {F : VField sh ℂ} {i : ℕ} (hi2 : i + 2 < sh axis)
    (free : ∀ c, ∀ x : Idx sh, (x axis : ℕ) = i + 1 → (eFull ω dxes₀ (vecS eps₀) (mu₀.map vecS) none none *ᵥ vecS F) (c, x) = 0)
    (hF : ∀ c (x : Idx sh), (x axis : ℕ) = i + 1 ∨ (x axis : ℕ) = i + 2 → F c x = 0)
    {c : Fin 3} (hc : c ≠ axis) (x : Idx sh) (hx : (x axis : ℕ) = i) : hField ω dxes₀ mu₀ F c x = 0 := by
  have a1 : axis + 1 ≠ axis := (ne_1 axis).symm
  have a2 : axis + 2 ≠ axis := (ne_2 axis).symm
  have hdc : (d : ℂ) ≠ 0 := ofReal_ne_zero.2 U.hd
  let H := hField ω dxes₀ mu₀ F
  have hH : ∀ c (y : Idx sh), (y axis : ℕ) = i + 1 → H c y = 0 := by
    intro c y hy
    show hField ω dxes₀ mu₀ F c y = 0
    rw [hField_apply, curlForward_local (some dxes₀.1) (some dxes₀.1) F 0 y (fun _ => rfl) (fun c => hF c y (Or.inl hy)) (fun c b => ?_) c]
    · rw [show Functional.curlForward (some dxes₀.1) (0 : VField sh ℂ) c y = 0 from ?_, zero_div, zero_div]
      have : ∀ b, gradForward (some dxes₀.1) (0 : Arr sh ℂ) b y = 0 := fun b => by unfold gradForward; simp
      rcases fin3_cases axis c with h | h | h
      · rw [h, curlF_0]; exact (congrArg₂ _ (this _) (this _)).trans (sub_zero 0)
      · rw [h, curlF_1]; exact (congrArg₂ _ (this _) (this _)).trans (sub_zero 0)
      · rw [h, curlF_2]; exact (congrArg₂ _ (this _) (this _)).trans (sub_zero 0)
    · refine hF c _ ?_
      by_cases hb : b = axis
      · rw [hb, plane_shift_val (by omega), hy]; exact Or.inr rfl
      · rw [shiftIdx_of_ne (Ne.symm hb)]; exact Or.inl hy
  have hy : ((shiftIdx axis 1 x axis : Fin _) : ℕ) = i + 1 := by rw [plane_shift_val (by omega), hx]
  have hback : shiftIdx axis (-1) (shiftIdx axis 1 x) = x := by simp
  have tr : ∀ c b, b ≠ axis → gradBack (some dxes₀.2) (H c) b (shiftIdx axis 1 x) = 0 := by
    intro c b hb
    unfold gradBack
    rw [hH c _ hy, hH c _ (by rw [shiftIdx_of_ne (Ne.symm hb)]; exact hy)]
    simp
  have ax : ∀ c, gradBack (some dxes₀.2) (H c) axis (shiftIdx axis 1 x) = 0 → H c x = 0 := by
    intro c h
    unfold gradBack at h
    rw [hH c _ hy, hback, zero_sub, wOf_some, U.dH] at h
    exact neg_eq_zero.1 ((div_eq_zero_iff.1 h).resolve_right hdc)
  have am : ∀ c, Functional.curlBack (some dxes₀.2) H c (shiftIdx axis 1 x) = 0 := fun c => by
    have := ampere_of_free U.hω (free c _ hy)
    rw [hF c _ (Or.inl hy), mul_zero] at this
    exact this
  rcases fin3_cases axis c with h | h | h
  · exact absurd h hc
  · have := am (axis + 2)
    rw [curlB_2, tr _ _ a1, sub_zero] at this
    rw [h]; exact ax _ this
  · have := am (axis + 1)
    rw [curlB_1, tr _ _ a2, zero_sub, neg_eq_zero] at this
    rw [h]; exact ax _ this

/-- A free field that vanishes on two planes and has no axial part on the plane before vanishes there. -/
theorem UniformSection.zero_before {F : VField sh ℂ} {i : ℕ} (hi2 : i + 2 < sh axis)
    (free : ∀ c, ∀ x : Idx sh, (x axis : ℕ) = i + 1 → (eFull ω dxes₀ (vecS eps₀) (mu₀.map vecS) none none *ᵥ vecS F) (c, x) = 0)
    (hF : ∀ c (x : Idx sh), (x axis : ℕ) = i + 1 ∨ (x axis : ℕ) = i + 2 → F c x = 0) (hax : ∀ x : Idx sh, (x axis : ℕ) = i → F axis x = 0)
    {c : Fin 3} (hc : c ≠ axis) (x : Idx sh) (hx : (x axis : ℕ) = i) : F c x = 0 := by
  have a1 : axis + 1 ≠ axis := (ne_1 axis).symm
  have a2 : axis + 2 ≠ axis := (ne_2 axis).symm
  have hdc : (d : ℂ) ≠ 0 := ofReal_ne_zero.2 U.hd
  have hHx : ∀ c, c ≠ axis → hField ω dxes₀ mu₀ F c x = 0 := fun c hc => U.zero_h hi2 free hF hc x hx
  have hy : ((shiftIdx axis 1 x axis : Fin _) : ℕ) = i + 1 := by rw [plane_shift_val (by omega), hx]
  have gf : ∀ b, gradForward (some dxes₀.1) (F b) axis x = -F b x / d := by
    intro b
    unfold gradForward
    rw [hF b _ (Or.inl hy), zero_sub, wOf_some, U.dE]
  have gt : ∀ b, b ≠ axis → gradForward (some dxes₀.1) (F axis) b x = 0 := by
    intro b hb
    unfold gradForward
    rw [hax x hx, hax _ (by rw [shiftIdx_of_ne (Ne.symm hb)]; exact hx)]
    simp
  rcases fin3_cases axis c with h | h | h
  · exact absurd h hc
  · have z := U.far F (axis + 2) x
    rw [curlF_2, gf, gt _ a1, sub_zero, show hField ω dxes₀ mu₀ F (axis + 2) x = 0 from hHx _ a2, mul_zero] at z
    rw [h]; exact neg_eq_zero.1 ((div_eq_zero_iff.1 z).resolve_right hdc)
  · have z := U.far F (axis + 1) x
    rw [curlF_1, gf, gt _ a2, show hField ω dxes₀ mu₀ F (axis + 1) x = 0 from hHx _ a1, mul_zero, zero_sub, neg_eq_zero] at z
    rw [h]; exact neg_eq_zero.1 ((div_eq_zero_iff.1 z).resolve_right hdc)

end lead

/-- A port of a device: next to plane `i` (planes `i - 1 ... i + 1`) the device looks like a uniform guide whose modes form a basis, none at cutoff. -/
structure LeadAt (S : Slices sh axis) (ω : ℂ) (dxes : Dx sh) (eps : VField sh ℂ) (mu : Option (VField sh ℂ)) (i : ℕ) (dxes₀ : Dx sh) (d : ℝ) (eps₀ : VField sh ℂ)
    (mu₀ : Option (VField sh ℂ)) {κ : Type*} (b : Module.Basis κ ℂ (Wg2.V 2 (sh2 S))) (k : κ → ℂ) : Prop where
  guide : UniformSection S ω dxes₀ d eps₀ mu₀
  eig : ∀ n, sectionOp S ω dxes₀ eps₀ mu₀ *ᵥ b n = k n ^ 2 • b n
  cutoff : ∀ n, k n ≠ 0
  edge : ∀ n, (k n * d) ^ 2 ≠ 4
  inside : 0 < i
  room : i + 2 < sh axis
  before : SameNear axis (i - 1) dxes eps mu dxes₀ eps₀ mu₀
  near : SameNear axis i dxes eps mu dxes₀ eps₀ mu₀

section device
variable {S S' : Slices sh axis} {ω : ℂ} {dxes dxes₀ dxes₁ : Dx sh} {d d' : ℝ} {eps eps₀ eps₁ : VField sh ℂ} {mu mu₀ mu₁ : Option (VField sh ℂ)}
  {κ κ' : Type*} [Fintype κ] [Fintype κ'] {b : Module.Basis κ ℂ (Wg2.V 2 (sh2 S))} {k : κ → ℂ} {b' : Module.Basis κ' ℂ (Wg2.V 2 (sh2 S'))} {k' : κ' → ℂ} {i j : ℕ}

theorem LeadAt.unique (P : LeadAt S ω dxes eps mu i dxes₀ d eps₀ mu₀ b k) (s : Bool) {E : VField sh ℂ} (hE : FreeOn ω dxes eps mu axis i (i + 1) E) :
    ∃! u : κ ⊕ κ → ℂ, SumOfWaves axis i (portWaves S P.guide.full dxes₀ d eps₀ b k s) u E :=
  port_unique P.guide b k P.eig P.cutoff P.edge P.inside P.room P.before P.near s hE

/-- A field that vanishes at the port has no waves there. -/
theorem LeadAt.zero (P : LeadAt S ω dxes eps mu i dxes₀ d eps₀ mu₀ b k) (s : Bool) {u : κ ⊕ κ → ℂ} {E : VField sh ℂ}
    (hE : ∀ c (x : Idx sh), (x axis : ℕ) = i ∨ (x axis : ℕ) = i + 1 → E c x = 0) (h : SumOfWaves axis i (portWaves S P.guide.full dxes₀ d eps₀ b k s) u E) : u = 0 := by
  obtain ⟨w, -, hw⟩ := P.unique s (E := 0) fun c x _ _ => by
    rw [show vecS (0 : VField sh ℂ) = 0 from rfl, mulVec_zero]; rfl
  exact (hw u fun c x hx => by rw [← h c x hx, hE c x hx]; rfl).trans (hw 0 fun c x hx => by simp).symm

/-- The component `c` of a transverse field. -/
def pickT (a : Fin 3) {s2 : Fin 2 → ℕ} (v : Wg2.V 2 s2) (c : Fin 3) (y : Idx s2) : ℂ := if c = a then 0 else if c = a + 1 then v (0, y) else v (1, y)

/-- The positions between the ports. -/
abbrev Between (axis : Fin 3) (sh : Fin 3 → ℕ) (i j : ℕ) := {q : Pos sh // i ≤ (q.2 axis : ℕ) ∧ (q.2 axis : ℕ) ≤ j}

/-- The field with given values on the planes `i ... j` and given transverse parts on the planes next to them. -/
noncomputable def fillIn (hS : FullWindow S) (hS' : FullWindow S') (i j : ℕ) : ((Between axis sh i j → ℂ) × Wg2.V 2 (sh2 S) × Wg2.V 2 (sh2 S')) →ₗ[ℂ] (Pos sh → ℂ) where
  toFun t q := if h : i ≤ (q.2 axis : ℕ) ∧ (q.2 axis : ℕ) ≤ j then t.1 ⟨q, h⟩ else if (q.2 axis : ℕ) + 1 = i then pickT axis t.2.1 q.1 (projT S hS q.2)
    else if (q.2 axis : ℕ) = j + 1 then pickT axis t.2.2 q.1 (projT S' hS' q.2) else 0
  map_add' s t := by
    funext q
    simp only [Pi.add_apply, Prod.fst_add, Prod.snd_add, pickT]
    split_ifs <;> simp
  map_smul' r t := by
    funext q
    simp only [Pi.smul_apply, Prod.smul_fst, Prod.smul_snd, pickT, RingHom.id_apply]
    split_ifs <;> simp

theorem pickT_zero {s2 : Fin 2 → ℕ} {v : Wg2.V 2 s2} (h : ∀ c, c ≠ axis → ∀ y, pickT axis v c y = 0) : v = 0 := by
  funext ⟨c, y⟩
  have a1 : axis + 1 ≠ axis := (ne_1 axis).symm
  have a2 : axis + 2 ≠ axis := (ne_2 axis).symm
  have a12 : axis + 2 ≠ axis + 1 := (ne_12 axis).symm
  rcases fin2_cases c with rfl | rfl
  · have := h _ a1 y; rwa [pickT, if_neg a1, if_pos rfl] at this
  · have := h _ a2 y; rwa [pickT, if_neg a2, if_neg a12] at this

/-- Without trapped fields every choice of incoming amplitudes belongs to a field. -/
theorem incoming_exists (P : LeadAt S ω dxes eps mu i dxes₀ d eps₀ mu₀ b k) (Q : LeadAt S' ω dxes eps mu j dxes₁ d' eps₁ mu₁ b' k') (hij : i ≤ j) (s s' : Bool)
    (hn : NoTrapped ω dxes eps mu axis i j (portWaves S P.guide.full dxes₀ d eps₀ b k s) (portWaves S' Q.guide.full dxes₁ d' eps₁ b' k' s')) (r : κ → ℂ) (r' : κ' → ℂ) :
    ∃ E, FreeOn ω dxes eps mu axis i (j + 1) E ∧ ∃ u u', SumOfWaves axis i (portWaves S P.guide.full dxes₀ d eps₀ b k s) (Sum.elim r u) E ∧
      SumOfWaves axis j (portWaves S' Q.guide.full dxes₁ d' eps₁ b' k' s') (Sum.elim r' u') E := by
  classical
  have hP := P.inside; have hQ := Q.room
  let A := eFull ω dxes (vecS eps) (mu.map vecS) none none
  let L := fillIn (S := S) (S' := S') P.guide.full Q.guide.full i (j + 1)
  let Φ : ((Between axis sh i (j + 1) → ℂ) × Wg2.V 2 (sh2 S) × Wg2.V 2 (sh2 S')) →ₗ[ℂ] (Between axis sh i (j + 1) → ℂ) :=
    { toFun := fun t q => (A *ᵥ L t) q.1
      map_add' := fun t t' => by funext q; rw [map_add, mulVec_add]; rfl
      map_smul' := fun r t => by funext q; rw [map_smul, mulVec_smul]; rfl }
  let K := LinearMap.ker Φ
  have hK : ∀ t : K, FreeOn ω dxes eps mu axis i (j + 1) (unS (L t.1)) := fun t c x h1 h2 => by
    have := congrFun (LinearMap.mem_ker.1 t.2) ⟨(c, x), h1, h2⟩
    rwa [vecS_unS]
  choose f hf hf' using fun t : K => P.unique s fun c x h1 h2 => hK t c x h1 (by omega)
  choose g hg hg' using fun t : K => Q.unique s' fun c x h1 h2 => hK t c x (by omega) h2
  have lin : ∀ (r : ℂ) (t t' : K), unS (L (t + r • t' : K).1) = unS (L t.1) + r • unS (L t'.1) := by
    intro r t t'
    show unS (L (t.1 + r • t'.1)) = _
    rw [map_add, map_smul]; rfl
  have fl : ∀ (r : ℂ) (t t' : K), f (t + r • t') = f t + r • f t' := fun r t t' => (hf' _ _ (by rw [lin]; exact (hf t).lin r (hf t'))).symm
  have gl : ∀ (r : ℂ) (t t' : K), g (t + r • t') = g t + r • g t' := fun r t t' => (hg' _ _ (by rw [lin]; exact (hg t).lin r (hg t'))).symm
  have f0 : f 0 = 0 := by have := fl (-1) 0 0; simpa using this
  have g0 : g 0 = 0 := by have := gl (-1) 0 0; simpa using this
  let T : K →ₗ[ℂ] (κ → ℂ) × (κ' → ℂ) :=
    { toFun := fun t => (fun n => f t (.inl n), fun n => g t (.inl n))
      map_add' := fun t t' => by
        have h1 := fl 1 t t'; have h2 := gl 1 t t'
        rw [one_smul, one_smul] at h1 h2
        rw [h1, h2]; rfl
      map_smul' := fun r t => by
        have h1 := fl r 0 t; have h2 := gl r 0 t
        rw [zero_add, f0, zero_add] at h1
        rw [zero_add, g0, zero_add] at h2
        rw [h1, h2]; rfl }
  have inj : Function.Injective T := by
    refine (injective_iff_map_eq_zero T).2 fun t ht => ?_
    obtain ⟨h1, h2⟩ := Prod.mk_eq_zero.1 ht
    have e1 : f t = Sum.elim (0 : κ → ℂ) fun n => f t (.inr n) := by
      funext p; rcases p with n | n
      · exact congrFun h1 n
      · rfl
    have e2 : g t = Sum.elim (0 : κ' → ℂ) fun n => g t (.inr n) := by
      funext p; rcases p with n | n
      · exact congrFun h2 n
      · rfl
    have hz := hn (unS (L t.1)) _ _ (fun c x h3 h4 => hK t c x (by omega) (by omega)) (e1 ▸ hf t) (e2 ▸ hg t)
    have hmid : ∀ q : Between axis sh i (j + 1), t.1.1 q = 0 := by
      rintro ⟨q, hq⟩
      have := hz q.1 q.2 hq.1 hq.2
      rwa [unS_apply, show L t.1 (q.1, q.2) = t.1.1 ⟨q, hq⟩ from dif_pos hq] at this
    have hlow : ∀ c (x : Idx sh), (x axis : ℕ) + 1 = i → unS (L t.1) c x = pickT axis t.1.2.1 c (projT S P.guide.full x) := by
      intro c x hx
      refine (dif_neg ?_).trans (if_pos hx)
      rintro ⟨h, -⟩
      have h : i ≤ (x axis : ℕ) := h
      omega
    have hhigh : ∀ c (x : Idx sh), (x axis : ℕ) = j + 2 → unS (L t.1) c x = pickT axis t.1.2.2 c (projT S' Q.guide.full x) := by
      intro c x hx
      refine (dif_neg ?_).trans ((if_neg ?_).trans (if_pos ?_))
      · rintro ⟨-, h⟩
        have h : (x axis : ℕ) ≤ j + 1 := h
        omega
      · show ¬ (x axis : ℕ) + 1 = i
        omega
      · exact hx
    have hv : t.1.2.1 = 0 := by
      refine pickT_zero (axis := axis) fun c hc y => ?_
      have hfree := FreeOn.congr P.inside P.before P.near fun c x h1 h2 => hK t c x h1 (by omega)
      set p : Fin (sh axis) := ⟨i - 1, by omega⟩ with hp
      have hx : ((liftT S P.guide.full p y axis : Fin _) : ℕ) = i - 1 := by rw [liftT_axis]
      have := P.guide.zero_before (i := i - 1) (F := unS (L t.1)) (by omega) (fun c x hx => hfree c x (by omega) (by omega)) (fun c x hx => hz c x (by omega) (by omega))
        (fun x hx => by rw [hlow axis x (by omega), pickT, if_pos rfl]) hc (liftT S P.guide.full p y) hx
      rwa [hlow c _ (by rw [hx]; omega), projT_liftT] at this
    have hw : t.1.2.2 = 0 := by
      refine pickT_zero (axis := axis) fun c hc y => ?_
      have hfree := FreeOn.congr Q.inside Q.before Q.near fun c x h1 h2 => hK t c x (by omega) h2
      set p : Fin (sh axis) := ⟨j + 2, by omega⟩ with hp
      have hx : ((liftT S' Q.guide.full p y axis : Fin _) : ℕ) = j + 2 := by rw [liftT_axis]
      obtain ⟨u, hu, -⟩ := C177_complete Q.guide b' k' Q.eig Q.cutoff Q.edge Q.inside (Nat.le_succ j) (by omega) hfree
      obtain ⟨v, -, hv⟩ := C177_complete Q.guide b' k' Q.eig Q.cutoff Q.edge Q.inside le_rfl (by omega) (E := unS (L t.1)) fun c x h1 h2 => hfree c x h1 (by omega)
      have hu0 : u = 0 := by
        refine (hv u fun c x h1 h2 => hu c x h1 (Or.inl (by omega))).trans (hv 0 fun c x h1 h2 => ?_).symm
        rw [hz c x (by omega) (by omega)]; simp
      have := hu c (liftT S' Q.guide.full p y) (by omega) (Or.inr ⟨hx, hc⟩)
      rw [hhigh c _ hx, projT_liftT, hu0] at this
      rw [this]; simp
    exact Subtype.ext (Prod.ext (funext hmid) (Prod.ext hv hw))
  have dim : Module.finrank ℂ K = Module.finrank ℂ ((κ → ℂ) × (κ' → ℂ)) := by
    refine le_antisymm (LinearMap.finrank_le_finrank_of_injective inj) ?_
    have h1 := LinearMap.finrank_range_add_finrank_ker Φ
    have h2 : Module.finrank ℂ (LinearMap.range Φ) ≤ Module.finrank ℂ (Between axis sh i (j + 1) → ℂ) := Submodule.finrank_le _
    rw [Module.finrank_prod, Module.finrank_prod, Module.finrank_eq_card_basis b, Module.finrank_eq_card_basis b'] at h1
    rw [Module.finrank_prod, Module.finrank_fintype_fun_eq_card, Module.finrank_fintype_fun_eq_card]
    show _ ≤ Module.finrank ℂ (LinearMap.ker Φ)
    omega
  obtain ⟨t, ht⟩ := (LinearMap.injective_iff_surjective_of_finrank_eq_finrank dim).1 inj (r, r')
  obtain ⟨h1, h2⟩ := Prod.mk.inj ht
  refine ⟨unS (L t.1), hK t, fun n => f t (.inr n), fun n => g t (.inr n), ?_, ?_⟩
  · have e1 : f t = Sum.elim r fun n => f t (.inr n) := by
      funext p; rcases p with n | n
      · exact congrFun h1 n
      · rfl
    exact e1 ▸ hf t
  · have e2 : g t = Sum.elim r' fun n => g t (.inr n) := by
      funext p; rcases p with n | n
      · exact congrFun h2 n
      · rfl
    exact e2 ▸ hg t

theorem SumOfWaves.sub_sum {ι π : Type*} [Fintype ι] [Fintype π] {a : Fin 3} {W : ι → VField sh ℂ} {u : ι → ℂ} {v : π → ι → ℂ} {E : VField sh ℂ} {F : π → VField sh ℂ} (r : π → ℂ)
    (hE : SumOfWaves a i W u E) (hF : ∀ p, SumOfWaves a i W (v p) (F p)) :
    SumOfWaves a i W (fun n => u n - ∑ p, r p * v p n) (fun c x => E c x - ∑ p, r p * F p c x) := by
  intro c x hx
  simp only [sub_mul, Finset.sum_sub_distrib, Finset.sum_mul]
  rw [hE c x hx, Finset.sum_comm]
  congr 1
  refine Finset.sum_congr rfl fun p _ => ?_
  rw [hF p c x hx, Finset.mul_sum]
  exact Finset.sum_congr rfl fun n _ => by ring

/-- A field without currents between the ports, with incoming amplitudes `r` and outgoing amplitudes `o`. -/
def ScattersTo (ω : ℂ) (dxes : Dx sh) (eps : VField sh ℂ) (mu : Option (VField sh ℂ)) (a : Fin 3) (i j : ℕ) (W : κ ⊕ κ → VField sh ℂ) (W' : κ' ⊕ κ' → VField sh ℂ)
    (r o : κ ⊕ κ' → ℂ) (E : VField sh ℂ) : Prop :=
  (∀ c (x : Idx sh), i < (x a : ℕ) → (x a : ℕ) ≤ j → (eFull ω dxes (vecS eps) (mu.map vecS) none none *ᵥ vecS E) (c, x) = 0) ∧
    SumOfWaves a i W (Sum.elim (fun n => r (.inl n)) fun n => o (.inl n)) E ∧ SumOfWaves a j W' (Sum.elim (fun n => r (.inr n)) fun n => o (.inr n)) E

/-- **C179.** A device scatters every incoming field in exactly one way, if and only if it has no trapped field: for all amplitudes of the incoming modes at the two ports there is a field without currents
between them with these incoming amplitudes, and only one. Any device, also lossy or with gain. -/
theorem C179_iff (P : LeadAt S ω dxes eps mu i dxes₀ d eps₀ mu₀ b k) (Q : LeadAt S' ω dxes eps mu j dxes₁ d' eps₁ mu₁ b' k') (hij : i ≤ j) (s s' : Bool) :
    let W := portWaves S P.guide.full dxes₀ d eps₀ b k s
    let W' := portWaves S' Q.guide.full dxes₁ d' eps₁ b' k' s'
    NoTrapped ω dxes eps mu axis i j W W' ↔
      ∀ r : κ ⊕ κ' → ℂ, (∃ o E, ScattersTo ω dxes eps mu axis i j W W' r o E) ∧
        ∀ o o' E E', ScattersTo ω dxes eps mu axis i j W W' r o E → ScattersTo ω dxes eps mu axis i j W W' r o' E' →
          o = o' ∧ ∀ c (x : Idx sh), i ≤ (x axis : ℕ) → (x axis : ℕ) ≤ j + 1 → E c x = E' c x := by
  intro W W'
  constructor
  · intro hn r
    refine ⟨?_, ?_⟩
    · obtain ⟨E, hE, u, u', h1, h2⟩ := incoming_exists P Q hij s s' hn (fun n => r (.inl n)) fun n => r (.inr n)
      exact ⟨Sum.elim u u', E, fun c x h3 h4 => hE c x (by omega) (by omega), h1, h2⟩
    · rintro o o' E E' ⟨hE, h1, h2⟩ ⟨hE', h1', h2'⟩
      have k1 := h1.lin (-1) h1'
      have k2 := h2.lin (-1) h2'
      rw [elim_sub] at k1 k2
      have hz := hn _ _ _ (fun c x h3 h4 => ?_) k1 k2
      · have z1 := P.zero s (fun c x hx => hz c x (by omega) (by omega)) k1
        have z2 := Q.zero s' (fun c x hx => hz c x (by omega) (by omega)) k2
        refine ⟨?_, fun c x h3 h4 => ?_⟩
        · funext p
          rcases p with n | n
          · exact sub_eq_zero.1 (congrFun z1 (.inr n))
          · exact sub_eq_zero.1 (congrFun z2 (.inr n))
        · have : E c x + -1 * E' c x = 0 := hz c x h3 h4
          linear_combination this
      · rw [show vecS (E + (-1 : ℂ) • E') = vecS E + (-1 : ℂ) • vecS E' from rfl, mulVec_add, mulVec_smul, Pi.add_apply, Pi.smul_apply, hE c x h3 h4, hE' c x h3 h4, smul_zero, add_zero]
  · intro h E u u' hE h1 h2 c x h3 h4
    have := ((h 0).2 (Sum.elim u u') 0 E 0 ⟨hE, h1, h2⟩ ⟨fun c x _ _ => ?_, fun c x hx => ?_, fun c x hx => ?_⟩).2 c x h3 h4
    · exact this
    · rw [show vecS (0 : VField sh ℂ) = 0 from rfl, mulVec_zero]; rfl
    · rw [Fintype.sum_sum_type]; simp
    · rw [Fintype.sum_sum_type]; simp

/-- **C179.** Hence the scattering matrix: without trapped fields the device has exactly one scattering matrix in the sense of C172, and it gives the outgoing amplitudes of every field without
currents between the ports. -/
theorem C179_matrix [DecidableEq κ] [DecidableEq κ'] (P : LeadAt S ω dxes eps mu i dxes₀ d eps₀ mu₀ b k) (Q : LeadAt S' ω dxes eps mu j dxes₁ d' eps₁ mu₁ b' k') (hij : i ≤ j)
    (s s' : Bool) :
    let W := portWaves S P.guide.full dxes₀ d eps₀ b k s
    let W' := portWaves S' Q.guide.full dxes₁ d' eps₁ b' k' s'
    NoTrapped ω dxes eps mu axis i j W W' →
      ∃ T : Matrix (κ ⊕ κ') (κ ⊕ κ') ℂ, IsScatteringMatrix ω dxes eps mu axis i j W W' T ∧ (∀ T', IsScatteringMatrix ω dxes eps mu axis i j W W' T' → T' = T) ∧
        ∀ r o E, ScattersTo ω dxes eps mu axis i j W W' r o E → o = T *ᵥ r := by
  intro W W' hn
  have H := (C179_iff P Q hij s s').1 hn
  choose o hE using fun p : κ ⊕ κ' => (H (Pi.single p 1)).1
  choose E hE using hE
  have sc : ∀ T' : Matrix (κ ⊕ κ') (κ ⊕ κ') ℂ, ∀ p (F : VField sh ℂ),
      ((∀ c (x : Idx sh), i < (x axis : ℕ) → (x axis : ℕ) ≤ j → (eFull ω dxes (vecS eps) (mu.map vecS) none none *ᵥ vecS F) (c, x) = 0) ∧
        SumOfWaves axis i W (Sum.elim (fun n => if p = .inl n then 1 else 0) fun n => T' (.inl n) p) F ∧
        SumOfWaves axis j W' (Sum.elim (fun n => if p = .inr n then 1 else 0) fun n => T' (.inr n) p) F)
        ↔ ScattersTo ω dxes eps mu axis i j W W' (Pi.single p 1) (fun q => T' q p) F := by
    intro T' p F
    have e : ∀ q : κ ⊕ κ', (Pi.single p 1 : κ ⊕ κ' → ℂ) q = if p = q then 1 else 0 := fun q => by rw [Pi.single_apply]; simp only [eq_comm]
    unfold ScattersTo
    simp only [e]
  refine ⟨Matrix.of fun q p => o p q, fun p => ⟨E p, (sc _ p _).2 (hE p)⟩, fun T' h => ?_, fun r o' F hF => ?_⟩
  · ext q p
    obtain ⟨F, hF⟩ := h p
    exact congrFun ((H _).2 _ _ _ _ ((sc _ p F).1 hF) (hE p)).1 q
  · have h1 : ScattersTo ω dxes eps mu axis i j W W' (fun q => r q - ∑ p, r p * (Pi.single p 1 : κ ⊕ κ' → ℂ) q) (fun q => o' q - ∑ p, r p * o p q)
        fun c x => F c x - ∑ p, r p * E p c x := by
      refine ⟨fun c x h3 h4 => ?_, ?_, ?_⟩
      · have e : vecS (fun c x => F c x - ∑ p, r p * E p c x) = vecS F - ∑ p, r p • vecS (E p) := by
          funext q
          rw [Pi.sub_apply, Finset.sum_apply]; rfl
        rw [e, mulVec_sub, mulVec_sum, Pi.sub_apply, hF.1 c x h3 h4, zero_sub, neg_eq_zero, Finset.sum_apply]
        refine Finset.sum_eq_zero fun p _ => ?_
        rw [mulVec_smul, Pi.smul_apply, (hE p).1 c x h3 h4, smul_zero]
      · convert hF.2.1.sub_sum r fun p => (hE p).2.1 using 1
        funext q; rcases q with n | n <;> rfl
      · convert hF.2.2.sub_sum r fun p => (hE p).2.2 using 1
        funext q; rcases q with n | n <;> rfl
    have hr : (fun q => r q - ∑ p, r p * (Pi.single p 1 : κ ⊕ κ' → ℂ) q) = 0 := by
      funext q
      simp [Pi.single_apply]
    rw [hr] at h1
    have h0 : ScattersTo ω dxes eps mu axis i j W W' 0 0 0 := by
      refine ⟨fun c x _ _ => ?_, fun c x hx => ?_, fun c x hx => ?_⟩
      · rw [show vecS (0 : VField sh ℂ) = 0 from rfl, mulVec_zero]; rfl
      · rw [Fintype.sum_sum_type]; simp
      · rw [Fintype.sum_sum_type]; simp
    have := ((H 0).2 _ _ _ _ h1 h0).1
    funext q
    have := sub_eq_zero.1 (congrFun this q)
    rw [this, Matrix.mulVec, dotProduct]
    exact Finset.sum_congr rfl fun p _ => mul_comm ..

/-- `e_full` at a plane involves the neighbouring planes only. -/
theorem eFull_planes (ω : ℂ) (dxes : Dx sh) (eps : VField sh ℂ) (mu : Option (VField sh ℂ)) {a : Fin 3} {F G : VField sh ℂ} {c : Fin 3} {x : Idx sh} (h0 : 0 < (x a : ℕ)) (h1 : (x a : ℕ) + 1 < sh a)
    (h : ∀ c (y : Idx sh), (x a : ℕ) ≤ (y a : ℕ) + 1 → (y a : ℕ) ≤ (x a : ℕ) + 1 → F c y = G c y) :
    (eFull ω dxes (vecS eps) (mu.map vecS) none none *ᵥ vecS F) (c, x) = (eFull ω dxes (vecS eps) (mu.map vecS) none none *ᵥ vecS G) (c, x) := by
  rw [eFull_mulVec, eFull_mulVec]
  congr 1
  · show Functional.curlBack (some dxes.2) (unS fun q => cE dxes (vecS F) q / muV (mu.map vecS) q) c x
      = Functional.curlBack (some dxes.2) (unS fun q => cE dxes (vecS G) q / muV (mu.map vecS) q) c x
    have hq : ∀ c (y : Idx sh), (x a : ℕ) ≤ (y a : ℕ) + 1 → (y a : ℕ) ≤ (x a : ℕ) → (unS fun q => cE dxes (vecS F) q / muV (mu.map vecS) q) c y
        = (unS fun q => cE dxes (vecS G) q / muV (mu.map vecS) q) c y := by
      intro c y h3 h4
      show Functional.curlForward (some dxes.1) F c y / muV (mu.map vecS) (c, y) = Functional.curlForward (some dxes.1) G c y / muV (mu.map vecS) (c, y)
      rw [curlForward_local (some dxes.1) (some dxes.1) F G y (fun _ => rfl) (fun c => h c y h3 (by omega)) (fun c b => ?_) c]
      by_cases hb : b = a
      · subst hb
        refine h c _ ?_ ?_ <;> rw [plane_shift_val (by omega)] <;> omega
      · exact h c _ (by rw [shiftIdx_of_ne (Ne.symm hb)]; exact h3) (by rw [shiftIdx_of_ne (Ne.symm hb)]; omega)
    refine curlBack_local (some dxes.2) (some dxes.2) _ _ x (fun _ => rfl) (fun c => hq c x (by omega) le_rfl) (fun c b => ?_) c
    by_cases hb : b = a
    · subst hb
      have := wrap_neg_one (i := x b) (by omega)
      refine hq c _ ?_ ?_ <;> rw [shiftIdx_same] <;> omega
    · exact hq c _ (by rw [shiftIdx_of_ne (Ne.symm hb)]; omega) (by rw [shiftIdx_of_ne (Ne.symm hb)])
  · rw [vecS_apply, vecS_apply, vecS_apply, h c x (by omega) (by omega)]

theorem SameNear.symm {a : Fin 3} (M : SameNear a i dxes eps mu dxes₀ eps₀ mu₀) : SameNear a i dxes₀ eps₀ mu₀ dxes eps mu :=
  ⟨fun b hb t => ⟨(M.other b hb t).1.symm, (M.other b hb t).2.symm⟩, fun t ht => ⟨(M.along t ht).1.symm, (M.along t ht).2.symm⟩,
    fun c x hx => ⟨(M.medium c x hx).1.symm, (M.medium c x hx).2.symm⟩⟩

theorem SameNear.refl (a : Fin 3) (i : ℕ) (dxes : Dx sh) (eps : VField sh ℂ) (mu : Option (VField sh ℂ)) : SameNear a i dxes eps mu dxes eps mu :=
  ⟨fun _ _ _ => ⟨rfl, rfl⟩, fun _ _ => ⟨rfl, rfl⟩, fun _ _ _ => ⟨rfl, rfl⟩⟩

/-- The waves of a lead are free in the lead, on all planes but the outermost. -/
theorem UniformSection.waves_free (U : UniformSection S ω dxes₀ d eps₀ mu₀) (eig : ∀ n, sectionOp S ω dxes₀ eps₀ mu₀ *ᵥ b n = k n ^ 2 • b n) (hk : ∀ n, k n ≠ 0) (s : Bool) (u : κ ⊕ κ → ℂ)
    {i j : ℕ} (hi : 0 < i) (hj : j + 1 < sh axis) : FreeOn ω dxes₀ eps₀ mu₀ axis i j fun c x => ∑ n, u n * portWaves S U.full dxes₀ d eps₀ b k s n c x := by
  intro c x h1 h2
  have e : vecS (fun c x => ∑ n, u n * portWaves S U.full dxes₀ d eps₀ b k s n c x) = ∑ n, u n • vecS (portWaves S U.full dxes₀ d eps₀ b k s n) := by
    funext q
    rw [Finset.sum_apply]; rfl
  rw [e, mulVec_sum, Finset.sum_apply]
  refine Finset.sum_eq_zero fun p _ => ?_
  rw [mulVec_smul, Pi.smul_apply]
  rcases p with n | n
  · exact (congrArg _ (U.wave_free (hk n) (eig n) (halfFactor_ne _ _ _) (halfFactor_eq _ U.hd _) c x (by omega) (by omega))).trans (smul_zero _)
  · exact (congrArg _ (U.wave_free (hk n) (eig n) (halfFactor_ne _ _ _) (halfFactor_eq _ U.hd _) c x (by omega) (by omega))).trans (smul_zero _)

/-- A field that is a sum of waves at both ports can be continued by these waves to a field that is free at the ports, too. -/
theorem continued (P : LeadAt S ω dxes eps mu i dxes₀ d eps₀ mu₀ b k) (Q : LeadAt S' ω dxes eps mu j dxes₁ d' eps₁ mu₁ b' k') (hij : i ≤ j) (s s' : Bool) {E : VField sh ℂ}
    {u : κ ⊕ κ → ℂ} {u' : κ' ⊕ κ' → ℂ}
    (hE : ∀ c (x : Idx sh), i < (x axis : ℕ) → (x axis : ℕ) ≤ j → (eFull ω dxes (vecS eps) (mu.map vecS) none none *ᵥ vecS E) (c, x) = 0)
    (h1 : SumOfWaves axis i (portWaves S P.guide.full dxes₀ d eps₀ b k s) u E) (h2 : SumOfWaves axis j (portWaves S' Q.guide.full dxes₁ d' eps₁ b' k' s') u' E) :
    ∃ F, FreeOn ω dxes eps mu axis i (j + 1) F ∧ ∀ c (x : Idx sh), i ≤ (x axis : ℕ) → (x axis : ℕ) ≤ j + 1 → F c x = E c x := by
  have hP := P.inside; have hQ := Q.room
  let A : VField sh ℂ := fun c x => ∑ n, u n * portWaves S P.guide.full dxes₀ d eps₀ b k s n c x
  let B : VField sh ℂ := fun c x => ∑ n, u' n * portWaves S' Q.guide.full dxes₁ d' eps₁ b' k' s' n c x
  have hA : FreeOn ω dxes eps mu axis i (i + 1) A := FreeOn.congr P.inside P.before.symm P.near.symm (P.guide.waves_free P.eig P.cutoff s u P.inside (by omega))
  have hB : FreeOn ω dxes eps mu axis j (j + 1) B := FreeOn.congr Q.inside Q.before.symm Q.near.symm (Q.guide.waves_free Q.eig Q.cutoff s' u' Q.inside (by omega))
  let F : VField sh ℂ := fun c x => if (x axis : ℕ) + 1 = i then A c x else if (x axis : ℕ) = j + 2 then B c x else E c x
  have hmid : ∀ c (x : Idx sh), i ≤ (x axis : ℕ) → (x axis : ℕ) ≤ j + 1 → F c x = E c x := fun c x h3 h4 => by
    show (if _ then _ else if _ then _ else _) = _
    rw [if_neg (by omega), if_neg (by omega)]
  refine ⟨F, fun c x h3 h4 => ?_, hmid⟩
  by_cases hxi : (x axis : ℕ) = i
  · rw [← hA c x h3 (by omega)]
    refine eFull_planes ω dxes eps mu (a := axis) (by omega) (by omega) fun c y h5 h6 => ?_
    by_cases hy : (y axis : ℕ) + 1 = i
    · exact if_pos hy
    · rw [hmid c y (by omega) (by omega), h1 c y (by omega)]
  by_cases hxj : (x axis : ℕ) = j + 1
  · rw [← hB c x (by omega) h4]
    refine eFull_planes ω dxes eps mu (a := axis) (by omega) (by omega) fun c y h5 h6 => ?_
    by_cases hy : (y axis : ℕ) = j + 2
    · exact (if_neg (by omega)).trans (if_pos hy)
    · rw [hmid c y (by omega) (by omega), h2 c y (by omega)]
  · rw [← hE c x (by omega) (by omega)]
    exact eFull_planes ω dxes eps mu (a := axis) (by omega) (by omega) fun c y h5 h6 => hmid c y (by omega) (by omega)

/-- In a lead the amplitudes at the two planes of the port are those at the next plane. -/
theorem LeadAt.next (P : LeadAt S ω dxes eps mu i dxes₀ d eps₀ mu₀ b k) (s : Bool) {E : VField sh ℂ} (hE : FreeOn ω dxes eps mu axis i (i + 1) E) {u : κ ⊕ κ → ℂ}
    (hu : SumOfWaves axis i (portWaves S P.guide.full dxes₀ d eps₀ b k s) u E) {c : Fin 3} (hc : c ≠ axis) (x : Idx sh) (hx : (x axis : ℕ) = i + 2) :
    E c x = ∑ n, u n * portWaves S P.guide.full dxes₀ d eps₀ b k s n c x := by
  have hP := P.inside; have hR := P.room
  have hfree := FreeOn.congr P.inside P.before P.near hE
  have hw := P.guide.waves_free P.eig P.cutoff s u P.inside hR
  have inj : ∀ v, sectionOp S ω dxes₀ eps₀ mu₀ *ᵥ v = 0 → v = 0 := by
    intro v hv
    rw [← b.sum_repr v, mulVec_sum] at hv
    simp only [mulVec_smul, P.eig, smul_smul] at hv
    rw [← b.sum_repr v]
    refine Finset.sum_eq_zero fun n _ => ?_
    have := Fintype.linearIndependent_iff.1 b.linearIndependent _ hv n
    rw [(mul_eq_zero.1 this).resolve_right (pow_ne_zero _ (P.cutoff n)), zero_smul]
  have hd : FreeOn ω dxes₀ eps₀ mu₀ axis i (i + 1) fun c x => E c x - ∑ n, u n * portWaves S P.guide.full dxes₀ d eps₀ b k s n c x := by
    intro c x h1 h2
    rw [show vecS (fun c x => E c x - ∑ n, u n * portWaves S P.guide.full dxes₀ d eps₀ b k s n c x)
      = vecS E - vecS (fun c x => ∑ n, u n * portWaves S P.guide.full dxes₀ d eps₀ b k s n c x) from rfl, mulVec_sub, Pi.sub_apply, hfree c x h1 h2, hw c x h1 h2, sub_zero]
  have := (P.guide.zero inj hR hd (fun c _ x hx => sub_eq_zero.2 (hu c x hx)) 1 le_rfl).2 c hc x hx
  exact sub_eq_zero.1 this

/-- Outgoing waves whose transverse E vanishes on one plane vanish. -/
theorem outgoing_zero (hS : FullWindow S) (dxes₀ : Dx sh) (d : ℝ) (eps₀ : VField sh ℂ) (b : Module.Basis κ ℂ (Wg2.V 2 (sh2 S))) (k : κ → ℂ) (s : Bool) {u : κ → ℂ} (p : Fin (sh axis))
    (h : ∀ c, c ≠ axis → ∀ x : Idx sh, x axis = p → ∑ n, (Sum.elim (0 : κ → ℂ) u) n * portWaves S hS dxes₀ d eps₀ b k s n c x = 0) : u = 0 := by
  have hs : ∑ n, (u n * halfFactor (k n) d (!s) ^ (2 * (p : ℕ))) • b n = 0 := by
    funext q
    have hx := liftT_axis S hS p q.2
    have := h (axis + 1 + q.1.castSucc) (transverse_ne q.1) _ hx
    rw [Fintype.sum_sum_type] at this
    simp only [Sum.elim_inl, Sum.elim_inr, Pi.zero_apply, zero_mul, Finset.sum_const_zero, zero_add, portWaves] at this
    rw [Finset.sum_apply, Pi.zero_apply, ← this]
    refine Finset.sum_congr rfl fun n _ => ?_
    rw [guideWave_transverse, hx, projT_liftT, Pi.smul_apply, smul_eq_mul]
    ring
  funext n
  have := Fintype.linearIndependent_iff.1 b.linearIndependent _ hs n
  exact (mul_eq_zero.1 this).resolve_right (pow_ne_zero _ (halfFactor_ne _ _ _))

/-- **C179.** A straight piece of guide has no trapped field, and its scattering matrix is what it should be: every mode is transmitted with its own phase (the modes at the two ports being
the same fields, with amplitude one) and nothing is reflected or converted. Any guide, also lossy. -/
theorem C179_straight [DecidableEq κ] (U : UniformSection S ω dxes₀ d eps₀ mu₀) (eig : ∀ n, sectionOp S ω dxes₀ eps₀ mu₀ *ᵥ b n = k n ^ 2 • b n) (hk : ∀ n, k n ≠ 0)
    (hk2 : ∀ n, (k n * d) ^ 2 ≠ 4) (hi : 0 < i) (hij : i ≤ j) (hj : j + 2 < sh axis) :
    let W := portWaves S U.full dxes₀ d eps₀ b k
    NoTrapped ω dxes₀ eps₀ mu₀ axis i j (W true) (W false) ∧
      IsScatteringMatrix ω dxes₀ eps₀ mu₀ axis i j (W true) (W false) (fromBlocks 0 1 1 0) := by
  intro W
  have P : ∀ m, 0 < m → m + 2 < sh axis → LeadAt S ω dxes₀ eps₀ mu₀ m dxes₀ d eps₀ mu₀ b k := fun m h1 h2 =>
    ⟨U, eig, hk, hk2, h1, h2, SameNear.refl .., SameNear.refl ..⟩
  have Pi := P i hi (by omega)
  have Pj := P j (by omega) hj
  refine ⟨fun E u u' hE h1 h2 => ?_, ?_⟩
  · obtain ⟨F, hF, hFE⟩ := continued Pi Pj hij true false hE h1 h2
    have h1' : SumOfWaves axis i (W true) (Sum.elim 0 u) F := fun c x hx => by rw [hFE c x (by omega) (by omega), h1 c x hx]
    have h2' : SumOfWaves axis j (W false) (Sum.elim 0 u') F := fun c x hx => by rw [hFE c x (by omega) (by omega), h2 c x hx]
    obtain ⟨v, hv, -⟩ := C177_complete U b k eig hk hk2 hi (by omega) hj hF
    have conv : ∀ s c x, ∑ q, v q * guideWave S U.full (profile S dxes₀ eps₀ (k q.1) (b q.1)) (halfFactor (k q.1) d q.2) c x
        = ∑ n, (Sum.elim (fun n => v (n, s)) fun n => v (n, !s)) n * W s n c x := by
      intro s c x
      rw [Fintype.sum_prod_type, Fintype.sum_sum_type, ← Finset.sum_add_distrib]
      refine Finset.sum_congr rfl fun n _ => ?_
      rw [Fintype.sum_bool]
      cases s
      · simp only [W, portWaves, Sum.elim_inl, Sum.elim_inr, Bool.not_false]; ring
      · simp only [W, portWaves, Sum.elim_inl, Sum.elim_inr, Bool.not_true]
    have e1 := (Pi.unique true fun c x h3 h4 => hF c x h3 (by omega)).unique h1' (fun c x hx => by rw [hv c x (by omega) (Or.inl (by omega)), conv true])
    have e2 := (Pj.unique false fun c x h3 h4 => hF c x (by omega) h4).unique h2' (fun c x hx => by rw [hv c x (by omega) (Or.inl (by omega)), conv false])
    have v0 : v = 0 := by
      funext ⟨n, s⟩
      cases s
      · have := congrFun e2 (.inl n); exact this.symm
      · have := congrFun e1 (.inl n); exact this.symm
    intro c x h3 h4
    rw [← hFE c x h3 h4, hv c x h3 (Or.inl h4), v0]; simp
  · rintro (n | n)
    · refine ⟨guideWave S U.full (profile S dxes₀ eps₀ (k n) (b n)) (halfFactor (k n) d true),
        fun c x h1 h2 => U.wave_free (hk n) (eig n) (halfFactor_ne _ _ _) (halfFactor_eq _ U.hd _) c x (by omega) (by omega), fun c x hx => ?_, fun c x hx => ?_⟩
      · rw [Fintype.sum_sum_type]
        simp [W, portWaves]
      · rw [Fintype.sum_sum_type]
        simp [W, portWaves, Matrix.one_apply]
    · refine ⟨guideWave S U.full (profile S dxes₀ eps₀ (k n) (b n)) (halfFactor (k n) d false),
        fun c x h1 h2 => U.wave_free (hk n) (eig n) (halfFactor_ne _ _ _) (halfFactor_eq _ U.hd _) c x (by omega) (by omega), fun c x hx => ?_, fun c x hx => ?_⟩
      · rw [Fintype.sum_sum_type]
        simp [W, portWaves, Matrix.one_apply]
      · rw [Fintype.sum_sum_type]
        simp [W, portWaves]

/-- The power of one field is twice the real part of `E × H*`. -/
theorem powerAt_self (ω : ℂ) (g : DxList sh ℝ × DxList sh ℝ) (mu : Option (VField sh ℂ)) (a : Fin 3) (i : ℕ) (E : VField sh ℂ) :
    (powerAt ω (cDx g) mu a i E E).re = 2 * (planeFlux (FdfdF.poyntingECrossH (cDx g) E fun c y => (starRingEnd ℂ) (hField ω (cDx g) mu E c y)) a i).re := by
  simp only [powerAt, planeFlux, re_sum, Finset.mul_sum]
  refine Finset.sum_congr rfl fun x _ => ?_
  rw [crossPower, cross_axis, cross_axis]
  simp only [add_re, sub_re, mul_re, mul_im, conj_re, conj_im, cDx, ofReal_re, ofReal_im]
  ring

/-- **C179.** What a device absorbs: the power through the faces after plane `j` is that after plane `i` plus `2 ω` times the sum of `Im ε |E|² + Im μ |H|²` in between (negative for passive media). -/
theorem C179_balance {ω : ℝ} (hω : ω ≠ 0) {g : DxList sh ℝ × DxList sh ℝ} (hd : Nonzero g.1 ∧ Nonzero g.2) (hmu : ∀ m, mu = some m → ∀ c x, m c x ≠ 0) {a : Fin 3} (hij : i ≤ j) (hj : j < sh a)
    {E : VField sh ℂ} (hE : ∀ c (x : Idx sh), i < (x a : ℕ) → (x a : ℕ) ≤ j → (eFull ω (cDx g) (vecS eps) (mu.map vecS) none none *ᵥ vecS E) (c, x) = 0) :
    (powerAt ω (cDx g) mu a j E E).re = (powerAt ω (cDx g) mu a i E E).re
      + 2 * (ω * ∑ x : Idx sh with i < (x a : ℕ) ∧ (x a : ℕ) ≤ j, ∑ c, (volE g.1 g.2 c x * ((eps c x).im * normSq (E c x))
          + volH g.1 g.2 c x * ((mu.getD 1 c x).im * normSq (hField ω (cDx g) mu E c x)))) := by
  have hne : -I * (ω : ℂ) ≠ 0 := mul_ne_zero (neg_ne_zero.2 I_ne_zero) (ofReal_ne_zero.2 hω)
  let J : VField sh ℂ := unS ((-I * (ω : ℂ))⁻¹ • (eFull ω (cDx g) (vecS eps) (mu.map vecS) none none *ᵥ vecS E))
  have hJ : eFull ω (cDx g) (vecS eps) (mu.map vecS) none none *ᵥ vecS E = (-I * (ω : ℂ)) • vecS J := by
    rw [vecS_unS, smul_smul, mul_inv_cancel₀ hne, one_smul]
  have h := C100_average_power ω hω g hd eps mu hmu E J (hField ω (cDx g) mu E) hJ (vecS_unS _) {x | i < (x a : ℕ) ∧ (x a : ℕ) ≤ j}
  rw [surfaceFlux_layers _ a hij hj, sub_re] at h
  have z : ∑ x : Idx sh with i < (x a : ℕ) ∧ (x a : ℕ) ≤ j, ∑ c, volE g.1 g.2 c x * (E c x * (starRingEnd ℂ) (J c x)).re = 0 := by
    refine Finset.sum_eq_zero fun x hx => Finset.sum_eq_zero fun c _ => ?_
    have hx := (Finset.mem_filter.1 hx).2
    have : J c x = 0 := by
      show (-I * (ω : ℂ))⁻¹ * (eFull ω (cDx g) (vecS eps) (mu.map vecS) none none *ᵥ vecS E) (c, x) = 0
      rw [hE c x hx.1 hx.2, mul_zero]
    rw [this]; simp
  rw [z, neg_zero, zero_add] at h
  rw [powerAt_self, powerAt_self]
  linarith

/-- **C179.** In terms of the amplitudes: at ports with lossless leads the power that the waves carry away is what they bring minus what the device absorbs. For a lossless device this is C172. -/
theorem C179_power {ω : ℝ} (hω : ω ≠ 0) {g : DxList sh ℝ × DxList sh ℝ} (hd : Nonzero g.1 ∧ Nonzero g.2) (hmu : ∀ m, mu = some m → ∀ c x, m c x ≠ 0) {a : Fin 3} (hij : i ≤ j)
    {ι ι' : Type*} [Fintype ι] [Fintype ι'] {lam : ι → ℂ} {lam' : ι' → ℂ} {W : ι → VField sh ℂ} {W' : ι' → VField sh ℂ}
    (P : IsLosslessPort ω g eps mu a i lam W) (Q : IsLosslessPort ω g eps mu a j lam' W')
    {E : VField sh ℂ} (hE : ∀ c (x : Idx sh), i < (x a : ℕ) → (x a : ℕ) ≤ j → (eFull ω (cDx g) (vecS eps) (mu.map vecS) none none *ᵥ vecS E) (c, x) = 0)
    {u : ι → ℂ} {u' : ι' → ℂ} (h1 : SumOfWaves a i W u E) (h2 : SumOfWaves a j W' u' E) :
    ∑ n, (powerAt ω (cDx g) mu a j (W' n) (W' n)).re * normSq (u' n) = ∑ n, (powerAt ω (cDx g) mu a i (W n) (W n)).re * normSq (u n)
      + 2 * (ω * ∑ x : Idx sh with i < (x a : ℕ) ∧ (x a : ℕ) ≤ j, ∑ c, (volE g.1 g.2 c x * ((eps c x).im * normSq (E c x))
          + volH g.1 g.2 c x * ((mu.getD 1 c x).im * normSq (hField ω (cDx g) mu E c x)))) := by
  have hr := Q.room
  have h := C179_balance hω hd hmu hij (by omega) hE
  rw [P.power hω hd hmu h1 h1, Q.power hω hd hmu h2 h2] at h
  simp only [mul_conj, re_sum, re_mul_ofReal] at h
  exact h

/-- A field that vanishes on two planes of any device and is free on the second has no transverse part on the next. -/
theorem zero_after {F : VField sh ℂ} (hω : ω ≠ 0) (hw : Nonzero dxes.1 ∧ Nonzero dxes.2) (hmu : ∀ m, mu = some m → ∀ c x, m c x ≠ 0) {m : ℕ} (hm : m + 2 < sh axis)
    (free : ∀ c, ∀ x : Idx sh, (x axis : ℕ) = m + 1 → (eFull ω dxes (vecS eps) (mu.map vecS) none none *ᵥ vecS F) (c, x) = 0)
    (hF : ∀ c (x : Idx sh), (x axis : ℕ) = m ∨ (x axis : ℕ) = m + 1 → F c x = 0)
    {c : Fin 3} (hc : c ≠ axis) (x : Idx sh) (hx : (x axis : ℕ) = m + 2) : F c x = 0 := by
  have a1 : axis + 1 ≠ axis := (ne_1 axis).symm
  have a2 : axis + 2 ≠ axis := (ne_2 axis).symm
  have hm1 : ∀ c x, mu.getD 1 c x ≠ 0 := fun c x => by
    cases hmm : mu with
    | none => exact one_ne_zero
    | some m => exact hmu m hmm c x
  let H := hField ω dxes mu F
  have far : ∀ c y, Functional.curlForward (some dxes.1) F c y = -I * ω * mu.getD 1 c y * H c y := fun c y => by
    show _ = _ * hField ω dxes mu F c y
    rw [hField_apply]
    have := I_ne_zero; have := hm1 c y
    field_simp
  have ofFar : ∀ c y, Functional.curlForward (some dxes.1) F c y = 0 → H c y = 0 := fun c y h => by
    show hField ω dxes mu F c y = 0
    rw [hField_apply, h, zero_div, zero_div]
  -- transverse differences of what vanishes on a plane
  have gt : ∀ (G : Arr sh ℂ) (y : Idx sh), (∀ z : Idx sh, z axis = y axis → G z = 0) → ∀ b, b ≠ axis → gradForward (some dxes.1) G b y = 0 ∧ gradBack (some dxes.2) G b y = 0 := by
    intro G y hG b hb
    unfold gradForward gradBack
    rw [hG y rfl, hG _ (shiftIdx_of_ne hb.symm ..), hG _ (shiftIdx_of_ne hb.symm ..)]
    simp
  set y := shiftIdx axis (-1) x with hydef
  have hyx : shiftIdx axis 1 y = x := by rw [hydef]; simp
  have hy : (y axis : ℕ) = m + 1 := by
    have := wrap_neg_one (i := x axis) (by omega)
    rw [hydef, shiftIdx_same]; omega
  have hz : ((shiftIdx axis (-1) y axis : Fin _) : ℕ) = m := by
    have := wrap_neg_one (i := y axis) (by omega)
    rw [shiftIdx_same]; omega
  -- H across at the second plane and along on the first vanish
  have hHax : ∀ z : Idx sh, z axis = y axis → H axis z = 0 := fun z hzy => ofFar _ _ (by
    rw [curlF_0, (gt _ z (fun w hw => hF _ w (Or.inr (by rw [hw, hzy]; exact hy))) _ a1).1, (gt _ z (fun w hw => hF _ w (Or.inr (by rw [hw, hzy]; exact hy))) _ a2).1, sub_zero])
  have ga : ∀ c, gradForward (some dxes.1) (F c) axis (shiftIdx axis (-1) y) = 0 := fun c => by
    unfold gradForward
    rw [hF c _ (Or.inl hz), hF c _ (Or.inr (by rw [plane_shift_val (by omega), hz]))]; simp
  have hH0 : ∀ c, c ≠ axis → H c (shiftIdx axis (-1) y) = 0 := by
    intro c hc
    have g0 : ∀ c b, b ≠ axis → gradForward (some dxes.1) (F c) b (shiftIdx axis (-1) y) = 0 := fun c b hb =>
      (gt _ _ (fun w hw => hF _ w (Or.inl (by rw [hw]; exact hz))) b hb).1
    rcases fin3_cases axis c with h | h | h
    · exact absurd h hc
    · rw [h]; exact ofFar _ _ (by rw [curlF_1, ga, g0 _ _ a2, sub_zero])
    · rw [h]; exact ofFar _ _ (by rw [curlF_2, ga, g0 _ _ a1, sub_zero])
  have am : ∀ c, Functional.curlBack (some dxes.2) H c y = 0 := fun c => by
    have := ampere_of_free hω (free c _ hy)
    rw [hF c _ (Or.inr hy), mul_zero] at this
    exact this
  have ax : ∀ c, c ≠ axis → gradBack (some dxes.2) (H c) axis y = 0 → H c y = 0 := by
    intro c hc h
    unfold gradBack at h
    rw [hH0 c hc, sub_zero, wOf_some] at h
    exact (div_eq_zero_iff.1 h).resolve_right (hw.2 _ _)
  have hH1 : ∀ c, c ≠ axis → H c y = 0 := by
    intro c hc
    rcases fin3_cases axis c with h | h | h
    · exact absurd h hc
    · have := am (axis + 2)
      rw [curlB_2, (gt _ y hHax _ a1).2, sub_zero] at this
      rw [h]; exact ax _ a1 this
    · have := am (axis + 1)
      rw [curlB_1, (gt _ y hHax _ a2).2, zero_sub, neg_eq_zero] at this
      rw [h]; exact ax _ a2 this
  have gf : ∀ b, gradForward (some dxes.1) (F b) axis y = F b x / dxes.1 axis (y axis) := by
    intro b
    unfold gradForward
    rw [hyx, hF b _ (Or.inr hy), sub_zero, wOf_some]
  have g1 : ∀ b, b ≠ axis → gradForward (some dxes.1) (F axis) b y = 0 := fun b hb => (gt _ y (fun w hw => hF _ w (Or.inr (by rw [hw]; exact hy))) b hb).1
  rcases fin3_cases axis c with h | h | h
  · exact absurd h hc
  · have z := far (axis + 2) y
    rw [curlF_2, gf, g1 _ a1, sub_zero, hH1 _ a2, mul_zero] at z
    rw [h]; exact (div_eq_zero_iff.1 z).resolve_right (hw.1 _ _)
  · have z := far (axis + 1) y
    rw [curlF_1, gf, g1 _ a2, hH1 _ a1, mul_zero, zero_sub, neg_eq_zero] at z
    rw [h]; exact (div_eq_zero_iff.1 z).resolve_right (hw.1 _ _)

/-- The axial equation on a plane involves the medium and the widths of that plane only. -/
theorem SameNear.axial {m : ℕ} (M : SameNear axis m dxes eps mu dxes₀ eps₀ mu₀) (F : VField sh ℂ) {x : Idx sh} (hx : (x axis : ℕ) = m) :
    (eFull ω dxes (vecS eps) (mu.map vecS) none none *ᵥ vecS F) (axis, x) = (eFull ω dxes₀ (vecS eps₀) (mu₀.map vecS) none none *ᵥ vecS F) (axis, x) := by
  have a1 : axis + 1 ≠ axis := (ne_1 axis).symm
  have a2 : axis + 2 ≠ axis := (ne_2 axis).symm
  have hmuv : ∀ (m : Option (VField sh ℂ)) c x, muV (m.map vecS) (c, x) = m.getD 1 c x := by intro m c x; cases m <;> rfl
  rw [eFull_mulVec, eFull_mulVec]
  congr 1
  · show Functional.curlBack (some dxes.2) (unS fun q => cE dxes (vecS F) q / muV (mu.map vecS) q) axis x
      = Functional.curlBack (some dxes₀.2) (unS fun q => cE dxes₀ (vecS F) q / muV (mu₀.map vecS) q) axis x
    have hq : ∀ c (y : Idx sh), (y axis : ℕ) = m → (unS fun q => cE dxes (vecS F) q / muV (mu.map vecS) q) c y
        = (unS fun q => cE dxes₀ (vecS F) q / muV (mu₀.map vecS) q) c y := by
      intro c y hy
      show Functional.curlForward (some dxes.1) F c y / muV (mu.map vecS) (c, y) = Functional.curlForward (some dxes₀.1) F c y / muV (mu₀.map vecS) (c, y)
      rw [hmuv, hmuv, (M.medium c y (Or.inl hy)).2,
        curlForward_local (some dxes.1) (some dxes₀.1) F F y (fun b => (M.width (Or.inl hy) b).1) (fun _ => rfl) (fun _ _ => rfl) c]
    have g : ∀ c b, b ≠ axis → gradBack (some dxes.2) ((unS fun q => cE dxes (vecS F) q / muV (mu.map vecS) q) c) b x
        = gradBack (some dxes₀.2) ((unS fun q => cE dxes₀ (vecS F) q / muV (mu₀.map vecS) q) c) b x := by
      intro c b hb
      unfold gradBack
      rw [hq c x hx, hq c _ (by rw [shiftIdx_of_ne hb.symm]; exact hx), wOf_some, wOf_some, (M.width (Or.inl hx) b).2]
    rw [curlB_0, curlB_0, g _ _ a1, g _ _ a2]
  · rw [vecS_apply, vecS_apply, vecS_apply, (M.medium _ x (Or.inl hx)).1]

theorem powerAt_congr (ω : ℂ) (dxes : Dx sh) (mu : Option (VField sh ℂ)) {a : Fin 3} {i : ℕ} (hi : i + 1 < sh a) {E F : VField sh ℂ}
    (h : ∀ c (x : Idx sh), (x a : ℕ) = i ∨ (x a : ℕ) = i + 1 → E c x = F c x) : powerAt ω dxes mu a i E E = powerAt ω dxes mu a i F F := by
  have hS : SumOfWaves a i (fun _ : Unit => F) (fun _ => 1) E := fun c x hx => by simp [h c x hx]
  rw [powerAt_sum hS hS hi]; simp

/-- **C179.** A device that absorbs traps nothing, and so has a scattering matrix: at a real frequency, with media that nowhere amplify and a permittivity that absorbs everywhere from two planes
after the first port to two planes before the second (at least two planes), if outgoing waves carry no power towards the device. -/
theorem C179_absorbing {ω : ℝ} (hω : 0 < ω) {g : DxList sh ℝ × DxList sh ℝ} (hg : PosGrid g) (hmu : ∀ m, mu = some m → ∀ c x, m c x ≠ 0)
    (P : LeadAt S ω (cDx g) eps mu i dxes₀ d eps₀ mu₀ b k) (Q : LeadAt S' ω (cDx g) eps mu j dxes₁ d' eps₁ mu₁ b' k') (hij : i + 5 ≤ j)
    (hpass : ∀ c (x : Idx sh), i < (x axis : ℕ) → (x axis : ℕ) ≤ j → (eps c x).im ≤ 0 ∧ (mu.getD 1 c x).im ≤ 0)
    (hloss : ∀ c (x : Idx sh), i + 2 ≤ (x axis : ℕ) → (x axis : ℕ) + 2 ≤ j → (eps c x).im < 0) (s s' : Bool)
    (out : ∀ u E, SumOfWaves axis i (portWaves S P.guide.full dxes₀ d eps₀ b k s) (Sum.elim 0 u) E → (powerAt ω (cDx g) mu axis i E E).re ≤ 0)
    (out' : ∀ u E, SumOfWaves axis j (portWaves S' Q.guide.full dxes₁ d' eps₁ b' k' s') (Sum.elim 0 u) E → 0 ≤ (powerAt ω (cDx g) mu axis j E E).re) :
    NoTrapped ω (cDx g) eps mu axis i j (portWaves S P.guide.full dxes₀ d eps₀ b k s) (portWaves S' Q.guide.full dxes₁ d' eps₁ b' k' s') := by
  intro E u u' hE h1 h2
  have hP := P.inside; have hR := P.room; have hQ := Q.room
  have hωc : (ω : ℂ) ≠ 0 := ofReal_ne_zero.2 hω.ne'
  have hd : Nonzero g.1 ∧ Nonzero g.2 := ⟨fun a t => (hg.1 a t).ne', fun a t => (hg.2 a t).ne'⟩
  have hdc : Nonzero (cDx g).1 ∧ Nonzero (cDx g).2 := ⟨fun a t => ofReal_ne_zero.2 (hd.1 a t), fun a t => ofReal_ne_zero.2 (hd.2 a t)⟩
  -- the field vanishes where the device absorbs
  have bal := C179_balance (eps := eps) hω.ne' hd hmu (show i ≤ j by omega) (by omega) hE
  have vE : ∀ c x, 0 < volE g.1 g.2 c x := hg.vol
  have vH : ∀ c x, 0 < volH g.1 g.2 c x := fun c x => Finset.prod_pos fun a _ => by split_ifs; exacts [hg.2 _ _, hg.1 _ _]
  have term : ∀ x ∈ ({x : Idx sh | i < (x axis : ℕ) ∧ (x axis : ℕ) ≤ j} : Finset (Idx sh)), ∀ c ∈ (Finset.univ : Finset (Fin 3)), volE g.1 g.2 c x * ((eps c x).im * normSq (E c x))
          + volH g.1 g.2 c x * ((mu.getD 1 c x).im * normSq (hField ω (cDx g) mu E c x)) ≤ 0 := by
    intro x hx c _
    have hx := (Finset.mem_filter.1 hx).2
    have h := hpass c x hx.1 hx.2
    exact add_nonpos (mul_nonpos_of_nonneg_of_nonpos (vE c x).le (mul_nonpos_of_nonpos_of_nonneg h.1 (normSq_nonneg _)))
      (mul_nonpos_of_nonneg_of_nonpos (vH c x).le (mul_nonpos_of_nonpos_of_nonneg h.2 (normSq_nonneg _)))
  have tot := Finset.sum_nonpos fun x hx => Finset.sum_nonpos (term x hx)
  have tot0 : ∑ x : Idx sh with i < (x axis : ℕ) ∧ (x axis : ℕ) ≤ j, ∑ c, (volE g.1 g.2 c x * ((eps c x).im * normSq (E c x))
          + volH g.1 g.2 c x * ((mu.getD 1 c x).im * normSq (hField ω (cDx g) mu E c x))) = 0 := by
    refine le_antisymm tot ?_
    have a := out u E h1; have b := out' u' E h2
    by_contra hneg
    have := mul_neg_of_pos_of_neg hω (lt_of_not_ge hneg)
    linarith
  have dark : ∀ c (x : Idx sh), i + 2 ≤ (x axis : ℕ) → (x axis : ℕ) + 2 ≤ j → E c x = 0 := by
    intro c x h3 h4
    have hx : x ∈ ({x : Idx sh | i < (x axis : ℕ) ∧ (x axis : ℕ) ≤ j} : Finset (Idx sh)) := Finset.mem_filter.2 ⟨Finset.mem_univ _, by omega, by omega⟩
    have z := (Finset.sum_eq_zero_iff_of_nonpos fun x hx => Finset.sum_nonpos (term x hx)).1 tot0 x hx
    have z := (Finset.sum_eq_zero_iff_of_nonpos (term x hx)).1 z c (Finset.mem_univ _)
    have h := hpass c x (by omega) (by omega)
    have q : 0 ≤ -(volH g.1 g.2 c x * ((mu.getD 1 c x).im * normSq (hField ω (cDx g) mu E c x))) :=
      neg_nonneg.2 (mul_nonpos_of_nonneg_of_nonpos (vH c x).le (mul_nonpos_of_nonpos_of_nonneg h.2 (normSq_nonneg _)))
    by_contra hne
    have := mul_neg_of_pos_of_neg (vE c x) (mul_neg_of_neg_of_pos (hloss c x h3 h4) (normSq_pos.2 hne))
    linarith
  obtain ⟨G, hG, hGE⟩ := continued P Q (by omega) s s' hE h1 h2
  have darkG : ∀ c (x : Idx sh), i + 2 ≤ (x axis : ℕ) → (x axis : ℕ) + 2 ≤ j → G c x = 0 := fun c x h3 h4 => (hGE c x (by omega) (by omega)).trans (dark c x h3 h4)
  have h1G : SumOfWaves axis i (portWaves S P.guide.full dxes₀ d eps₀ b k s) (Sum.elim 0 u) G := fun c x hx => (hGE c x (by omega) (by omega)).trans (h1 c x hx)
  have h2G : SumOfWaves axis j (portWaves S' Q.guide.full dxes₁ d' eps₁ b' k' s') (Sum.elim 0 u') G := fun c x hx => (hGE c x (by omega) (by omega)).trans (h2 c x hx)
  -- no waves at the first port
  have hu : u = 0 := by
    refine outgoing_zero P.guide.full dxes₀ d eps₀ b k s ⟨i + 2, hR⟩ fun c hc x hx => ?_
    have hx' : (x axis : ℕ) = i + 2 := by rw [hx]
    rw [← P.next s (fun c x h3 h4 => hG c x h3 (by omega)) h1G hc x hx']
    exact darkG c x (by omega) (by omega)
  -- nor at the second
  let B : VField sh ℂ := fun c x => ∑ n, (Sum.elim (0 : κ' → ℂ) u') n * portWaves S' Q.guide.full dxes₁ d' eps₁ b' k' s' n c x
  let F : VField sh ℂ := fun c x => G c x - B c x
  have hsub : ∀ ω' dx' e' (m' : Option (VField sh ℂ)) q, (eFull ω' dx' (vecS e') (m'.map vecS) none none *ᵥ vecS F) q
      = (eFull ω' dx' (vecS e') (m'.map vecS) none none *ᵥ vecS G) q - (eFull ω' dx' (vecS e') (m'.map vecS) none none *ᵥ vecS B) q := by
    intro ω' dx' e' m' q
    rw [show vecS F = vecS G - vecS B from rfl, mulVec_sub, Pi.sub_apply]
  have hB : FreeOn ω dxes₁ eps₁ mu₁ axis (j - 1) (j + 1) B := Q.guide.waves_free Q.eig Q.cutoff s' _ (by omega) (by omega)
  have hG1 := FreeOn.congr Q.inside Q.before Q.near (E := G) fun c x h3 h4 => hG c x (by omega) h4
  have hF2 : ∀ c (x : Idx sh), (x axis : ℕ) = j ∨ (x axis : ℕ) = j + 1 → F c x = 0 := fun c x hx => sub_eq_zero.2 (h2G c x hx)
  have hGj : ∀ c, c ≠ axis → ∀ x : Idx sh, (x axis : ℕ) = j - 1 → G c x = 0 := fun c hc x hx =>
    zero_after hωc hdc hmu (m := j - 3) (by omega) (fun c x hx => hG c x (by omega) (by omega)) (fun c x hx => darkG c x (by omega) (by omega)) hc x (by omega)
  have hFj : ∀ c (x : Idx sh), (x axis : ℕ) = j - 1 → F c x = 0 := by
    refine fun c x hx => Q.guide.zero_mixed (i := j - 1) (by omega) (fun x hx => ?_) (fun c _ x hx => hF2 c x (by omega))
      (fun c hc x hx => Q.guide.zero_h (by omega) (fun c x hx => ?_) (fun c x hx => hF2 c x (by omega)) hc x hx) c x hx
    · rw [hsub, hB _ x (by omega) (by omega), ← Q.before.axial G hx, hG _ x (by omega) (by omega), sub_zero]
    · rw [hsub, hB _ x (by omega) (by omega), hG1 _ x (by omega) (by omega), sub_zero]
  have hu' : u' = 0 := by
    refine outgoing_zero Q.guide.full dxes₁ d' eps₁ b' k' s' ⟨j - 1, by omega⟩ fun c hc x hx => ?_
    have hx' : (x axis : ℕ) = j - 1 := by rw [hx]
    exact (sub_eq_zero.1 (hFj c x hx')).symm.trans (hGj c hc x hx')
  intro c x h3 h4
  by_cases hx1 : (x axis : ℕ) = i ∨ (x axis : ℕ) = i + 1
  · rw [h1 c x hx1, hu]; exact Finset.sum_eq_zero fun n _ => by cases n <;> simp
  by_cases hx2 : (x axis : ℕ) = j ∨ (x axis : ℕ) = j + 1
  · rw [h2 c x hx2, hu']; exact Finset.sum_eq_zero fun n _ => by cases n <;> simp
  by_cases hx3 : (x axis : ℕ) = j - 1
  · rw [← hGE c x h3 h4, sub_eq_zero.1 (hFj c x hx3)]
    show ∑ n, _ = _
    rw [hu']; exact Finset.sum_eq_zero fun n _ => by cases n <;> simp
  · exact dark c x (by omega) (by omega)

end device

/-! ## The hypotheses can be met -/

/-- A straight guide of vacuum, of any cross-section and length, at `ω = 4`: leads at all planes and no trapped field, so a scattering matrix. -/
example (S : Slices sh axis) (hS : FullWindow S) {i j : ℕ} (hi : 0 < i) (hij : i ≤ j) (hj : j + 2 < sh axis) :
    ∃ (b : Module.Basis (Fin 2 × Idx (sh2 S)) ℂ (Wg2.V 2 (sh2 S))) (k : Fin 2 × Idx (sh2 S) → ℂ)
      (P : LeadAt S 4 (fun _ _ => 1, fun _ _ => 1) (fun _ _ => 1) none i (fun _ _ => 1, fun _ _ => 1) 1 (fun _ _ => 1) none b k)
      (Q : LeadAt S 4 (fun _ _ => 1, fun _ _ => 1) (fun _ _ => 1) none j (fun _ _ => 1, fun _ _ => 1) 1 (fun _ _ => 1) none b k),
      NoTrapped 4 (fun _ _ => 1, fun _ _ => 1) (fun _ _ => 1) none axis i j (portWaves S P.guide.full (fun _ _ => 1, fun _ _ => 1) 1 (fun _ _ => 1) b k true)
        (portWaves S Q.guide.full (fun _ _ => 1, fun _ _ => 1) 1 (fun _ _ => 1) b k false) := by
  obtain ⟨U, b, k, h1, h2, h3⟩ := vacuum_section S hS
  exact ⟨b, k, ⟨U, h1, h2, h3, hi, by omega, SameNear.refl .., SameNear.refl ..⟩, ⟨U, h1, h2, h3, by omega, hj, SameNear.refl .., SameNear.refl ..⟩,
    (C179_straight U h1 h2 h3 hi hij hj).1⟩

/-- The grid of unit cells. -/
abbrev unitGrid (sh : Fin 3 → ℕ) : DxList sh ℝ × DxList sh ℝ := (fun _ _ => 1, fun _ _ => 1)

/-- Power of waves that do not vary across the axis. -/
theorem single_power (hsh : ∀ b, b ≠ axis → sh b = 1) {i : ℕ} {h : ℂ} (hh : h ^ 2 - 1 = -I * h) (hn : normSq h = 1) {E : VField sh ℂ}
    (hE : ∀ c, c ≠ axis → ∀ x : Idx sh, (x axis : ℕ) = i → E c (shiftIdx axis 1 x) = h ^ 2 * E c x) :
    ∃ q : ℝ, 0 ≤ q ∧ (powerAt ((1 : ℝ) : ℂ) (cDx (unitGrid sh)) none axis i E E).re = h.re * q := by
  have a1 : axis + 1 ≠ axis := (ne_1 axis).symm
  have a2 : axis + 2 ≠ axis := (ne_2 axis).symm
  refine ⟨∑ x : Idx sh with (x axis : ℕ) = i, 2 * (normSq (E (axis + 1) x) + normSq (E (axis + 2) x)),
    Finset.sum_nonneg fun x _ => by have := normSq_nonneg (E (axis + 1) x); have := normSq_nonneg (E (axis + 2) x); linarith, ?_⟩
  rw [powerAt_self, planeFlux, re_sum, Finset.mul_sum, Finset.mul_sum]
  refine Finset.sum_congr rfl fun x hx => ?_
  have hx := (Finset.mem_filter.1 hx).2
  have g0 : ∀ b, b ≠ axis → gradForward (some (cDx (unitGrid sh)).1) (E axis) b x = 0 := fun b hb => by
    
    have : shiftIdx b 1 x = x := by
      funext d
      by_cases hd : d = b
      · subst hd; exact Fin.ext (by have := (shiftIdx d 1 x d).2; have := (x d).2; have := hsh d hb; omega)
      · exact shiftIdx_of_ne hd ..
    unfold gradForward; rw [this, sub_self, zero_div]
  have ga : ∀ c, c ≠ axis → gradForward (some (cDx (unitGrid sh)).1) (E c) axis x = -I * h * E c x := fun c hc => by
    unfold gradForward
    rw [hE c hc x hx, wOf_some, show (cDx (unitGrid sh)).1 axis (x axis) = 1 from ofReal_one, div_one, ← hh]; ring
  have H2 : hField ((1 : ℝ) : ℂ) (cDx (unitGrid sh)) none E (axis + 2) x = h * E (axis + 1) x := by
    rw [hField_apply, curlF_2, g0 _ a1, ga _ a1]
    simp
    linear_combination -(h * E (axis + 1) x) * I_sq
  have H1 : hField ((1 : ℝ) : ℂ) (cDx (unitGrid sh)) none E (axis + 1) x = -(h * E (axis + 2) x) := by
    rw [hField_apply, curlF_1, g0 _ a2, ga _ a2]
    have := I_ne_zero
    simp
    field_simp
  rw [cross_axis, H1, H2, hE _ a1 x hx, hE _ a2 x hx]
  have hc : h * (starRingEnd ℂ) h = 1 := by rw [mul_conj, hn, ofReal_one]
  have : h ^ 2 * E (axis + 1) x * (cDx (unitGrid sh)).1 (axis + 1) (x (axis + 1)) * ((starRingEnd ℂ) (h * E (axis + 1) x) * (cDx (unitGrid sh)).2 (axis + 2) (x (axis + 2)))
      - h ^ 2 * E (axis + 2) x * (cDx (unitGrid sh)).1 (axis + 2) (x (axis + 2)) * ((starRingEnd ℂ) (-(h * E (axis + 2) x)) * (cDx (unitGrid sh)).2 (axis + 1) (x (axis + 1)))
      = h * ((normSq (E (axis + 1) x) + normSq (E (axis + 2) x) : ℝ) : ℂ) := by
    simp only [cDx, ofReal_one, map_neg, map_mul, ofReal_add, ← mul_conj]
    linear_combination (h * E (axis + 1) x * (starRingEnd ℂ) (E (axis + 1) x) + h * E (axis + 2) x * (starRingEnd ℂ) (E (axis + 2) x)) * hc
  rw [this, re_mul_ofReal]
  ring

/-- The factors of a wave with `k = 1` on unit cells. -/
theorem halfFactor_one (s : Bool) : halfFactor 1 1 s ^ 2 - 1 = -I * halfFactor 1 1 s ∧ normSq (halfFactor 1 1 s) = 1 ∧ (0 ≤ (halfFactor 1 1 true).re ∧ (halfFactor 1 1 false).re ≤ 0) := by
  have hr : ((1 : ℂ) - (1 / 2) ^ 2) ^ (1 / 2 : ℂ) = ((√(3 / 4) : ℝ) : ℂ) := by
    rw [Real.sqrt_eq_rpow, ofReal_cpow (by norm_num)]
    norm_num
  have he : exp (I * (correct 1 (1 : ℝ) * (1 : ℝ) / 2)) = I * (1 / 2) + ((√(3 / 4) : ℝ) : ℂ) := by
    rw [← hr, ← exp_arcsin]
    congr 1
    rw [correct, ofReal_one, mul_one, div_one, mul_one]; ring
  have hi : exp (-I * (correct 1 (1 : ℝ) * (1 : ℝ) / 2)) = -I * (1 / 2) + ((√(3 / 4) : ℝ) : ℂ) := by
    rw [neg_mul, exp_neg, he]
    refine inv_eq_of_mul_eq_one_left ?_
    have h2 : ((√(3 / 4) : ℝ) : ℂ) ^ 2 = 3 / 4 := by rw [← ofReal_pow, Real.sq_sqrt (by norm_num)]; norm_num
    linear_combination h2 - 1 / 4 * I_sq
  have hs : √(3 / 4) * √(3 / 4) = (3 / 4 : ℝ) := Real.mul_self_sqrt (by norm_num)
  have ht : halfFactor 1 1 true = -I * (1 / 2) + ((√(3 / 4) : ℝ) : ℂ) := hi
  have hf : halfFactor 1 1 false = -(I * (1 / 2) + ((√(3 / 4) : ℝ) : ℂ)) := congrArg Neg.neg he
  have h12 : (1 / 2 : ℂ) = ((1 / 2 : ℝ) : ℂ) := by norm_num
  have hp : 0 ≤ √(3 / 4 : ℝ) := Real.sqrt_nonneg _
  generalize √(3 / 4 : ℝ) = r at *
  refine ⟨by simpa using halfFactor_eq 1 one_ne_zero s, ?_, ?_, ?_⟩
  · cases s
    · rw [hf, h12, normSq_apply]; simp; linarith
    · rw [ht, h12, normSq_apply]; simp; linarith
  · rw [ht, h12]; simp [hp]
  · rw [hf, h12]; simp [hp]

private theorem order_across (axis : Fin 3) (a : Fin 2) : order axis a.castSucc ≠ axis := by revert axis a; decide

/-- Vacuum with unit cells and a single cell across, at `ω = 1`. -/
theorem single_section (hsh : ∀ b, b ≠ axis → sh b = 1) (S : Slices sh axis) (hS : FullWindow S) :
    UniformSection S ((1 : ℝ) : ℂ) (cDx (unitGrid sh)) 1 (fun _ _ => 1) none ∧ ∃ b : Module.Basis (Fin 2 × Idx (sh2 S)) ℂ (Wg2.V 2 (sh2 S)),
      ∀ n, sectionOp S ((1 : ℝ) : ℂ) (cDx (unitGrid sh)) (fun _ _ => 1) none *ᵥ b n = (1 : ℂ) ^ 2 • b n := by
  refine ⟨⟨hS, one_ne_zero, fun _ => rfl, fun _ => rfl, fun _ _ _ _ => rfl, fun _ _ _ _ => rfl, by norm_num, fun _ _ => one_ne_zero, fun _ _ => one_ne_zero⟩, ?_⟩
  have hop : sectionOp S ((1 : ℝ) : ℂ) (cDx (unitGrid sh)) (fun _ _ => 1) none = Wg2.operatorE 1 (uniDx2 fun _ => 1) (fun _ => 1) (some (reduce2d S fun _ _ => 1)) := by
    have : cDx (unitGrid sh) = (fun _ _ => 1, fun _ _ => 1) := by simp only [cDx, ofReal_one]
    rw [this, ofReal_one]
    unfold sectionOp; congr 1
  obtain ⟨b, hb⟩ := plane_basis _ _ (fftn_operatorE 1 1 1 one_ne_zero one_ne_zero (fun _ => 1) (some (reduce2d S fun _ _ => 1)) fun p => rfl)
  refine ⟨b, fun n => ?_⟩
  have h0 : ∀ a, (n.2 a : ℕ) = 0 := fun a => by
    have := (n.2 a).2
    have h1 : sh2 S a = 1 := by
      have ho : order axis a.castSucc ≠ axis := order_across axis a
      show S.len _ = 1
      rw [Slices.len, (hS _ ho).1, (hS _ ho).2, hsh _ ho]
    omega
  rw [hop, hb, planeBetaSq]
  simp [h0]

/-- Any absorbing device between two pieces of vacuum, one cell wide: a device of any length with any permittivity that absorbs from two planes after the first port to two planes before the second. -/
example (hsh : ∀ b, b ≠ axis → sh b = 1) (S : Slices sh axis) (hS : FullWindow S) {i j : ℕ} (hi : 0 < i) (hij : i + 5 ≤ j) (hj : j + 2 < sh axis) (eps : VField sh ℂ)
    (hloss : ∀ c (x : Idx sh), i + 2 ≤ (x axis : ℕ) → (x axis : ℕ) + 2 ≤ j → (eps c x).im < 0)
    (hvac : ∀ c (x : Idx sh), (x axis : ℕ) ≤ i + 1 ∨ j ≤ (x axis : ℕ) + 1 → eps c x = 1) :
    ∃ (b : Module.Basis (Fin 2 × Idx (sh2 S)) ℂ (Wg2.V 2 (sh2 S)))
      (P : LeadAt S ((1 : ℝ) : ℂ) (cDx (unitGrid sh)) eps none i (cDx (unitGrid sh)) 1 (fun _ _ => 1) none b fun _ => 1)
      (Q : LeadAt S ((1 : ℝ) : ℂ) (cDx (unitGrid sh)) eps none j (cDx (unitGrid sh)) 1 (fun _ _ => 1) none b fun _ => 1),
      NoTrapped ((1 : ℝ) : ℂ) (cDx (unitGrid sh)) eps none axis i j (portWaves S P.guide.full (cDx (unitGrid sh)) 1 (fun _ _ => 1) b (fun _ => 1) true)
        (portWaves S Q.guide.full (cDx (unitGrid sh)) 1 (fun _ _ => 1) b (fun _ => 1) false) := by
  obtain ⟨U, b, hb⟩ := single_section hsh S hS
  have near : ∀ m, m ≤ i ∨ j ≤ m + 1 → SameNear axis m (cDx (unitGrid sh)) eps none (cDx (unitGrid sh)) (fun _ _ => 1) none := fun m hm =>
    ⟨fun _ _ _ => ⟨rfl, rfl⟩, fun _ _ => ⟨rfl, rfl⟩, fun c x hx => ⟨hvac c x (by omega), rfl⟩⟩
  have hk2 : ∀ n : Fin 2 × Idx (sh2 S), ((1 : ℂ) * (1 : ℝ)) ^ 2 ≠ 4 := fun _ => by norm_num
  have P : LeadAt S ((1 : ℝ) : ℂ) (cDx (unitGrid sh)) eps none i (cDx (unitGrid sh)) 1 (fun _ _ => 1) none b fun _ => 1 :=
    ⟨U, hb, fun _ => one_ne_zero, hk2, hi, by omega, near _ (by omega), near _ (by omega)⟩
  have Q : LeadAt S ((1 : ℝ) : ℂ) (cDx (unitGrid sh)) eps none j (cDx (unitGrid sh)) 1 (fun _ _ => 1) none b fun _ => 1 :=
    ⟨U, hb, fun _ => one_ne_zero, hk2, by omega, hj, near _ (by omega), near _ (by omega)⟩
  have step : ∀ (s : Bool) (m : ℕ), m + 1 < sh axis → ∀ u E, SumOfWaves axis m (portWaves S hS (cDx (unitGrid sh)) 1 (fun _ _ => 1) b (fun _ => 1) s) (Sum.elim 0 u) E →
      ∀ c, c ≠ axis → ∀ x : Idx sh, (x axis : ℕ) = m → E c (shiftIdx axis 1 x) = halfFactor 1 1 (!s) ^ 2 * E c x := by
    intro s m hm u E hE c _ x hx
    rw [hE c x (Or.inl hx), hE c _ (Or.inr (by rw [plane_shift_val (by omega), hx])), Finset.mul_sum]
    refine Finset.sum_congr rfl fun n _ => ?_
    rcases n with n | n
    · simp
    · show u n * guideWave _ _ _ _ _ _ = _ * (u n * guideWave _ _ _ _ _ _)
      rw [guideWave_step _ _ _ _ _ _ (by omega)]; ring
  refine ⟨b, P, Q, C179_absorbing one_pos ⟨fun _ _ => one_pos, fun _ _ => one_pos⟩ (fun _ h => by cases h) P Q hij (fun c x h1 h2 => ⟨?_, ?_⟩) hloss true false (fun u E h => ?_) fun u E h => ?_⟩
  · by_cases h3 : i + 2 ≤ (x axis : ℕ) ∧ (x axis : ℕ) + 2 ≤ j
    · exact (hloss c x h3.1 h3.2).le
    · rw [hvac c x (by omega)]; simp
  · simp
  · obtain ⟨q, hq, e⟩ := single_power hsh (halfFactor_one false).1 (halfFactor_one false).2.1 (step true i (by omega) u E h)
    rw [e]; exact mul_nonpos_of_nonpos_of_nonneg (halfFactor_one true).2.2.2 hq
  · obtain ⟨q, hq, e⟩ := single_power hsh (halfFactor_one true).1 (halfFactor_one true).2.1 (step false j (by omega) u E h)
    rw [e]; exact mul_nonneg (halfFactor_one true).2.2.1 hq

end Meanas.Props
