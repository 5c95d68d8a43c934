/-
C151: what the number types of the arrays do to the results.
-/
import Verif.Model.Typed
import Verif.Lemmas.Functional

namespace Meanas.Props

open Typed Complex

variable {sh : Fin 3 → ℕ}

/-- The values of an array of kind `k`. -/
def HasKind : Kind → ℂ → Prop
  | .int, z => ∃ n : ℤ, z = n
  | .flt, z => z.im = 0
  | .cplx, _ => True

/-- Number types that `curl_forward(dx)` / `curl_back(dx)` accept for a field of kind `k`: complex fields with every grid, floating fields
with a grid that has no complex widths, and integer fields only without a grid. -/
def Accepts (dx : Option (TDx sh)) (k : Kind) : Prop :=
  match dx with
  | none => True
  | some d => k = .cplx ∨ (k = .flt ∧ ∀ a, d.kind a ≠ .cplx)

/-- Number types for which an in-place update of a field of kind `out` with a floating factor and data of kinds `k`, `m` is possible. -/
def Holds (out k m : Kind) : Prop := out = .cplx ∨ (out = .flt ∧ k ≠ .cplx ∧ m ≠ .cplx)

namespace TypedAux

theorem rank_promote (a b : Kind) : (promote a b).rank = max a.rank b.rank := by
  cases a <;> cases b <;> rfl

theorem trunc_int (n : ℤ) : trunc (n : ℝ) = n := by
  unfold trunc; split_ifs <;> simp

theorem castTo_of_fits {k : Kind} {z : ℂ} (h : HasKind k z) : castTo k z = z := by
  cases k with
  | int => obtain ⟨n, rfl⟩ := h; simp [castTo, trunc_int]
  | flt => apply Complex.ext <;> simp [castTo]; exact h.symm
  | cplx => rfl

theorem HasKind.mono {a b : Kind} (hab : a.rank ≤ b.rank) {z : ℂ} (h : HasKind a z) : HasKind b z := by
  cases a <;> cases b <;> simp [Kind.rank] at hab <;> try exact h
  · obtain ⟨n, rfl⟩ := h; simp [HasKind]
  · trivial
  · trivial

theorem HasKind.sub {k : Kind} {z w : ℂ} (h : HasKind k z) (h' : HasKind k w) : HasKind k (z - w) := by
  cases k with
  | int => obtain ⟨n, rfl⟩ := h; obtain ⟨m, rfl⟩ := h'; exact ⟨n - m, by push_cast; rfl⟩
  | flt => simp only [HasKind] at *; simp [h, h']
  | cplx => trivial

theorem HasKind.mul {k : Kind} {z w : ℂ} (h : HasKind k z) (h' : HasKind k w) : HasKind k (z * w) := by
  cases k with
  | int => obtain ⟨n, rfl⟩ := h; obtain ⟨m, rfl⟩ := h'; exact ⟨n * m, by push_cast; rfl⟩
  | flt => simp only [HasKind] at *; simp [h, h']
  | cplx => trivial

theorem HasKind.div {k : Kind} (hk : 1 ≤ k.rank) {z w : ℂ} (h : HasKind k z) (h' : HasKind k w) : HasKind k (z / w) := by
  cases k with
  | int => simp [Kind.rank] at hk
  | flt => simp only [HasKind] at *; rw [Complex.div_im]; simp [h, h']
  | cplx => trivial

end TypedAux

open TypedAux

/-- A vector field whose values belong to its number type. -/
def _root_.Meanas.Typed.TField.Fit (f : TField sh) : Prop := ∀ c x, HasKind f.kind (f.val c x)

/-- Widths that belong to their number types. -/
def _root_.Meanas.Typed.TDx.Fit (d : TDx sh) : Prop := ∀ a i, HasKind (d.kind a) (d.val a i)

namespace TypedAux

theorem curlWith_eq {D : Fin 3 → TArr sh → TArr sh} {Dv : Fin 3 → Arr sh ℂ → Arr sh ℂ} {dk : Fin 3 → Kind} (e : TField sh)
    (hD : ∀ a c, D a (e.get c) = ⟨dk a, Dv a (e.val c)⟩) (hk : ∀ a c x, (dk a).rank ≤ e.kind.rank → HasKind e.kind (Dv a (e.val c) x)) :
    ((∀ a, (dk a).rank ≤ e.kind.rank) → curlWith D e = .ok ⟨e.kind, ![fun x => Dv 1 (e.val 2) x - Dv 2 (e.val 1) x,
        fun x => Dv 2 (e.val 0) x - Dv 0 (e.val 2) x, fun x => Dv 0 (e.val 1) x - Dv 1 (e.val 0) x]⟩) ∧
    ((∃ a, ¬ (dk a).rank ≤ e.kind.rank) → curlWith D e = .error "UFuncTypeError") := by
  constructor
  · intro h
    simp only [curlWith, hD, isub, assign, rank_promote, bind, Except.bind, pure, Except.pure]
    rw [if_pos (max_le le_rfl (h 2))]
    dsimp only
    rw [if_pos (max_le le_rfl (h 0))]
    dsimp only
    rw [if_pos (max_le le_rfl (h 1))]
    dsimp only
    simp only [castTo_of_fits (hk 1 2 _ (h 1)), castTo_of_fits (hk 2 0 _ (h 2)), castTo_of_fits (hk 0 1 _ (h 0))]
  · intro h
    simp only [curlWith, hD, isub, assign, rank_promote, bind, Except.bind, pure, Except.pure]
    by_cases h2 : (dk 2).rank ≤ e.kind.rank
    · rw [if_pos (max_le le_rfl h2)]
      dsimp only
      by_cases h0 : (dk 0).rank ≤ e.kind.rank
      · rw [if_pos (max_le le_rfl h0)]
        dsimp only
        rw [if_neg]
        intro h1
        obtain ⟨a, ha⟩ := h
        have h1 := (le_max_right _ _).trans h1
        exact ha (by fin_cases a <;> assumption)
      · rw [if_neg fun h => h0 ((le_max_right _ _).trans h)]
    · rw [if_neg fun h => h2 ((le_max_right _ _).trans h)]

/-- Kind of a derivative along `a` of a field of kind `k`. -/
def dKind (dx : Option (TDx sh)) (k : Kind) (a : Fin 3) : Kind :=
  match dx with
  | some d => divKind (promote k k) (d.kind a)
  | none => promote k k

theorem accepts_iff (dx : Option (TDx sh)) (k : Kind) : Accepts dx k ↔ ∀ a, (dKind dx k a).rank ≤ k.rank := by
  cases dx with
  | none => simp [Accepts, dKind, rank_promote]
  | some d =>
    simp only [Accepts, dKind, divKind, rank_promote]
    constructor
    · rintro (rfl | ⟨rfl, h⟩) a
      · cases d.kind a <;> simp [Kind.rank]
      · have := h a; cases hh : d.kind a <;> simp_all [Kind.rank]
    · intro h
      cases k with
      | int => have := h 0; simp [Kind.rank] at this
      | flt => right; refine ⟨rfl, fun a ha => ?_⟩; have := h a; simp [Kind.rank, ha] at this
      | cplx => left; rfl

theorem fits_derivForward {dx : Option (TDx sh)} (hdx : ∀ d, dx = some d → d.Fit) {k : Kind} {f : Arr sh ℂ} (hf : ∀ x, HasKind k (f x)) (a : Fin 3)
    (h : (dKind dx k a).rank ≤ k.rank) (x : Idx sh) : HasKind k (Functional.derivForward (dx.map TDx.val) a f x) := by
  cases dx with
  | none => exact HasKind.sub (hf _) (hf _)
  | some d =>
    simp only [dKind, divKind, rank_promote] at h
    have h1 : 1 ≤ k.rank := (le_max_left _ _).trans h
    exact HasKind.div h1 (HasKind.sub (hf _) (hf _)) (HasKind.mono ((le_max_right _ _).trans ((le_max_right _ _).trans h)) (hdx d rfl a _))

theorem fits_derivBack {dx : Option (TDx sh)} (hdx : ∀ d, dx = some d → d.Fit) {k : Kind} {f : Arr sh ℂ} (hf : ∀ x, HasKind k (f x)) (a : Fin 3)
    (h : (dKind dx k a).rank ≤ k.rank) (x : Idx sh) : HasKind k (Functional.derivBack (dx.map TDx.val) a f x) := by
  cases dx with
  | none => exact HasKind.sub (hf _) (hf _)
  | some d =>
    simp only [dKind, divKind, rank_promote] at h
    have h1 : 1 ≤ k.rank := (le_max_left _ _).trans h
    exact HasKind.div h1 (HasKind.sub (hf _) (hf _)) (HasKind.mono ((le_max_right _ _).trans ((le_max_right _ _).trans h)) (hdx d rfl a _))

end TypedAux

/-- **C151 (curls).** `curl_forward(dx)(e)` and `curl_back(dx)(e)` never return a wrong number because of the number types involved: if the types
are acceptable (complex fields always; floating fields on grids without complex widths; integer fields only without a grid) they return the
curl of the values, in the type of `e`; in all other cases they raise `UFuncTypeError`, although the first three assignments of the code
would silently discard imaginary parts or fractions. -/
theorem C151_curl (dx : Option (TDx sh)) (hdx : ∀ d, dx = some d → d.Fit) (e : TField sh) (he : e.Fit) :
    (Accepts dx e.kind →
      Typed.curlForward dx e = .ok ⟨e.kind, Functional.curlForward (dx.map TDx.val) e.val⟩ ∧
      Typed.curlBack dx e = .ok ⟨e.kind, Functional.curlBack (dx.map TDx.val) e.val⟩) ∧
    (¬ Accepts dx e.kind →
      Typed.curlForward dx e = .error "UFuncTypeError" ∧ Typed.curlBack dx e = .error "UFuncTypeError") := by
  have hf := curlWith_eq (D := Typed.derivForward dx) (Dv := Functional.derivForward (dx.map TDx.val)) (dk := dKind dx e.kind) e
    (fun a c => by cases dx <;> rfl) (fun a c x h => fits_derivForward hdx (he c) a h x)
  have hb := curlWith_eq (D := Typed.derivBack dx) (Dv := Functional.derivBack (dx.map TDx.val)) (dk := dKind dx e.kind) e
    (fun a c => by cases dx <;> rfl) (fun a c x h => fits_derivBack hdx (he c) a h x)
  rw [accepts_iff]
  refine ⟨fun h => ⟨hf.1 h, hb.1 h⟩, fun h => ?_⟩
  push Not at h
  obtain ⟨a, ha⟩ := h
  exact ⟨hf.2 ⟨a, not_le.2 ha⟩, hb.2 ⟨a, not_le.2 ha⟩⟩

namespace TypedAux

theorem holds_iff (o k m : Kind) : Holds o k m ↔ (promote o (divKind (promote .flt k) m)).rank ≤ o.rank := by
  cases o <;> cases k <;> cases m <;> simp [Holds, divKind, promote, Kind.rank]

theorem holds_iff' (o k : Kind) : Holds o k .flt ↔ (promote o (promote .flt k)).rank ≤ o.rank := by
  cases o <;> cases k <;> simp [Holds, promote, Kind.rank]

end TypedAux

/-- The untyped grid of a typed one. -/
def _root_.Meanas.Typed.untype (d : TDxes sh) : Fdtd.Dxes sh ℂ := (d.1.val, d.2.val)

/-- **C151 (FDTD updates).** `maxwell_e` either performs the update of the values, keeping the type of `e`, or raises: it raises exactly when the curl of
`h` does, or when `e` is not complex although `h` or `epsilon` is, or when `e` is an integer array. The same for `maxwell_h`. -/
theorem C151_updates (dt : ℝ) (dxes : Option (TDxes sh)) (hdx : ∀ d, dxes = some d → d.1.Fit ∧ d.2.Fit) (e h m : TField sh) (he : e.Fit) (hh : h.Fit) :
    (Accepts (dxes.map Prod.snd) h.kind ∧ Holds e.kind h.kind m.kind →
      Typed.maxwellE dt dxes e h m = .ok ⟨e.kind, Fdtd.maxwellE (dt : ℂ) (dxes.map untype) e.val h.val m.val⟩) ∧
    (¬ (Accepts (dxes.map Prod.snd) h.kind ∧ Holds e.kind h.kind m.kind) → Typed.maxwellE dt dxes e h m = .error "UFuncTypeError") ∧
    (Accepts (dxes.map Prod.fst) e.kind ∧ Holds h.kind e.kind m.kind →
      Typed.maxwellH dt dxes e h (some m) = .ok ⟨h.kind, Fdtd.maxwellH (dt : ℂ) (dxes.map untype) e.val h.val (some m.val)⟩) ∧
    (¬ (Accepts (dxes.map Prod.fst) e.kind ∧ Holds h.kind e.kind m.kind) → Typed.maxwellH dt dxes e h (some m) = .error "UFuncTypeError") ∧
    (Accepts (dxes.map Prod.fst) e.kind ∧ Holds h.kind e.kind .flt →
      Typed.maxwellH dt dxes e h none = .ok ⟨h.kind, Fdtd.maxwellH (dt : ℂ) (dxes.map untype) e.val h.val none⟩) ∧
    (¬ (Accepts (dxes.map Prod.fst) e.kind ∧ Holds h.kind e.kind .flt) → Typed.maxwellH dt dxes e h none = .error "UFuncTypeError") := by
  have h2 := C151_curl (dxes.map Prod.snd) (fun d hd => by
    cases dxes with
    | none => simp at hd
    | some q => simp at hd; subst hd; exact (hdx q rfl).2) h hh
  have h1 := C151_curl (dxes.map Prod.fst) (fun d hd => by
    cases dxes with
    | none => simp at hd
    | some q => simp at hd; subst hd; exact (hdx q rfl).1) e he
  refine ⟨fun hc => ?_, fun hc => ?_, fun hc => ?_, fun hc => ?_, fun hc => ?_, fun hc => ?_⟩
  · simp only [Typed.maxwellE, (h2.1 hc.1).2, bind, Except.bind, iaddF]
    refine (if_pos ((holds_iff _ _ _).1 hc.2)).trans ?_
    cases dxes <;> rfl
  · by_cases ha : Accepts (dxes.map Prod.snd) h.kind
    · simp only [Typed.maxwellE, (h2.1 ha).2, bind, Except.bind, iaddF]
      exact if_neg fun hn => hc ⟨ha, (holds_iff _ _ _).2 hn⟩
    · simp only [Typed.maxwellE, (h2.2 ha).2, bind, Except.bind]
  · simp only [Typed.maxwellH, (h1.1 hc.1).1, bind, Except.bind, isubF]
    refine (if_pos ((holds_iff _ _ _).1 hc.2)).trans ?_
    cases dxes <;> rfl
  · by_cases ha : Accepts (dxes.map Prod.fst) e.kind
    · simp only [Typed.maxwellH, (h1.1 ha).1, bind, Except.bind, isubF]
      exact if_neg fun hn => hc ⟨ha, (holds_iff _ _ _).2 hn⟩
    · simp only [Typed.maxwellH, (h1.2 ha).1, bind, Except.bind]
  · simp only [Typed.maxwellH, (h1.1 hc.1).1, bind, Except.bind, isubF]
    refine (if_pos ((holds_iff' _ _).1 hc.2)).trans ?_
    cases dxes <;> rfl
  · by_cases ha : Accepts (dxes.map Prod.fst) e.kind
    · simp only [Typed.maxwellH, (h1.1 ha).1, bind, Except.bind, isubF]
      exact if_neg fun hn => hc ⟨ha, (holds_iff' _ _).2 hn⟩
    · simp only [Typed.maxwellH, (h1.2 ha).1, bind, Except.bind]

/-- **C151 (wave operator).** The functional FDFD operator `e_full` gives its value for every complex field, whatever the types of the grid and of
the materials; for a floating field on a grid with complex (absorbing) widths along any axis it raises, although the field has a value under
the sparse operator. -/
theorem C151_wave (ω : ℂ) (dxes : TDxes sh) (hd : dxes.1.Fit ∧ dxes.2.Fit) (eps : TField sh) (mu : Option (TField sh)) (e : TField sh) (he : e.Fit) :
    (e.kind = .cplx → Typed.eFull ω dxes eps mu e = .ok ⟨.cplx, FdfdF.eFull ω (untype dxes) eps.val (mu.map TField.val) e.val⟩) ∧
    ((e.kind = .flt ∧ ∃ a, dxes.1.kind a = .cplx) → Typed.eFull ω dxes eps mu e = .error "UFuncTypeError") := by
  have h1 := C151_curl (some dxes.1) (fun d h => by simp at h; subst h; exact hd.1) e he
  constructor
  · intro hk
    have hc := (h1.1 (Or.inl hk)).1
    simp only [Typed.eFull, hc, bind, Except.bind]
    cases mu with
    | none =>
      have h2 := C151_curl (some dxes.2) (fun d h => by simp at h; subst h; exact hd.2) ⟨e.kind, Functional.curlForward (some dxes.1.val) e.val⟩
        (fun c x => by simp [hk, HasKind])
      have := (h2.1 (Or.inl hk)).2
      simp only [Option.map_some] at this ⊢
      rw [this]
      rfl
    | some m =>
      have hp : promote m.kind e.kind = .cplx := by rw [hk]; cases m.kind <;> rfl
      have h2 := C151_curl (some dxes.2) (fun d h => by simp at h; subst h; exact hd.2)
        ⟨promote m.kind e.kind, fun c x => m.val c x * Functional.curlForward (some dxes.1.val) e.val c x⟩
        (fun c x => by simp [hp, HasKind])
      have := (h2.1 (Or.inl hp)).2
      simp only [Option.map_some] at this ⊢
      rw [this]
      rfl
  · rintro ⟨hk, a, ha⟩
    have hc := (h1.2 (by
      rintro (h | ⟨_, h⟩)
      · rw [hk] at h; cases h
      · exact h a ha)).1
    simp only [Typed.eFull, hc, bind, Except.bind]

namespace TypedAux

theorem fits_cross {k : Kind} {a b c d : ℂ} (ha : HasKind k a) (hb : HasKind k b) (hc : HasKind k c) (hd : HasKind k d) : HasKind k (a * b - c * d) :=
  HasKind.sub (HasKind.mul ha hb) (HasKind.mul hc hd)

theorem fits_poynting {k : Kind} {e h : VField sh ℂ} {d : Fdtd.Dxes sh ℂ} (he : ∀ c x, HasKind k (e c x)) (hh : ∀ c x, HasKind k (h c x))
    (h1 : ∀ a i, HasKind k (d.1 a i)) (h2 : ∀ a i, HasKind k (d.2 a i)) (c : Fin 3) (x : Idx sh) : HasKind k (Fdtd.poynting e h (some d) c x) := by
  revert c
  refine forall_fin3 ?_ ?_ ?_ <;>
  exact fits_cross (HasKind.mul (he _ _) (h1 _ _)) (HasKind.mul (hh _ _) (h2 _ _)) (HasKind.mul (he _ _) (h1 _ _)) (HasKind.mul (hh _ _) (h2 _ _))

theorem poynting_none (e h : VField sh ℂ) : Fdtd.poynting e h none = Fdtd.poynting e h (some (fun _ _ => 1, fun _ _ => 1)) := rfl

theorem fits_one (k : Kind) : HasKind k 1 := by
  cases k with
  | int => exact ⟨1, by simp⟩
  | flt => simp [HasKind]
  | cplx => trivial

end TypedAux

/-- **C151 (Poynting vectors).** `fdtd.poynting(e, h, dxes)` and `fdfd.functional.poynting_e_cross_h(dxes)(e, h)` return the cross product if the type of `e` is at least as
large as the types of `h` and of the widths. -/
theorem C151_poynting (dxes : Option (TDxes sh)) (hdx : ∀ d, dxes = some d → d.1.Fit ∧ d.2.Fit) (e h : TField sh) (he : e.Fit) (hh : h.Fit)
    (hk : h.kind.rank ≤ e.kind.rank) (hw : ∀ d, dxes = some d → ∀ a, (d.1.kind a).rank ≤ e.kind.rank ∧ (d.2.kind a).rank ≤ e.kind.rank) :
    Typed.poynting e h dxes = ⟨e.kind, Fdtd.poynting e.val h.val (dxes.map untype)⟩ ∧
    ∀ d, dxes = some d → Typed.poyntingECrossH d e h = ⟨e.kind, FdfdF.poyntingECrossH (untype d) e.val h.val⟩ := by
  have hh' : ∀ c x, HasKind e.kind (h.val c x) := fun c x => HasKind.mono hk (hh c x)
  constructor
  · simp only [Typed.poynting, intoLike, TField.mk.injEq, true_and]
    funext c x
    refine castTo_of_fits ?_
    cases dxes with
    | none => exact fits_poynting (d := (fun _ _ => 1, fun _ _ => 1)) he hh' (fun _ _ => fits_one _) (fun _ _ => fits_one _) c x
    | some d => exact fits_poynting (d := untype d) he hh' (fun a i => HasKind.mono (hw d rfl a).1 ((hdx d rfl).1 a i))
                  (fun a i => HasKind.mono (hw d rfl a).2 ((hdx d rfl).2 a i)) c x
  · intro d hd
    simp only [Typed.poyntingECrossH, intoLike, TField.mk.injEq, true_and]
    funext c x
    refine castTo_of_fits ?_
    exact fits_poynting (d := untype d) he hh' (fun a i => HasKind.mono (hw d hd a).1 ((hdx d hd).1 a i))
                  (fun a i => HasKind.mono (hw d hd a).2 ((hdx d hd).2 a i)) c x

/-- **C151, where it fails (Poynting vectors).** For a floating `e` the result of both functions is only the real part of the cross product, whatever the type of `h` and of the widths:
no exception is raised. In particular, on every grid with a cell there are a floating `e` and a complex `h` on a real grid for which the result is zero
everywhere although `E × H` is not (a real `E` and an imaginary `H`: a standing wave), whereas both functions return `E × H` when the same numbers are given as a complex `e`. -/
theorem C151_poynting_partial :
    (∀ (e h : TField sh) (dxes : TDxes sh), e.kind = .flt →
      (∀ c x, (Typed.poynting e h (some dxes)).val c x = ((Fdtd.poynting e.val h.val (some (untype dxes)) c x).re : ℂ)) ∧
      (∀ c x, (Typed.poyntingECrossH dxes e h).val c x = ((FdfdF.poyntingECrossH (untype dxes) e.val h.val c x).re : ℂ))) ∧
    ∀ _ : Idx sh, ∃ (e h : TField sh) (dxes : TDxes sh), e.Fit ∧ h.Fit ∧ dxes.1.Fit ∧ dxes.2.Fit ∧ e.kind = .flt ∧ h.kind = .cplx ∧
      (∀ a, dxes.1.kind a = .flt ∧ dxes.2.kind a = .flt) ∧
      (Typed.poynting e h (some dxes)).val = 0 ∧ (Typed.poyntingECrossH dxes e h).val = 0 ∧
      (Typed.poynting ⟨.cplx, e.val⟩ h (some dxes)).val = Fdtd.poynting e.val h.val (some (untype dxes)) ∧
      (Typed.poynting ⟨.cplx, e.val⟩ h (some dxes)).val ≠ 0 ∧ (Typed.poyntingECrossH dxes ⟨.cplx, e.val⟩ h).val ≠ 0 := by
  have main : ∀ (e h : TField sh) (dxes : TDxes sh), e.kind = .flt →
      (∀ c x, (Typed.poynting e h (some dxes)).val c x = ((Fdtd.poynting e.val h.val (some (untype dxes)) c x).re : ℂ)) ∧
      (∀ c x, (Typed.poyntingECrossH dxes e h).val c x = ((FdfdF.poyntingECrossH (untype dxes) e.val h.val c x).re : ℂ)) := by
    intro e h dxes hk
    constructor <;> intro c x <;> simp only [Typed.poynting, Typed.poyntingECrossH, intoLike, hk, castTo] <;> rfl
  refine ⟨main, fun x₀ => ?_⟩
  let e : TField sh := ⟨.flt, ![fun _ => 0, fun _ => 1, fun _ => 0]⟩
  let h : TField sh := ⟨.cplx, ![fun _ => 0, fun _ => 0, fun _ => I]⟩
  let d : TDx sh := ⟨fun _ => .flt, fun _ _ => 1⟩
  have hd : d.Fit := fun _ _ => by simp [d, HasKind]
  have h0 : ∀ c x, (Fdtd.poynting e.val h.val (some (untype (d, d))) c x).re = 0 := by
    refine forall_fin3 ?_ ?_ ?_ <;> intro x <;> simp [Fdtd.poynting, Fdtd.dxesOrOnes, e, h, d, untype, roll]
  have hx : Fdtd.poynting e.val h.val (some (untype (d, d))) 0 x₀ = I := by
    simp [Fdtd.poynting, Fdtd.dxesOrOnes, e, h, d, untype, roll]
  refine ⟨e, h, (d, d), ?_, fun c x => trivial, hd, hd, rfl, rfl, fun _ => ⟨rfl, rfl⟩, ?_, ?_, rfl, ?_, ?_⟩
  · refine forall_fin3 ?_ ?_ ?_ <;> intro x <;> simp [e, HasKind]
  · funext c x
    rw [(main e h (d, d) rfl).1, h0]; simp
  · funext c x
    rw [(main e h (d, d) rfl).2]
    exact congrArg Complex.ofReal (h0 c x) |>.trans (by simp)
  · intro hz
    have := congrFun (congrFun hz 0) x₀
    rw [show (Typed.poynting ⟨.cplx, e.val⟩ h (some (d, d))).val 0 x₀ = I from hx] at this
    simp at this
  · intro hz
    have := congrFun (congrFun hz 0) x₀
    rw [show (Typed.poyntingECrossH (d, d) ⟨.cplx, e.val⟩ h).val 0 x₀ = I from hx] at this
    simp at this

/-- **C151, where it fails (mode expansion).** `expand_e` of a complex field is the expansion; of a floating field it is only the real part of the expansion (no exception is raised),
so a travelling wave becomes a standing one. There is a floating field whose expansion is returned as zero where it has modulus one. -/
theorem C151_expand_partial :
    (∀ (sh : Fin 3 → ℕ) (E : TField sh) (k : ℂ) (dxes : Fdfd.Dx sh) (axis : Fin 3) (pol : ℤ) (S : Wg3.Slices sh axis),
      (E.kind = .cplx → Typed.expandE E k dxes pol S = ⟨.cplx, Wg3.expandE E.val k dxes pol S⟩) ∧
      (E.kind = .flt → Typed.expandE E k dxes pol S = ⟨.flt, fun c x => ((Wg3.expandE E.val k dxes pol S c x).re : ℂ)⟩)) ∧
    ∃ (sh : Fin 3 → ℕ) (E : TField sh) (k : ℂ) (dxes : Fdfd.Dx sh) (S : Wg3.Slices sh 0) (x : Idx sh), E.Fit ∧ E.kind = .flt ∧
      (Typed.expandE E k dxes 1 S).val 0 x = 0 ∧ (Typed.expandE ⟨.cplx, E.val⟩ k dxes 1 S).val 0 x = -I := by
  refine ⟨fun sh E k dxes axis pol S => ⟨fun hk => ?_, fun hk => ?_⟩, ?_⟩
  · simp only [Typed.expandE, intoLike, hk, castTo]
  · simp only [Typed.expandE, intoLike, hk, castTo]
  · let sh : Fin 3 → ℕ := ![2, 1, 1]
    let S : Wg3.Slices sh 0 := ⟨fun _ => 0, fun _ => 1, by intro a; simp, by intro a; fin_cases a <;> simp [sh], by rfl⟩
    let x : Idx sh := fun a => match a with
      | 0 => (1 : Fin 2)
      | 1 => (0 : Fin 1)
      | 2 => (0 : Fin 1)
    let d : Fdfd.Dx sh := (fun _ _ => 1, fun _ _ => 1)
    let E : TField sh := ⟨.flt, fun _ _ => 1⟩
    have hx : Wg3.expandE E.val (Real.pi / 2 : ℝ) d 1 S 0 x = -I := by
      have hm : ∀ b, b ≠ 0 → S.Mem b (x b) := by
        refine forall_fin3 ?_ ?_ ?_ <;> intro h
        · exact absurd rfl h
        · exact ⟨Nat.zero_le _, Nat.zero_lt_one⟩
        · exact ⟨Nat.zero_le _, Nat.zero_lt_one⟩
      unfold Wg3.expandE
      dsimp only
      rw [if_pos hm]
      have : (Wg2.cumsum (fun j => (d.1 0 j).re) (x 0) - Wg2.cumsum (fun j => (d.1 0 j).re) S.plane : ℝ) = 1 := by
        have c1 : ∀ f : Fin 2 → ℝ, Wg2.cumsum f 1 - Wg2.cumsum f 0 = f 1 := by
          intro f; simp [Wg2.cumsum, Fin.sum_univ_two]
        refine (c1 fun j => (d.1 0 j).re).trans ?_
        simp [d]
      rw [this]
      have e1 : (((1 : ℤ) : ℂ) * -I * ((Real.pi / 2 : ℝ) : ℂ) * ((1 : ℝ) : ℂ)) = -(Real.pi / 2 * I) := by push_cast; ring
      rw [e1, Complex.exp_neg, Complex.exp_pi_div_two_mul_I]
      simp [E]
    refine ⟨sh, E, (Real.pi / 2 : ℝ), d, S, x, fun c x => by simp [E, HasKind], rfl, ?_, ?_⟩
    · show castTo .flt (Wg3.expandE E.val (Real.pi / 2 : ℝ) d 1 S 0 x) = 0
      rw [hx]; simp [castTo]
    · show castTo .cplx (Wg3.expandE E.val (Real.pi / 2 : ℝ) d 1 S 0 x) = -I
      rw [hx]; rfl

/-- **C151, where it fails (integer fields).** With an integer `e` both Poynting functions and `expand_e` return integers: the real part of the exact value, cut
towards zero (never larger in modulus, never of the other sign, off by less than one), without an exception. -/
theorem C151_integer_partial {axis : Fin 3} (e h : TField sh) (dxes : TDxes sh) (k : ℂ) (d : Fdfd.Dx sh) (pol : ℤ) (S : Wg3.Slices sh axis) (he : e.kind = .int) (c : Fin 3) (x : Idx sh)
    (q : ℂ × ℂ) (hq : q = ((Typed.poynting e h (some dxes)).val c x, Fdtd.poynting e.val h.val (some (untype dxes)) c x) ∨
      q = ((Typed.poyntingECrossH dxes e h).val c x, FdfdF.poyntingECrossH (untype dxes) e.val h.val c x) ∨
      q = ((Typed.expandE e k d pol S).val c x, Wg3.expandE e.val k d pol S c x)) :
    ∃ n : ℤ, q.1 = n ∧ |(n : ℝ)| ≤ |q.2.re| ∧ |q.2.re - n| < 1 ∧ 0 ≤ n * q.2.re := by
  have key : ∀ z : ℂ, ∃ n : ℤ, castTo .int z = n ∧ |(n : ℝ)| ≤ |z.re| ∧ |z.re - n| < 1 ∧ 0 ≤ n * z.re := by
    intro z
    refine ⟨trunc z.re, rfl, ?_⟩
    unfold trunc
    split_ifs with h0
    · have h1 : (0 : ℝ) ≤ ⌊z.re⌋ := by exact_mod_cast Int.floor_nonneg.2 h0
      have h2 := Int.floor_le z.re
      have h3 := Int.lt_floor_add_one z.re
      refine ⟨?_, ?_, mul_nonneg h1 h0⟩
      · rw [abs_of_nonneg h1, abs_of_nonneg h0]; exact h2
      · rw [abs_of_nonneg (by linarith)]; linarith
    · have h0' := not_le.1 h0
      have h2 := Int.le_ceil z.re
      have h3 := Int.ceil_lt_add_one z.re
      have h1 : ((⌈z.re⌉ : ℤ) : ℝ) ≤ 0 := by exact_mod_cast Int.ceil_le.2 (by simpa using h0'.le)
      refine ⟨?_, ?_, mul_nonneg_of_nonpos_of_nonpos h1 h0'.le⟩
      · rw [abs_of_nonpos h1, abs_of_neg h0']; linarith
      · rw [abs_of_nonpos (by linarith)]; linarith
  rcases hq with rfl | rfl | rfl
  · simp only [Typed.poynting, intoLike, he]; exact key _
  · simp only [Typed.poyntingECrossH, intoLike, he]; exact key _
  · simp only [Typed.expandE, intoLike, he]; exact key _

namespace TypedAux

theorem checks_ok {present : Fin 3 → Fin 2 → Bool} {dK : Fin 3 → Kind} {k : Kind} (hk : 1 ≤ k.rank) (hd : ∀ a, dK a = k) :
    cpmlChecks present dK k k .flt = .ok () := by
  cases k <;> simp [Kind.rank] at hk <;>
  simp [cpmlChecks, hd, okInto, promote, divKind, Kind.rank, bind, Except.bind, pure, Except.pure, List.forM]

theorem checks_none {present : Fin 3 → Fin 2 → Bool} (h : ∀ a pp, present a pp = false) : cpmlChecks present (fun _ => .cplx) .flt .cplx .flt = .ok () := by
  simp [cpmlChecks, h, okInto, promote, divKind, Kind.rank, bind, Except.bind, pure, Except.pure, List.forM]

theorem forM_err {α : Type} {l : List α} {f : α → Except String Unit} {E : String} {q : α} (hf : ∀ q, f q = .ok () ∨ f q = .error E) (hq : q ∈ l)
    (he : f q = .error E) : l.forM f = .error E := by
  induction l with
  | nil => simp at hq
  | cons a t ih =>
    have hc : (a :: t).forM f = (f a).bind fun _ => t.forM f := rfl
    rw [hc]
    rcases hf a with h | h
    · rw [h]
      rcases List.mem_cons.1 hq with rfl | hq
      · rw [h] at he; cases he
      · exact ih hq
    · rw [h]; rfl

theorem checks_some {present : Fin 3 → Fin 2 → Bool} {a : Fin 3} {pp : Fin 2} (h : present a pp = true) :
    cpmlChecks present (fun _ => .cplx) .flt .cplx .flt = .error "UFuncTypeError" := by
  have bad : okInto .flt (promote .flt .cplx) = .error "UFuncTypeError" := rfl
  have g1 : okInto .cplx .flt = .ok () := rfl
  have g2 : okInto .flt .flt = .ok () := rfl
  simp only [cpmlChecks, bad, g1, g2, bind, Except.bind, pure, Except.pure]
  rw [forM_err (E := "UFuncTypeError") (q := (a, pp)) (fun q => by split_ifs <;> simp) (by fin_cases a <;> fin_cases pp <;> simp) (by simp [h])]

end TypedAux

/-- **C151 (CPML updates).** On a real grid with real materials, the updates made by `updates_with_cpml` with its default `dtype` (floating) work for real fields; for complex fields (Bloch
phases, analytic signals) they raise as soon as there is one absorbing layer, and work without layers or when a complex `dtype` is passed. -/
theorem C151_cpml (layers : Fdtd.Layers sh ℂ) (dt : ℝ) (dxes : TDxes sh) (psi : Fdtd.Psi sh ℂ) (e h m : TField sh) (hd : ∀ a, dxes.2.kind a = .flt) (hm : m.kind = .flt)
    (k : Kind) (he : e.kind = k) (hh : h.kind = k) :
    let newE := Fdtd.cpmlUpdateE layers (dt : ℂ) (untype dxes) psi e.val h.val m.val
    let newH := Fdtd.cpmlUpdateH layers (dt : ℂ) (untype dxes) psi e.val h.val m.val
    (k = .flt ∨ k = .cplx → Typed.cpmlUpdateE layers k dt dxes psi e h m = .ok (⟨k, newE.1⟩, newE.2) ∧
      Typed.cpmlUpdateH layers k dt dxes psi e h m = .ok (⟨k, newH.1⟩, newH.2)) ∧
    (k = .cplx → (∀ a pp, layers a pp = none) → Typed.cpmlUpdateE layers .flt dt dxes psi e h m = .ok (⟨k, newE.1⟩, newE.2) ∧
      Typed.cpmlUpdateH layers .flt dt dxes psi e h m = .ok (⟨k, newH.1⟩, newH.2)) ∧
    (k = .cplx → (∃ a pp, layers a pp ≠ none) → Typed.cpmlUpdateE layers .flt dt dxes psi e h m = .error "UFuncTypeError" ∧
      Typed.cpmlUpdateH layers .flt dt dxes psi e h m = .error "UFuncTypeError") := by
  intro newE newH
  have hkb : ∀ q : Kind, q = .flt ∨ q = .cplx → divKind (promote q q) .flt = q := by rintro _ (rfl | rfl) <;> rfl
  refine ⟨fun hk => ?_, fun hk hl => ?_, fun hk hl => ?_⟩
  · have hr : 1 ≤ k.rank := by rcases hk with rfl | rfl <;> decide
    have hc := checks_ok (present := fun a pp => (layers a pp).isSome) (dK := fun _ => k) hr (fun _ => rfl)
    constructor
    · simp only [Typed.cpmlUpdateE, Typed.derivBack, TField.get, hd, hm, he, hh, hkb k hk, hc, bind, Except.bind, pure, Except.pure]; rfl
    · simp only [Typed.cpmlUpdateH, Typed.derivForward, TField.get, hd, hm, he, hh, hkb k hk, hc, bind, Except.bind, pure, Except.pure]; rfl
  · subst hk
    have hc := checks_none (present := fun a pp => (layers a pp).isSome) (fun a pp => by simp [hl])
    constructor
    · simp only [Typed.cpmlUpdateE, Typed.derivBack, TField.get, hd, hm, he, hh, hkb .cplx (Or.inr rfl), hc, bind, Except.bind, pure, Except.pure]; rfl
    · simp only [Typed.cpmlUpdateH, Typed.derivForward, TField.get, hd, hm, he, hh, hkb .cplx (Or.inr rfl), hc, bind, Except.bind, pure, Except.pure]; rfl
  · subst hk
    obtain ⟨a, pp, hl⟩ := hl
    have hc := checks_some (present := fun a pp => (layers a pp).isSome) (a := a) (pp := pp) (by simpa [Option.isSome_iff_ne_none] using hl)
    constructor
    · simp only [Typed.cpmlUpdateE, Typed.derivBack, TField.get, hd, hm, he, hh, hkb .cplx (Or.inr rfl), hc, bind, Except.bind]
    · simp only [Typed.cpmlUpdateH, Typed.derivForward, TField.get, hd, hm, he, hh, hkb .cplx (Or.inr rfl), hc, bind, Except.bind]

/-- Number types with which a CPML update of a field of kind `ko` from a field of kind `kd` works (`dtype = kp`, materials of kind `km`, floating widths). -/
def CpmlWorks (layers : Fdtd.Layers sh ℂ) (ko kd kp km : Kind) : Prop :=
  (ko = .cplx ∨ (ko = .flt ∧ kd ≠ .cplx ∧ kp ≠ .cplx ∧ km ≠ .cplx)) ∧ ((∀ a pp, layers a pp = none) ∨ kp = .cplx ∨ (kp = .flt ∧ kd ≠ .cplx))

theorem TypedAux.checks_iff (layers : Fdtd.Layers sh ℂ) (ko kd kp km : Kind) :
    (CpmlWorks layers ko kd kp km → cpmlChecks (fun a pp => (layers a pp).isSome) (fun _ => divKind (promote kd kd) .flt) kp ko km = .ok ()) ∧
    (¬ CpmlWorks layers ko kd kp km → cpmlChecks (fun a pp => (layers a pp).isSome) (fun _ => divKind (promote kd kd) .flt) kp ko km = .error "UFuncTypeError") := by
  by_cases hl : ∀ a pp, layers a pp = none
  · have hw : CpmlWorks layers ko kd kp km ↔ (ko = .cplx ∨ (ko = .flt ∧ kd ≠ .cplx ∧ kp ≠ .cplx ∧ km ≠ .cplx)) := ⟨fun h => h.1, fun h => ⟨h, Or.inl hl⟩⟩
    rw [hw]
    cases ko <;> cases kd <;> cases kp <;> cases km <;>
      simp [cpmlChecks, hl, okInto, promote, divKind, Kind.rank, bind, Except.bind, pure, Except.pure, List.forM]
  · have hw : CpmlWorks layers ko kd kp km ↔ (ko = .cplx ∨ (ko = .flt ∧ kd ≠ .cplx ∧ kp ≠ .cplx ∧ km ≠ .cplx)) ∧ (kp = .cplx ∨ (kp = .flt ∧ kd ≠ .cplx)) :=
      ⟨fun h => ⟨h.1, h.2.resolve_left hl⟩, fun h => ⟨h.1, Or.inr h.2⟩⟩
    push Not at hl
    obtain ⟨a, pp, hl⟩ := hl
    have hp : (layers a pp).isSome = true := by simpa [Option.isSome_iff_ne_none] using hl
    rw [hw]
    by_cases hin : kp = .cplx ∨ (kp = .flt ∧ kd ≠ .cplx)
    · have hloop : ∀ D : Kind, D = divKind (promote kd kd) .flt → okInto D .flt = .ok () ∧ okInto kp .flt = .ok () ∧ okInto kp (promote .flt D) = .ok () ∧ okInto kp kp = .ok () := by
        rintro D rfl
        revert hin
        cases kd <;> cases kp <;> simp [okInto, promote, divKind, Kind.rank]
      obtain ⟨g1, g2, g3, g4⟩ := hloop _ rfl
      simp only [cpmlChecks, g1, g2, g3, g4, bind, Except.bind, pure, Except.pure, ite_self, List.forM]
      revert hin
      cases ko <;> cases kd <;> cases kp <;> cases km <;> simp [okInto, promote, divKind, Kind.rank, List.forM_cons, List.forM_nil, bind, Except.bind, pure, Except.pure]
    · refine ⟨fun h => absurd h.2 hin, fun _ => ?_⟩
      have hall : ∀ a b : Kind, okInto a b = .ok () ∨ okInto a b = .error "UFuncTypeError" := by
        intro a b; unfold okInto; split_ifs <;> simp
      unfold cpmlChecks
      rw [forM_err (E := "UFuncTypeError") (q := (a, pp)) (fun q => ?_) (by fin_cases a <;> fin_cases pp <;> simp) ?_]
      · rfl
      · simp only [hp, if_true]
        revert hin
        cases kd <;> cases kp <;> simp [okInto, promote, divKind, Kind.rank, bind, Except.bind]
      · split_ifs
        · rcases hall (divKind (promote kd kd) .flt) .flt with h1 | h1 <;> rcases hall kp .flt with h2 | h2 <;>
            rcases hall kp (promote .flt (divKind (promote kd kd) .flt)) with h3 | h3 <;> rcases hall kp kp with h4 | h4 <;>
            simp [h1, h2, h3, h4, bind, Except.bind]
        · left; rfl

/-- **C151 (CPML updates, all number types).** On a real grid, each of the two updates made by `updates_with_cpml` either performs the update of the values, in the type of the
updated field, or raises; it works exactly when `CpmlWorks` holds for the type of the field that is updated, of the field it is updated from, of the
`dtype` argument and of the material. -/
theorem C151_cpml_mixed (layers : Fdtd.Layers sh ℂ) (dt : ℝ) (dxes : TDxes sh) (psi : Fdtd.Psi sh ℂ) (e h m : TField sh) (hd : ∀ a, dxes.2.kind a = .flt) (kp : Kind) :
    let newE := Fdtd.cpmlUpdateE layers (dt : ℂ) (untype dxes) psi e.val h.val m.val
    let newH := Fdtd.cpmlUpdateH layers (dt : ℂ) (untype dxes) psi e.val h.val m.val
    (CpmlWorks layers e.kind h.kind kp m.kind → Typed.cpmlUpdateE layers kp dt dxes psi e h m = .ok (⟨e.kind, newE.1⟩, newE.2)) ∧
    (¬ CpmlWorks layers e.kind h.kind kp m.kind → Typed.cpmlUpdateE layers kp dt dxes psi e h m = .error "UFuncTypeError") ∧
    (CpmlWorks layers h.kind e.kind kp m.kind → Typed.cpmlUpdateH layers kp dt dxes psi e h m = .ok (⟨h.kind, newH.1⟩, newH.2)) ∧
    (¬ CpmlWorks layers h.kind e.kind kp m.kind → Typed.cpmlUpdateH layers kp dt dxes psi e h m = .error "UFuncTypeError") := by
  intro newE newH
  have h1 := checks_iff layers e.kind h.kind kp m.kind
  have h2 := checks_iff layers h.kind e.kind kp m.kind
  refine ⟨fun w => ?_, fun w => ?_, fun w => ?_, fun w => ?_⟩
  · simp only [Typed.cpmlUpdateE, Typed.derivBack, TField.get, hd, h1.1 w, bind, Except.bind, pure, Except.pure]; rfl
  · simp only [Typed.cpmlUpdateE, Typed.derivBack, TField.get, hd, h1.2 w, bind, Except.bind]
  · simp only [Typed.cpmlUpdateH, Typed.derivForward, TField.get, hd, h2.1 w, bind, Except.bind, pure, Except.pure]; rfl
  · simp only [Typed.cpmlUpdateH, Typed.derivForward, TField.get, hd, h2.2 w, bind, Except.bind]

/-- Mixed types: a real `h` updated from a complex `e` fails, a complex `h` from a real `e` works, a material of integers is no obstacle. -/
example (layers : Fdtd.Layers sh ℂ) : ¬ CpmlWorks layers .flt .cplx .flt .flt ∧ CpmlWorks layers .cplx .flt .flt .int := by
  constructor
  · rintro ⟨h | ⟨_, h, _⟩, _⟩
    · cases h
    · exact h rfl
  · exact ⟨Or.inl rfl, Or.inr (Or.inr ⟨rfl, by simp⟩)⟩

/-- The hypotheses of the theorems of this file are met by a floating field on a floating grid (accepted), a floating field on a grid that is complex along one axis
(refused) and an integer field with and without a grid. -/
example : ∃ (d d' : TDx ![2, 2, 2]) (e : TField ![2, 2, 2]), d.Fit ∧ d'.Fit ∧ e.Fit ∧ e.kind = .flt ∧ e.val ≠ 0 ∧ Accepts (some d) e.kind ∧ ¬ Accepts (some d') e.kind ∧
    ¬ Accepts (some d) .int ∧ Accepts (sh := ![2, 2, 2]) none .int := by
  refine ⟨⟨fun _ => .flt, fun _ _ => 2⟩, ⟨fun a => if a = 0 then .cplx else .flt, fun a _ => if a = 0 then 1 + I else 1⟩, ⟨.flt, fun c x => if c = 0 then 3 else 1⟩, ?_, ?_, ?_, rfl, ?_, ?_, ?_, ?_, trivial⟩
  · intro a i; simp [HasKind]
  · intro a i; by_cases h : a = 0 <;> simp [h, HasKind]
  · intro c x; by_cases h : c = 0 <;> simp [h, HasKind]
  · intro h; have := congrFun (congrFun h 0) (fun a => ⟨0, by fin_cases a <;> simp⟩); simp at this
  · exact Or.inr ⟨rfl, fun _ => by simp⟩
  · rintro (h | ⟨_, h⟩)
    · cases h
    · exact h 0 (by simp)
  · rintro (h | ⟨h, _⟩) <;> cases h

end Meanas.Props
