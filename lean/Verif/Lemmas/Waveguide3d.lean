/-
Fields of a 2D mode extruded along a uniform axis satisfy the 3D discrete Maxwell equations.
-/
import Verif.Lemmas.Fdfd
import Verif.Spec.Waveguide

namespace Meanas.Wg3

open Complex Spec Functional

variable {sh : Fin 3 → ℕ} {axis : Fin 3}

section cyclic
variable {K : Type*} [Field K] (dx : Option (DxList sh K)) (F : VField sh K) (x : Idx sh)

theorem curlF_0 (a : Fin 3) : curlForward dx F a x = gradForward dx (F (a + 2)) (a + 1) x - gradForward dx (F (a + 1)) (a + 2) x := by
  unfold gradForward
  simp only [← derivForward_eq]
  match a with
  | 0 => rfl
  | 1 => rfl
  | 2 => rfl
theorem curlF_1 (a : Fin 3) : curlForward dx F (a + 1) x = gradForward dx (F a) (a + 2) x - gradForward dx (F (a + 2)) a x := by
  unfold gradForward
  simp only [← derivForward_eq]
  match a with
  | 0 => rfl
  | 1 => rfl
  | 2 => rfl
theorem curlF_2 (a : Fin 3) : curlForward dx F (a + 2) x = gradForward dx (F (a + 1)) a x - gradForward dx (F a) (a + 1) x := by
  unfold gradForward
  simp only [← derivForward_eq]
  match a with
  | 0 => rfl
  | 1 => rfl
  | 2 => rfl
theorem curlB_0 (a : Fin 3) : curlBack dx F a x = gradBack dx (F (a + 2)) (a + 1) x - gradBack dx (F (a + 1)) (a + 2) x := by
  unfold gradBack
  simp only [← derivBack_eq]
  match a with
  | 0 => rfl
  | 1 => rfl
  | 2 => rfl
theorem curlB_1 (a : Fin 3) : curlBack dx F (a + 1) x = gradBack dx (F a) (a + 2) x - gradBack dx (F (a + 2)) a x := by
  unfold gradBack
  simp only [← derivBack_eq]
  match a with
  | 0 => rfl
  | 1 => rfl
  | 2 => rfl
theorem curlB_2 (a : Fin 3) : curlBack dx F (a + 2) x = gradBack dx (F (a + 1)) a x - gradBack dx (F a) (a + 1) x := by
  unfold gradBack
  simp only [← derivBack_eq]
  match a with
  | 0 => rfl
  | 1 => rfl
  | 2 => rfl
end cyclic

theorem ne_1 (a : Fin 3) : a ≠ a + 1 := by revert a; decide
theorem ne_2 (a : Fin 3) : a ≠ a + 2 := by revert a; decide

/-- A grid and materials that do not change along `axis`, with `T` the projection to the cross-section. -/
structure Extruded {s2 : Fin 2 → ℕ} (axis : Fin 3) (T : Idx sh → Idx s2) (dxes : Fdtd.Dxes sh ℂ) (dxE dxH : DxList s2 ℂ) (d : ℂ) : Prop where
  t0 : ∀ s x, T (shiftIdx axis s x) = T x
  t1 : ∀ s x, T (shiftIdx (axis + 1) s x) = shiftIdx 0 s (T x)
  t2 : ∀ s x, T (shiftIdx (axis + 2) s x) = shiftIdx 1 s (T x)
  e0 : ∀ i, dxes.1 axis i = d
  e1 : ∀ x : Idx sh, dxes.1 (axis + 1) (x (axis + 1)) = dxE 0 (T x 0)
  e2 : ∀ x : Idx sh, dxes.1 (axis + 2) (x (axis + 2)) = dxE 1 (T x 1)
  h0 : ∀ i, dxes.2 axis i = d
  h1 : ∀ x : Idx sh, dxes.2 (axis + 1) (x (axis + 1)) = dxH 0 (T x 0)
  h2 : ∀ x : Idx sh, dxes.2 (axis + 2) (x (axis + 2)) = dxH 1 (T x 1)

/-- Extrusion of a scalar with the plane factor `φ`. -/
def extr {s2 : Fin 2 → ℕ} (T : Idx sh → Idx s2) (φ : Fin (sh axis) → ℂ) (f : Arr s2 ℂ) : Arr sh ℂ := fun x => φ (x axis) * f (T x)

section
variable {s2 : Fin 2 → ℕ} {T : Idx sh → Idx s2} {dxes : Fdtd.Dxes sh ℂ} {dxE dxH : DxList s2 ℂ} {d : ℂ} (X : Extruded axis T dxes dxE dxH d)
  (φ : Fin (sh axis) → ℂ) (f : Arr s2 ℂ) (x : Idx sh)
include X

theorem gradF_1 : gradForward (some dxes.1) (extr T φ f) (axis + 1) x = φ (x axis) * gradForward (some dxE) f 0 (T x) := by
  unfold gradForward extr
  rw [shiftIdx_of_ne (ne_1 axis), X.t1, wOf_some, wOf_some, X.e1]; ring
theorem gradF_2 : gradForward (some dxes.1) (extr T φ f) (axis + 2) x = φ (x axis) * gradForward (some dxE) f 1 (T x) := by
  unfold gradForward extr
  rw [shiftIdx_of_ne (ne_2 axis), X.t2, wOf_some, wOf_some, X.e2]; ring
theorem gradF_0 : gradForward (some dxes.1) (extr T φ f) axis x = (φ (wrap (x axis) 1) - φ (x axis)) / d * f (T x) := by
  unfold gradForward extr
  rw [shiftIdx_same, X.t0, wOf_some, X.e0]; ring
theorem gradB_1 : gradBack (some dxes.2) (extr T φ f) (axis + 1) x = φ (x axis) * gradBack (some dxH) f 0 (T x) := by
  unfold gradBack extr
  rw [shiftIdx_of_ne (ne_1 axis), X.t1, wOf_some, wOf_some, X.h1]; ring
theorem gradB_2 : gradBack (some dxes.2) (extr T φ f) (axis + 2) x = φ (x axis) * gradBack (some dxH) f 1 (T x) := by
  unfold gradBack extr
  rw [shiftIdx_of_ne (ne_2 axis), X.t2, wOf_some, wOf_some, X.h2]; ring
theorem gradB_0 : gradBack (some dxes.2) (extr T φ f) axis x = (φ (x axis) - φ (wrap (x axis) (-1))) / d * f (T x) := by
  unfold gradBack extr
  rw [shiftIdx_same, X.t0, wOf_some, X.h0]; ring
end

theorem fin3_cases (axis a : Fin 3) : a = axis ∨ a = axis + 1 ∨ a = axis + 2 := by revert axis a; decide

theorem wrap_one {n : ℕ} {i : Fin n} (h : (i : ℕ) + 1 < n) : ((wrap i 1 : Fin n) : ℕ) = i + 1 := by
  have := wrap_val i 1
  rw [Int.emod_eq_of_lt (by omega) (by omega)] at this
  omega
theorem wrap_neg_one {n : ℕ} {i : Fin n} (h : 0 < (i : ℕ)) : ((wrap i (-1) : Fin n) : ℕ) + 1 = i := by
  have := wrap_val i (-1)
  rw [Int.emod_eq_of_lt (by omega) (by omega)] at this
  omega

/-- The 3D fields made of the components `e`, `h` of a mode: `E_t`, `H_a` at the planes, `E_a`, `H_t` half a cell further (factor `p`). -/
structure IsExtrusion {s2 : Fin 2 → ℕ} (axis : Fin 3) (T : Idx sh → Idx s2) (φ : Fin (sh axis) → ℂ) (p : ℂ) (e h : Fin 3 → Arr s2 ℂ) (E H : VField sh ℂ) : Prop where
  E0 : E axis = extr T φ fun y => p * e 2 y
  E1 : E (axis + 1) = extr T φ (e 0)
  E2 : E (axis + 2) = extr T φ (e 1)
  H0 : H axis = extr T φ (h 2)
  H1 : H (axis + 1) = extr T φ fun y => p * h 0 y
  H2 : H (axis + 2) = extr T φ fun y => p * h 1 y

theorem gradForward_const_mul {s2 : Fin 2 → ℕ} (dx : DxList s2 ℂ) (c : ℂ) (f : Arr s2 ℂ) (a : Fin 2) (y : Idx s2) :
    gradForward (some dx) (fun y => c * f y) a y = c * gradForward (some dx) f a y := by
  unfold gradForward; ring
theorem gradBack_const_mul {s2 : Fin 2 → ℕ} (dx : DxList s2 ℂ) (c : ℂ) (f : Arr s2 ℂ) (a : Fin 2) (y : Idx s2) :
    gradBack (some dx) (fun y => c * f y) a y = c * gradBack (some dx) f a y := by
  unfold gradBack; ring

section
variable {s2 : Fin 2 → ℕ} {T : Idx sh → Idx s2} {dxes : Fdtd.Dxes sh ℂ} {dxE dxH : DxList s2 ℂ} {d : ℂ} (X : Extruded axis T dxes dxE dxH d)
  {β ω p : ℂ} {eps2 mu2 e h : Fin 3 → Arr s2 ℂ} (hm : IsMode β ω dxE dxH eps2 mu2 e h) {φ : Fin (sh axis) → ℂ}
  (hφ : ∀ i : Fin (sh axis), (i : ℕ) + 1 < sh axis → φ (wrap i 1) = φ i * p ^ 2) (hd : d ≠ 0) (hp : p ^ 2 - 1 = -I * β * p * d)
  {E H : VField sh ℂ} (hEH : IsExtrusion axis T φ p e h E H)
include X hm hφ hd hp hEH

theorem faraday3 {mu : VField sh ℂ} (hmu : ∀ x, mu axis x = mu2 2 (T x) ∧ mu (axis + 1) x = mu2 0 (T x) ∧ mu (axis + 2) x = mu2 1 (T x))
    (x : Idx sh) (hx : (x axis : ℕ) + 1 < sh axis) (c : Fin 3) : curlForward (some dxes.1) E c x = -I * ω * mu c x * H c x := by
  have hw : (φ (wrap (x axis) 1) - φ (x axis)) / d = φ (x axis) * (-I * β * p) := by
    rw [hφ _ hx, div_eq_iff hd]; linear_combination φ (x axis) * hp
  rcases fin3_cases axis c with rfl | rfl | rfl
  · rw [curlF_0, hEH.E2, hEH.E1, gradF_1 X, gradF_2 X, (hmu x).1, hEH.H0]
    have := hm.faradayZ (T x)
    unfold extr; linear_combination φ (x c) * this
  · rw [curlF_1, hEH.E0, hEH.E2, gradF_2 X, gradF_0 X, (hmu x).2.1, hEH.H1, hw, gradForward_const_mul]
    have := hm.faradayX (T x)
    unfold extr; linear_combination φ (x axis) * p * this
  · rw [curlF_2, hEH.E0, hEH.E1, gradF_1 X, gradF_0 X, (hmu x).2.2, hEH.H2, hw, gradForward_const_mul]
    have := hm.faradayY (T x)
    unfold extr; linear_combination φ (x axis) * p * this

theorem ampere3 {eps : VField sh ℂ} (heps : ∀ x, eps axis x = eps2 2 (T x) ∧ eps (axis + 1) x = eps2 0 (T x) ∧ eps (axis + 2) x = eps2 1 (T x))
    (hp0 : p ≠ 0) (x : Idx sh) (hx : 0 < (x axis : ℕ)) (c : Fin 3) : curlBack (some dxes.2) H c x = I * ω * eps c x * E c x := by
  have hw : (φ (x axis) - φ (wrap (x axis) (-1))) / d * p = φ (x axis) * (-I * β) := by
    have h1 := hφ (wrap (x axis) (-1)) (by rw [wrap_neg_one hx]; exact (x axis).2)
    rw [wrap_wrap, show (-1 : ℤ) + 1 = 0 from rfl, wrap_zero] at h1
    rw [h1]; field_simp; linear_combination φ (wrap (x axis) (-1)) * hp
  rcases fin3_cases axis c with rfl | rfl | rfl
  · rw [curlB_0, hEH.H2, hEH.H1, gradB_1 X, gradB_2 X, (heps x).1, hEH.E0, gradBack_const_mul, gradBack_const_mul]
    have := hm.ampereZ (T x)
    unfold extr; linear_combination φ (x c) * p * this
  · rw [curlB_1, hEH.H0, hEH.H2, gradB_2 X, gradB_0 X, (heps x).2.1, hEH.E1]
    have := hm.ampereX (T x)
    unfold extr; linear_combination φ (x axis) * this - h 1 (T x) * hw
  · rw [curlB_2, hEH.H0, hEH.H1, gradB_1 X, gradB_0 X, (heps x).2.2, hEH.E2]
    have := hm.ampereY (T x)
    unfold extr; linear_combination φ (x axis) * this + h 0 (T x) * hw
end

/-- A backward difference only looks at the cell and its predecessors. -/
theorem curlBack_congr (dx : Option (DxList sh ℂ)) {F G : VField sh ℂ} {x : Idx sh} (h0 : ∀ c, F c x = G c x)
    (h1 : ∀ c b, F c (shiftIdx b (-1) x) = G c (shiftIdx b (-1) x)) (c : Fin 3) : curlBack dx F c x = curlBack dx G c x := by
  rw [curlB_0, curlB_0]; unfold gradBack; simp only [h0, h1]

end Meanas.Wg3
