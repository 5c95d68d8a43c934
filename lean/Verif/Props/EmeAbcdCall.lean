/-
C154: `eme.get_abcd` hands dense arrays to `scipy.sparse.block_array`, which rejects them.
-/
import Verif.Model.EmeCall
import Verif.Props.Eme

namespace Meanas.Props

open Matrix Complex Wg2 Eme

variable {sh : Fin 2 → ℕ}

theorem commonPrefix_self (s : List ℕ) : commonPrefix s s = s := by
  induction s with
  | nil => rfl
  | cons a s ih => simp [commonPrefix, ih]

theorem seqShape_replicate (n : ℕ) (s : List ℕ) : seqShape (List.replicate (n + 1) s) = (n + 1) :: s := by
  have h : ∀ k, (List.replicate k s).foldl commonPrefix s = s := by
    intro k
    induction k with
    | zero => rfl
    | succ k ih => rw [List.replicate_succ, List.foldl_cons, commonPrefix_self, ih]
  simp [List.replicate_succ, seqShape, h]

/-- **C154.** A full table with one kind of entry is accepted exactly if numpy sees no axes in the entries: sparse arrays are, dense arrays of one shape
never are, whatever their number and size (`0 × 0` included). -/
theorem C154_accepts_iff (r c : ℕ) (x : Entry) :
    blockArrayCheck (List.replicate (r + 1) (List.replicate (c + 1) x)) = .ok () ↔ x.shape = [] := by
  have e : tableShape (List.replicate (r + 1) (List.replicate (c + 1) x)) = (r + 1) :: (c + 1) :: x.shape := by
    rw [tableShape, List.map_replicate, List.map_replicate, seqShape_replicate, seqShape_replicate]
  unfold blockArrayCheck
  rw [e]
  by_cases h : x.shape = []
  · simp [h]
  · have h' : x.shape.length ≠ 0 := fun h' => h (List.length_eq_zero_iff.1 h')
    rw [if_pos (by simpa using h')]
    simp [h]

/-- **C154 fails.** `get_abcd` raises for every pair of mode lists, every grid and whatever the linear algebra returns. -/
theorem C154_raises_partial {nL nR : ℕ} (ehL : Modes nL sh) (ehR : Modes nR sh) (dxes : Dx2 sh) (L : Lib) :
    ∃ e, getAbcdCall ehL ehR dxes L = .error e := by
  unfold getAbcdCall getAbcdPass
  rcases getTr ehL ehR dxes L with e | ⟨t12, r12⟩
  · exact ⟨e, rfl⟩
  · rcases getTr ehR ehL dxes L with e | ⟨t21, r21⟩
    · exact ⟨e, rfl⟩
    · simp only
      rcases matmul (L.pinv t21) r12 with e | _
      · exact ⟨e, rfl⟩
      · refine ⟨"ValueError: blocks must be 2-D", ?_⟩
        simp [blockArrayCheck, tableShape, seqShape, Entry.shape, commonPrefix]

/-- **C154 fails.** Also where both interface calculations succeed and `get_s` returns a scattering matrix. -/
theorem C154_scatters_but_raises_partial {n : ℕ} (ehL ehR : Modes n sh) (dxes : Dx2 sh) (L : Lib) {t12 r12 t21 r21}
    (h1 : getTr ehL ehR dxes L = .ok (t12, r12)) (h2 : getTr ehR ehL dxes L = .ok (t21, r21)) :
    (∃ S, getS ehL ehR dxes L false false = .ok S) ∧ getAbcdCall ehL ehR dxes L = .error "ValueError: blocks must be 2-D" := by
  refine ⟨⟨_, (getS_value ehL ehR dxes L h1 h2).1⟩, ?_⟩
  have hm : ∀ X Y : Matrix (Fin n) (Fin n) ℂ, matmul X Y = .ok (X * Y) := fun X Y => dif_pos rfl
  unfold getAbcdCall getAbcdPass
  simp only [h1, h2, hm]
  simp [blockArrayCheck, tableShape, seqShape, Entry.shape, commonPrefix]

/-- **C154, the repair.** With the four blocks converted to sparse arrays first, the call returns the matrix that C56 and C137 are about. -/
theorem C154_repaired_partial {nL nR : ℕ} (ehL : Modes nL sh) (ehR : Modes nR sh) (dxes : Dx2 sh) (L : Lib) :
    getAbcdPass (fun _ _ => .opaque) ehL ehR dxes L = getAbcd ehL ehR dxes L := by
  unfold getAbcdPass
  have hc : blockArrayCheck [[.opaque, .opaque], [.opaque, .opaque]] = .ok () := (C154_accepts_iff 1 1 .opaque).2 rfl
  rw [hc]
  rcases h1 : getTr ehL ehR dxes L with e | ⟨t12, r12⟩
  · unfold getAbcd; rw [h1]
  · rcases h2 : getTr ehR ehL dxes L with e | ⟨t21, r21⟩
    · unfold getAbcd; rw [h1]; simp only [h2]
    · simp only
      rcases h3 : matmul (L.pinv t21) r12 with e | _
      · unfold getAbcd; rw [h1]; simp only [h2, h3]
      · rfl

/-- A pair of interfaces for which both calculations succeed: two crossed polarisations joined to themselves. -/
example (L : Lib) (hL : LibOk L) : getAbcdCall pol2 pol2 (fun _ _ => 1, fun _ _ => 1) L = .error "ValueError: blocks must be 2-D" := by
  have h : getTr pol2 pol2 (fun _ _ => 1, fun _ _ => 1) L = .ok (1, 0) := by
    refine C55_identical pol2 _ L hL (fun _ => 1) (fun _ => one_ne_zero) ?_
    intro i j
    fin_cases i <;> fin_cases j <;> simp [pol2, ip_cell]
  exact (C154_scatters_but_raises_partial pol2 pol2 _ L h h).2

end Meanas.Props
