/-
C70: keyword arguments of `solve_mode` in any order (meanas/fdfd/waveguide_2d.py, waveguide_cyl.py).
-/
import Verif.Props.WaveguideCylModes
import Verif.Props.WgModes
open Matrix Complex Meanas Meanas.Wg2
namespace Meanas.Props
variable {sh : Fin 2 → ℕ}

theorem lookup_filter_ne {α : Type} (s : String) (hs : s ≠ "mode_numbers") (l : List (String × α)) :
    (l.filter fun k => k.1 != "mode_numbers").lookup s = l.lookup s := by
  induction l with
  | nil => rfl
  | cons a l ih =>
    obtain ⟨n, v⟩ := a
    by_cases hn : n = "mode_numbers"
    · subst hn
      have : (s == "mode_numbers") = false := by simpa using hs
      simp [List.lookup, this, ih]
    · have hb : ((n, v).1 != "mode_numbers") = true := by simpa using hn
      rw [List.filter_cons, if_pos hb, List.lookup, List.lookup, ih]

theorem bindArgs_keywords {α : Type} (params : List String) (v : α) (kwargs : List (String × α)) (h0 : params.contains "mode_numbers" = true)
    (hk : ∀ k ∈ kwargs, k.1 ∈ params) :
    bindArgs params [] (("mode_numbers", v) :: kwargs.filter fun k => k.1 != "mode_numbers")
      = .ok (("mode_numbers", v) :: kwargs.filter fun k => k.1 != "mode_numbers") := by
  have h2 : ((("mode_numbers", v) :: kwargs.filter fun k => k.1 != "mode_numbers").any fun k => !(params.contains k.1)) = false := by
    rw [List.any_eq_false]
    intro k hkm
    rcases List.mem_cons.1 hkm with rfl | h
    · simp only [h0]; decide
    · have := hk k (List.mem_of_mem_filter h)
      simpa using this
  simp only [bindArgs, List.length_nil, Nat.not_lt_zero, if_false, List.zip_nil_right, List.any_nil, List.any_eq_true, h2]
  simp

/-- C70 (what holds): keyword arguments in any order, `mu` and `mode_margin` given or not. The call does what `solve_modes([m], ...)` does with these
arguments: it returns its single mode, or NaN, or raises what it raises. -/
theorem C70_any_keywords_partial (eigs : M 2 2 sh → ℕ → List (ℂ × V 2 sh)) (guess : V 2 sh) (solver : M 2 2 sh → V 2 sh → Option (V 2 sh))
    (m margin : ℕ) (ω : ℂ) (dxes : Dx2 sh) (eps : V 3 sh) (mu : Option (V 3 sh)) (kwargs : List (String × Arg sh))
    (hk : ∀ k ∈ kwargs, k.1 ∈ ["mode_numbers", "omega", "dxes", "epsilon", "mu", "mode_margin"])
    (h1 : kwargs.lookup "omega" = some (.omega ω)) (h2 : kwargs.lookup "dxes" = some (.dxes dxes)) (h3 : kwargs.lookup "epsilon" = some (.field eps))
    (h4 : kwargs.lookup "mu" = mu.map .field ∨ (kwargs.lookup "mu" = some .none ∧ mu = none))
    (h5 : kwargs.lookup "mode_margin" = some (.margin margin) ∨ (kwargs.lookup "mode_margin" = none ∧ margin = 2)) :
    (∀ p, solveModes eigs guess solver [m] ω dxes eps mu margin = .ok (some [p]) → solveMode eigs guess solver m [] kwargs = .ok (some p)) ∧
    (solveModes eigs guess solver [m] ω dxes eps mu margin = .ok none → solveMode eigs guess solver m [] kwargs = .ok none) ∧
    ∀ e, solveModes eigs guess solver [m] ω dxes eps mu margin = .error e → solveMode eigs guess solver m [] kwargs = .error e := by
  have hb := bindArgs_keywords solveModesParams (Arg.modes [m] : Arg sh) kwargs (by decide) hk
  have hl : ∀ s : String, s ≠ "mode_numbers" → (("mode_numbers", (Arg.modes [m] : Arg sh)) :: kwargs.filter fun k => k.1 != "mode_numbers").lookup s = kwargs.lookup s := by
    intro s hs
    have : (s == "mode_numbers") = false := by simpa using hs
    rw [List.lookup, this, lookup_filter_ne s hs]
  have hc : callSolveModes eigs guess solver (("mode_numbers", (Arg.modes [m] : Arg sh)) :: kwargs.filter fun k => k.1 != "mode_numbers")
      = solveModes eigs guess solver [m] ω dxes eps mu margin := by
    rw [callSolveModes, hl "omega" (by decide), hl "dxes" (by decide), hl "epsilon" (by decide), hl "mu" (by decide), hl "mode_margin" (by decide), h1, h2, h3]
    have hm : (("mode_numbers", (Arg.modes [m] : Arg sh)) :: kwargs.filter fun k => k.1 != "mode_numbers").lookup "mode_numbers" = some (.modes [m]) := by
      simp [List.lookup]
    rw [hm]
    rcases h5 with h5 | ⟨h5, rfl⟩ <;> rcases h4 with h4 | ⟨h4, rfl⟩ <;> rw [h4, h5] <;> first | rfl | (cases mu <;> rfl)
  refine ⟨fun p h => ?_, fun h => ?_, fun e h => ?_⟩ <;> simp only [solveMode, hb, hc, h]

/-- C70 (what holds) for bends: keyword arguments in any order, `mode_margin` given or not. -/
theorem C70_bent_any_keywords_partial (eigs : M 2 2 sh → ℕ → List (ℂ × V 2 sh)) (guess : V 2 sh) (solver : M 2 2 sh → V 2 sh → Option (V 2 sh))
    (m margin : ℕ) (ω : ℂ) (dxes : Dx2 sh) (eps : V 3 sh) (rmin : ℝ) (kwargs : List (String × WgCyl.Arg sh))
    (hk : ∀ k ∈ kwargs, k.1 ∈ ["mode_numbers", "omega", "dxes", "epsilon", "rmin", "mode_margin"])
    (h1 : kwargs.lookup "omega" = some (.omega ω)) (h2 : kwargs.lookup "dxes" = some (.dxes dxes)) (h3 : kwargs.lookup "epsilon" = some (.field eps))
    (h4 : kwargs.lookup "rmin" = some (.radius rmin))
    (h5 : kwargs.lookup "mode_margin" = some (.margin margin) ∨ (kwargs.lookup "mode_margin" = none ∧ margin = 2)) :
    (∀ p, WgCyl.solveModes eigs guess solver [m] ω dxes eps rmin margin = .ok (some [p]) → WgCyl.solveMode eigs guess solver m [] kwargs = .ok (some p)) ∧
    (WgCyl.solveModes eigs guess solver [m] ω dxes eps rmin margin = .ok none → WgCyl.solveMode eigs guess solver m [] kwargs = .ok none) ∧
    ∀ e, WgCyl.solveModes eigs guess solver [m] ω dxes eps rmin margin = .error e → WgCyl.solveMode eigs guess solver m [] kwargs = .error e := by
  have hb := bindArgs_keywords WgCyl.solveModesParams (WgCyl.Arg.modes [m] : WgCyl.Arg sh) kwargs (by decide) hk
  have hl : ∀ s : String, s ≠ "mode_numbers" →
      (("mode_numbers", (WgCyl.Arg.modes [m] : WgCyl.Arg sh)) :: kwargs.filter fun k => k.1 != "mode_numbers").lookup s = kwargs.lookup s := by
    intro s hs
    have : (s == "mode_numbers") = false := by simpa using hs
    rw [List.lookup, this, lookup_filter_ne s hs]
  have hc : WgCyl.callSolveModes eigs guess solver (("mode_numbers", (WgCyl.Arg.modes [m] : WgCyl.Arg sh)) :: kwargs.filter fun k => k.1 != "mode_numbers")
      = WgCyl.solveModes eigs guess solver [m] ω dxes eps rmin margin := by
    rw [WgCyl.callSolveModes, hl "omega" (by decide), hl "dxes" (by decide), hl "epsilon" (by decide), hl "rmin" (by decide), hl "mode_margin" (by decide),
      h1, h2, h3, h4]
    have hm : (("mode_numbers", (WgCyl.Arg.modes [m] : WgCyl.Arg sh)) :: kwargs.filter fun k => k.1 != "mode_numbers").lookup "mode_numbers"
        = some (.modes [m]) := by
      simp [List.lookup]
    rw [hm]
    rcases h5 with h5 | ⟨h5, rfl⟩ <;> rw [h5] <;> rfl
  refine ⟨fun p h => ?_, fun h => ?_, fun e h => ?_⟩ <;> simp only [WgCyl.solveMode, hb, hc, h]

/-- Such keyword arguments: in another order, with a `mode_numbers` entry that is overwritten. -/
example (ω : ℂ) (dxes : Dx2 sh) (eps : V 3 sh) :
    let kwargs : List (String × Arg sh) := [("epsilon", .field eps), ("mode_margin", .margin 3), ("mode_numbers", .modes [7]), ("omega", .omega ω), ("dxes", .dxes dxes)]
    (∀ k ∈ kwargs, k.1 ∈ ["mode_numbers", "omega", "dxes", "epsilon", "mu", "mode_margin"]) ∧ kwargs.lookup "omega" = some (.omega ω) ∧
      kwargs.lookup "dxes" = some (.dxes dxes) ∧ kwargs.lookup "epsilon" = some (.field eps) ∧ kwargs.lookup "mu" = none ∧
      kwargs.lookup "mode_margin" = some (.margin 3) := by
  simp [List.lookup]

end Meanas.Props
