import Verif.NL.Props
import Mathlib.Analysis.SpecialFunctions.Arcosh
import Mathlib.Analysis.SpecialFunctions.Arsinh
import Mathlib.Analysis.SpecialFunctions.Artanh
import Mathlib.Analysis.SpecialFunctions.Log.Base
import Mathlib.Analysis.SpecialFunctions.Pow.Real
import Mathlib.Analysis.SpecialFunctions.Trigonometric.Inverse
import Mathlib.Analysis.SpecialFunctions.Trigonometric.Arctan

/-!
# The functions of the floating point builtins over the real numbers

The laws that `Funs` asks for hold of the real functions, so that the theorems of C86 apply to them.
-/

namespace MZ.NL

open Classical in
/-- The real functions with their domains. -/
noncomputable def realFuns : Funs ℝ where
  acos x := if -1 ≤ x ∧ x ≤ 1 then some (Real.arccos x) else none
  acosh x := if 1 ≤ x then some (Real.arcosh x) else none
  asin x := if -1 ≤ x ∧ x ≤ 1 then some (Real.arcsin x) else none
  asinh x := some (Real.arsinh x)
  atan x := some (Real.arctan x)
  atanh x := if -1 < x ∧ x < 1 then some (Real.artanh x) else none
  cos x := some (Real.cos x)
  cosh x := some (Real.cosh x)
  exp x := some (Real.exp x)
  ln x := if 0 < x then some (Real.log x) else none
  log10 x := if 0 < x then some (Real.logb 10 x) else none
  log2 x := if 0 < x then some (Real.logb 2 x) else none
  sqrt x := if 0 ≤ x then some (Real.sqrt x) else none
  sin x := some (Real.sin x)
  sinh x := some (Real.sinh x)
  tan x := if Real.cos x ≠ 0 then some (Real.tan x) else none
  tanh x := some (Real.tanh x)
  pow x y :=
    if 0 < x ∨ (x = 0 ∧ 0 ≤ y) ∨ (x < 0 ∧ ∃ z : ℤ, y = z) then some (x ^ y) else none
  log2_eq x := by
    have h2 : Real.log 2 ≠ 0 := (Real.log_pos (by norm_num)).ne'
    by_cases h : 0 < x
    · simp [h, h2, Real.logb]
    · simp [h]
  pow_nat x n := by
    rw [if_pos]
    · rw [Real.rpow_natCast]
    · rcases lt_trichotomy x 0 with h | h | h
      · exact Or.inr (Or.inr ⟨h, n, by simp⟩)
      · exact Or.inr (Or.inl ⟨h, by simp⟩)
      · exact Or.inl h
  pow_neg x n hx := by
    rw [if_pos]
    · have := Real.rpow_intCast x (-(n : ℤ))
      simp only [Int.cast_neg, Int.cast_natCast] at this
      rw [this, zpow_neg, zpow_natCast]
    · rcases lt_trichotomy x 0 with h | h | h
      · exact Or.inr (Or.inr ⟨h, -n, by simp⟩)
      · exact absurd h hx
      · exact Or.inl h

/-- The theorem about the points of the file, for the real functions. -/
theorem _root_.MZ.C86_feasible_real_partial {p : Flat ℝ} {f : File ℝ} {ls : List (Line ℝ)}
    (h : writeNL p = some (f, ls)) (hd : p.distinct) (hwf : ∀ c ∈ p.calls, c.wf p)
    (hbox : p.boxOK realFuns) (h2 : 2 ≤ p.decls.length) {s : String → ℝ} (hex : ∀ c ∈ p.calls, c.exact s)
    {pt : Nat → ℝ} (ha : ∀ d ∈ p.decls, pt (varIndex f d.name) = s d.name) :
    Feasible realFuns ls pt ↔ p.Sol realFuns s :=
  MZ.C86_feasible_partial h hd hwf realFuns hbox h2 hex ha

end MZ.NL
