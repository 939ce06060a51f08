import Verif.Gecode.Cumul
import Mathlib.Tactic.FinCases

/-!
# C92: the theorems apply to concrete constraints
-/

namespace MZ
namespace Gecode

theorem safe_var (x : Nat) : (IArg.var x).Safe := trivial

theorem safe_lit (c : Int) (h : Safe c) : (IArg.lit c).Safe := h

/-- Values `0, 10, 20, …` of the integers, every second Boolean is true. -/
def tens : Asg := ⟨fun k => 10 * k, fun k => k % 2 == 0⟩

/-- `x1 ≤ 10 <-> b0` holds, `x1 < 10 -> b0 = false` is refused. -/
example : (p_int_rel .le .reif (.var 1) (.lit 10) (.var 0)).holds tens ∧ ¬ (p_int_rel .lt .imp (.var 1) (.lit 10) (.var 0)).holds tens := by
  have h : (IArg.lit 10).Safe := safe_lit _ (by unfold Safe; omega)
  rw [C92_int_comparisons _ _ _ _ _ (safe_var 1) h tens, C92_int_comparisons _ _ _ _ _ (safe_var 1) h tens]
  simp [Mode.holds, Rel.holds, IArg.val, BArg.val, tens]

/-- `3 x1 - x2 = 10` holds. -/
example : PostsIn tenTimes (p_int_lin .eq .plain [3, -1] [.int (.var 1) none, .int (.var 2) none] 10 (.lit true))
    (fun a => Mode.plain.holds true (Rel.eq.holds (3 * a.i 1 + (-1) * a.i 2) 10)) := by
  refine (C92_int_linear tenTimes .eq .plain [3, -1] _ 10 (.lit true) ?_ ?_ ?_).imp (fun p hp => ⟨hp.1, fun a ha => ?_⟩)
  · intro k hk; fin_cases hk <;> constructor <;> omega
  · intro x hx; fin_cases hx <;> simp [Elem.IsInt, IArg.Safe]
  · constructor <;> omega
  · rw [hp.2 a ha]; simp [dot, Elem.val, IArg.val, BArg.val]

/-- `-7 div 2 = -3` and `-7 mod 2 = -1`. -/
example (a : Asg) : (p_int_div (.lit (-7)) (.lit 2) (.lit (-3))).holds a ∧ (p_int_mod (.lit (-7)) (.lit 2) (.lit (-1))).holds a ∧
    ¬ (p_int_div (.lit 1) (.lit 0) (.lit 0)).holds a := by
  have s : ∀ c : Int, -10 ≤ c → c ≤ 10 → (IArg.lit c).Safe := fun c h1 h2 => safe_lit _ (by unfold Safe; omega)
  refine ⟨((C92_arithmetic _ _ _ (s (-7) (by omega) (by omega)) (s 2 (by omega) (by omega)) (s (-3) (by omega) (by omega))).2.2.2.1 a).mpr ?_,
    ((C92_arithmetic _ _ _ (s (-7) (by omega) (by omega)) (s 2 (by omega) (by omega)) (s (-1) (by omega) (by omega))).2.2.2.2.1 a).mpr ?_,
    fun h => ?_⟩
  · simp [IArg.val]
  · simp [IArg.val]
  · exact ((C92_arithmetic _ _ _ (s 1 (by omega) (by omega)) (s 0 (by omega) (by omega)) (s 0 (by omega) (by omega))).2.2.2.1 a).mp h |>.1 rfl

/-- The values of `x0, x1, x2` with the index 2 give 10. -/
example : PostsIn tenTimes (p_array_var_int_element (.lit 2) [.var 0, .var 1, .var 2] (.var 3))
    (fun a => ElementAt 1 (ints a [.var 0, .var 1, .var 2]) 2 (a.i 3)) :=
  (C92_element tenTimes (.lit 2) (.var 3) [.var 0, .var 1, .var 2] [] [.var 0] (.var 0) (safe_lit _ (by unfold Safe; omega)) (safe_var 3)
    (by intro x hx; fin_cases hx <;> trivial) (by simp) (by simp) (by simp)).1

example : ElementAt 1 (ints tens [.var 0, .var 1, .var 2]) 2 10 := ⟨1, rfl, rfl⟩

/-- A Boolean in `{0, 5}` is false. -/
example (a : Asg) : (p_int_in_bool .plain (.var 0) {0, 5} (.lit true)).holds a ↔ a.b 0 = false := by
  rw [(C92_domains .plain (.var 0) (.var 0) {0, 5} (.lit true) (safe_var 0)).2.2 a]
  simp only [Mode.holds, BArg.val]
  cases a.b 0 <;> simp [num]

/-- Positions of inverse functions: `x = [1, 0]` counted from 0. -/
example : Inverse [1, 0] 0 [1, 0] 0 ∧ ¬ Inverse [1, 0] 0 [0, 1] 0 := by
  constructor
  · refine ⟨by simp, by simp, ?_⟩
    intro i j v w hi hj
    have hi2 : i < 2 := by have := (List.getElem?_eq_some_iff.mp hi).1; simpa using this
    have hj2 : j < 2 := by have := (List.getElem?_eq_some_iff.mp hj).1; simpa using this
    interval_cases i <;> interval_cases j <;> simp at hi hj <;> subst hi <;> subst hj <;> decide
  · intro h; have := h.2.2 0 0 1 0 rfl rfl; simp at this

/-- A table with two rows of three numbers. -/
example : PostsIn tenTimes (p_table_int [.var 0, .var 1, .var 2] [0, 10, 20, 7, 8, 9])
    (fun a => ints a [.var 0, .var 1, .var 2] ∈ [[0, 10, 20], [7, 8, 9]]) :=
  C92_table tenTimes [.var 0, .var 1, .var 2] [[0, 10, 20], [7, 8, 9]] (by intro x hx; fin_cases hx <;> trivial) (by simp)
    (by intro t ht; fin_cases ht <;> rfl) (by intro t ht c hc; fin_cases ht <;> fin_cases hc <;> constructor <;> omega)

/-- How often the numbers are 3, half-reified. -/
example : PostsIn tenTimes (p_count .imp [.var 0, .var 1] (.lit 3) (.var 2) (.var 0))
    (fun a => a.b 0 = true → ((ints a [.var 0, .var 1]).count 3 : Int) = a.i 2) :=
  (C92_count tenTimes .imp [.var 0, .var 1] (.lit 3) (.var 2) (.var 0) 0 0 (by intro x hx; fin_cases hx <;> trivial)
    (safe_lit _ (by unfold Safe; omega)) (safe_var 2) (by constructor <;> omega) (by constructor <;> omega) (by simp)).1

/-- The numbers of the values 3 and 4, other values are allowed. -/
example : PostsIn tenTimes (p_global_cardinality tenTimes false [.var 0, .var 1, .var 5] [3, 4] [.var 2, .lit 1])
    (fun a => Counts (ints a [.var 0, .var 1, .var 5]) [3, 4] (ints a [.var 2, .lit 1])) :=
  (C92_global_cardinality_partial tenTimes [.var 0, .var 1, .var 5] [3, 4] [0, 0] [1, 1] [.var 2, .lit 1]
    (by intro x hx; fin_cases hx <;> trivial)
    (by intro x hx; fin_cases hx; exacts [safe_var 2, safe_lit 1 (by unfold Safe; omega)])
    (by intro x hx; fin_cases hx <;> constructor <;> omega) (by intro x hx; fin_cases hx <;> constructor <;> omega)
    (by intro x hx; fin_cases hx <;> constructor <;> omega) (by decide) rfl rfl rfl).1

/-- Bins numbered from -1: two items of the sizes 3 and 4 in bin 0. -/
example : PostsIn tenTimes (p_bin_packing_load [.lit 0, .lit 7] [.var 0, .var 1] [3, 4] (-1))
    (fun a => BinPacking (-1) (ints a [.lit 0, .lit 7]) (ints a [.var 0, .var 1]) [3, 4]) :=
  C92_bin_packing tenTimes _ _ _ _ (by intro x hx; fin_cases hx; exacts [safe_lit 0 (by unfold Safe; omega), safe_lit 7 (by unfold Safe; omega)])
    (by intro x hx; fin_cases hx <;> trivial) (by intro c hc; fin_cases hc <;> refine ⟨⟨by omega, by omega⟩, by omega⟩)
    (by constructor <;> omega)

example : BinPacking (-1) [0, 7] [0, 0] [3, 4] ∧ ¬ BinPacking (-1) [7, 0] [0, 0] [3, 4] := by
  constructor
  · refine ⟨by simp, ?_⟩
    intro j l hj
    have h2 : j < 2 := by have := (List.getElem?_eq_some_iff.mp hj).1; simpa using this
    interval_cases j <;> simp at hj <;> subst hj <;> decide
  · intro h; have := h.2 0 7 rfl; revert this; decide

/-- The automaton of the words over 1, 2 in which no 2 follows a 2. -/
example : PostsIn tenTimes (p_regular [.var 0, .var 1, .var 2] 2 2 [1, 2, 1, 0] 1 {1, 2})
    (fun a => Accepts 2 2 [1, 2, 1, 0] {1, 2} 1 (ints a [.var 0, .var 1, .var 2])) :=
  C92_regular tenTimes _ 2 2 [1, 2, 1, 0] 1 {1, 2} (by intro x hx; fin_cases hx <;> trivial)
    (by intro c hc; fin_cases hc <;> constructor <;> omega) (by simp) (by constructor <;> omega)
    (by intro f hf; simp at hf; rcases hf with rfl | rfl <;> refine ⟨by omega, by constructor <;> omega⟩)

example : Accepts 2 2 [1, 2, 1, 0] {1, 2} 1 [2, 1, 2] ∧ ¬ Accepts 2 2 [1, 2, 1, 0] {1, 2} 1 [1, 2, 2] := by
  constructor
  · simp [Accepts]
  · simp [Accepts]

/-- Tasks of the heights 7, 5 and 4 on a resource of 10: all hypotheses are met, the first two are kept apart. -/
example : PostsIn tenTimes (p_cumulative tenTimes [.var 0, .var 1, .var 2] [.lit 2, .lit 2, .lit 2] ([.lit 7, .lit 5] ++ [.lit 4]) (.lit 10))
    (fun a => Cumulative (ints a [.var 0, .var 1, .var 2]) (ints a [.lit 2, .lit 2, .lit 2]) (ints a ([.lit 7, .lit 5] ++ [.lit 4])) 10) :=
  C92_cumulative_partial tenTimes _ _ [.lit 7, .lit 5] (.lit 4) (.lit 10) rfl rfl (by intro x hx; fin_cases hx <;> trivial)
    (by intro x hx; fin_cases hx <;> exact safe_lit 2 (by unfold Safe; omega))
    (by intro x hx; fin_cases hx; exacts [safe_lit 7 (by unfold Safe; omega), safe_lit 5 (by unfold Safe; omega), safe_lit 4 (by unfold Safe; omega)])
    (safe_lit 10 (by unfold Safe; omega)) (by intro x hx; fin_cases hx <;> simp [tm, Doms.min])
    (by intro x hx; fin_cases hx <;> simp [tm, Doms.min]) (by simp) (by intro x hx; fin_cases hx <;> simp [tm, Doms.min])

example : Cumulative [0, 2, 0] [2, 2, 2] [5, 7, 4] 10 ∧ ¬ Cumulative [0, 1, 0] [2, 2, 2] [5, 7, 4] 10 := by
  constructor
  · intro t
    simp only [usage, List.zip_cons_cons, List.zip_nil_left, List.map_cons, List.map_nil, List.sum_cons, List.sum_nil]
    split_ifs <;> omega
  · intro h; have := h 1; revert this; decide

end Gecode
end MZ
