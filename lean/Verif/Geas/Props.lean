import Verif.Geas.Global
import Verif.Geas.Solve
import Verif.Geas.Lib

/-!
# C89: cases that meet the hypotheses of the theorems
-/

namespace MZ
namespace Geas

/-- The bounds of variables and constants: every variable is in `0..9`. -/
def bounds : IVar → Int → Bool
  | .const c, v => c == v
  | .var _, v => 0 ≤ v && v ≤ 9
  | .neg _, _ => true

example : Posts bounds "int_lt_reif" [.one (.ivar 0), .one (.int 3), .one (.bvar 0)]
    (fun a => a.bv 0 = true ↔ a.iv 0 < 3) :=
  (MZ.C89_int_comparisons bounds (.ivar 0) (.int 3) (.bvar 0) trivial trivial trivial).2.2.2.2.2.2.2.2.2.2.2

example : Posts bounds "int_lin_le_reif" [consts [2, -3], .arr true [.ivar 0, .ivar 1], .one (.int 4), .one (.bvar 0)]
    (fun a => a.bv 0 = true ↔ dot [2, -3] [a.iv 0, a.iv 1] ≤ 4) :=
  (MZ.C89_int_linear bounds [2, -3] [.ivar 0, .ivar 1] true 4 (.bvar 0) (by simp [Small]) (by simp [Arg.IsInt]) (by simp [Small])
    trivial).2.2.2.2.2.2.2.2

example : PostsIn (InRange (.ivar 0) 2) bounds "array_var_int_element" [.one (.ivar 0), .arr true [.ivar 1, .int 5], .one (.int 5)]
    (fun a => IsElement [a.iv 1, 5] (a.iv 0) 5) :=
  MZ.C89_variable_element_partial bounds (.ivar 0) (.int 5) true [.ivar 1, .int 5] (by simp [Arg.IsInt]) (by simp [Typed]) trivial trivial
    (by simp [IndexOk]) (by simp) (by simp [SmallLit, Small]) (by simp [SmallLit, Small]) (by simp)

example : PostsIn (fun a => ∀ x : IVar, bounds x (x.val a) = true) bounds "global_cardinality"
    [.arr true [.ivar 0, .ivar 1], consts [1, 2], consts [1, 1]]
    (fun a => (∀ x ∈ [a.iv 0, a.iv 1], x ∈ [1, 2]) ∧
      ∀ (j : Nat) (c k : Int), ([1, 2] : List Int)[j]? = some c → ([1, 1] : List Int)[j]? = some k → (([a.iv 0, a.iv 1] : List Int).count c : Int) = k) :=
  MZ.C89_global_cardinality_partial bounds [.ivar 0, .ivar 1] true [1, 2] [1, 1] (by simp [Arg.IsInt]) (by simp [Small]) (by simp [Small])
    (by simp) rfl

example : ∃ a : Asg, ∀ x : IVar, bounds x (x.val a) = true :=
  ⟨⟨fun _ => 1, fun _ => false⟩, fun x => by cases x <;> simp [bounds, IVar.val]⟩

example : Posts bounds "table_int" [.arr true [.ivar 0, .ivar 1], consts [1, 2, 3, 4]]
    (fun a => [a.iv 0, a.iv 1] ∈ [[1, 2], [3, 4]]) :=
  MZ.C89_table bounds [.ivar 0, .ivar 1] true [[1, 2], [3, 4]] (by simp [Arg.IsInt]) (by simp) (by simp) (by simp [Small])

/-- Minimising `x` in `1..2`: first 2, then 1, then no better. -/
example : CorrectOpt false (fun a => a.iv 0) (fun a => a.iv 0 = 1 ∨ a.iv 0 = 2) none
    [.sat ⟨fun _ => 2, fun _ => false⟩, .sat ⟨fun _ => 1, fun _ => false⟩, .unsat] := by
  simp only [CorrectOpt, Bool.false_eq_true, if_false]
  refine ⟨by simp, ⟨by simp, by decide⟩, ?_⟩
  intro a h
  obtain ⟨⟨h | h, _⟩, h3⟩ := h <;> omega

/-- With probing: 3, then 2, then 1 is refused and found to be impossible. -/
example : CorrectOpt true (fun a => a.iv 0) (fun a => a.iv 0 = 3 ∨ a.iv 0 = 2) none
    [.sat ⟨fun _ => 3, fun _ => false⟩, .sat ⟨fun _ => 2, fun _ => false⟩, .unsat, .unsat] := by
  simp only [CorrectOpt, if_true]
  refine ⟨by simp, by simp, ⟨0, by decide, by decide⟩, ?_⟩
  intro a h
  obtain ⟨h | h, h3⟩ := h <;> omega

example : solveOpt false true (fun a => a.iv 0)
    [.sat ⟨fun _ => 3, fun _ => false⟩, .sat ⟨fun _ => 2, fun _ => false⟩, .unsat, .unsat] = some (.opt, [⟨fun _ => 2, fun _ => false⟩]) := rfl

example : RangesOk [(1, 3), (5, 6)] := by
  unfold RangesOk Small; decide

end Geas
end MZ
