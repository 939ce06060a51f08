import Verif.Geas.Basic

namespace MZ
namespace Geas

variable (d : IVar → Int → Bool)

/-- `bool_eq` with a known first argument, its controlled forms if the control is a variable, and `bool_lt_reif` if the result is a variable. -/
theorem _root_.MZ.C89_bool_eq_partial (x y : Arg) (b : Bool) (z : Nat) (hx : x.IsBool) (hy : y.IsBool) :
    Posts d "bool_eq" [.one (.bool b), .one y] (fun a => b = y.bool! a) ∧
    Posts d "bool_eq_imp" [.one x, .one y, .one (.bvar z)] (fun a => a.bv z = true → x.bool! a = y.bool! a) ∧
    Posts d "bool_eq_reif" [.one x, .one y, .one (.bvar z)] (fun a => a.bv z = true ↔ x.bool! a = y.bool! a) ∧
    Posts d "bool_ne_reif" [.one x, .one y, .one (.bvar z)] (fun a => a.bv z = true ↔ x.bool! a ≠ y.bool! a) ∧
    Posts d "bool_lt_reif" [.one x, .one y, .one (.bvar z)] (fun a => a.bv z = true ↔ (x.bool! a = false ∧ y.bool! a = true)) := by
  obtain ⟨v, hv, hv'⟩ := bool_arg hx
  obtain ⟨w, hw, hw'⟩ := bool_arg hy
  refine ⟨posts_of rfl ⟨_, by unfold p_bool_eq; read_args [hw], fun a => ?_⟩,
    posts_of rfl ⟨_, by unfold p_bool_eq_imp; read_args [hv, hw, asBoolVar_bvar], fun a => ?_⟩,
    posts_of rfl ⟨_, by unfold p_bool_eq_reif; read_args [hv, hw, asBoolVar_bvar], fun a => ?_⟩,
    posts_of rfl ⟨_, by unfold p_bool_ne_reif; read_args [hv, hw, asBoolVar_bvar], fun a => ?_⟩,
    posts_of rfl ⟨_, by unfold p_bool_lt_reif; read_args [hv, hw, asBoolVar_bvar], fun a => ?_⟩⟩
  · cases b <;> simp [Post.holds, Atom.holds, postIf, hw'] <;> cases y.bool! a <;> simp
  all_goals
    simp [Post.holds, Atom.holds, hv', hw']
    cases a.bv z <;> cases x.bool! a <;> cases y.bool! a <;> simp

/-- `bool_eq` of two variables reads an argument that is not there; under a control that is known to hold, it gives up. -/
theorem _root_.MZ.C89_bool_eq_fails :
    post d "bool_eq" [.one (.bvar 0), .one (.bvar 1)] = .ub ∧
    post d "bool_eq_imp" [.one (.bvar 0), .one (.bvar 1), .one (.bool true)] = .err ∧
    post d "bool_eq_reif" [.one (.bvar 0), .one (.bvar 1), .one (.bool true)] = .err ∧
    post d "bool_ne_reif" [.one (.bvar 0), .one (.bvar 1), .one (.bool false)] = .err ∧
    post d "bool_xor" [.one (.bvar 0), .one (.bvar 1), .one (.bool false)] = .err := ⟨rfl, rfl, rfl, rfl, rfl⟩

/-- `bool_lt_reif` with a known result treats Boolean variables as integer variables. -/
theorem _root_.MZ.C89_bool_lt_reif_fails (b : Bool) :
    post d "bool_lt_reif" [.one (.bvar 0), .one (.bvar 1), .one (.bool b)] = .ub := by
  cases b <;> rfl

/-- Connectives. -/
theorem _root_.MZ.C89_bool_connectives (x y r : Arg) (z : Nat) (hx : x.IsBool) (hy : y.IsBool) (hr : r.IsBool) :
    Posts d "bool_or" [.one x, .one y, .one r] (fun a => r.bool! a = (x.bool! a || y.bool! a)) ∧
    Posts d "bool_and" [.one x, .one y, .one r] (fun a => r.bool! a = (x.bool! a && y.bool! a)) ∧
    Posts d "bool_xor" [.one x, .one y] (fun a => (x.bool! a ^^ y.bool! a) = true) ∧
    Posts d "bool_xor" [.one x, .one y, .one (.bvar z)] (fun a => a.bv z = (x.bool! a ^^ y.bool! a)) ∧
    Posts d "bool_or_imp" [.one x, .one y, .one r] (fun a => r.bool! a = true → (x.bool! a || y.bool! a) = true) ∧
    Posts d "bool_and_imp" [.one x, .one y, .one r] (fun a => r.bool! a = true → (x.bool! a && y.bool! a) = true) ∧
    Posts d "bool_xor_imp" [.one x, .one y, .one r] (fun a => r.bool! a = true → (x.bool! a ^^ y.bool! a) = true) := by
  obtain ⟨v, hv, hv'⟩ := bool_arg hx
  obtain ⟨w, hw, hw'⟩ := bool_arg hy
  obtain ⟨u, hu, hu'⟩ := bool_arg hr
  refine ⟨posts_of rfl ⟨_, by unfold p_bool_or; read_args [hv, hw, hu], fun a => ?_⟩,
    posts_of rfl ⟨_, by unfold p_bool_and; read_args [hv, hw, hu], fun a => ?_⟩, ?_,
    posts_of rfl ⟨_, by unfold p_bool_xor p_bool_ne_reif; simp only [List.length_cons, List.length_nil]; read_args [hv, hw, asBoolVar_bvar], fun a => ?_⟩,
    posts_of rfl ⟨_, by unfold p_bool_or_imp; read_args [hv, hw, hu], fun a => ?_⟩,
    posts_of rfl ⟨_, by unfold p_bool_and_imp; read_args [hv, hw, hu], fun a => ?_⟩, ?_⟩
  · simp [Post.holds, Atom.holds, hv', hw', hu']
    cases r.bool! a <;> cases x.bool! a <;> cases y.bool! a <;> simp
  · simp [Post.holds, Atom.holds, hv', hw', hu']
    cases r.bool! a <;> cases x.bool! a <;> cases y.bool! a <;> simp
  · obtain ⟨ps, h1, h2⟩ := bool_ne_posts d x y hx hy
    exact ⟨ps, h1, fun a => (h2 a).trans (by cases x.bool! a <;> cases y.bool! a <;> simp)⟩
  · simp [Post.holds, Atom.holds, hv', hw']
    cases a.bv z <;> cases x.bool! a <;> cases y.bool! a <;> simp
  · simp [Post.holds, Atom.holds, hv', hw', hu']
    cases r.bool! a <;> cases x.bool! a <;> cases y.bool! a <;> simp
  · simp [Post.holds, Atom.holds, hv', hw', hu']
    cases r.bool! a <;> cases x.bool! a <;> cases y.bool! a <;> simp
  · obtain ⟨ps, h1, h2⟩ := bool_ne_imp_posts d x y r hx hy hr
    exact ⟨ps, h1, fun a => (h2 a).trans (by cases x.bool! a <;> cases y.bool! a <;> simp)⟩

/-- Clauses, and conjunctions and disjunctions of arrays. -/
theorem _root_.MZ.C89_clauses (l m : List Arg) (u v : Bool) (r : Arg) (hl : ∀ e ∈ l, e.IsBool) (hm : ∀ e ∈ m, e.IsBool) (hr : r.IsBool) :
    Posts d "bool_clause" [.arr u l, .arr v m] (fun a => true ∈ bools! a l ∨ false ∈ bools! a m) ∧
    Posts d "bool_clause_imp" [.arr u l, .arr v m, .one r]
      (fun a => r.bool! a = true → true ∈ bools! a l ∨ false ∈ bools! a m) ∧
    Posts d "bool_clause_reif" [.arr u l, .arr v m, .one r]
      (fun a => r.bool! a = true ↔ true ∈ bools! a l ∨ false ∈ bools! a m) ∧
    Posts d "array_bool_or" [.arr u l, .one r] (fun a => r.bool! a = true ↔ true ∈ bools! a l) ∧
    Posts d "array_bool_and" [.arr u l, .one r] (fun a => r.bool! a = true ↔ false ∉ bools! a l) ∧
    Posts d "array_bool_or_imp" [.arr u l, .one r] (fun a => r.bool! a = true → true ∈ bools! a l) ∧
    Posts d "array_bool_and_imp" [.arr u l, .one r] (fun a => r.bool! a = true → false ∉ bools! a l) := by
  obtain ⟨xs, hx, hx'⟩ := each_bools hl
  obtain ⟨ys, hy, hy'⟩ := each_bools hm
  obtain ⟨b, hb, hb'⟩ := bool_arg hr
  have ex : ∀ a, (∃ x ∈ xs, x.holds a) ↔ true ∈ bools! a l := fun a => forall₂_exists (hx' a)
  have ey : ∀ a, (∃ x ∈ ys, ¬ x.holds a) ↔ false ∈ bools! a m := fun a => forall₂_exists_not (hy' a)
  have nx : ∀ a, (∃ x ∈ xs, ¬ x.holds a) ↔ false ∈ bools! a l := fun a => forall₂_exists_not (hx' a)
  refine ⟨posts_of rfl ⟨_, by unfold p_bool_clause; read_args [hx, hy], fun a => ?_⟩,
    posts_of rfl ⟨_, by unfold p_bool_clause_imp; read_args [hx, hy, hb], fun a => ?_⟩,
    posts_of rfl ⟨_, by unfold p_bool_clause_reif; read_args [hx, hy, hb], fun a => ?_⟩,
    posts_of rfl ⟨_, by unfold p_array_bool_or; read_args [hx, hb], fun a => ?_⟩,
    posts_of rfl ⟨_, by unfold p_array_bool_and; read_args [hx, hb], fun a => ?_⟩,
    posts_of rfl ⟨_, by unfold p_array_bool_or_imp; read_args [hx, hb], fun a => ?_⟩,
    posts_of rfl ⟨_, by unfold p_array_bool_and_imp; read_args [hx, hb], fun a => ?_⟩⟩
  all_goals
    first
      | rw [← ex a, ← ey a]
      | rw [← ex a]
      | rw [← nx a]
  all_goals
    have h := hb' a
    generalize r.bool! a = q at h ⊢
    simp only [Post.holds, List.mem_append, List.mem_cons, List.not_mem_nil, or_false, or_imp, forall_and, forall_eq, List.mem_map,
      forall_exists_index, and_imp, forall_apply_eq_imp_iff₂, exists_eq_or_imp, exists_eq_left, Atom.holds, h, or_and_right, exists_or,
      exists_exists_and_eq_and]
  all_goals cases q
  all_goals simp
  all_goals grind

/-- Linear constraints over Booleans. -/
theorem _root_.MZ.C89_bool_linear_partial (ks : List Int) (l : List Arg) (v : Bool) (c : Int) (r : Arg) (hk : ∀ k ∈ ks, Small k)
    (hl : ∀ e ∈ l, e.IsBool) (hc : Small c) (hr : r.IsBool) :
    Posts d "bool_lin_eq" [consts ks, .arr v l, .one (.int c)] (fun a => dot ks (numbers (bools! a l)) = c) ∧
    Posts d "bool_lin_ne" [consts ks, .arr v l, .one (.int c)] (fun a => dot ks (numbers (bools! a l)) ≠ c) ∧
    Posts d "bool_lin_le" [consts ks, .arr v l, .one (.int c)] (fun a => dot ks (numbers (bools! a l)) ≤ c) ∧
    Posts d "bool_lin_eq_imp" [consts ks, .arr v l, .one (.int c), .one r]
      (fun a => r.bool! a = true → dot ks (numbers (bools! a l)) = c) ∧
    Posts d "bool_lin_ne_imp" [consts ks, .arr v l, .one (.int c), .one r]
      (fun a => r.bool! a = true → dot ks (numbers (bools! a l)) ≠ c) ∧
    Posts d "bool_lin_le_imp" [consts ks, .arr v l, .one (.int c), .one r]
      (fun a => r.bool! a = true → dot ks (numbers (bools! a l)) ≤ c) ∧
    Posts d "bool_lin_eq_reif" [consts ks, .arr v l, .one (.int c), .one r]
      (fun a => r.bool! a = true ↔ dot ks (numbers (bools! a l)) = c) ∧
    Posts d "bool_lin_ne_reif" [consts ks, .arr v l, .one (.int c), .one r]
      (fun a => r.bool! a = true ↔ dot ks (numbers (bools! a l)) ≠ c) ∧
    Posts d "bool_lin_le_reif" [consts ks, .arr v l, .one (.int c), .one r]
      (fun a => r.bool! a = true ↔ dot ks (numbers (bools! a l)) ≤ c) := by
  obtain ⟨xs, hx, hx'⟩ := each_bools hl
  have hn := fun a => forall₂_numbers (hx' a)
  obtain ⟨b, hb, hb'⟩ := bool_arg hr
  have hk' := each_consts hk
  have hc' : (Arg.int c).asInt = .ok c := by simp only [Arg.asInt, small_toInt32 hc]
  unfold consts
  refine ⟨posts_of rfl ⟨_, by unfold p_bool_lin_eq; read_args [hk', hx, hc'], fun a => ?_⟩,
    posts_of rfl ⟨_, by unfold p_bool_lin_ne; read_args [hk', hx, hc'], fun a => ?_⟩,
    posts_of rfl ⟨_, by unfold p_bool_lin_le; read_args [hk', hx, hc'], fun a => ?_⟩,
    posts_of rfl ⟨_, by unfold p_bool_lin_eq_imp; read_args [hk', hx, hc', hb], fun a => ?_⟩,
    posts_of rfl ⟨_, by unfold p_bool_lin_ne_imp; read_args [hk', hx, hc', hb], fun a => ?_⟩,
    posts_of rfl ⟨_, by unfold p_bool_lin_le_imp; read_args [hk', hx, hc', hb], fun a => ?_⟩,
    posts_of rfl ⟨_, by unfold p_bool_lin_eq_reif; read_args [hk', hx, hc', hb], fun a => ?_⟩,
    posts_of rfl ⟨_, by unfold p_bool_lin_ne_reif; read_args [hk', hx, hc', hb], fun a => ?_⟩,
    posts_of rfl ⟨_, by unfold p_bool_lin_le_reif; read_args [hk', hx, hc', hb], fun a => ?_⟩⟩ <;>
  simp only [List.mem_cons, List.not_mem_nil, or_false, forall_eq_or_imp, forall_eq, Post.holds, Atom.holds, hb', hn,
    zero, IVar.val, forall_const] <;>
  generalize dot ks (numbers (bools! a l)) = s <;> cases r.bool! a <;> simp <;> omega

/-- The library declares the right hand side of linear constraints over Booleans as a variable; a variable is refused. -/
theorem _root_.MZ.C89_bool_linear_fails :
    post d "bool_lin_eq" [consts [1], .arr true [.bvar 0], .one (.ivar 0)] = .err ∧
    post d "bool_lin_le" [consts [1], .arr true [.bvar 0], .one (.ivar 0)] = .err := ⟨rfl, rfl⟩

/-- Constants beyond 32 bits are cut. -/
theorem _root_.MZ.C89_large_constants_fails :
    ∃ ps, post d "int_lin_le" [consts [1], .arr true [.ivar 0], .one (.int (2 ^ 32))] = .ok ps ∧
      ¬ (∀ p ∈ ps, p.holds ⟨fun _ => 1, fun _ => false⟩) := by
  refine ⟨_, rfl, ?_⟩
  simp [Post.holds, Atom.holds, dot, IVar.val, toInt32]

/-- `bool2int`, for an integer that is 0 or 1. -/
theorem _root_.MZ.C89_bool2int_partial (x y : Arg) (hx : x.IsBool) (hy : y.IsInt) :
    PostsIn (fun a => y.int! a = 0 ∨ y.int! a = 1) d "bool2int" [.one x, .one y]
      (fun a => y.int! a = if x.bool! a then 1 else 0) := by
  obtain ⟨v, hv, hv'⟩ := bool_arg hx
  obtain ⟨w, hw, hw'⟩ := int_arg hy
  refine postsIn_of rfl ⟨_, by unfold p_bool2int; read_args [hv, hw], fun a h => ?_⟩
  simp only [List.mem_cons, List.not_mem_nil, or_false, forall_eq_or_imp, forall_eq, Post.holds, exists_eq_or_imp, exists_eq_left, Atom.holds, hv', hw']
  cases x.bool! a <;> simp <;> omega

/-- Otherwise the integer need not be 0 or 1. -/
theorem _root_.MZ.C89_bool2int_fails :
    ∃ ps, post d "bool2int" [.one (.bvar 0), .one (.ivar 0)] = .ok ps ∧
      (∀ p ∈ ps, p.holds ⟨fun _ => 2, fun _ => true⟩) := by
  refine ⟨_, rfl, ?_⟩
  simp [Post.holds, Atom.holds, IVar.val]

end Geas
end MZ
