import Verif.Geas.Lemmas

namespace MZ
namespace Geas

/-- Reading arguments. -/
macro "read_args" "[" ts:Lean.Parser.Tactic.simpLemma,* "]" : tactic =>
  `(tactic| (simp only [intVar, boolVar, int, bool, ints, intVars, boolVars, bools, one_zero, one_one, one_two, one_three, par_zero, par_one, par_two,
    par_three, para_one, para_two, array_zero, array_one, array_two, swapped_three, Res.ok_bind, Res.pure_eq, Arg.isPar, Arg.asBool,
    Bool.false_eq_true, if_true, if_false, reduceIte, $ts,*]; try rfl))

variable (d : IVar → Int → Bool)

/-- Comparisons of integers. -/
theorem _root_.MZ.C89_int_comparisons (x y r : Arg) (hx : x.IsInt) (hy : y.IsInt) (hr : r.IsBool) :
    Posts d "int_eq" [.one x, .one y] (fun a => x.int! a = y.int! a) ∧
    Posts d "int_ne" [.one x, .one y] (fun a => x.int! a ≠ y.int! a) ∧
    Posts d "int_le" [.one x, .one y] (fun a => x.int! a ≤ y.int! a) ∧
    Posts d "int_lt" [.one x, .one y] (fun a => x.int! a < y.int! a) ∧
    Posts d "int_eq_imp" [.one x, .one y, .one r] (fun a => r.bool! a = true → x.int! a = y.int! a) ∧
    Posts d "int_ne_imp" [.one x, .one y, .one r] (fun a => r.bool! a = true → x.int! a ≠ y.int! a) ∧
    Posts d "int_le_imp" [.one x, .one y, .one r] (fun a => r.bool! a = true → x.int! a ≤ y.int! a) ∧
    Posts d "int_lt_imp" [.one x, .one y, .one r] (fun a => r.bool! a = true → x.int! a < y.int! a) ∧
    Posts d "int_eq_reif" [.one x, .one y, .one r] (fun a => r.bool! a = true ↔ x.int! a = y.int! a) ∧
    Posts d "int_ne_reif" [.one x, .one y, .one r] (fun a => r.bool! a = true ↔ x.int! a ≠ y.int! a) ∧
    Posts d "int_le_reif" [.one x, .one y, .one r] (fun a => r.bool! a = true ↔ x.int! a ≤ y.int! a) ∧
    Posts d "int_lt_reif" [.one x, .one y, .one r] (fun a => r.bool! a = true ↔ x.int! a < y.int! a) := by
  obtain ⟨v, hv, hv'⟩ := int_arg hx
  obtain ⟨w, hw, hw'⟩ := int_arg hy
  refine ⟨?_, ?_, ?_, ?_, ?_⟩
  · refine posts_of rfl ⟨_, by unfold p_int_eq; read_args [hv, hw], fun a => ?_⟩
    simp [Post.holds, Atom.holds, hv', hw']
  · refine posts_of rfl ⟨_, by unfold p_int_ne; read_args [hv, hw], fun a => ?_⟩
    simp [Post.holds, Atom.holds, hv', hw']
  · refine posts_of rfl ⟨_, by unfold p_int_le; read_args [hv, hw], fun a => ?_⟩
    simp [Post.holds, Atom.holds, hv', hw']
  · refine posts_of rfl ⟨_, by unfold p_int_lt; read_args [hv, hw], fun a => ?_⟩
    simp [Post.holds, Atom.holds, hv', hw']; omega
  rcases bool_cases hr with ⟨b, rfl⟩ | ⟨z, rfl⟩
  · cases b
    · refine ⟨posts_of rfl ⟨[], by unfold p_int_eq_imp; read_args [hv, hw], fun a => ?_⟩,
        posts_of rfl ⟨[], by unfold p_int_ne_imp; read_args [hv, hw], fun a => ?_⟩,
        posts_of rfl ⟨[], by unfold p_int_le_imp; read_args [hv, hw], fun a => ?_⟩,
        posts_of rfl ⟨[], by unfold p_int_lt_imp; read_args [hv, hw], fun a => ?_⟩,
        posts_of rfl ⟨_, by unfold p_int_eq_reif p_int_ne; read_args [hv, hw], fun a => ?_⟩,
        posts_of rfl ⟨_, by unfold p_int_ne_reif p_int_eq; read_args [hv, hw], fun a => ?_⟩,
        posts_of rfl ⟨_, by unfold p_int_le_reif p_int_lt; read_args [hv, hw], fun a => ?_⟩,
        posts_of rfl ⟨_, by unfold p_int_lt_reif p_int_le; read_args [hv, hw], fun a => ?_⟩⟩ <;>
      simp [Post.holds, Atom.holds, Arg.bool!, hv', hw'] <;> omega
    · refine ⟨posts_of rfl ⟨_, by unfold p_int_eq_imp p_int_eq; read_args [hv, hw], fun a => ?_⟩,
        posts_of rfl ⟨_, by unfold p_int_ne_imp p_int_ne; read_args [hv, hw], fun a => ?_⟩,
        posts_of rfl ⟨_, by unfold p_int_le_imp p_int_le; read_args [hv, hw], fun a => ?_⟩,
        posts_of rfl ⟨_, by unfold p_int_lt_imp p_int_lt; read_args [hv, hw], fun a => ?_⟩,
        posts_of rfl ⟨_, by unfold p_int_eq_reif p_int_eq; read_args [hv, hw], fun a => ?_⟩,
        posts_of rfl ⟨_, by unfold p_int_ne_reif p_int_ne; read_args [hv, hw], fun a => ?_⟩,
        posts_of rfl ⟨_, by unfold p_int_le_reif p_int_le; read_args [hv, hw], fun a => ?_⟩,
        posts_of rfl ⟨_, by unfold p_int_lt_reif p_int_lt; read_args [hv, hw], fun a => ?_⟩⟩ <;>
      simp [Post.holds, Atom.holds, Arg.bool!, hv', hw'] <;> omega
  · refine ⟨posts_of rfl ⟨_, by unfold p_int_eq_imp; read_args [hv, hw, Arg.asBoolVar], fun a => ?_⟩,
      posts_of rfl ⟨_, by unfold p_int_ne_imp; read_args [hv, hw, Arg.asBoolVar], fun a => ?_⟩,
      posts_of rfl ⟨_, by unfold p_int_le_imp; read_args [hv, hw, Arg.asBoolVar], fun a => ?_⟩,
      posts_of rfl ⟨_, by unfold p_int_lt_imp; read_args [hv, hw, Arg.asBoolVar], fun a => ?_⟩,
      posts_of rfl ⟨_, by unfold p_int_eq_reif; read_args [hv, hw, Arg.asBoolVar], fun a => ?_⟩,
      posts_of rfl ⟨_, by unfold p_int_ne_reif; read_args [hv, hw, Arg.asBoolVar], fun a => ?_⟩,
      posts_of rfl ⟨_, by unfold p_int_le_reif; read_args [hv, hw, Arg.asBoolVar], fun a => ?_⟩,
      posts_of rfl ⟨_, by unfold p_int_lt_reif; read_args [hv, hw, Arg.asBoolVar], fun a => ?_⟩⟩ <;>
    simp [Post.holds, Atom.holds, Arg.bool!, hv', hw'] <;> cases a.bv z <;> simp <;> omega

/-- Arithmetic. -/
theorem _root_.MZ.C89_int_arithmetic (x y z : Arg) (hx : x.IsInt) (hy : y.IsInt) (hz : z.IsInt) :
    Posts d "int_abs" [.one x, .one y] (fun a => y.int! a = ((x.int! a).natAbs : Int)) ∧
    Posts d "int_times" [.one x, .one y, .one z] (fun a => x.int! a * y.int! a = z.int! a) ∧
    Posts d "int_div" [.one x, .one y, .one z] (fun a => y.int! a ≠ 0 ∧ z.int! a = (x.int! a).tdiv (y.int! a)) ∧
    Posts d "int_max" [.one x, .one y, .one z] (fun a => z.int! a = max (x.int! a) (y.int! a)) ∧
    Posts d "int_min" [.one x, .one y, .one z] (fun a => z.int! a = min (x.int! a) (y.int! a)) := by
  obtain ⟨u, hu, hu'⟩ := int_arg hx
  obtain ⟨v, hv, hv'⟩ := int_arg hy
  obtain ⟨w, hw, hw'⟩ := int_arg hz
  refine ⟨posts_of rfl ⟨_, by unfold p_int_abs; read_args [hu, hv], fun a => ?_⟩,
    posts_of rfl ⟨_, by unfold p_int_times; read_args [hu, hv, hw], fun a => ?_⟩,
    posts_of rfl ⟨_, by unfold p_int_div; read_args [hu, hv, hw], fun a => ?_⟩,
    posts_of rfl ⟨_, by unfold p_int_max; read_args [hu, hv, hw], fun a => ?_⟩,
    posts_of rfl ⟨_, by unfold p_int_min; read_args [hu, hv, hw], fun a => ?_⟩⟩
  · simp [Post.holds, hu', hv']
  · simp only [Post.holds, List.mem_singleton, forall_eq, hu', hv', hw']; exact eq_comm
  · simp [Post.holds, hu', hv', hw']
  · simp [Post.holds, hu', hv', hw']; omega
  · simp [Post.holds, IVar.val, hu', hv', hw']; omega

/-- Linear constraints over integers. -/
theorem _root_.MZ.C89_int_linear (ks : List Int) (l : List Arg) (v : Bool) (c : Int) (r : Arg) (hk : ∀ k ∈ ks, Small k)
    (hl : ∀ e ∈ l, e.IsInt) (hc : Small c) (hr : r.IsBool) :
    Posts d "int_lin_eq" [consts ks, .arr v l, .one (.int c)] (fun a => dot ks (ints! a l) = c) ∧
    Posts d "int_lin_ne" [consts ks, .arr v l, .one (.int c)] (fun a => dot ks (ints! a l) ≠ c) ∧
    Posts d "int_lin_le" [consts ks, .arr v l, .one (.int c)] (fun a => dot ks (ints! a l) ≤ c) ∧
    Posts d "int_lin_eq_imp" [consts ks, .arr v l, .one (.int c), .one r] (fun a => r.bool! a = true → dot ks (ints! a l) = c) ∧
    Posts d "int_lin_ne_imp" [consts ks, .arr v l, .one (.int c), .one r] (fun a => r.bool! a = true → dot ks (ints! a l) ≠ c) ∧
    Posts d "int_lin_le_imp" [consts ks, .arr v l, .one (.int c), .one r] (fun a => r.bool! a = true → dot ks (ints! a l) ≤ c) ∧
    Posts d "int_lin_eq_reif" [consts ks, .arr v l, .one (.int c), .one r] (fun a => r.bool! a = true ↔ dot ks (ints! a l) = c) ∧
    Posts d "int_lin_ne_reif" [consts ks, .arr v l, .one (.int c), .one r] (fun a => r.bool! a = true ↔ dot ks (ints! a l) ≠ c) ∧
    Posts d "int_lin_le_reif" [consts ks, .arr v l, .one (.int c), .one r] (fun a => r.bool! a = true ↔ dot ks (ints! a l) ≤ c) := by
  obtain ⟨xs, hx, hx'⟩ := each_ints hl
  obtain ⟨b, hb, hb'⟩ := bool_arg hr
  have hk' := each_consts hk
  have hc' : (Arg.int c).asInt = .ok c := by simp only [Arg.asInt, small_toInt32 hc]
  unfold consts
  refine ⟨posts_of rfl ⟨_, by unfold p_int_lin_eq; read_args [hk', hx, hc'], fun a => ?_⟩,
    posts_of rfl ⟨_, by unfold p_int_lin_ne; read_args [hk', hx, hc'], fun a => ?_⟩,
    posts_of rfl ⟨_, by unfold p_int_lin_le; read_args [hk', hx, hc'], fun a => ?_⟩,
    posts_of rfl ⟨_, by unfold p_int_lin_eq_imp; read_args [hk', hx, hc', hb], fun a => ?_⟩,
    posts_of rfl ⟨_, by unfold p_int_lin_ne_imp; read_args [hk', hx, hc', hb], fun a => ?_⟩,
    posts_of rfl ⟨_, by unfold p_int_lin_le_imp; read_args [hk', hx, hc', hb], fun a => ?_⟩,
    posts_of rfl ⟨_, by unfold p_int_lin_eq_reif; read_args [hk', hx, hc', hb], fun a => ?_⟩,
    posts_of rfl ⟨_, by unfold p_int_lin_ne_reif; read_args [hk', hx, hc', hb], fun a => ?_⟩,
    posts_of rfl ⟨_, by unfold p_int_lin_le_reif; read_args [hk', hx, hc', hb], fun a => ?_⟩⟩ <;>
  simp only [List.mem_cons, List.not_mem_nil, or_false, forall_eq_or_imp, forall_eq, Post.holds, Atom.holds, hb', hx',
    dot_negs, forall_const] <;>
  generalize dot ks (ints! a l) = s <;> cases r.bool! a <;> simp <;> omega

theorem bool_ne_posts (x y : Arg) (hx : x.IsBool) (hy : y.IsBool) :
    Posts d "bool_ne" [.one x, .one y] (fun a => x.bool! a ≠ y.bool! a) := by
  rcases bool_cases hx with ⟨b, rfl⟩ | ⟨u, rfl⟩ <;> rcases bool_cases hy with ⟨c, rfl⟩ | ⟨v, rfl⟩ <;>
  (try cases b) <;> (try cases c) <;> 
  refine posts_of rfl ⟨_, rfl, fun a => ?_⟩ <;>
  simp [Post.holds, Atom.holds, Arg.bool!, postIf] <;>
  (try cases a.bv u) <;> (try cases a.bv v) <;>  simp

theorem bool_le_posts (x y : Arg) (hx : x.IsBool) (hy : y.IsBool) :
    Posts d "bool_le" [.one x, .one y] (fun a => x.bool! a = true → y.bool! a = true) := by
  rcases bool_cases hx with ⟨b, rfl⟩ | ⟨u, rfl⟩ <;> rcases bool_cases hy with ⟨c, rfl⟩ | ⟨v, rfl⟩ <;>
  (try cases b) <;> (try cases c) <;> 
  refine posts_of rfl ⟨_, rfl, fun a => ?_⟩ <;>
  simp [Post.holds, Atom.holds, Arg.bool!, postIf] <;>
  (try cases a.bv u) <;> (try cases a.bv v) <;>  simp

theorem bool_lt_posts (x y : Arg) (hx : x.IsBool) (hy : y.IsBool) :
    Posts d "bool_lt" [.one x, .one y] (fun a => x.bool! a = false ∧ y.bool! a = true) := by
  rcases bool_cases hx with ⟨b, rfl⟩ | ⟨u, rfl⟩ <;> rcases bool_cases hy with ⟨c, rfl⟩ | ⟨v, rfl⟩ <;>
  (try cases b) <;> (try cases c) <;> 
  refine posts_of rfl ⟨_, rfl, fun a => ?_⟩ <;>
  simp [Post.holds, Atom.holds, Arg.bool!, postIf] <;>
  (try cases a.bv u) <;> (try cases a.bv v) <;>  simp

theorem bool_not_posts (x y : Arg) (hx : x.IsBool) (hy : y.IsBool) :
    Posts d "bool_not" [.one x, .one y] (fun a => x.bool! a ≠ y.bool! a) := by
  rcases bool_cases hx with ⟨b, rfl⟩ | ⟨u, rfl⟩ <;> rcases bool_cases hy with ⟨c, rfl⟩ | ⟨v, rfl⟩ <;>
  (try cases b) <;> (try cases c) <;> 
  refine posts_of rfl ⟨_, rfl, fun a => ?_⟩ <;>
  simp [Post.holds, Atom.holds, Arg.bool!, postIf] <;>
  (try cases a.bv u) <;> (try cases a.bv v) <;>  simp

theorem bool_ne_imp_posts (x y r : Arg) (hx : x.IsBool) (hy : y.IsBool) (hr : r.IsBool) :
    Posts d "bool_ne_imp" [.one x, .one y, .one r] (fun a => r.bool! a = true → x.bool! a ≠ y.bool! a) := by
  rcases bool_cases hx with ⟨b, rfl⟩ | ⟨u, rfl⟩ <;> rcases bool_cases hy with ⟨c, rfl⟩ | ⟨v, rfl⟩ <;>
  rcases bool_cases hr with ⟨e, rfl⟩ | ⟨w, rfl⟩ <;>
  (try cases b) <;> (try cases c) <;> (try cases e) <;>
  refine posts_of rfl ⟨_, rfl, fun a => ?_⟩ <;>
  simp [Post.holds, Atom.holds, Arg.bool!, postIf] <;>
  (try cases a.bv u) <;> (try cases a.bv v) <;> (try cases a.bv w) <;> simp

theorem bool_le_imp_posts (x y r : Arg) (hx : x.IsBool) (hy : y.IsBool) (hr : r.IsBool) :
    Posts d "bool_le_imp" [.one x, .one y, .one r] (fun a => r.bool! a = true → x.bool! a = true → y.bool! a = true) := by
  rcases bool_cases hx with ⟨b, rfl⟩ | ⟨u, rfl⟩ <;> rcases bool_cases hy with ⟨c, rfl⟩ | ⟨v, rfl⟩ <;>
  rcases bool_cases hr with ⟨e, rfl⟩ | ⟨w, rfl⟩ <;>
  (try cases b) <;> (try cases c) <;> (try cases e) <;>
  refine posts_of rfl ⟨_, rfl, fun a => ?_⟩ <;>
  simp [Post.holds, Atom.holds, Arg.bool!, postIf] <;>
  (try cases a.bv u) <;> (try cases a.bv v) <;> (try cases a.bv w) <;> simp

theorem bool_lt_imp_posts (x y r : Arg) (hx : x.IsBool) (hy : y.IsBool) (hr : r.IsBool) :
    Posts d "bool_lt_imp" [.one x, .one y, .one r] (fun a => r.bool! a = true → x.bool! a = false ∧ y.bool! a = true) := by
  rcases bool_cases hx with ⟨b, rfl⟩ | ⟨u, rfl⟩ <;> rcases bool_cases hy with ⟨c, rfl⟩ | ⟨v, rfl⟩ <;>
  rcases bool_cases hr with ⟨e, rfl⟩ | ⟨w, rfl⟩ <;>
  (try cases b) <;> (try cases c) <;> (try cases e) <;>
  refine posts_of rfl ⟨_, rfl, fun a => ?_⟩ <;>
  simp [Post.holds, Atom.holds, Arg.bool!, postIf] <;>
  (try cases a.bv u) <;> (try cases a.bv v) <;> (try cases a.bv w) <;> simp

theorem bool_le_reif_posts (x y r : Arg) (hx : x.IsBool) (hy : y.IsBool) (hr : r.IsBool) :
    Posts d "bool_le_reif" [.one x, .one y, .one r] (fun a => r.bool! a = true ↔ (x.bool! a = true → y.bool! a = true)) := by
  rcases bool_cases hx with ⟨b, rfl⟩ | ⟨u, rfl⟩ <;> rcases bool_cases hy with ⟨c, rfl⟩ | ⟨v, rfl⟩ <;>
  rcases bool_cases hr with ⟨e, rfl⟩ | ⟨w, rfl⟩ <;>
  (try cases b) <;> (try cases c) <;> (try cases e) <;>
  refine posts_of rfl ⟨_, rfl, fun a => ?_⟩ <;>
  simp [Post.holds, Atom.holds, Arg.bool!, postIf] <;>
  (try cases a.bv u) <;> (try cases a.bv v) <;> (try cases a.bv w) <;> simp

/-- Comparisons of Booleans, but for `bool_eq` and its controlled forms, and `bool_lt_reif`. -/
theorem _root_.MZ.C89_bool_comparisons (x y r : Arg) (hx : x.IsBool) (hy : y.IsBool) (hr : r.IsBool) :
    Posts d "bool_ne" [.one x, .one y] (fun a => x.bool! a ≠ y.bool! a) ∧
    Posts d "bool_le" [.one x, .one y] (fun a => x.bool! a = true → y.bool! a = true) ∧
    Posts d "bool_lt" [.one x, .one y] (fun a => x.bool! a = false ∧ y.bool! a = true) ∧
    Posts d "bool_not" [.one x, .one y] (fun a => x.bool! a ≠ y.bool! a) ∧
    Posts d "bool_ne_imp" [.one x, .one y, .one r] (fun a => r.bool! a = true → x.bool! a ≠ y.bool! a) ∧
    Posts d "bool_le_imp" [.one x, .one y, .one r] (fun a => r.bool! a = true → x.bool! a = true → y.bool! a = true) ∧
    Posts d "bool_lt_imp" [.one x, .one y, .one r] (fun a => r.bool! a = true → x.bool! a = false ∧ y.bool! a = true) ∧
    Posts d "bool_le_reif" [.one x, .one y, .one r] (fun a => r.bool! a = true ↔ (x.bool! a = true → y.bool! a = true)) := by
  exact ⟨bool_ne_posts d x y hx hy, bool_le_posts d x y hx hy, bool_lt_posts d x y hx hy, bool_not_posts d x y hx hy, bool_ne_imp_posts d x y r hx hy hr, bool_le_imp_posts d x y r hx hy hr, bool_lt_imp_posts d x y r hx hy hr, bool_le_reif_posts d x y r hx hy hr⟩

end Geas
end MZ
