import Verif.Gecode.Basic
import Mathlib.Tactic.IntervalCases
import Mathlib.Tactic.Ring

/-!
# C92: elements, domains and global constraints
-/

namespace MZ
namespace Gecode

/-! ## Elements, coercions, domains -/

theorem elementAt_pad {α : Type} (p : α) (l : List α) (i : Int) (v : α) :
    (i > 0 ∧ ElementAt 0 (p :: l) i v) ↔ ElementAt 1 l i v := by
  unfold ElementAt
  constructor
  · rintro ⟨h, j, hj, hv⟩
    cases j with
    | zero => simp at hj; omega
    | succ j => exact ⟨j, by rw [hj]; push_cast; omega, by simpa using hv⟩
  · rintro ⟨j, hj, hv⟩
    exact ⟨by omega, j + 1, by rw [hj]; push_cast; omega, by simpa using hv⟩

/-- Elements of arrays, counted from 1. -/
theorem _root_.MZ.C92_element (D : Doms) (i y : IArg) (xs : List IArg) (cs : List Int) (bs : List BArg) (z : BArg) (hi : i.Safe) (hy : y.Safe)
    (hx : ∀ x ∈ xs, x.Safe) (hc : ∀ c ∈ cs, Small c) (hx0 : xs ≠ []) (hb0 : bs ≠ []) :
    PostsIn D (p_array_var_int_element i xs y) (fun a => ElementAt 1 (ints a xs) (i.val a) (y.val a)) ∧
    PostsIn D (.ok (p_array_int_element i cs y)) (fun a => ElementAt 1 cs (i.val a) (y.val a)) ∧
    PostsIn D (p_array_bool_element i bs z) (fun a => ElementAt 1 (bools a bs) (i.val a) (z.val a)) := by
  refine ⟨?_, ?_, ?_⟩
  · have : p_array_var_int_element i xs y = .ok ⟨[], [.rel (arg2intvar i) .GR (.const 0) none,
        .element (.const 0 :: xs.map tm) (arg2intvar i) (arg2intvar y)]⟩ := by
      simp [p_array_var_int_element, arg2intvarargs_one hx hx0]
    rw [this]
    refine postsIn_of _ _ _ (posts_two _ _ _ (fun a e => ?_))
    rw [← elementAt_pad 0]
    simp only [Post.holds, Reif.holds, IRT.holds, arg2intvar_val hi, arg2intvar_val hy, List.map_cons, Term.val, map_tm]
  · refine postsIn_of _ _ _ (posts_two _ _ _ (fun a e => ?_))
    rw [← elementAt_pad 0]
    simp only [Post.holds, Reif.holds, IRT.holds, arg2intvar_val hi, arg2intvar_val hy, arg2intargs_eq hc, Term.val]
    simp [List.map_map, Function.comp_def, Term.val]
  · have : p_array_bool_element i bs z = .ok ⟨[], [.rel (arg2intvar i) .GR (.const 0) none,
        .elementB (.const false :: bs.map arg2boolvar) (arg2intvar i) (arg2boolvar z)]⟩ := by
      simp [p_array_bool_element, arg2boolvarargs, hb0]
    rw [this]
    refine postsIn_of _ _ _ (posts_two _ _ _ (fun a e => ?_))
    rw [← elementAt_pad false]
    simp only [Post.holds, Reif.holds, IRT.holds, arg2intvar_val hi, arg2boolvar_val, List.map_cons, bconst_val, map_boolvar, Term.val]

theorem in_bool (m : Mode) (u : BArg) (s : Finset Int) (b : BArg) :
    Posts (p_int_in_bool m u s b) (fun a => m.holds (b.val a) (num (u.val a) ∈ s)) := by
  have n0 : ∀ h, Finset.min' ({0, 1} : Finset Int) h = 0 := fun h => by rfl
  have n1 : ∀ h, Finset.max' ({0, 1} : Finset Int) h = 1 := fun h => by rfl
  by_cases h0 : (0 : Int) ∈ s <;> by_cases h1 : (1 : Int) ∈ s
  · have hd : s ∩ ({0, 1} : Finset Int) = {0, 1} := by
      ext v; simp only [Finset.mem_inter, Finset.mem_insert, Finset.mem_singleton]
      constructor
      · exact fun h => h.2
      · rintro (rfl | rfl) <;> simp [h0, h1]
    have key : ∀ v : Bool, num v ∈ s := by intro v; cases v <;> simp [num, h0, h1]
    cases m <;> simp only [p_int_in_bool, hd, n0, n1, Finset.insert_nonempty, dite_true] <;>
      refine posts_list _ _ (fun a e => ?_) <;>
      · simp only [ite_true, ite_false, reduceIte, zero_ne_one, one_ne_zero, List.forall_mem_cons, List.not_mem_nil, false_implies, implies_true,
          and_true]
        simp only [key, Mode.holds, Post.holds, Reif.holds, IRT.holds, arg2boolvar_val, bconst_val, beq_self_eq_true]
        generalize u.val a = v; generalize b.val a = w
        revert v w; decide
  · have hd : s ∩ ({0, 1} : Finset Int) = {0} := by
      ext v; simp only [Finset.mem_inter, Finset.mem_insert, Finset.mem_singleton]
      constructor
      · rintro ⟨h, rfl | rfl⟩
        · rfl
        · exact absurd h h1
      · rintro rfl; simp [h0]
    have key : ∀ v : Bool, num v ∈ s ↔ v = false := by intro v; cases v <;> simp [num, h0, h1]
    cases m <;> simp only [p_int_in_bool, hd, Finset.min'_singleton, Finset.max'_singleton, Finset.singleton_nonempty, dite_true] <;>
      refine posts_list _ _ (fun a e => ?_) <;>
      · simp only [ite_true, ite_false, reduceIte, zero_ne_one, one_ne_zero, List.forall_mem_cons, List.not_mem_nil, false_implies, implies_true,
          and_true]
        simp only [key, Mode.holds, Post.holds, Reif.holds, IRT.holds, arg2boolvar_val, bconst_val, beq_self_eq_true]
        generalize u.val a = v; generalize b.val a = w
        revert v w; decide
  · have hd : s ∩ ({0, 1} : Finset Int) = {1} := by
      ext v; simp only [Finset.mem_inter, Finset.mem_insert, Finset.mem_singleton]
      constructor
      · rintro ⟨h, rfl | rfl⟩
        · exact absurd h h0
        · rfl
      · rintro rfl; simp [h1]
    have key : ∀ v : Bool, num v ∈ s ↔ v = true := by intro v; cases v <;> simp [num, h0, h1]
    cases m <;> simp only [p_int_in_bool, hd, Finset.min'_singleton, Finset.max'_singleton, Finset.singleton_nonempty, dite_true] <;>
      refine posts_list _ _ (fun a e => ?_) <;>
      · simp only [ite_true, ite_false, reduceIte, zero_ne_one, one_ne_zero, List.forall_mem_cons, List.not_mem_nil, false_implies, implies_true,
          and_true]
        simp only [key, Mode.holds, Post.holds, Reif.holds, IRT.holds, arg2boolvar_val, bconst_val, beq_self_eq_true]
        generalize u.val a = v; generalize b.val a = w
        revert v w; decide
  · have hd : s ∩ ({0, 1} : Finset Int) = ∅ := by
      ext v; simp only [Finset.mem_inter, Finset.mem_insert, Finset.mem_singleton, Finset.notMem_empty, iff_false]
      rintro ⟨h, rfl | rfl⟩
      · exact h0 h
      · exact h1 h
    have key : ∀ v : Bool, ¬ num v ∈ s := by intro v; cases v <;> simp [num, h0, h1]
    cases m <;> simp only [p_int_in_bool, hd, Finset.not_nonempty_empty, dite_false] <;>
      refine posts_list _ _ (fun a e => ?_) <;>
      · simp only [List.forall_mem_cons, List.not_mem_nil, false_implies, implies_true, and_true]
        simp only [key, Mode.holds, Post.holds, arg2boolvar_val, bconst_val]
        all_goals (generalize b.val a = w; revert w; decide)

/-- Coercions of Booleans and membership in fixed sets, of integers and of Booleans. -/
theorem _root_.MZ.C92_domains (m : Mode) (x : IArg) (u : BArg) (s : Finset Int) (b : BArg) (hx : x.Safe) :
    Posts (p_bool2int b x) (fun a => num (b.val a) = x.val a) ∧
    Posts (p_int_in m x s b) (fun a => m.holds (b.val a) (x.val a ∈ s)) ∧
    Posts (p_int_in_bool m u s b) (fun a => m.holds (b.val a) (num (u.val a) ∈ s)) := by
  refine ⟨posts_one _ _ (fun a e => ?_), posts_one _ _ (fun a e => ?_), ?_⟩
  · simp only [Post.holds, arg2boolvar_val, arg2intvar_val hx]
  · simp only [Post.holds, reify_holds, arg2intvar_val hx]
  · exact in_bool m u s b

/-! ## Constraints on arrays that Gecode has too -/

/-- Distinct, equal and ordered elements, lexicographic order, extreme elements and their positions, sorting, tables of allowed rows, numbers
of values, membership, precedence, sliding windows, tasks and boxes that do not overlap. -/
theorem _root_.MZ.C92_arrays (D : Doms) (xs ys ws hs : List IArg) (cs : List Int) (y : IArg) (b : BArg) (m : Mode) (s : Finset Int) (p q : Int)
    (hx : ∀ x ∈ xs, x.Safe) (hys : ∀ x ∈ ys, x.Safe) (hws : ∀ x ∈ ws, x.Safe) (hhs : ∀ x ∈ hs, x.Safe) (hc : ∀ c ∈ cs, Small c) (hy : y.Safe)
    (hp : Small p) (hq : Small q) (hne : xs ≠ []) (hlen : xs.length = ys.length) :
    PostsIn D (p_distinct xs) (fun a => (ints a xs).Nodup) ∧
    PostsIn D (p_distinct_offset cs xs) (fun a => (List.zipWith (· + ·) cs (ints a xs)).Nodup) ∧
    PostsIn D (p_chain .EQ xs) (fun a => (ints a xs).Pairwise (· = ·)) ∧
    PostsIn D (p_chain .LQ xs) (fun a => (ints a xs).Pairwise (· ≤ ·)) ∧
    PostsIn D (p_chain .GQ xs) (fun a => (ints a xs).Pairwise (· ≥ ·)) ∧
    PostsIn D (p_array_int_lex true xs ys) (fun a => List.Lex (· < ·) (ints a xs) (ints a ys)) ∧
    PostsIn D (p_array_int_lex false xs ys) (fun a => List.Lex (· < ·) (ints a xs) (ints a ys) ∨ ints a xs = ints a ys) ∧
    PostsIn D (p_extremum true y xs) (fun a => y.val a ∈ ints a xs ∧ ∀ v ∈ ints a xs, y.val a ≤ v) ∧
    PostsIn D (p_extremum false y xs) (fun a => y.val a ∈ ints a xs ∧ ∀ v ∈ ints a xs, v ≤ y.val a) ∧
    PostsIn D (p_arg true xs y) (fun a => FirstBest (· ≤ ·) (ints a xs) (y.val a)) ∧
    PostsIn D (p_arg false xs y) (fun a => FirstBest (· ≥ ·) (ints a xs) (y.val a)) ∧
    PostsIn D (p_sort xs ys) (fun a => (ints a ys).Pairwise (· ≤ ·) ∧ (ints a xs).Perm (ints a ys)) ∧
    PostsIn D (p_nvalue y xs) (fun a => ((ints a xs).toFinset.card : Int) = y.val a) ∧
    PostsIn D (p_among y xs s) (fun a => countIn (ints a xs) s = y.val a) ∧
    PostsIn D (p_member_int m xs y b) (fun a => m.holds (b.val a) (y.val a ∈ ints a xs)) ∧
    PostsIn D (p_precede xs p q) (fun a => Precede (ints a xs) p q) ∧
    PostsIn D (p_schedule_unary xs cs) (fun a => Disjunctive (ints a xs) cs) ∧
    PostsIn D (p_nooverlap xs ws ys hs) (fun a => NoOverlap (ints a xs) (ints a ws) (ints a ys) (ints a hs)) := by
  have ax := arg2intvarargs_ok hx
  have ay := arg2intvarargs_ok hys
  have aw := arg2intvarargs_ok hws
  have ah := arg2intvarargs_ok hhs
  have zs : ∀ l : List Int, List.zipWith (· + ·) (l.map (fun _ => (0 : Int))) l = l := by
    intro l; induction l with
    | nil => rfl
    | cons x l ih => simp only [List.map_cons, List.zipWith_cons_cons, ih, Int.zero_add]
  refine ⟨?_, ?_, ?_, ?_, ?_, ?_, ?_, ?_, ?_, ?_, ?_, ?_, ?_, ?_, ?_, ?_, ?_, ?_⟩
  · simp only [p_distinct, ax, Res.ok_bind]
    refine postsIn_of _ _ _ (posts_one _ _ (fun a e => ?_))
    simp only [Post.holds, map_tm]
    rw [show (xs.map tm).map (fun _ => (0 : Int)) = (ints a xs).map (fun _ => (0 : Int)) by simp [ints, Function.comp_def], zs]
  · simp only [p_distinct_offset, ax, Res.ok_bind]
    refine postsIn_of _ _ _ (posts_one _ _ (fun a e => ?_))
    simp [Post.holds, map_tm, arg2intargs_eq hc, -List.map_map]
  · simp only [p_chain, ax, Res.ok_bind]
    exact postsIn_of _ _ _ (posts_one _ _ (fun a e => by simp only [Post.holds, map_tm]; rfl))
  · simp only [p_chain, ax, Res.ok_bind]
    exact postsIn_of _ _ _ (posts_one _ _ (fun a e => by simp only [Post.holds, map_tm]; rfl))
  · simp only [p_chain, ax, Res.ok_bind]
    exact postsIn_of _ _ _ (posts_one _ _ (fun a e => by simp only [Post.holds, map_tm]; rfl))
  · simp only [p_array_int_lex, ax, ay, Res.ok_bind]
    exact postsIn_of _ _ _ (posts_one _ _ (fun a e => by simp only [if_true, Post.holds, map_tm]))
  · simp only [p_array_int_lex, ax, ay, Res.ok_bind]
    exact postsIn_of _ _ _ (posts_one _ _ (fun a e => by simp only [Bool.false_eq_true, if_false, Post.holds, map_tm]))
  · simp only [p_extremum, ax, Res.ok_bind, List.map_eq_nil_iff, hne, if_false, if_true]
    exact postsIn_of _ _ _ (posts_one _ _ (fun a e => by simp only [Post.holds, map_tm, arg2intvar_val hy]))
  · simp only [p_extremum, ax, Res.ok_bind, List.map_eq_nil_iff, hne, if_false, Bool.false_eq_true]
    exact postsIn_of _ _ _ (posts_one _ _ (fun a e => by simp only [Post.holds, map_tm, arg2intvar_val hy]))
  · simp only [p_arg, ax, Res.ok_bind, List.map_eq_nil_iff, hne, if_false, if_true]
    exact postsIn_of _ _ _ (posts_one _ _ (fun a e => by simp only [Post.holds, map_tm, arg2intvar_val hy]))
  · simp only [p_arg, ax, Res.ok_bind, List.map_eq_nil_iff, hne, if_false, Bool.false_eq_true]
    exact postsIn_of _ _ _ (posts_one _ _ (fun a e => by simp only [Post.holds, map_tm, arg2intvar_val hy]))
  · simp only [p_sort, ax, ay, Res.ok_bind, List.length_map, hlen, if_true]
    exact postsIn_of _ _ _ (posts_one _ _ (fun a e => by simp only [Post.holds, map_tm]))
  · simp only [p_nvalue, ax, Res.ok_bind]
    exact postsIn_of _ _ _ (posts_one _ _ (fun a e => by simp only [Post.holds, map_tm, arg2intvar_val hy]))
  · simp only [p_among, ax, Res.ok_bind]
    exact postsIn_of _ _ _ (posts_one _ _ (fun a e => by simp only [Post.holds, IRT.holds, map_tm, arg2intvar_val hy]))
  · simp only [p_member_int, ax, Res.ok_bind]
    exact postsIn_of _ _ _ (posts_one _ _ (fun a e => by simp only [Post.holds, reify_holds, map_tm, arg2intvar_val hy]))
  · simp only [p_precede, ax, Res.ok_bind, int32_small hp, int32_small hq]
    exact postsIn_of _ _ _ (posts_one _ _ (fun a e => by simp only [Post.holds, map_tm]))
  · simp only [p_schedule_unary, ax, Res.ok_bind]
    refine postsIn_of _ _ _ (posts_one _ _ (fun a e => ?_))
    have : (cs.map Term.const).map (Term.val a e) = cs := by simp [Function.comp_def, Term.val]
    simp only [Post.holds, map_tm, arg2intargs_eq hc, List.replicate_zero, List.nil_append, this]
  · simp only [p_nooverlap, ax, ay, aw, ah, Res.ok_bind]
    exact postsIn_of _ _ _ (posts_one _ _ (fun a e => by simp only [Post.holds, map_tm]))

/-- Sliding windows and inverse functions. -/
theorem _root_.MZ.C92_windows_inverse (D : Doms) (xs ys : List IArg) (s : Finset Int) (l u q xo yo : Int)
    (hx : ∀ x ∈ xs, x.Safe) (hys : ∀ x ∈ ys, x.Safe) (hl : Small l) (hu : Small u) (hq : Small q) (q1 : 1 ≤ q) (q2 : q ≤ xs.length)
    (hxo : Small xo) (hyo : Small yo) (x0 : 0 ≤ xo) (y0 : 0 ≤ yo) (hlen : xs.length = ys.length) :
    PostsIn D (p_sliding_among l u q xs s) (fun a => ∀ i : Nat, i + q ≤ xs.length →
      l ≤ countIn (((ints a xs).drop i).take q.toNat) s ∧ countIn (((ints a xs).drop i).take q.toNat) s ≤ u) ∧
    PostsIn D (p_inverse_offsets xs xo ys yo) (fun a => Inverse (ints a xs) xo (ints a ys) yo) := by
  refine ⟨?_, ?_⟩
  · simp only [p_sliding_among, arg2intvarargs_ok hx, Res.ok_bind, List.length_map, int32_small hl, int32_small hu, int32_small hq]
    rw [if_pos ⟨q1, q2⟩]
    exact postsIn_of _ _ _ (posts_one _ _ (fun a e => by simp only [Post.holds, map_tm, List.length_map]))
  · simp only [p_inverse_offsets, arg2intvarargs_ok hx, arg2intvarargs_ok hys, Res.ok_bind, List.length_map, int32_small hxo, int32_small hyo]
    rw [if_pos ⟨hlen, x0, y0⟩]
    exact postsIn_of _ _ _ (posts_one _ _ (fun a e => by simp only [Post.holds, map_tm]))

theorem rows_flatten (w : Nat) (ts : List (List Int)) (h : ∀ t ∈ ts, t.length = w) : rows w ts.flatten ts.length = ts := by
  induction ts with
  | nil => rfl
  | cons t ts ih =>
    have ht := h t List.mem_cons_self
    simp only [List.length_cons, rows, List.flatten_cons]
    rw [List.take_left' ht, List.drop_left' ht, ih (fun u hu => h u (List.mem_cons_of_mem _ hu))]

/-- Tables: the values are one of the rows. -/
theorem _root_.MZ.C92_table (D : Doms) (xs : List IArg) (ts : List (List Int)) (hx : ∀ x ∈ xs, x.Safe) (hne : xs ≠ [])
    (hw : ∀ t ∈ ts, t.length = xs.length) (hs : ∀ t ∈ ts, ∀ c ∈ t, Small c) :
    PostsIn D (p_table_int xs ts.flatten) (fun a => ints a xs ∈ ts) := by
  have hsm : ∀ c ∈ ts.flatten, Small c := by
    intro c hc; obtain ⟨t, ht, hct⟩ := List.mem_flatten.mp hc; exact hs t ht c hct
  have hlen : ts.flatten.length = ts.length * xs.length := by
    clear hs hsm
    induction ts with
    | nil => simp
    | cons t ts ih =>
      simp only [List.flatten_cons, List.length_append, List.length_cons, ih (fun u hu => hw u (List.mem_cons_of_mem _ hu)), hw t List.mem_cons_self]
      ring
  have hpos : 0 < xs.length := List.length_pos_of_ne_nil hne
  simp only [p_table_int, arg2intvarargs_ok hx, Res.ok_bind, arg2intargs_eq hsm, List.replicate_zero, List.nil_append, List.length_map]
  by_cases h0 : ts = []
  · subst h0
    exact postsIn_of _ _ _ (posts_one _ _ (fun a e => by simp [Post.holds]))
  · have h1 : ts.flatten.length ≠ 0 := by
      rw [hlen]; exact Nat.mul_ne_zero (by simpa using h0) (by omega)
    rw [if_neg h1, if_neg (by omega), hlen, Nat.mul_div_cancel _ hpos, rows_flatten _ _ hw]
    exact postsIn_of _ _ _ (posts_one _ _ (fun a e => by simp only [Post.holds, map_tm]))

/-! ## Counting -/

/-- Counting one value; at most and at least. -/
theorem _root_.MZ.C92_count (D : Doms) (m : Mode) (xs : List IArg) (y c : IArg) (b : BArg) (n v : Int) (hx : ∀ x ∈ xs, x.Safe) (hy : y.Safe)
    (hc : c.Safe) (hn : Small n) (hv : Small v) (hlen : xs.length ≤ 2147483646) :
    PostsIn D (p_count m xs y c b) (fun a => m.holds (b.val a) (((ints a xs).count (y.val a) : Int) = c.val a)) ∧
    PostsIn D (p_at true n xs v) (fun a => ((ints a xs).count v : Int) ≤ n) ∧
    PostsIn D (p_at false n xs v) (fun a => n ≤ ((ints a xs).count v : Int)) := by
  refine ⟨?_, ?_, ?_⟩
  · simp only [p_count, arg2intvarargs_ok hx, Res.ok_bind]
    have bound : ∀ a : Asg, ∀ (k : Nat) (q : Int × Int), ([((0 : Int), (2147483646 : Int))] : List (Int × Int))[k]? = some q →
        q.1 ≤ ((ints a xs).count (y.val a) : Int) ∧ ((ints a xs).count (y.val a) : Int) ≤ q.2 := by
      intro a k q hq
      have h1 : (ints a xs).count (y.val a) ≤ xs.length := by
        have := List.count_le_length (a := y.val a) (l := ints a xs); simpa [ints] using this
      cases k with
      | zero => simp at hq; subst hq; simp only []; omega
      | succ k => simp at hq
    cases m with
    | plain =>
      exact postsIn_of _ _ _ (posts_one _ _ (fun a e => by simp only [Post.holds, IRT.holds, map_tm, arg2intvar_val hy, arg2intvar_val hc, Mode.holds]))
    | reif =>
      refine postsIn_of _ _ _ (fun a => ?_)
      simp only [Posted.holds, List.mem_cons, List.not_mem_nil, or_false, forall_eq_or_imp, forall_eq, Post.holds, IRT.holds, map_tm,
        arg2intvar_val hy, arg2intvar_val hc, arg2boolvar_val, Mode.holds, Term.val]
      constructor
      · rintro ⟨e, _, h1, h2⟩; rw [h1]; exact h2
      · intro h; exact ⟨fun _ => ((ints a xs).count (y.val a) : Int), bound a, rfl, h⟩
    | imp =>
      refine postsIn_of _ _ _ (fun a => ?_)
      simp only [Posted.holds, List.mem_cons, List.not_mem_nil, or_false, forall_eq_or_imp, forall_eq, Post.holds, IRT.holds, map_tm,
        arg2intvar_val hy, arg2intvar_val hc, arg2boolvar_val, Mode.holds, Term.val]
      constructor
      · rintro ⟨e, _, h1, h2⟩; rw [h1]; exact h2
      · intro h; exact ⟨fun _ => ((ints a xs).count (y.val a) : Int), bound a, rfl, h⟩
  · simp only [p_at, arg2intvarargs_ok hx, Res.ok_bind, int32_small hn, int32_small hv, if_true]
    exact postsIn_of _ _ _ (posts_one _ _ (fun a e => by simp only [Post.holds, IRT.holds, map_tm, Term.val]))
  · simp only [p_at, arg2intvarargs_ok hx, Res.ok_bind, int32_small hn, int32_small hv, Bool.false_eq_true, if_false]
    exact postsIn_of _ _ _ (posts_one _ _ (fun a e => by simp only [Post.holds, IRT.holds, map_tm, Term.val, ge_iff_le]))

theorem tm_dom (D : Doms) (a : Asg) (ha : a.In D) (x : IArg) : x.val a ∈ D.dom (tm x) := by
  cases x with
  | var x => exact ha x
  | lit c => simp [tm, IArg.val, Doms.dom]

theorem mem_union (l : List (Finset Int)) (v : Int) : v ∈ l.foldr (· ∪ ·) ∅ ↔ ∃ s ∈ l, v ∈ s := by
  induction l with
  | nil => simp
  | cons s l ih => simp [ih]

theorem mem_extra (D : Doms) (xs : List Term) (cover : List Int) (v : Int) :
    v ∈ extra D xs cover ↔ (∃ x ∈ xs, v ∈ D.dom x) ∧ v ∉ cover := by
  simp [extra, mem_union]

theorem covered (D : Doms) (a : Asg) (ha : a.In D) (xs : List IArg) (cover : List Int) (v : Int) (hv : v ∈ ints a xs) :
    v ∈ cover ++ extra D (xs.map tm) cover := by
  obtain ⟨x, hx, rfl⟩ := List.mem_map.mp hv
  by_cases h : x.val a ∈ cover
  · exact List.mem_append_left _ h
  · exact List.mem_append_right _ ((mem_extra D _ _ _).mpr ⟨⟨tm x, List.mem_map_of_mem hx, tm_dom D a ha x⟩, h⟩)

theorem nodup_cover (D : Doms) (xs : List Term) (cover : List Int) (h : cover.Nodup) : (cover ++ extra D xs cover).Nodup := by
  refine List.Nodup.append h (Finset.sort_nodup _ _) (fun v hv hv2 => ?_)
  exact ((mem_extra D xs cover v).mp hv2).2 hv

/-- Global cardinality, open (other values are allowed) and closed, with variables or bounds for the numbers. -/
theorem _root_.MZ.C92_global_cardinality_partial (D : Doms) (xs : List IArg) (cover lo up : List Int) (counts : List IArg) (hx : ∀ x ∈ xs, x.Safe)
    (hcs : ∀ x ∈ counts, x.Safe) (hc : ∀ c ∈ cover, Small c) (hl : ∀ c ∈ lo, Small c) (hu : ∀ c ∈ up, Small c) (hnd : cover.Nodup)
    (hlen : cover.length = counts.length) (h1 : cover.length = lo.length) (h2 : cover.length = up.length) :
    PostsIn D (p_global_cardinality D false xs cover counts) (fun a => Counts (ints a xs) cover (ints a counts)) ∧
    PostsIn D (p_global_cardinality D true xs cover counts)
      (fun a => (∀ v ∈ ints a xs, v ∈ cover) ∧ Counts (ints a xs) cover (ints a counts)) ∧
    PostsIn D (p_global_cardinality_low_up D false xs cover lo up) (fun a => CountsBetween (ints a xs) cover (List.zip lo up)) ∧
    PostsIn D (p_global_cardinality_low_up D true xs cover lo up)
      (fun a => (∀ v ∈ ints a xs, v ∈ cover) ∧ CountsBetween (ints a xs) cover (List.zip lo up)) := by
  have cle : ∀ (a : Asg) (v : Int), ((ints a xs).count v : Int) ≤ xs.length := by
    intro a v
    have := List.count_le_length (a := v) (l := ints a xs)
    simp only [ints, List.length_map] at this ⊢
    exact_mod_cast this
  refine ⟨?_, ?_, ?_, ?_⟩
  · simp only [p_global_cardinality, arg2intvarargs_ok hx, arg2intvarargs_ok hcs, Res.ok_bind, arg2intargs_eq hc, List.replicate_zero,
      List.nil_append, Bool.false_eq_true, if_false]
    rw [if_pos ⟨nodup_cover D _ _ hnd, by simp [hlen]⟩]
    refine ⟨_, rfl, fun a ha => ?_⟩
    generalize hE : extra D (xs.map tm) cover = E
    have hcov := fun v hv => hE ▸ covered D a ha xs cover v hv
    simp only [Posted.holds, List.mem_singleton, forall_eq, Post.holds, map_tm, List.length_map, List.map_append]
    simp only [List.map_map]
    have hv : ∀ e : Nat → Int, (List.range E.length).map (Term.val a e ∘ Term.aux) = (List.range E.length).map e := by
      intro e; simp [Function.comp_def, Term.val]
    constructor
    · rintro ⟨e, _, _, h⟩ j v c hj hcj
      have hjl : j < cover.length := (List.getElem?_eq_some_iff.mp hj).1
      refine h j v c ?_ ?_
      · rw [List.getElem?_append_left hjl]; exact hj
      · rw [List.getElem?_append_left (by simp [ints, ← hlen, hjl])]; exact hcj
    · intro h
      refine ⟨fun k => ((ints a xs).count (E.getD k 0) : Int), ?_, hcov, ?_⟩
      · intro k q hq
        simp only [List.getElem?_map, Option.map_eq_some_iff] at hq
        obtain ⟨v, _, rfl⟩ := hq
        exact ⟨Int.natCast_nonneg _, cle a _⟩
      · intro j v c hj hcj
        rw [hv] at hcj
        by_cases hjl : j < cover.length
        · rw [List.getElem?_append_left hjl] at hj
          rw [List.getElem?_append_left (by simp [ints, ← hlen, hjl])] at hcj
          exact h j v c hj hcj
        · push Not at hjl
          rw [List.getElem?_append_right hjl] at hj
          rw [List.getElem?_append_right (by simp [ints, ← hlen, hjl])] at hcj
          have hll : (ints a counts).length = cover.length := by simp [ints, hlen]
          rw [hll] at hcj
          obtain ⟨hlt, hEv⟩ := List.getElem?_eq_some_iff.mp hj
          simp only [List.getElem?_map, List.getElem?_range hlt, Option.map_some, Option.some.injEq] at hcj
          rw [← hcj, List.getD_eq_getElem?_getD, hj]; rfl
  · simp only [p_global_cardinality, arg2intvarargs_ok hx, arg2intvarargs_ok hcs, Res.ok_bind, arg2intargs_eq hc, List.replicate_zero,
      List.nil_append, if_true, List.append_nil, List.length_nil, List.range_zero, List.map_nil]
    rw [if_pos ⟨hnd, by simp [hlen]⟩]
    exact postsIn_of _ _ _ (posts_one _ _ (fun a e => by simp only [Post.holds, map_tm]))
  · simp only [p_global_cardinality_low_up, arg2intvarargs_ok hx, Res.ok_bind, arg2intargs_eq hc, arg2intargs_eq hl, arg2intargs_eq hu,
      List.replicate_zero, List.nil_append, Bool.false_eq_true, if_false]
    rw [if_pos ⟨nodup_cover D _ _ hnd, by simp [← h1, ← h2]⟩]
    refine ⟨_, rfl, fun a ha => ?_⟩
    generalize hE : extra D (xs.map tm) cover = E
    have hcov := fun v hv => hE ▸ covered D a ha xs cover v hv
    simp only [Posted.holds, List.mem_singleton, forall_eq, Post.holds, map_tm, List.length_map, List.getElem?_nil, reduceCtorEq,
      false_implies, implies_true, true_and, exists_const]
    have hzl : (List.zip lo up).length = cover.length := by simp [← h1, ← h2]
    constructor
    · rintro ⟨_, h⟩ j v q hj hq
      have hjl : j < cover.length := (List.getElem?_eq_some_iff.mp hj).1
      refine h j v q ?_ ?_
      · rw [List.getElem?_append_left hjl]; exact hj
      · rw [List.getElem?_append_left (by rw [hzl]; exact hjl)]; exact hq
    · intro h
      refine ⟨hcov, fun j v q hj hq => ?_⟩
      by_cases hjl : j < cover.length
      · rw [List.getElem?_append_left hjl] at hj
        rw [List.getElem?_append_left (by rw [hzl]; exact hjl)] at hq
        exact h j v q hj hq
      · push Not at hjl
        rw [List.getElem?_append_right (by rw [hzl]; exact hjl)] at hq
        simp only [List.getElem?_map, Option.map_eq_some_iff] at hq
        obtain ⟨_, _, rfl⟩ := hq
        exact ⟨Int.natCast_nonneg _, cle a v⟩
  · simp only [p_global_cardinality_low_up, arg2intvarargs_ok hx, Res.ok_bind, arg2intargs_eq hc, arg2intargs_eq hl, arg2intargs_eq hu,
      List.replicate_zero, List.nil_append, if_true, List.append_nil, List.map_nil]
    rw [if_pos ⟨hnd, by simp [← h1, ← h2]⟩]
    exact postsIn_of _ _ _ (posts_one _ _ (fun a e => by simp only [Post.holds, map_tm]))

/-- A value that is listed twice is refused. -/
theorem _root_.MZ.C92_repeated_cover_fails (D : Doms) :
    ¬ ∀ (xs : List IArg) (cover : List Int) (counts : List IArg), cover.length = counts.length →
      PostsIn D (p_global_cardinality D true xs cover counts) (fun a => (∀ v ∈ ints a xs, v ∈ cover) ∧ Counts (ints a xs) cover (ints a counts)) := by
  intro h
  obtain ⟨p, hp, _⟩ := h [.var 0] [1, 1] [.var 1, .var 1] rfl
  simp [p_global_cardinality, arg2intvarargs, sequenceRes, elemVar, arg2intargs, int32] at hp

end Gecode
end MZ
