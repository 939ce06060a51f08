import Verif.Geas.Element

namespace MZ
namespace Geas

variable (d : IVar → Int → Bool)

theorem sum_ind_eq (xs : List IVar) (a : Asg) (v : Int) :
    ((xs.map (fun x => Atom.eq x v)).map (fun l => ind (l.holds a))).sum = ((xs.map (IVar.val a)).count v : Int) := by
  induction xs with
  | nil => rfl
  | cons x xs ih =>
    simp only [List.map_cons, List.sum_cons, ih]
    simp only [Atom.holds, List.count_cons, ind]
    by_cases h : x.val a = v
    · simp [h]; omega
    · simp [h]

/-- All different, and at most so many times. -/
theorem _root_.MZ.C89_counting (l : List Arg) (v : Bool) (n c : Int) (hl : ∀ e ∈ l, e.IsInt) (hn : Small n) (hc : Small c) :
    Posts d "all_different_int" [.arr v l] (fun a => (ints! a l).Pairwise (· ≠ ·)) ∧
    Posts d "alldifferent_except_0" [.arr v l] (fun a => (ints! a l).Pairwise (fun x y => x ≠ 0 → y ≠ 0 → x ≠ y)) ∧
    Posts d "at_most" [.one (.int n), .arr v l, .one (.int c)] (fun a => ((ints! a l).count c : Int) ≤ n) ∧
    Posts d "at_most1" [.arr v l, .one (.int c)] (fun a => (ints! a l).count c ≤ 1) := by
  obtain ⟨xs, h1, h2⟩ := each_ints hl
  refine ⟨posts_of rfl ⟨_, by unfold p_all_different; read_args [h1], fun a => ?_⟩,
    posts_of rfl ⟨_, by unfold p_all_different_except_0; read_args [h1], fun a => ?_⟩,
    posts_of rfl ⟨_, by unfold p_at_most; read_args [h1, asInt_int, small_toInt32 hn, small_toInt32 hc], fun a => ?_⟩,
    posts_of rfl ⟨_, by unfold p_at_most1; read_args [h1, asInt_int, small_toInt32 hc], fun a => ?_⟩⟩
  · simp [Post.holds, h2]
  · simp only [Post.holds, h2, List.mem_singleton, forall_eq]
    have : (fun v w : Int => v = 0 ∨ w = 0 ∨ v ≠ w) = (fun x y => x ≠ 0 → y ≠ 0 → x ≠ y) := by
      funext v w; exact propext (by tauto)
    rw [this]
  · simp only [Post.holds, List.mem_singleton, forall_eq, sum_ind_eq, h2]
  · simp only [Post.holds, List.mem_singleton, forall_eq, sum_ind_eq, h2]; omega

/-- Scheduling constraints are handed over with their arguments, constants or variables. -/
theorem _root_.MZ.C89_scheduling (name name' : String) (hname : name = "cumulative" ∨ name = "cumulative_var")
    (hname' : name' = "disjunctive" ∨ name' = "disjunctive_var") (s du re : List Arg) (u v w : Bool)
    (b : Arg) (hs : ∀ e ∈ s, e.IsInt) (hd : ∀ e ∈ du, e.IsInt) (hr : ∀ e ∈ re, e.IsInt) (hb : b.IsInt) (htd : Typed v du) (htr : Typed w re)
    (sd : ∀ e ∈ du, SmallLit e) (sr : ∀ e ∈ re, SmallLit e) (sb : SmallLit b) :
    Posts d name [.arr u s, .arr v du, .arr w re, .one b]
      (fun a => Cumulative (ints! a s) (ints! a du) (ints! a re) (b.int! a)) ∧
    Posts d name' [.arr u s, .arr v du] (fun a => Disjunctive (ints! a s) (ints! a du)) := by
  obtain ⟨xs, h1, h2⟩ := each_ints hs
  obtain ⟨ys, h3, h4⟩ := each_ints hd
  obtain ⟨zs, h5, h6⟩ := each_ints hr
  obtain ⟨bb, h7, h8⟩ := int_arg hb
  have key : ∃ ps, p_cumulative [.arr u s, .arr v du, .arr w re, .one b] = .ok ps ∧
      ∀ a, (∀ q ∈ ps, q.holds a) ↔ Cumulative (ints! a s) (ints! a du) (ints! a re) (b.int! a) := by
    have p3 : par [.arr u s, .arr v du, .arr w re, .one b] 3 = .ok b.isPar := rfl
    by_cases h : (!v && !w && b.isPar) = true
    · simp only [Bool.and_eq_true, Bool.not_eq_true'] at h
      obtain ⟨⟨rfl, rfl⟩, hp⟩ := h
      obtain ⟨dd, g1, g2⟩ := each_literals hd (htd rfl) sd
      obtain ⟨rr, g3, g4⟩ := each_literals hr (htr rfl) sr
      rcases int_cases hb with ⟨c, rfl⟩ | ⟨y, rfl⟩
      · refine ⟨_, by unfold p_cumulative; read_args [h1, g1, g3, asInt_int, small_toInt32 (sb c rfl), Bool.not_false, Bool.and_self], fun a => ?_⟩
        simp only [Post.holds, List.mem_singleton, forall_eq, h2, ← g2 a, ← g4 a, Arg.int!]
      · simp [Arg.isPar] at hp
    · refine ⟨[.cumulative_var xs ys zs bb], ?_, fun a => ?_⟩
      · unfold p_cumulative
        rw [p3]
        simp only [para_one, para_two, Res.ok_bind]
        rw [if_neg h]
        read_args [h1, h3, h5, h7]
      · simp only [Post.holds, List.mem_singleton, forall_eq, h2, h4, h6, h8]
  have key' : ∃ ps, p_disjunctive [.arr u s, .arr v du] = .ok ps ∧
      ∀ a, (∀ q ∈ ps, q.holds a) ↔ Disjunctive (ints! a s) (ints! a du) := by
    cases v with
    | false =>
      obtain ⟨dd, g1, g2⟩ := each_literals hd (htd rfl) sd
      refine ⟨_, by unfold p_disjunctive; read_args [h1, g1, Bool.not_false], fun a => ?_⟩
      simp only [Post.holds, List.mem_singleton, forall_eq, h2, ← g2 a]
    | true =>
      refine ⟨_, by unfold p_disjunctive; read_args [h1, h3, Bool.not_true], fun a => ?_⟩
      simp only [Post.holds, List.mem_singleton, forall_eq, h2, h4]
  exact ⟨by rcases hname with rfl | rfl <;> exact posts_of rfl key, by rcases hname' with rfl | rfl <;> exact posts_of rfl key'⟩

/-! ## Tables -/

theorem rows_flatten (n : Nat) (T : List (List Int)) (hn : 0 < n) (hT : ∀ r ∈ T, r.length = n) : rows n T.flatten = T := by
  have hlen : T.flatten.length = T.length * n := by
    clear hn
    induction T with
    | nil => simp
    | cons r T ih =>
      simp only [List.flatten_cons, List.length_append, List.length_cons, ih (fun r hr => hT r (by simp [hr])), hT r (by simp)]
      rw [Nat.add_mul]; omega
  have hget : ∀ i j (hi : i < T.length) (hj : j < n), T.flatten.getD (i * n + j) 0 = (T[i]).getD j 0 := by
    clear hlen
    induction T with
    | nil => intro i j hi; simp at hi
    | cons r T ih =>
      intro i j hi hj
      have hr := hT r (by simp)
      cases i with
      | zero => simp only [List.flatten_cons, List.getD_eq_getElem?_getD, Nat.zero_mul, Nat.zero_add, List.getElem_cons_zero]
                rw [List.getElem?_append_left (by omega)]
      | succ i =>
        have := ih (fun r hr => hT r (by simp [hr])) i j (by simpa using hi) hj
        simp only [List.flatten_cons, List.getD_eq_getElem?_getD, List.getElem_cons_succ] at this ⊢
        rw [List.getElem?_append_right (by rw [Nat.add_mul]; omega), ← this]
        congr 2
        rw [Nat.add_mul]; omega
  have hcount : (if T.flatten = [] then 0 else T.flatten.length / n) = T.length := by
    rw [hlen, Nat.mul_div_cancel _ hn]
    by_cases h : T.flatten = []
    · have : T.length * n = 0 := by rw [← hlen, h]; rfl
      rcases Nat.mul_eq_zero.mp this with h0 | h0
      · simp [h, h0]
      · omega
    · simp [h]
  unfold rows
  rw [hcount]
  apply List.ext_getElem (by simp)
  intro i h1 h2
  simp only [List.getElem_map, List.getElem_range]
  have hr := hT T[i] (List.getElem_mem h2)
  apply List.ext_getElem (by simp [hr])
  intro j h3 h4
  simp only [List.getElem_map, List.getElem_range]
  rw [hget i j h2 (by omega)]
  simp [List.getD_eq_getElem?_getD, h4]

/-- Tables, for at least one variable. -/
theorem _root_.MZ.C89_table (l : List Arg) (v : Bool) (T : List (List Int)) (hl : ∀ e ∈ l, e.IsInt) (h0 : l ≠ [])
    (hT : ∀ r ∈ T, r.length = l.length) (hs : ∀ r ∈ T, ∀ k ∈ r, Small k) :
    Posts d "table_int" [.arr v l, consts T.flatten] (fun a => ints! a l ∈ T) := by
  obtain ⟨xs, h1, h2⟩ := each_ints hl
  have hlen : xs.length = l.length := by
    have := congrArg List.length (h2 ⟨fun _ => 0, fun _ => false⟩)
    simpa [ints!] using this
  have hpos : 0 < l.length := List.length_pos_iff.mpr h0
  have hx : xs ≠ [] := by rintro rfl; simp at hlen; omega
  have hk : ∀ k ∈ T.flatten, Small k := by
    intro k hk; obtain ⟨r, hr, hk⟩ := List.mem_flatten.mp hk; exact hs r hr k hk
  refine posts_of rfl ⟨[.table T xs], ?_, fun a => ?_⟩
  · unfold p_table_int consts
    read_args [h1, each_consts hk]
    rw [if_neg (by simp [hx]), rows_flatten _ _ (by omega) (fun r hr => by rw [hT r hr, hlen])]
  · simp only [Post.holds, List.mem_singleton, forall_eq, h2]

/-! ## Global cardinality -/

/-- A sum over the positions of a list in which only position `i` counts. -/
theorem sum_zipIdx_ite {α} (l : List α) (g : α → Int) (i k : Nat) :
    ((l.zipIdx k).map (fun q => if q.2 = i then g q.1 else 0)).sum = if k ≤ i then ((l[i - k]?).map g).getD 0 else 0 := by
  induction l generalizing k with
  | nil => simp
  | cons x l ih =>
    simp only [List.zipIdx_cons, List.map_cons, List.sum_cons, ih]
    by_cases h : k = i
    · subst h; simp
    · by_cases h' : k ≤ i
      · have e : i - k = (i - (k + 1)) + 1 := by omega
        rw [if_neg h, if_pos h', if_pos (by omega), e, List.getElem?_cons_succ]; simp
      · rw [if_neg h, if_neg h', if_neg (by omega)]; simp

theorem sum_filter_flatMap {α β} (l : List α) (f : α → List β) (p : β → Bool) (g : β → Int) :
    (((l.flatMap f).filter p).map g).sum = (l.map (fun x => (((f x).filter p).map g).sum)).sum := by
  induction l with
  | nil => rfl
  | cons x l ih => simp only [List.flatMap_cons, List.filter_append, List.map_append, List.sum_append, List.map_cons, List.sum_cons, ih]

theorem gcc_sum (xs : List IVar) (cover : List Int) (a : Asg) (hd : ∀ x : IVar, d x (x.val a) = true) (P : Nat → Nat → Bool) :
    (((gccFlows d xs cover).filter (fun f => P f.1 f.2.1)).map (fun f => ind (f.2.2.holds a))).sum =
      ((xs.zipIdx).map (fun q => ((cover.zipIdx).map (fun r => if P q.2 r.2 = true then ind (q.1.val a = r.1) else 0)).sum)).sum := by
  unfold gccFlows
  rw [sum_filter_flatMap]
  congr 1
  apply List.map_congr_left
  rintro ⟨x, i⟩ _
  simp only
  rw [sum_filter_flatMap]
  congr 1
  apply List.map_congr_left
  rintro ⟨v, j⟩ _
  simp only
  by_cases h : x.val a = v
  · have := hd x; rw [h] at this
    cases hP : P i j <;> simp [this, hP, Atom.holds]
  · cases hv : d x v <;> cases hP : P i j <;> simp [hP, Atom.holds, ind, h]

theorem sum_map_ite_const {α} (l : List α) (c : Prop) [Decidable c] (g : α → Int) :
    (l.map (fun x => if c then g x else 0)).sum = if c then (l.map g).sum else 0 := by
  split_ifs
  · rfl
  · induction l with
    | nil => rfl
    | cons x l ih => simp only [List.map_cons, List.sum_cons, ih]; rfl

theorem sum_zipIdx_fst {α} (l : List α) (g : α → Int) (k : Nat) : ((l.zipIdx k).map (fun q => g q.1)).sum = (l.map g).sum := by
  induction l generalizing k with
  | nil => rfl
  | cons x l ih => simp only [List.zipIdx_cons, List.map_cons, List.sum_cons, ih]

theorem sum_ind_nodup (l : List Int) (v : Int) (h : l.Nodup) : (l.map (fun w => ind (v = w))).sum = ind (v ∈ l) := by
  induction l with
  | nil => simp [ind]
  | cons w l ih =>
    have h' := List.nodup_cons.mp h
    simp only [List.map_cons, List.sum_cons, ih h'.2, List.mem_cons]
    by_cases e : v = w
    · subst e; simp [ind, h'.1]
    · simp [ind, e]

theorem sum_ind_count (xs : List IVar) (a : Asg) (c : Int) : (xs.map (fun x => ind (x.val a = c))).sum = ((xs.map (IVar.val a)).count c : Int) := by
  have := sum_ind_eq xs a c
  rw [List.map_map] at this
  exact this

/-- Global cardinality, in the domains of the variables: every covered value has its count, and there are no other values. -/
theorem _root_.MZ.C89_global_cardinality_partial (l : List Arg) (v : Bool) (cover counts : List Int) (hl : ∀ e ∈ l, e.IsInt)
    (hc : ∀ k ∈ cover, Small k) (hk : ∀ k ∈ counts, Small k) (hn : cover.Nodup) (hlen : counts.length = cover.length) :
    PostsIn (fun a => ∀ x : IVar, d x (x.val a) = true) d "global_cardinality" [.arr v l, consts cover, consts counts]
      (fun a => (∀ x ∈ ints! a l, x ∈ cover) ∧
        ∀ (j : Nat) (c k : Int), cover[j]? = some c → counts[j]? = some k → ((ints! a l).count c : Int) = k) := by
  obtain ⟨xs, h1, h2⟩ := each_ints hl
  refine postsIn_of rfl ⟨[.flow (xs.map (fun _ => 1)) counts (gccFlows d xs cover)], by
    unfold p_global_cardinality consts; read_args [h1, each_consts hc, each_consts hk], fun a hd => ?_⟩
  simp only [Post.holds, List.mem_singleton, forall_eq]
  apply and_congr
  · have e : ∀ i : Nat, (((gccFlows d xs cover).filter (fun f => f.1 = i)).map (fun f => ind (f.2.2.holds a))).sum =
        ((xs[i]?).map (fun x => ind (x.val a ∈ cover))).getD 0 := by
      intro i
      have := gcc_sum d xs cover a hd (fun p _ => decide (p = i))
      rw [this]
      simp only [decide_eq_true_eq, sum_map_ite_const]
      have : ∀ x : IVar, ((cover.zipIdx).map (fun r => ind (x.val a = r.1))).sum = ind (x.val a ∈ cover) := fun x => by
        rw [sum_zipIdx_fst cover (fun r => ind (x.val a = r)) 0, sum_ind_nodup _ _ hn]
      simp only [this]
      rw [sum_zipIdx_ite xs (fun x => ind (x.val a ∈ cover)) i 0]; simp
    rw [← h2 a]
    simp only [e, List.mem_map, forall_exists_index, and_imp, forall_apply_eq_imp_iff₂]
    constructor
    · intro h x hx
      obtain ⟨i, hi, rfl⟩ := List.mem_iff_getElem.mp hx
      have := h i 1 (by simp [hi])
      simp only [List.getElem?_eq_getElem hi, Option.map_some, Option.getD_some, ind] at this
      by_contra hc
      simp [hc] at this
    · intro h i k hk
      simp only [List.getElem?_map, Option.map_eq_some_iff] at hk
      obtain ⟨x, hx, rfl⟩ := hk
      have := h x (List.mem_of_getElem? hx)
      simp [hx, ind, this]
  · have e : ∀ j : Nat, (((gccFlows d xs cover).filter (fun f => f.2.1 = j)).map (fun f => ind (f.2.2.holds a))).sum =
        ((cover[j]?).map (fun c => ((ints! a l).count c : Int))).getD 0 := by
      intro j
      have := gcc_sum d xs cover a hd (fun _ p => decide (p = j))
      rw [this]
      simp only [decide_eq_true_eq]
      have : ∀ x : IVar, ((cover.zipIdx).map (fun r => if r.2 = j then ind (x.val a = r.1) else 0)).sum =
          ((cover[j]?).map (fun c => ind (x.val a = c))).getD 0 := fun x => by
        rw [sum_zipIdx_ite cover (fun c => ind (x.val a = c)) j 0]; simp
      simp only [this]
      rw [sum_zipIdx_fst xs (fun x => ((cover[j]?).map (fun c => ind (x.val a = c))).getD 0) 0]
      cases hj : cover[j]? with
      | none => simp only [Option.map_none, Option.getD_none]; induction xs with
        | nil => rfl
        | cons => simp
      | some c => simp only [Option.map_some, Option.getD_some]; rw [sum_ind_count, h2]
    simp only [e]
    constructor
    · intro h j c k hj hk
      have := h j k hk
      simpa [hj] using this
    · intro h j k hk
      have hj : j < cover.length := by rw [← hlen]; exact (List.getElem?_eq_some_iff.mp hk).1
      have := h j cover[j] k (by simp [hj]) hk
      simpa [hj] using this

/-- Values that are not covered are excluded, although `global_cardinality` allows them. -/
theorem _root_.MZ.C89_global_cardinality_fails :
    ∃ ps, post (fun _ _ => true) "global_cardinality" [.arr true [.ivar 0], consts [1], consts [0]] = .ok ps ∧
      ¬ (∀ p ∈ ps, p.holds ⟨fun _ => 2, fun _ => false⟩) := by
  refine ⟨_, rfl, ?_⟩
  intro h
  have := h _ (List.mem_cons_self)
  have := this.1 0 1 rfl
  simp [toInt32, gccFlows, Atom.holds, IVar.val, ind] at this

/-- Constraints that the library declares for the solver and that it does not know. -/
theorem _root_.MZ.C89_unknown_fails (c : Call) :
    post d "all_different_except_0" c = .err ∧ post d "bool_lin_lt_imp" c = .err := ⟨rfl, rfl⟩

end Geas
end MZ
