import Verif.Gecode.Spec
import Mathlib.Tactic.Linarith
import Mathlib.Tactic.SplitIfs
import Mathlib.Tactic.Push

/-!
# C92: comparisons, arithmetic, Boolean constraints
-/

namespace MZ
namespace Gecode

theorem int32_small {c : Int} (h : Small c) : int32 c = c := by
  unfold int32; obtain ⟨h1, h2⟩ := h; omega

theorem Safe.small {c : Int} (h : Safe c) : Small c := by
  unfold Small; obtain ⟨h1, h2⟩ := h; omega

theorem withinBounds_safe {c : Int} (h : Safe c) : withinBounds c = true := by
  unfold withinBounds; exact decide_eq_true h

/-- The variable of an argument. -/
def tm : IArg → Term
  | .var x => .var x
  | .lit c => .const c

@[simp] theorem tm_val (a : Asg) (e : Nat → Int) (x : IArg) : (tm x).val a e = x.val a := by cases x <;> rfl

theorem arg2intvar_eq {x : IArg} (h : x.Safe) : arg2intvar x = tm x := by
  cases x with
  | var => rfl
  | lit c => simp only [arg2intvar, tm]; rw [int32_small (Safe.small h)]

theorem arg2intvar_val {x : IArg} (h : x.Safe) (a : Asg) (e : Nat → Int) : (arg2intvar x).val a e = x.val a := by
  rw [arg2intvar_eq h, tm_val]

@[simp] theorem arg2boolvar_val (a : Asg) (e : Nat → Int) (x : BArg) : (arg2boolvar x).val a e = x.val a := by cases x <;> rfl

@[simp] theorem bconst_val (a : Asg) (e : Nat → Int) (b : Bool) : (BTerm.const b).val a e = b := rfl

@[simp] theorem baux_val (a : Asg) (e : Nat → Int) (k : Nat) : (BTerm.aux k).val a e = (e k == 1) := rfl

theorem arg2intargs_eq {cs : List Int} (h : ∀ c ∈ cs, Small c) (k : Nat) : arg2intargs k cs = List.replicate k 0 ++ cs := by
  unfold arg2intargs
  congr 1
  conv_rhs => rw [← List.map_id cs]
  exact List.map_congr_left (fun c hc => int32_small (h c hc))

theorem sequenceRes_ok {α β : Type} (f : α → Res β) (g : α → β) (xs : List α) (h : ∀ x ∈ xs, f x = .ok (g x)) :
    sequenceRes (xs.map f) = .ok (xs.map g) := by
  induction xs with
  | nil => rfl
  | cons x xs ih =>
    simp only [List.map_cons, sequenceRes, h x List.mem_cons_self, ih (fun y hy => h y (List.mem_cons_of_mem _ hy)), Res.ok_bind]

theorem elemVar_ok {x : IArg} (h : x.Safe) : elemVar x = .ok (tm x) := by
  cases x with
  | var => rfl
  | lit c => simp only [elemVar, withinBounds_safe h, if_true, tm]

theorem arg2intvarargs_ok {xs : List IArg} (h : ∀ x ∈ xs, x.Safe) : arg2intvarargs 0 xs = .ok (xs.map tm) := by
  unfold arg2intvarargs
  split_ifs with h0
  · subst h0; rfl
  · rw [sequenceRes_ok elemVar tm xs (fun x hx => elemVar_ok (h x hx))]; simp

theorem arg2intvarargs_one {xs : List IArg} (h : ∀ x ∈ xs, x.Safe) (h0 : xs ≠ []) :
    arg2intvarargs 1 xs = .ok (.const 0 :: xs.map tm) := by
  unfold arg2intvarargs
  rw [if_neg h0, sequenceRes_ok elemVar tm xs (fun x hx => elemVar_ok (h x hx))]; simp

@[simp] theorem map_tm (a : Asg) (e : Nat → Int) (xs : List IArg) : (xs.map tm).map (Term.val a e) = ints a xs := by
  simp [ints, Function.comp_def]

theorem arg2boolvarargs_zero (xs : List BArg) : arg2boolvarargs 0 xs = xs.map arg2boolvar := by
  unfold arg2boolvarargs; split_ifs with h
  · subst h; rfl
  · simp

@[simp] theorem map_boolvar (a : Asg) (e : Nat → Int) (xs : List BArg) : (xs.map arg2boolvar).map (BTerm.val a e) = bools a xs := by
  simp [bools, Function.comp_def]

@[simp] theorem map_num (a : Asg) (e : Nat → Int) (xs : List BArg) :
    (xs.map arg2boolvar).map (fun x => num (BTerm.val a e x)) = nums a xs := by
  simp [nums, Function.comp_def]

theorem irt_holds (r : Rel) (x y : Int) : (irt r).holds x y ↔ r.holds x y := by cases r <;> simp [irt, IRT.holds, Rel.holds]

theorem swap_holds (r : IRT) (x y : Int) : r.swap.holds x y ↔ r.holds y x := by
  cases r <;> simp [IRT.swap, IRT.holds, eq_comm]

theorem neg_holds (r : IRT) (x y : Int) : r.neg.holds x y ↔ ¬ r.holds x y := by
  cases r <;> simp [IRT.neg, IRT.holds]

theorem reify_holds (m : Mode) (b : BArg) (a : Asg) (e : Nat → Int) (P : Prop) :
    (reify m (arg2boolvar b)).holds a e P ↔ m.holds (b.val a) P := by
  cases m <;> simp [reify, Reif.holds, Mode.holds]

theorem posts_one (c : Post) (P : Asg → Prop) (h : ∀ a e, c.holds a e ↔ P a) : Posts ⟨[], [c]⟩ P := by
  intro a
  simp only [Posted.holds, List.getElem?_nil, reduceCtorEq, false_implies, implies_true, true_and, List.mem_singleton, forall_eq, h,
    exists_const]

theorem posts_two (c d : Post) (P : Asg → Prop) (h : ∀ a e, (c.holds a e ∧ d.holds a e) ↔ P a) : Posts ⟨[], [c, d]⟩ P := by
  intro a
  simp only [Posted.holds, List.getElem?_nil, reduceCtorEq, false_implies, implies_true, true_and, List.mem_cons, List.not_mem_nil, or_false,
    forall_eq_or_imp, forall_eq, h, exists_const]

theorem posts_list (l : List Post) (P : Asg → Prop) (h : ∀ a e, (∀ c ∈ l, c.holds a e) ↔ P a) : Posts ⟨[], l⟩ P := by
  intro a
  simp only [Posted.holds, List.getElem?_nil, reduceCtorEq, false_implies, implies_true, true_and, h, exists_const]

theorem postsIn_of (D : Doms) (p : Posted) (P : Asg → Prop) (h : Posts p P) : PostsIn D (.ok p) P := ⟨p, rfl, fun a _ => h a⟩

theorem int_cmp (r : IRT) (x y : IArg) (re : Reif) (hx : x.Safe) (hy : y.Safe) :
    ∃ c, p_int_cmp r x y re = ⟨[], [c]⟩ ∧ ∀ a e, c.holds a e ↔ re.holds a e (r.holds (x.val a) (y.val a)) := by
  cases x with
  | var x =>
    cases y with
    | var y => exact ⟨_, rfl, fun a e => Iff.rfl⟩
    | lit c => exact ⟨_, rfl, fun a e => by simp only [Post.holds, Term.val, int32_small (Safe.small hy), IArg.val]⟩
  | lit c =>
    refine ⟨_, rfl, fun a e => ?_⟩
    simp only [Post.holds, arg2intvar_val hy, Term.val, int32_small (Safe.small hx), IArg.val, swap_holds]

/-- Comparisons of integers, their reifications and half-reifications. -/
theorem _root_.MZ.C92_int_comparisons (r : Rel) (m : Mode) (x y : IArg) (b : BArg) (hx : x.Safe) (hy : y.Safe) :
    Posts (p_int_rel r m x y b) (fun a => m.holds (b.val a) (r.holds (x.val a) (y.val a))) := by
  have key : ∀ (i : IRT) (re : Reif) (P : Asg → Prop), (∀ a e, re.holds a e (i.holds (x.val a) (y.val a)) ↔ P a) →
      Posts (p_int_cmp i x y re) P := by
    intro i re P h
    obtain ⟨c, h1, h2⟩ := int_cmp i x y re hx hy
    rw [h1]
    exact posts_one c P (fun a e => (h2 a e).trans (h a e))
  cases m with
  | plain => exact key _ _ _ (fun a e => irt_holds r _ _)
  | imp =>
    have : p_int_rel r .imp x y b = p_int_cmp (irt r) x y (reify .imp (arg2boolvar b)) := by cases b <;> rfl
    rw [this]
    exact key _ _ _ (fun a e => by rw [reify_holds, irt_holds])
  | reif =>
    cases b with
    | var v => exact key _ (reify .reif (arg2boolvar (.var v))) _ (fun a e => by rw [reify_holds, irt_holds])
    | lit v =>
      cases v with
      | true => exact key (irt r) none _ (fun a e => by simp [Reif.holds, irt_holds, Mode.holds, BArg.val])
      | false => exact key (irt r).neg none _ (fun a e => by simp [Reif.holds, neg_holds, irt_holds, Mode.holds, BArg.val])

/-! ## Linear constraints -/

/-- The value of an element of the array of a linear constraint. -/
def Elem.val (a : Asg) : Elem → Int
  | .bool b => num (b.val a)
  | .int x _ => x.val a

/-- An integer with a literal that Gecode can represent. -/
def Elem.IsInt : Elem → Prop
  | .bool _ => False
  | .int x _ => x.Safe

theorem isBoolLoop_int (l : List Elem) (h : ∀ x ∈ l, x.IsInt) : isBoolLoop l ≠ none → (l = [] ∨ ∃ k x, l = [x] ∧ isBoolLoop l = some (some k)) := by
  intro hl
  cases l with
  | nil => exact Or.inl rfl
  | cons e es =>
    right
    have he := h e List.mem_cons_self
    rw [isBoolLoop] at hl
    cases hs : isBoolLoop es with
    | none => simp [hs] at hl
    | some s =>
      simp only [hs] at hl
      cases e with
      | bool b => exact absurd he id
      | int x al =>
        cases x with
        | lit c => simp at hl
        | var v =>
          cases al with
          | none => simp at hl
          | some k =>
            have hs0 : s = none := by
              by_contra hc
              simp [hc] at hl
            subst hs0
            have : es = [] := by
              by_contra hne
              have := isBoolLoop_int es (fun x hx => h x (List.mem_cons_of_mem _ hx)) (by rw [hs]; simp)
              rcases this with h1 | ⟨k', x', _, h2⟩
              · exact hne h1
              · rw [hs] at h2; simp at h2
            subst this
            exact ⟨k, _, rfl, by rw [isBoolLoop]; simp [isBoolLoop]⟩

theorem isBoolArray_int (l : List Elem) (h : ∀ x ∈ l, x.IsInt) (h0 : l ≠ []) : isBoolArray l = none := by
  unfold isBoolArray
  rw [if_neg h0]
  cases hb : isBoolLoop l with
  | none => rfl
  | some s =>
    rcases isBoolLoop_int l h (by rw [hb]; simp) with h1 | ⟨k, x, h1, h2⟩
    · exact absurd h1 h0
    · rw [hb] at h2
      obtain rfl := Option.some.inj h2
      simp [h1]

/-- Linear constraints over integers, their reifications and half-reifications. -/
theorem _root_.MZ.C92_int_linear (D : Doms) (r : Rel) (m : Mode) (ks : List Int) (xs : List Elem) (c : Int) (b : BArg)
    (hk : ∀ k ∈ ks, Small k) (hx : ∀ x ∈ xs, x.IsInt) (hc : Small c) :
    PostsIn D (p_int_lin r m ks xs c b) (fun a => m.holds (b.val a) (r.holds (dot ks (xs.map (Elem.val a))) c)) := by
  by_cases h0 : xs = []
  · subst h0
    have : p_int_lin r m ks [] c b = .ok ⟨[], [.linearB ks [] (irt r) (.const c) (reify m (arg2boolvar b))]⟩ := by
      simp [p_int_lin, isBoolArray, sequenceRes, arg2intargs_eq hk, int32_small hc]
    rw [this]
    exact postsIn_of _ _ _ (posts_one _ _ (fun a e => by simp [Post.holds, reify_holds, irt_holds, Term.val]))
  · have hs : sequenceRes (xs.map Elem.intVar) = .ok (xs.map (fun x => match x with | .int y _ => tm y | .bool _ => .const 0)) := by
      refine sequenceRes_ok _ _ xs (fun x hxx => ?_)
      have := hx x hxx
      cases x with
      | bool _ => exact absurd this id
      | int y _ => exact elemVar_ok this
    have : p_int_lin r m ks xs c b = .ok ⟨[], [.linear ks (xs.map (fun x => match x with | .int y _ => tm y | .bool _ => .const 0))
        (irt r) (.const c) (reify m (arg2boolvar b))]⟩ := by
      simp [p_int_lin, isBoolArray_int xs hx h0, hs, arg2intargs_eq hk, int32_small hc]
    rw [this]
    refine postsIn_of _ _ _ (posts_one _ _ (fun a e => ?_))
    have hv : (xs.map (fun x => match x with | .int y _ => tm y | .bool _ => .const 0)).map (Term.val a e) = xs.map (Elem.val a) := by
      rw [List.map_map]
      refine List.map_congr_left (fun x hxx => ?_)
      have := hx x hxx
      cases x with
      | bool _ => exact absurd this id
      | int y _ => simp [Elem.val]
    simp only [Post.holds, reify_holds, irt_holds, Term.val, hv]

/-- Linear constraints over Booleans. -/
theorem _root_.MZ.C92_bool_linear (r : Rel) (m : Mode) (ks : List Int) (xs : List BArg) (c : IArg) (b : BArg)
    (hk : ∀ k ∈ ks, Small k) (hc : c.Safe) :
    Posts (p_bool_lin r m ks xs c b) (fun a => m.holds (b.val a) (r.holds (dot ks (nums a xs)) (c.val a))) := by
  refine posts_one _ _ (fun a e => ?_)
  simp only [Post.holds, reify_holds, irt_holds, arg2intvar_val hc, arg2intargs_eq hk, arg2boolvarargs_zero, map_num]
  simp

/-! ## Arithmetic -/

/-- Arithmetic: sums, differences, products, quotients and remainders rounded towards zero, minima, maxima, absolute values and negation. -/
theorem _root_.MZ.C92_arithmetic (x y z : IArg) (hx : x.Safe) (hy : y.Safe) (hz : z.Safe) :
    Posts (p_int_plus x y z) (fun a => x.val a + y.val a = z.val a) ∧
    Posts (p_int_minus x y z) (fun a => x.val a - y.val a = z.val a) ∧
    Posts (p_int_times x y z) (fun a => x.val a * y.val a = z.val a) ∧
    Posts (p_int_div x y z) (fun a => y.val a ≠ 0 ∧ (x.val a).tdiv (y.val a) = z.val a) ∧
    Posts (p_int_mod x y z) (fun a => y.val a ≠ 0 ∧ (x.val a).tmod (y.val a) = z.val a) ∧
    Posts (p_int_min x y z) (fun a => min (x.val a) (y.val a) = z.val a) ∧
    Posts (p_int_max x y z) (fun a => max (x.val a) (y.val a) = z.val a) ∧
    Posts (p_abs x y) (fun a => |x.val a| = y.val a) ∧
    Posts (p_int_negate x y) (fun a => -(x.val a) = y.val a) := by
  refine ⟨?_, ?_, ?_, ?_, ?_, ?_, ?_, ?_, ?_⟩ <;> refine posts_one _ _ (fun a e => ?_) <;>
    simp only [Post.holds, Reif.holds, IRT.holds, Term.val, arg2intvar_val hx, arg2intvar_val hy, arg2intvar_val hz]
  omega

/-! ## Boolean constraints -/

/-- Comparisons and operators of Booleans. -/
theorem _root_.MZ.C92_bool_operators (r : Rel) (m : Mode) (o : BOT) (x y z : BArg) :
    Posts (p_bool_rel r m x y z) (fun a => m.holds (z.val a) (r.holds (num (x.val a)) (num (y.val a)))) ∧
    Posts (p_bool_op o x y z) (fun a => o.apply (x.val a) (y.val a) = z.val a) ∧
    Posts (p_bool_not x y) (fun a => (!x.val a) = y.val a) := by
  refine ⟨?_, ?_, ?_⟩ <;> refine posts_one _ _ (fun a e => ?_) <;>
    simp only [Post.holds, reify_holds, irt_holds, arg2boolvar_val, bconst_val, baux_val]
  generalize x.val a = u; generalize y.val a = v
  revert u v; decide

/-- Half-reified operators of Booleans. -/
theorem _root_.MZ.C92_bool_implications (x y z : BArg) :
    Posts (p_bool_or_imp x y z) (fun a => z.val a = true → (x.val a = true ∨ y.val a = true)) ∧
    Posts (p_bool_and_imp x y z) (fun a => z.val a = true → (x.val a = true ∧ y.val a = true)) ∧
    Posts (p_bool_xor_imp x y z) (fun a => z.val a = true → (x.val a = true ↔ y.val a ≠ true)) := by
  refine ⟨posts_one _ _ (fun a e => ?_), posts_two _ _ _ (fun a e => ?_), posts_two _ _ _ (fun a e => ?_)⟩ <;>
    simp only [Post.holds, Clause, List.map_cons, List.map_nil, arg2boolvar_val, bconst_val, baux_val, List.mem_cons, List.not_mem_nil, BOT.apply] <;>
    cases x.val a <;> cases y.val a <;> cases z.val a <;> simp

/-- Operators on arrays of Booleans and their half-reifications, and clauses. -/
theorem _root_.MZ.C92_bool_arrays_partial (o : BOT) (xs ps ns : List BArg) (w : Option BArg) (z : BArg) (m : Mode) (hm : m ≠ .imp) :
    Posts (p_array_bool_op o xs w) (fun a => o.applyN (bools a xs) = (match w with | none => true | some b => b.val a)) ∧
    Posts (p_array_bool_and_imp xs z) (fun a => z.val a = true → ∀ v ∈ bools a xs, v = true) ∧
    Posts (p_array_bool_or_imp xs z) (fun a => z.val a = true → ∃ v ∈ bools a xs, v = true) ∧
    Posts (p_array_bool_xor_imp xs z) (fun a => z.val a = true → (bools a xs).count true % 2 = 1) ∧
    Posts (p_array_bool_clause m ps ns z) (fun a => m.holds (z.val a) (true ∈ bools a ps ∨ false ∈ bools a ns)) := by
  refine ⟨posts_one _ _ (fun a e => ?_), posts_list _ _ (fun a e => ?_), posts_one _ _ (fun a e => ?_), fun a => ?_, ?_⟩
  · simp only [Post.holds, arg2boolvarargs_zero, map_boolvar]
    cases w <;> simp [bconst_val]
  · simp only [arg2boolvarargs_zero, List.mem_map, List.mem_reverse, bools]
    constructor
    · rintro h hz v ⟨x, hx, rfl⟩
      have := h _ ⟨_, ⟨x, hx, rfl⟩, rfl⟩
      simpa [Post.holds, BOT.apply, hz, bconst_val, baux_val] using this
    · rintro h c ⟨t, ⟨x, hx, rfl⟩, rfl⟩
      simp only [Post.holds, BOT.apply, arg2boolvar_val, bconst_val, baux_val]
      cases hz : z.val a with
      | false => rfl
      | true => simpa using h hz _ ⟨x, hx, rfl⟩
  · simp only [Post.holds, arg2boolvarargs_zero, map_boolvar, Clause, List.map_cons, List.map_nil, arg2boolvar_val, bconst_val, baux_val,
      List.mem_singleton, iff_true, exists_eq_right]
    cases z.val a <;> simp
  · simp only [Posted.holds, p_array_bool_xor_imp, List.mem_cons, List.not_mem_nil, or_false, forall_eq_or_imp, forall_eq, Post.holds,
      arg2boolvarargs_zero, map_boolvar, bconst_val, baux_val, BOT.apply, BOT.applyN, arg2boolvar_val]
    constructor
    · rintro ⟨e, _, h1, h2⟩ hz
      rw [hz, ← h1] at h2
      simpa using h2
    · intro h
      by_cases hp : (bools a xs).count true % 2 = 1
      · refine ⟨fun _ => 1, ?_, by simp [hp], by simp⟩
        intro k q hq
        cases k with
        | zero => simp at hq; subst hq; decide
        | succ k => simp at hq
      · refine ⟨fun _ => 0, ?_, by simp [hp], ?_⟩
        · intro k q hq
          cases k with
          | zero => simp at hq; subst hq; decide
          | succ k => simp at hq
        · have : z.val a = false := by
            by_contra hc
            exact hp (h (by simpa using hc))
          simp [this]
  · cases m with
    | imp => exact absurd rfl hm
    | plain => exact posts_one _ _ (fun a e => by
        simp only [Post.holds, arg2boolvarargs_zero, Clause, map_boolvar, bconst_val, Mode.holds, iff_true])
    | reif =>
      exact posts_one _ _ (fun a e => by
        simp only [Post.holds, arg2boolvarargs_zero, Clause, map_boolvar, arg2boolvar_val, Mode.holds]; exact iff_comm)

/-- The half-reified clause is posted as a reified one: with the flag false the clause must be false. -/
theorem _root_.MZ.C92_clause_imp_fails :
    ¬ ∀ (ps ns : List BArg) (z : BArg), Posts (p_array_bool_clause .imp ps ns z)
      (fun a => Mode.imp.holds (z.val a) (true ∈ bools a ps ∨ false ∈ bools a ns)) := by
  intro h
  have := (h [.var 0] [] (.var 1) ⟨fun _ => 0, fun k => k == 0⟩).mpr (by simp [Mode.holds, BArg.val])
  obtain ⟨e, _, he⟩ := this
  have := he _ (List.mem_singleton.mpr rfl)
  simp [Post.holds, Clause, arg2boolvarargs_zero, bools, BArg.val] at this

/-- `bool_left_imp` with a variable result is undefined. -/
theorem _root_.MZ.C92_left_imp_fails : ∃ x y z : BArg, p_bool_l_imp x y z = .ub := ⟨.var 0, .var 1, .var 2, rfl⟩

/-- `bool_left_imp` with a fixed result. -/
theorem _root_.MZ.C92_left_imp_partial (D : Doms) (x y : BArg) (b : Bool) :
    PostsIn D (p_bool_l_imp x y (.lit b)) (fun a => (!(y.val a) || x.val a) = b) :=
  postsIn_of _ _ _ (posts_one _ _ (fun a e => by simp [Post.holds, BOT.apply, bconst_val, baux_val]))

/-- Numbers outside 32 bits are cut off: `x ≤ 2³² + 5` is posted as `x ≤ 5`. -/
theorem _root_.MZ.C92_literals_fails :
    ¬ ∀ (x : IArg) (c : Int), Posts (p_int_rel .le .plain x (.lit c) (.lit true)) (fun a => x.val a ≤ c) := by
  intro h
  have := (h (.var 0) 4294967301 ⟨fun _ => 7, fun _ => false⟩).mpr (by decide)
  obtain ⟨e, _, he⟩ := this
  have := he _ (List.mem_singleton.mpr rfl)
  revert this
  simp [Post.holds, Reif.holds, irt, IRT.holds, Term.val, int32]

end Gecode
end MZ
