import Verif.Geas.Bools

namespace MZ
namespace Geas

variable (d : IVar → Int → Bool)

/-! ## Positions -/

/-- The statement that the loops over the positions from `k` on make about the element at the index `i`. -/
def AtIndex {α} (k : Nat) (l : List α) (i : Int) (Q : α → Prop) : Prop :=
  ∀ (j : Nat) (w : α), l[j]? = some w → i = k + j + 1 → Q w

theorem atIndex_cons {α} (k : Nat) (w : α) (l : List α) (i : Int) (Q : α → Prop) :
    AtIndex k (w :: l) i Q ↔ (i = k + 1 → Q w) ∧ AtIndex (k + 1) l i Q := by
  unfold AtIndex
  constructor
  · intro h
    exact ⟨fun e => h 0 w rfl (by push_cast; omega), fun j v hj e => h (j + 1) v (by simpa using hj) (by push_cast at *; omega)⟩
  · rintro ⟨h1, h2⟩ j v hj e
    cases j with
    | zero => simp only [List.getElem?_cons_zero, Option.some.injEq] at hj; subst hj; exact h1 (by push_cast at e; omega)
    | succ j => exact h2 j v (by simpa using hj) (by push_cast at *; omega)

theorem atIndex_nil {α} (k : Nat) (i : Int) (Q : α → Prop) : AtIndex k [] i Q ↔ True := by
  unfold AtIndex; simp

theorem atIndex_eq {α} (l : List α) (i : Int) (v : α) (h : 1 ≤ i ∧ i ≤ l.length) :
    AtIndex 0 l i (fun w => w = v) ↔ IsElement l i v := by
  unfold AtIndex IsElement
  constructor
  · intro g
    have hlt : (i - 1).toNat < l.length := by omega
    refine ⟨(i - 1).toNat, by omega, ?_⟩
    have := g (i - 1).toNat l[(i - 1).toNat] (by simp [hlt]) (by push_cast; omega)
    rw [List.getElem?_eq_getElem hlt, this]
  · rintro ⟨j, h1, h2⟩ j' w h3 h4
    have : j' = j := by push_cast at h4; omega
    subst this
    rw [h2] at h3; exact (Option.some.inj h3).symm

theorem atIndex_map {α β} (f : α → β) (k : Nat) (l : List α) (i : Int) (Q : β → Prop) :
    AtIndex k (l.map f) i Q ↔ AtIndex k l i (fun w => Q (f w)) := by
  induction l generalizing k with
  | nil => simp [atIndex_nil]
  | cons w l ih => simp only [List.map_cons, atIndex_cons, ih]

theorem exclude_holds {α} [DecidableEq α] (x : IVar) (v : α) (a : Asg) (l : List α) (k : Nat) :
    (∀ p ∈ exclude x v k l, p.holds a) ↔ AtIndex k l (x.val a) (fun w => w = v) := by
  induction l generalizing k with
  | nil => simp [exclude, atIndex_nil]
  | cons w l ih =>
    rw [atIndex_cons, ← ih (k + 1)]
    simp only [exclude, List.mem_append, or_imp, forall_and]
    by_cases h : w = v
    · simp [h]
    · simp [h, Post.holds, Atom.holds]

theorem choices_holds (x : IVar) (r : Atom) (a : Asg) (l : List Bool) (k : Nat) :
    (∀ p ∈ choices x r k l, p.holds a) ↔ AtIndex k l (x.val a) (fun w => w = true ↔ r.holds a) := by
  induction l generalizing k with
  | nil => simp [choices, atIndex_nil]
  | cons w l ih =>
    rw [atIndex_cons, ← ih (k + 1)]
    simp only [choices, List.mem_cons, or_imp, forall_and, forall_eq]
    cases w <;> simp [Post.holds, Atom.holds] <;> intro _ <;> tauto

theorem boolChannel_holds (x : IVar) (r : Atom) (a : Asg) (l : List Atom) (k : Nat) :
    (∀ p ∈ boolChannel x r k l, p.holds a) ↔ AtIndex k l (x.val a) (fun w => w.holds a ↔ r.holds a) := by
  induction l generalizing k with
  | nil => simp [boolChannel, atIndex_nil]
  | cons w l ih =>
    rw [atIndex_cons, ← ih (k + 1)]
    simp only [boolChannel, List.mem_cons, or_imp, forall_and, forall_eq]
    simp only [Post.holds, Atom.holds, List.mem_cons, List.not_mem_nil, or_false, exists_eq_or_imp, exists_eq_left]
    tauto

/-- Literals within 32 bits. -/
def SmallLit (e : Arg) : Prop := ∀ c, e = .int c → Small c

theorem intCases_holds (x : IVar) (v : Int) (l : List Arg) (k : Nat) (hl : ∀ e ∈ l, e.IsInt) (hs : ∀ e ∈ l, SmallLit e) :
    ∃ ps, intCases x v k l = .ok ps ∧ ∀ a, (∀ p ∈ ps, p.holds a) ↔ AtIndex k l (x.val a) (fun w => w.int! a = v) := by
  induction l generalizing k with
  | nil => exact ⟨[], rfl, fun a => by simp [atIndex_nil]⟩
  | cons e l ih =>
    obtain ⟨ps, h1, h2⟩ := ih (k + 1) (fun e he => hl e (by simp [he])) (fun e he => hs e (by simp [he]))
    rcases int_cases (hl e (by simp)) with ⟨c, rfl⟩ | ⟨y, rfl⟩
    · have hc := small_toInt32 (hs _ (by simp) c rfl)
      by_cases h : c = v
      · subst h
        refine ⟨ps, by simp [intCases, Arg.isPar, Arg.asInt, hc, h1], fun a => ?_⟩
        rw [atIndex_cons, ← h2 a]; simp [Arg.int!]
      · refine ⟨Post.clause [.ne x (k + 1)] :: ps, by simp [intCases, Arg.isPar, Arg.asInt, hc, h, h1], fun a => ?_⟩
        rw [atIndex_cons, ← h2 a]; simp [Arg.int!, h, Post.holds, Atom.holds]
    · refine ⟨Post.clause [.ne x (k + 1), .eq (.var y) v] :: ps, by simp [intCases, Arg.isPar, Arg.asIntVar, h1], fun a => ?_⟩
      rw [atIndex_cons, ← h2 a]; simp [Arg.int!, Post.holds, Atom.holds, IVar.val]; intro _; tauto

theorem boolCases_holds (x : IVar) (v : Bool) (l : List Arg) (k : Nat) (hl : ∀ e ∈ l, e.IsBool) :
    ∃ ps, boolCases x (if v then 1 else 0) k l = .ok ps ∧
      ∀ a, (∀ p ∈ ps, p.holds a) ↔ AtIndex k l (x.val a) (fun w => w.bool! a = v) := by
  induction l generalizing k with
  | nil => exact ⟨[], rfl, fun a => by simp [atIndex_nil]⟩
  | cons e l ih =>
    obtain ⟨ps, h1, h2⟩ := ih (k + 1) (fun e he => hl e (by simp [he]))
    rcases bool_cases (hl e (by simp)) with ⟨c, rfl⟩ | ⟨y, rfl⟩
    · by_cases h : c = v
      · refine ⟨ps, by simp [boolCases, Arg.isPar, Arg.asBool, h, h1], fun a => ?_⟩
        rw [atIndex_cons, ← h2 a]; simp [Arg.bool!, h]
      · refine ⟨Post.clause [.ne x (k + 1)] :: ps, ?_, fun a => ?_⟩
        · cases c <;> cases v <;> simp at h <;> simp at h1 <;> simp [boolCases, Arg.isPar, Arg.asBool, h1]
        · rw [atIndex_cons, ← h2 a]; simp [Arg.bool!, h, Post.holds, Atom.holds]
    · refine ⟨Post.clause [.ne x (k + 1), if v then .b y else .not (.b y)] :: ps, ?_, fun a => ?_⟩
      · cases v <;> simp at h1 <;> simp [boolCases, Arg.isPar, Arg.asBoolVar, h1]
      · rw [atIndex_cons, ← h2 a]
        cases v <;> simp [Arg.bool!, Post.holds, Atom.holds] <;> intro _ <;> tauto

/-! ## The constraints -/

/-- The index is in the array; it may be a literal only if it is. -/
def IndexOk (i : Arg) (n : Nat) : Prop := ∀ c, i = .int c → 1 ≤ c ∧ c ≤ n

/-- The index has a value in the array. -/
def InRange (i : Arg) (n : Nat) (a : Asg) : Prop := 1 ≤ i.int! a ∧ i.int! a ≤ n

theorem vecAt_ok {α} (l : List α) (c : Int) (h : 1 ≤ c ∧ c ≤ l.length) :
    ∃ v, vecAt l c = .ok v ∧ l[(c - 1).toNat]? = some v ∧ ∀ w, IsElement l c w ↔ w = v := by
  have hlt : (c - 1).toNat < l.length := by omega
  refine ⟨l[(c - 1).toNat], by simp only [vecAt, h.1, if_true, List.getElem?_eq_getElem hlt], by simp [hlt], fun w => ?_⟩
  unfold IsElement
  constructor
  · rintro ⟨j, h1, h2⟩
    have : (c - 1).toNat = j := by omega
    subst this
    rw [List.getElem?_eq_getElem hlt] at h2; exact (Option.some.inj h2).symm
  · rintro rfl; exact ⟨(c - 1).toNat, by omega, by simp [hlt]⟩

theorem small_index {c : Int} {n : Nat} (h : 1 ≤ c ∧ c ≤ n) (hn : n < 2 ^ 31) : toInt32 c = c :=
  small_toInt32 ⟨by omega, by omega⟩

theorem array_int_element_ok (i z : Arg) (vs : List Int) (l : List Arg) (u : Bool) (hl : each Arg.asInt l = .ok vs) (hi : i.IsInt)
    (hz : z.IsInt) (ho : IndexOk i vs.length) (hn : vs.length < 2 ^ 31) (hs : SmallLit z) :
    ∃ ps, p_array_int_element [.one i, .arr u l, .one z] = .ok ps ∧
      ∀ a, InRange i vs.length a → ((∀ p ∈ ps, p.holds a) ↔ IsElement vs (i.int! a) (z.int! a)) := by
  rcases int_cases hi with ⟨c, rfl⟩ | ⟨x, rfl⟩
  · obtain ⟨v, h1, _, h2⟩ := vecAt_ok vs c (ho c rfl)
    obtain ⟨w, hw, hw'⟩ := int_arg hz
    refine ⟨_, by unfold p_array_int_element; read_args [hl, hw, asInt_int, small_index (ho c rfl) hn, h1], fun a _ => ?_⟩
    simp [Post.holds, Atom.holds, hw', Arg.int!, h2]
  · rcases int_cases hz with ⟨c, rfl⟩ | ⟨y, rfl⟩
    · refine ⟨exclude (.var x) c 0 vs, by
        unfold p_array_int_element; read_args [hl, asInt_int, asIntVar_ivar, small_toInt32 (hs c rfl)], fun a h => ?_⟩
      rw [exclude_holds, atIndex_eq]
      · rfl
      · exact h
    · refine ⟨_, by unfold p_array_int_element; read_args [hl, asIntVar_ivar], fun a h => ?_⟩
      simp [Post.holds, Arg.int!, IVar.val]

theorem array_bool_element_ok (i z : Arg) (vs : List Bool) (l : List Arg) (u : Bool) (hl : each Arg.asBool l = .ok vs) (hi : i.IsInt)
    (hz : z.IsBool) (ho : IndexOk i vs.length) (hn : vs.length < 2 ^ 31) :
    ∃ ps, p_array_bool_element [.one i, .arr u l, .one z] = .ok ps ∧
      ∀ a, InRange i vs.length a → ((∀ p ∈ ps, p.holds a) ↔ IsElement vs (i.int! a) (z.bool! a)) := by
  rcases int_cases hi with ⟨c, rfl⟩ | ⟨x, rfl⟩
  · obtain ⟨v, h1, _, h2⟩ := vecAt_ok vs c (ho c rfl)
    obtain ⟨w, hw, hw'⟩ := bool_arg hz
    refine ⟨_, by unfold p_array_bool_element; read_args [hl, hw, asInt_int, small_index (ho c rfl) hn, h1], fun a _ => ?_⟩
    simp only [Arg.int!, h2]
    cases v <;> simp [Post.holds, Atom.holds, postIf, hw']
  · rcases bool_cases hz with ⟨c, rfl⟩ | ⟨y, rfl⟩
    · refine ⟨exclude (.var x) c 0 vs, by
        unfold p_array_bool_element; read_args [hl, asIntVar_ivar], fun a h => ?_⟩
      rw [exclude_holds, atIndex_eq]
      · rfl
      · exact h
    · refine ⟨choices (.var x) (.b y) 0 vs, by unfold p_array_bool_element; read_args [hl, asIntVar_ivar, asBoolVar_bvar], fun a h => ?_⟩
      rw [choices_holds]
      have := atIndex_eq vs (IVar.val a (.var x)) (a.bv y) h
      simp only [Arg.int!, Arg.bool!]
      rw [show a.iv x = IVar.val a (.var x) from rfl, ← this]
      simp only [Atom.holds, Bool.coe_iff_coe]

theorem each_literals {l : List Arg} (hl : ∀ e ∈ l, e.IsInt) (hp : ∀ e ∈ l, e.isPar = true) (hs : ∀ e ∈ l, SmallLit e) :
    ∃ vs, each Arg.asInt l = .ok vs ∧ ∀ a, vs = ints! a l := by
  induction l with
  | nil => exact ⟨[], rfl, fun a => rfl⟩
  | cons e l ih =>
    obtain ⟨xs, h1, h2⟩ := ih (fun e he => hl e (by simp [he])) (fun e he => hp e (by simp [he])) (fun e he => hs e (by simp [he]))
    rcases int_cases (hl e (by simp)) with ⟨c, rfl⟩ | ⟨y, rfl⟩
    · exact ⟨c :: xs, by simp [each, h1, Arg.asInt, small_toInt32 (hs _ (by simp) c rfl)], fun a => by rw [h2 a]; rfl⟩
    · have := hp _ (List.mem_cons_self); simp [Arg.isPar] at this

theorem each_bool_literals {l : List Arg} (hl : ∀ e ∈ l, e.IsBool) (hp : ∀ e ∈ l, e.isPar = true) :
    ∃ vs, each Arg.asBool l = .ok vs ∧ ∀ a, vs = bools! a l := by
  induction l with
  | nil => exact ⟨[], rfl, fun a => rfl⟩
  | cons e l ih =>
    obtain ⟨xs, h1, h2⟩ := ih (fun e he => hl e (by simp [he])) (fun e he => hp e (by simp [he]))
    rcases bool_cases (hl e (by simp)) with ⟨c, rfl⟩ | ⟨y, rfl⟩
    · exact ⟨c :: xs, by simp [each, h1, Arg.asBool], fun a => by rw [h2 a]; rfl⟩
    · have := hp _ (List.mem_cons_self); simp [Arg.isPar] at this

/-- Elements of arrays of constants. -/
theorem _root_.MZ.C89_constant_element_partial (i z r : Arg) (vs : List Int) (bs : List Bool) (hv : ∀ v ∈ vs, Small v) (hi : i.IsInt)
    (hz : z.IsInt) (hs : SmallLit z) (hr : r.IsBool) (ho : IndexOk i vs.length) (ho' : IndexOk i bs.length)
    (hn : vs.length < 2 ^ 31) (hn' : bs.length < 2 ^ 31) :
    PostsIn (InRange i vs.length) d "array_int_element" [.one i, consts vs, .one z]
      (fun a => IsElement vs (i.int! a) (z.int! a)) ∧
    PostsIn (InRange i bs.length) d "array_bool_element" [.one i, .arr false (bs.map Arg.bool), .one r]
      (fun a => IsElement bs (i.int! a) (r.bool! a)) := by
  have hb : each Arg.asBool (bs.map Arg.bool) = .ok bs := by
    clear ho' hn'
    induction bs with
    | nil => rfl
    | cons b bs ih => simp [each, Arg.asBool, ih]
  exact ⟨postsIn_of rfl (array_int_element_ok i z vs _ false (each_consts hv) hi hz ho hn hs),
    postsIn_of rfl (array_bool_element_ok i r bs _ false hb hi hr ho' hn')⟩

/-- Elements of arrays of variables and literals; a literal index must not select a literal unless the result is a literal or the array
has only literals. -/
theorem _root_.MZ.C89_variable_element_partial (i z : Arg) (v : Bool) (l : List Arg) (hl : ∀ e ∈ l, e.IsInt) (ht : Typed v l)
    (hi : i.IsInt) (hz : z.IsInt) (ho : IndexOk i l.length) (hn : l.length < 2 ^ 31) (hs : SmallLit z) (hls : ∀ e ∈ l, SmallLit e)
    (hx : v = true → ∀ c, i = .int c → z.isPar = false → ∀ e, l[(c - 1).toNat]? = some e → e.isPar = false) :
    PostsIn (InRange i l.length) d "array_var_int_element" [.one i, .arr v l, .one z]
      (fun a => IsElement (ints! a l) (i.int! a) (z.int! a)) := by
  refine postsIn_of rfl ?_
  cases v with
  | false =>
    obtain ⟨vs, h1, h2⟩ := each_literals hl (ht rfl) hls
    have hlen : vs.length = l.length := by rw [h2 ⟨fun _ => 0, fun _ => false⟩]; simp [ints!]
    obtain ⟨ps, h3, h4⟩ := array_int_element_ok i z vs l false h1 hi hz (by rw [hlen]; exact ho) (by omega) hs
    exact ⟨ps, by unfold p_array_var_int_element; read_args [Bool.not_false]; exact h3, fun a h => by
      rw [← h2 a]; exact h4 a (by rw [hlen]; exact h)⟩
  | true =>
    rcases int_cases hi with ⟨c, rfl⟩ | ⟨x, rfl⟩
    · obtain ⟨e, h1, h2, h3⟩ := vecAt_ok l c (ho c rfl)
      have hm : e ∈ l := List.mem_of_getElem? h2
      obtain ⟨u, hu, hu'⟩ := int_arg (hl e hm)
      have hel : ∀ a w, IsElement (ints! a l) c w ↔ w = e.int! a := by
        intro a w
        obtain ⟨e', _, g2, g3⟩ := vecAt_ok (ints! a l) c (by simpa [ints!] using ho c rfl)
        rw [g3]
        simp only [ints!, List.getElem?_map, h2, Option.map_some, Option.some.injEq] at g2
        rw [g2]
      rcases int_cases hz with ⟨b, rfl⟩ | ⟨y, rfl⟩
      · refine ⟨_, by
          unfold p_array_var_int_element
          read_args [Bool.not_true, Bool.and_self, asInt_int, small_index (ho c rfl) hn, h1, hu, small_toInt32 (hs b rfl)], fun a _ => ?_⟩
        simp only [Arg.int!, hel]
        simp [Post.holds, Atom.holds, hu']; exact eq_comm
      · have hp := hx rfl c rfl rfl e h2
        rcases int_cases (hl e hm) with ⟨b, rfl⟩ | ⟨b, rfl⟩
        · simp [Arg.isPar] at hp
        refine ⟨_, by
          unfold p_array_var_int_element
          read_args [Bool.not_true, Bool.and_false, asInt_int, small_index (ho c rfl) hn, h1, asIntVar_ivar], fun a _ => ?_⟩
        simp only [Arg.int!, hel]
        simp [Post.holds, Atom.holds, IVar.val, Arg.int!]; exact eq_comm
    · rcases int_cases hz with ⟨b, rfl⟩ | ⟨y, rfl⟩
      · obtain ⟨ps, h1, h2⟩ := intCases_holds (.var x) b l 0 hl hls
        refine ⟨ps, by
          unfold p_array_var_int_element
          read_args [Bool.not_true, Bool.false_and, asInt_int, asIntVar_ivar, small_toInt32 (hs b rfl)]; exact h1, fun a h => ?_⟩
        rw [h2 a, ← atIndex_map (Arg.int! a) 0 l _ (fun w => w = b), ← ints!]
        exact atIndex_eq _ _ _ (by simpa [ints!, InRange, Arg.int!, IVar.val] using h)
      · obtain ⟨xs, h1, h2⟩ := each_ints hl
        refine ⟨_, by
          unfold p_array_var_int_element
          read_args [Bool.not_true, Bool.false_and, asIntVar_ivar, h1], fun a h => ?_⟩
        simp [Post.holds, h2, IVar.val, Arg.int!]

/-- The same for Booleans. -/
theorem _root_.MZ.C89_variable_bool_element_partial (i z : Arg) (v : Bool) (l : List Arg) (hl : ∀ e ∈ l, e.IsBool) (ht : Typed v l)
    (hi : i.IsInt) (hz : z.IsBool) (ho : IndexOk i l.length) (hn : l.length < 2 ^ 31)
    (hx : v = true → ∀ c, i = .int c → z.isPar = false → ∀ e, l[(c - 1).toNat]? = some e → e.isPar = false) :
    PostsIn (InRange i l.length) d "array_var_bool_element" [.one i, .arr v l, .one z]
      (fun a => IsElement (bools! a l) (i.int! a) (z.bool! a)) := by
  refine postsIn_of rfl ?_
  cases v with
  | false =>
    obtain ⟨vs, h1, h2⟩ := each_bool_literals hl (ht rfl)
    have hlen : vs.length = l.length := by rw [h2 ⟨fun _ => 0, fun _ => false⟩]; simp [bools!]
    obtain ⟨ps, h3, h4⟩ := array_bool_element_ok i z vs l false h1 hi hz (by rw [hlen]; exact ho) (by omega)
    exact ⟨ps, by unfold p_array_var_bool_element; read_args [Bool.not_false]; exact h3, fun a h => by
      rw [← h2 a]; exact h4 a (by rw [hlen]; exact h)⟩
  | true =>
    rcases int_cases hi with ⟨c, rfl⟩ | ⟨x, rfl⟩
    · obtain ⟨e, h1, h2, h3⟩ := vecAt_ok l c (ho c rfl)
      have hm : e ∈ l := List.mem_of_getElem? h2
      obtain ⟨u, hu, hu'⟩ := bool_arg (hl e hm)
      have hel : ∀ a w, IsElement (bools! a l) c w ↔ w = e.bool! a := by
        intro a w
        obtain ⟨e', _, g2, g3⟩ := vecAt_ok (bools! a l) c (by simpa [bools!] using ho c rfl)
        rw [g3]
        simp only [bools!, List.getElem?_map, h2, Option.map_some, Option.some.injEq] at g2
        rw [g2]
      rcases bool_cases hz with ⟨b, rfl⟩ | ⟨y, rfl⟩
      · refine ⟨_, by
          unfold p_array_var_bool_element
          read_args [Bool.not_true, Bool.and_self, asInt_int, small_index (ho c rfl) hn, h1, hu], fun a _ => ?_⟩
        simp only [Arg.int!, hel]
        cases b <;> simp [Post.holds, Atom.holds, postIf, hu', Arg.bool!] <;> exact eq_comm
      · have hp := hx rfl c rfl rfl e h2
        rcases bool_cases (hl e hm) with ⟨b, rfl⟩ | ⟨b, rfl⟩
        · simp [Arg.isPar] at hp
        refine ⟨_, by
          unfold p_array_var_bool_element
          read_args [Bool.not_true, Bool.and_false, asInt_int, small_index (ho c rfl) hn, h1, asBoolVar_bvar], fun a _ => ?_⟩
        simp only [Arg.int!, hel]
        simp [Post.holds, Atom.holds, Arg.bool!]
        cases a.bv y <;> cases a.bv b <;> simp
    · rcases bool_cases hz with ⟨b, rfl⟩ | ⟨y, rfl⟩
      · obtain ⟨ps, h1, h2⟩ := boolCases_holds (.var x) b l 0 hl
        refine ⟨ps, by
          unfold p_array_var_bool_element
          read_args [Bool.not_true, Bool.false_and, asInt_bool, asIntVar_ivar]; exact h1, fun a h => ?_⟩
        rw [h2 a, ← atIndex_map (Arg.bool! a) 0 l _ (fun w => w = b), ← bools!]
        exact atIndex_eq _ _ _ (by simpa [bools!, InRange, Arg.int!, IVar.val] using h)
      · obtain ⟨xs, h1, h2⟩ := each_bools hl
        refine ⟨boolChannel (.var x) (.b y) 0 xs, by
          unfold p_array_var_bool_element
          read_args [Bool.not_true, Bool.false_and, asIntVar_ivar, asBoolVar_bvar, h1], fun a h => ?_⟩
        rw [boolChannel_holds]
        have := atIndex_eq (bools! a l) (a.iv x) (a.bv y) (by simpa [bools!, InRange, Arg.int!] using h)
        simp only [Arg.int!, Arg.bool!]
        rw [← this, bools!, atIndex_map]
        have g := h2 a
        clear h h1 h2 this hx hn ho ht hl
        simp only [IVar.val, Atom.holds]
        generalize (0 : Nat) = k
        induction g generalizing k with
        | nil => simp [atIndex_nil]
        | cons g1 _ ih =>
          rw [atIndex_cons, atIndex_cons]
          exact and_congr (by simp only [g1, Bool.coe_iff_coe]) (ih _)

/-- Elements of variable arrays at a variable index, with a variable result: the index is in the array. -/
theorem _root_.MZ.C89_element_in_range (x y : Nat) (l : List Arg) (vs : List Int) (hl : ∀ e ∈ l, e.IsInt) (hv : ∀ v ∈ vs, Small v) :
    Posts d "array_var_int_element" [.one (.ivar x), .arr true l, .one (.ivar y)]
      (fun a => IsElement (ints! a l) (a.iv x) (a.iv y)) ∧
    Posts d "array_int_element" [.one (.ivar x), consts vs, .one (.ivar y)] (fun a => IsElement vs (a.iv x) (a.iv y)) := by
  obtain ⟨xs, h1, h2⟩ := each_ints hl
  refine ⟨posts_of rfl ⟨_, by
      unfold p_array_var_int_element
      read_args [Bool.not_true, Bool.false_and, asIntVar_ivar, h1], fun a => ?_⟩,
    posts_of rfl ⟨_, by unfold p_array_int_element consts; read_args [each_consts hv, asIntVar_ivar], fun a => ?_⟩⟩
  · simp [Post.holds, h2, IVar.val]
  · simp [Post.holds, IVar.val]

/-- If the result is known, or Boolean, the index need not be in the array. -/
theorem _root_.MZ.C89_element_index_fails :
    (∃ ps, post d "array_int_element" [.one (.ivar 0), consts [3], .one (.int 4)] = .ok ps ∧
      ∃ a : Asg, a.iv 0 = 7 ∧ ∀ p ∈ ps, p.holds a) ∧
    (∃ ps, post d "array_var_int_element" [.one (.ivar 0), .arr true [.ivar 1], .one (.int 4)] = .ok ps ∧
      ∃ a : Asg, a.iv 0 = 7 ∧ ∀ p ∈ ps, p.holds a) ∧
    (∃ ps, post d "array_var_bool_element" [.one (.ivar 0), .arr true [.bvar 1], .one (.bvar 2)] = .ok ps ∧
      ∃ a : Asg, a.iv 0 = 7 ∧ ∀ p ∈ ps, p.holds a) := by
  refine ⟨⟨_, rfl, ⟨fun _ => 7, fun _ => false⟩, rfl, ?_⟩, ⟨_, rfl, ⟨fun _ => 7, fun _ => false⟩, rfl, ?_⟩,
    ⟨_, rfl, ⟨fun _ => 7, fun _ => false⟩, rfl, ?_⟩⟩
  · simp [exclude, toInt32, Post.holds, Atom.holds, IVar.val]
  · simp [Post.holds, Atom.holds, IVar.val]
  · simp [boolChannel, Post.holds, Atom.holds, IVar.val]

/-- A literal selected by a literal index in an array with variables is refused. -/
theorem _root_.MZ.C89_element_literal_fails :
    post d "array_var_int_element" [.one (.int 1), .arr true [.int 5, .ivar 0], .one (.ivar 1)] = .err ∧
    post d "array_var_bool_element" [.one (.int 1), .arr true [.bool true, .bvar 0], .one (.bvar 1)] = .err := ⟨rfl, rfl⟩

end Geas
end MZ
