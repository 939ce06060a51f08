import Verif.Enums.Text
import Verif.Enums.Eval
import Verif.Syntax.Roundtrip

/-!
# Enumerated types (C87)

Declarations of enumerated types mean what they list: the values are the integers from 1 to the number of
values, in the order of the declaration; identifiers and constructors denote the values they are written
for; constructors have inverses; every value is printed as the expression that denotes it.
-/

namespace MZ
namespace Enums

/-! ## Parts -/

theorem collectLoop_parts {A} : ∀ (n : Nat) (stack : List (Rhs A)) (parts : List (List Str ⊕ A)),
    (stack.map Rhs.size).sum ≤ n → collectLoop n stack parts = parts ++ stack.flatMap Rhs.parts
  | 0, [], parts, _ => by simp [collectLoop]
  | 0, e :: stack, parts, h => by cases e <;> simp [Rhs.size] at h
  | n + 1, [], parts, _ => by simp [collectLoop]
  | n + 1, e :: stack, parts, h => by
    cases e with
    | append l r =>
      rw [collectLoop, collectLoop_parts n _ _ (by simp [Rhs.size] at h ⊢; omega)]
      simp [Rhs.parts]
    | set names =>
      rw [collectLoop, collectLoop_parts n _ _ (by simp [Rhs.size] at h ⊢; omega)]
      simp [Rhs.parts]
    | arr names =>
      rw [collectLoop, collectLoop_parts n _ _ (by simp [Rhs.size] at h ⊢; omega)]
      simp [Rhs.parts]
    | constructors ps =>
      rw [collectLoop, collectLoop_parts n _ _ (by simp [Rhs.size] at h ⊢; omega)]
      simp [Rhs.parts]
    | call c =>
      rw [collectLoop, collectLoop_parts n _ _ (by simp [Rhs.size] at h ⊢; omega)]
      simp [Rhs.parts]

/-- C87: the parts of a declaration are found from left to right, however the concatenations are nested. -/
theorem _root_.MZ.C87_parts_in_order {A} (e : Rhs A) : collect e = e.parts := by
  rw [collect, collectLoop_parts _ _ _ (by simp)]
  simp

example : collect (.append (.append (.set ["A".toList]) (.call 1)) (.append (.arr ["B".toList]) (.call 2))) =
    [.inl ["A".toList], .inr 1, .inl ["B".toList], .inr 2] := by decide +kernel

/-! ## The set of values -/

/-- C87: well-formed declarations are accepted. -/
theorem _root_.MZ.C87_accepted {ds : List Decl} (h : Ok ds) : ∃ es, buildAll [] ds = some es :=
  let ⟨es, h1, _⟩ := buildAll_rel h
  ⟨es, h1⟩

theorem vals_row {ds : List Decl} (h : Ok ds) {es} (hb : buildAll [] ds = some es) {k : Nat} {v : List Val}
    (hv : (vals ds)[k]? = some v) : ∃ e, es[k]? = some e ∧ e.card = v.length := by
  have hR := rel_of_build h hb
  have hk : k < ds.length := by rw [← hR.len_vs]; exact (List.getElem?_eq_some_iff.1 hv).1
  obtain ⟨e, r1, r2, r3, r4, -⟩ := hR.row k _ (List.getElem?_eq_getElem hk)
  rw [hv] at r3
  cases r3
  exact ⟨e, r1, r4⟩

/-- C87: there is one enumerated type for every declaration, and its values are the integers from 1 to the number of
values that the declaration lists. -/
theorem _root_.MZ.C87_one_to_n {ds : List Decl} (h : Ok ds) {es} (hb : buildAll [] ds = some es) :
    es.length = ds.length ∧ (vals ds).length = ds.length ∧
    ∀ (k : Nat) (v : List Val), (vals ds)[k]? = some v →
      ∃ e, es[k]? = some e ∧ ∀ i, i ∈ e.set ↔ 1 ≤ i ∧ i ≤ (v.length : Int) := by
  have hR := rel_of_build h hb
  refine ⟨hR.len_es, hR.len_vs, ?_⟩
  intro k v hv
  obtain ⟨e, h1, h2⟩ := vals_row h hb hv
  exact ⟨e, h1, fun i => by rw [Enum.set, mem_upTo, h2]⟩

/-! ## Expressions denote values -/

/-- C87: the expression of the value at position `i` (an identifier, a constructor applied to the expression of its
argument, or `to_enum`) evaluates to `i`. -/
theorem _root_.MZ.C87_expression_value {ds : List Decl} (h : Ok ds) (hD : Distinct ds) {es} (hb : buildAll [] ds = some es)
    {k : Nat} {v : List Val} (hv : (vals ds)[k]? = some v) {i : Nat} {x : Val} (hx : v[i]? = some x) :
    evalVal es x = some (some k, (i : Int) + 1) :=
  eval_ok (rel_of_build h hb) hD (k + 1) k v (by omega) hv i x hx

/-- C87: every integer of an enumerated type is the value of exactly one of the listed expressions. -/
theorem _root_.MZ.C87_one_expression {ds : List Decl} (h : Ok ds) (hD : Distinct ds) {es} (hb : buildAll [] ds = some es)
    {k : Nat} {e : Enum} (he : es[k]? = some e) {i : Int} (hi : i ∈ e.set) :
    ∃! x, x ∈ (vals ds).getD k [] ∧ evalVal es x = some (some k, i) := by
  have hR := rel_of_build h hb
  have hk : k < (vals ds).length := by
    rw [hR.len_vs, ← hR.len_es]
    exact (List.getElem?_eq_some_iff.1 he).1
  have hv : (vals ds)[k]? = some (vals ds)[k] := List.getElem?_eq_getElem hk
  obtain ⟨e', h1, h2⟩ := vals_row h hb hv
  rw [he] at h1
  cases h1
  rw [Enum.set, mem_upTo, h2] at hi
  rw [getD_of_some hv]
  have hl : (i - 1).toNat < (vals ds)[k].length := by omega
  have hx := List.getElem?_eq_getElem hl
  refine ⟨_, ⟨List.getElem_mem hl, ?_⟩, ?_⟩
  · rw [C87_expression_value h hD hb hv hx]
    congr 2
    omega
  · rintro y ⟨hy, hy2⟩
    obtain ⟨j, hj⟩ := List.mem_iff_getElem?.1 hy
    rw [C87_expression_value h hD hb hv hj] at hy2
    simp only [Option.some.injEq, Prod.mk.injEq, true_and] at hy2
    have : j = (i - 1).toNat := by omega
    subst this
    rw [hx] at hj
    exact (Option.some.inj hj).symm

/-- C87: no value is listed twice, in one type or in two. -/
theorem _root_.MZ.C87_values_differ {ds : List Decl} (h : Ok ds) (hD : Distinct ds) {k k' i i' : Nat} {v v' : List Val} {x : Val}
    (hv : (vals ds)[k]? = some v) (hv' : (vals ds)[k']? = some v') (hx : v[i]? = some x) (hx' : v'[i']? = some x) :
    k = k' ∧ i = i' := by
  obtain ⟨es, hb⟩ := C87_accepted h
  have h1 := C87_expression_value h hD hb hv hx
  rw [C87_expression_value h hD hb hv' hx'] at h1
  simp only [Option.some.injEq, Prod.mk.injEq] at h1
  exact ⟨h1.1.symm, by omega⟩

/-! ## Constructors -/

/-- The elements of the argument of a constructor, by the specification (no code in `/repo`): all values of the type, or the
elements of the set. -/
def Arg.Mem (vs : List (List Val)) (x : Int) : Arg → Prop
  | .enum k => 1 ≤ x ∧ x ≤ (vs.getD k []).length
  | .ints s => x ∈ s
  | .sub _ s => x ∈ s

theorem resolve_mem {ds es vs} (hR : EnvRel ds es vs) {a : Arg} {s ty t} (h : resolve es a = some (s, ty, t)) (x : Int) :
    x ∈ s ↔ a.Mem vs x := by
  cases a with
  | ints s' =>
    simp only [resolve, Option.some.injEq, Prod.mk.injEq] at h
    rw [← h.1]
    rfl
  | sub k s' =>
    simp only [resolve, Option.bind_eq_bind, Option.bind_eq_some_iff, Option.some.injEq, Prod.mk.injEq] at h
    obtain ⟨e, -, h1, -⟩ := h
    rw [← h1]
    rfl
  | enum k =>
    simp only [resolve, Option.bind_eq_bind, Option.bind_eq_some_iff, Option.some.injEq, Prod.mk.injEq] at h
    obtain ⟨e, he, h1, -⟩ := h
    have hk : k < ds.length := by rw [← hR.len_es]; exact (List.getElem?_eq_some_iff.1 he).1
    obtain ⟨e', r1, r2, r3, r4, -⟩ := hR.row k _ (List.getElem?_eq_getElem hk)
    rw [he] at r1
    cases r1
    rw [← h1, Enum.set, mem_upTo, r4]
    simp only [Arg.Mem, getD_of_some r3]

/-- The constructor `c` of the type `k` and the values of that type: the generated function `c` that a call refers to,
`lib/typecheck.cpp:498-576`. -/
def constructorOf (es : List Enum) (k : Nat) (c : Str) : Option (List Int × Cons) := do
  let e ← es[k]?
  let f ← findCons c e.gens
  some (e.set, f)

theorem cons_row {ds : List Decl} (h : Ok ds) (hD : Distinct ds) {es} (hb : buildAll [] ds = some es) {k : Nat} {d : Decl}
    (hd : ds[k]? = some d) {c : Str} {a : Arg} (hp : Part.cons c a ∈ d.parts) :
    ∃ X f off, constructorOf es k c = some (X, f) ∧ f.At off ∧ (∀ x, x ∈ f.elems ↔ a.Mem (vals ds) x) ∧
      ∀ i, i < f.elems.length → ((off + i + 1 : Nat) : Int) ∈ X := by
  have hR := rel_of_build h hb
  obtain ⟨e, r1, r2, r3, r4, r5, r6, r7⟩ := hR.row k d hd
  have nd : (d.parts.flatMap Part.conss).Nodup :=
    (List.nodup_flatMap.1 hD.2.1).1 _ (List.mem_of_getElem? hd)
  obtain ⟨f, off, f1, f2, f3, f4, f5, f6⟩ := findCons_part r6 nd hp
  refine ⟨e.set, f, off, by simp [constructorOf, r1, f1], f3, resolve_mem hR f4, ?_⟩
  intro i hi
  obtain ⟨s, ty, t, q1, q2, q3⟩ := resolve_ok hR (r7 _ hp).2 d.name off c
  rw [f4] at q1
  simp only [Option.some.injEq, Prod.mk.injEq] at q1
  rw [← q1.1] at q3
  have hi' : i < (partVals (vals ds) d.name off (.cons c a)).length := by omega
  have := f6 i _ (List.getElem?_eq_getElem hi')
  have hlt := (List.getElem?_eq_some_iff.1 this).1
  rw [Enum.set, mem_upTo, r4]
  simp only [declVals] at hlt ⊢
  omega

/-- C87: a constructor is defined exactly on the elements of its argument, its values are values of its type, it keeps
the order, and its inverse is exactly its inverse: defined for the values of the constructor and for no others. -/
theorem _root_.MZ.C87_constructor {ds : List Decl} (h : Ok ds) (hD : Distinct ds) {es} (hb : buildAll [] ds = some es)
    {k : Nat} {d : Decl} (hd : ds[k]? = some d) {c : Str} {a : Arg} (hp : Part.cons c a ∈ d.parts) :
    ∃ X f, constructorOf es k c = some (X, f) ∧
      (∀ x, (∃ v, f.apply X x = some v) ↔ a.Mem (vals ds) x) ∧
      (∀ x v, f.apply X x = some v → v ∈ X) ∧
      (∀ x y v w, f.apply X x = some v → f.apply X y = some w → (x < y ↔ v < w)) ∧
      (∀ x v, f.apply X x = some v ↔ f.inverse X v = some x) := by
  obtain ⟨X, f, off, h1, h2, h3, h4⟩ := cons_row h hD hb hd hp
  have ap : ∀ x v, f.apply X x = some v ↔ ∃ i : Nat, f.elems[i]? = some x ∧ v = ((off + i + 1 : Nat) : Int) := by
    intro x v
    constructor
    · intro hv
      by_cases hx : x ∈ f.elems
      · obtain ⟨i, hi⟩ := List.mem_iff_getElem?.1 hx
        rw [apply_get h2 X hi] at hv
        exact ⟨i, hi, (toEnum_some.1 hv).2⟩
      · rw [apply_none X hx] at hv
        cases hv
    · rintro ⟨i, hi, rfl⟩
      rw [apply_get h2 X hi, toEnum_mem (h4 i (List.getElem?_eq_some_iff.1 hi).1)]
  refine ⟨X, f, h1, ?_, ?_, ?_, ?_⟩
  · intro x
    rw [← h3]
    constructor
    · rintro ⟨v, hv⟩
      obtain ⟨i, hi, -⟩ := (ap x v).1 hv
      exact List.mem_of_getElem? hi
    · intro hx
      obtain ⟨i, hi⟩ := List.mem_iff_getElem?.1 hx
      exact ⟨_, (ap x _).2 ⟨i, hi, rfl⟩⟩
  · intro x v hv
    obtain ⟨i, hi, rfl⟩ := (ap x v).1 hv
    exact h4 i (List.getElem?_eq_some_iff.1 hi).1
  · intro x y v w hv hw
    obtain ⟨i, hi, rfl⟩ := (ap x v).1 hv
    obtain ⟨j, hj, rfl⟩ := (ap y w).1 hw
    have g1 : i ≤ j → x + ((j : Int) - i) ≤ y := fun e => isSet_gap h2.set e hi hj
    have g2 : j ≤ i → y + ((i : Int) - j) ≤ x := fun e => isSet_gap h2.set e hj hi
    constructor
    · intro hlt
      by_contra hc
      have := g2 (by omega)
      omega
    · intro hlt
      have := g1 (by omega)
      omega
  · intro x v
    rw [ap]
    constructor
    · rintro ⟨i, hi, rfl⟩
      exact inverse_get h2 hi (h4 i (List.getElem?_eq_some_iff.1 hi).1)
    · intro hv
      exact (inverse_some h2 hv).2

theorem mapM_some {α β} {f : α → Option β} {g : α → β} : ∀ {l : List α}, (∀ x ∈ l, f x = some (g x)) →
    l.mapM f = some (l.map g)
  | [], _ => rfl
  | a :: l, h => by
    rw [List.mapM_cons, h a List.mem_cons_self, mapM_some (fun x hx => h x (List.mem_cons_of_mem _ hx))]
    rfl

theorem mapM_forall₂ {f : Int → Option Int} : ∀ {l r : List Int},
    l.mapM f = some r ↔ List.Forall₂ (fun x v => f x = some v) l r
  | [], r => by
    rw [List.mapM_nil, List.forall₂_nil_left_iff]
    simp [eq_comm]
  | a :: l, r => by
    rw [List.mapM_cons]
    simp only [Option.bind_eq_bind, Option.bind_eq_some_iff, Option.pure_def, Option.some.injEq, List.forall₂_cons_left_iff,
      mapM_forall₂]
    constructor
    · rintro ⟨b, hb, r', hr', rfl⟩
      exact ⟨b, r', hb, hr', rfl⟩
    · rintro ⟨b, r', hb, hr', rfl⟩
      exact ⟨b, hb, r', hr', rfl⟩

theorem mapM_inv {f g : Int → Option Int} (h : ∀ x v, f x = some v → g v = some x) : ∀ {l r : List Int},
    l.mapM f = some r → r.mapM g = some l
  | [], r, hr => by
    rw [List.mapM_nil] at hr
    cases hr
    rfl
  | a :: l, r, hr => by
    rw [List.mapM_cons] at hr
    simp only [Option.bind_eq_bind, Option.bind_eq_some_iff, Option.pure_def, Option.some.injEq] at hr
    obtain ⟨b, hb, r', hr', rfl⟩ := hr
    rw [List.mapM_cons, h a b hb, mapM_inv h hr']
    rfl

/-- C87: on absent values, sets and arrays, constructors and their inverses work element by element and undo each other;
the absent value stays absent and the index sets of an array stay the same. -/
theorem _root_.MZ.C87_constructor_lifted {ds : List Decl} (h : Ok ds) (hD : Distinct ds) {es} (hb : buildAll [] ds = some es)
    {k : Nat} {d : Decl} (hd : ds[k]? = some d) {c : Str} {a : Arg} (hp : Part.cons c a ∈ d.parts) :
    ∃ X f, constructorOf es k c = some (X, f) ∧
      liftOpt (f.apply X) none = some none ∧ liftOpt (f.inverse X) none = some none ∧
      (∀ x v, liftOpt (f.apply X) x = some v ↔ liftOpt (f.inverse X) v = some x) ∧
      (∀ s r, liftSet (f.apply X) s = some r ↔ liftSet (f.inverse X) r = some s) ∧
      (∀ (I : Type) (s r : I × List Int), liftArr (f.apply X) s = some r ↔ liftArr (f.inverse X) r = some s) ∧
      (∀ s r, liftSet (f.apply X) s = some r → ∀ v, v ∈ r ↔ ∃ x ∈ s, f.apply X x = some v) ∧
      (∀ x v, liftOpt (f.apply X) (some x) = some (some v) ↔ f.apply X x = some v) ∧
      (∀ (I : Type) (s r : I × List Int), liftArr (f.apply X) s = some r ↔
        s.1 = r.1 ∧ List.Forall₂ (fun x v => f.apply X x = some v) s.2 r.2) ∧
      (∀ s, (∃ r, liftSet (f.apply X) s = some r) ↔ ∀ x ∈ s, a.Mem (vals ds) x) := by
  obtain ⟨X, f, h1, h2, -, -, h5⟩ := C87_constructor h hD hb hd hp
  refine ⟨X, f, h1, rfl, rfl, ?_, ?_, ?_, ?_, fun x v => by simp [liftOpt], ?_, ?_⟩
  rotate_left 4
  · rintro I ⟨i, s⟩ ⟨j, r⟩
    simp only [liftArr, Option.map_eq_some_iff, Prod.mk.injEq]
    constructor
    · rintro ⟨r', e1, rfl, rfl⟩
      exact ⟨rfl, mapM_forall₂.1 e1⟩
    · rintro ⟨rfl, e⟩
      exact ⟨r, mapM_forall₂.2 e, rfl, rfl⟩
  · intro s
    unfold liftSet
    constructor
    · rintro ⟨r, hr⟩ x hx
      obtain ⟨j, hj, rfl⟩ := List.getElem_of_mem hx
      have e := mapM_forall₂.1 hr
      exact (h2 _).1 ⟨_, (List.forall₂_iff_get.1 e).2 j hj ((List.forall₂_iff_get.1 e).1 ▸ hj)⟩
    · intro hs
      have : ∀ x ∈ s, f.apply X x = some ((f.apply X x).getD 0) := by
        intro x hx
        obtain ⟨v, hv⟩ := (h2 x).2 (hs x hx)
        rw [hv]
        rfl
      exact ⟨_, mapM_some this⟩
  · intro x v
    cases x with
    | none =>
      cases v with
      | none => simp [liftOpt]
      | some v => simp [liftOpt]
    | some x =>
      cases v with
      | none => simp [liftOpt]
      | some v => simpa [liftOpt] using h5 x v
  · intro s r
    exact ⟨mapM_inv (fun x v => (h5 x v).1), mapM_inv (fun x v => (h5 v x).2)⟩
  · rintro I ⟨i, s⟩ ⟨j, r⟩
    simp only [liftArr, Option.map_eq_some_iff, Prod.mk.injEq]
    constructor
    · rintro ⟨r', e1, rfl, rfl⟩
      exact ⟨s, mapM_inv (fun x v => (h5 x v).1) e1, rfl, rfl⟩
    · rintro ⟨r', e1, rfl, rfl⟩
      exact ⟨r, mapM_inv (fun x v => (h5 v x).2) e1, rfl, rfl⟩
  · intro s
    unfold liftSet
    induction s with
    | nil =>
      intro r hr
      rw [List.mapM_nil] at hr
      cases hr
      simp
    | cons x s ih =>
      intro r hr v
      rw [List.mapM_cons] at hr
      simp only [Option.bind_eq_bind, Option.bind_eq_some_iff, Option.pure_def, Option.some.injEq] at hr
      obtain ⟨b, hb', r', hr', rfl⟩ := hr
      rw [List.mem_cons, ih r' hr' v]
      constructor
      · rintro (rfl | ⟨y, hy, e⟩)
        · exact ⟨x, List.mem_cons_self, hb'⟩
        · exact ⟨y, List.mem_cons_of_mem _ hy, e⟩
      · rintro ⟨y, hy, e⟩
        rcases List.mem_cons.1 hy with rfl | hy
        · rw [hb'] at e
          exact Or.inl (Option.some.inj e).symm
        · exact Or.inr ⟨y, hy, e⟩

/-! ## Printing -/

/-- C87: the value at position `i` is printed as the declaration writes it: in the form of `show`, of data files and
of JSON.

Proved if only the last part of a declaration is an empty list of identifiers (`C87_empty_part_fails`); for data files and
JSON, if no constructor has a set of some of the members of an enumerated type as its argument (`C87_subset_json_fails`); and for
data files, if the name of a type with anonymous values needs no quotes (`C87_quoted_name_fails`). -/
theorem _root_.MZ.C87_text_partial {ds : List Decl} (h : Ok ds) {m : Mode} (hg : ∀ d ∈ ds, NoGap d) (hp : ∀ d ∈ ds, d.Prints m)
    {es} (hb : buildAll [] ds = some es) {k : Nat} {v : List Val} (hv : (vals ds)[k]? = some v) {i : Nat} {x : Val}
    (hx : v[i]? = some x) :
    ∃ e, es[k]? = some e ∧ e.text m.b m.j (some ((i : Int) + 1)) = some (x.text m) := by
  obtain ⟨e, h1, h2⟩ := vals_row h hb hv
  exact ⟨e, h1, text_ok (rel_of_build h hb) hg hp (k + 1) k e v (by omega) h1 hv i x hx⟩

/-- C87: an absent value is printed as `<>`, or as `null` in JSON. -/
theorem _root_.MZ.C87_absent_text_partial {ds : List Decl} (h : Ok ds) (m : Mode) (hg : ∀ d ∈ ds, NoGap d)
    {es} (hb : buildAll [] ds = some es) {k : Nat} {e : Enum} (he : es[k]? = some e) :
    e.text m.b m.j none = some (if m = .json then "null".toList else "<>".toList) := by
  have hR := rel_of_build h hb
  have hk : k < ds.length := by rw [← hR.len_es]; exact (List.getElem?_eq_some_iff.1 he).1
  obtain ⟨e', r1, r2, r3, r4, r5, r6, r7⟩ := hR.row k _ (List.getElem?_eq_getElem hk)
  rw [he] at r1
  cases r1
  have hlen := laid_length r6
  have hel := ext_length (vs := vals ds) (X := ds[k].name) (off := 0) (show NoGapL ds[k].parts from hg _ (List.getElem_mem hk))
  rw [← r5] at hel
  have ha : absentText m.j = if m = .json then "null".toList else "<>".toList := by cases m <;> rfl
  have hone : ∀ g : Gen, g.text e.name e.card m.b m.j none = some (absentText m.j) := by
    intro g
    cases g <;> simp only [Gen.text] <;> rfl
  rw [← ha]
  unfold Enum.text
  generalize hgs : e.gens = gs at hlen
  match gs, hlen with
  | [], hlen => rfl
  | [g], _ => exact hone g
  | g :: g' :: gs, hlen =>
    simp only [List.map_cons]
    rw [if_pos]
    simp only [List.length_cons, List.length_map] at hlen ⊢
    omega

theorem anon_print (f g : List Char) (h : Lex.quoteId f ++ "(".toList = g) (X : Str) (i : Int) :
    g ++ Lex.quoteId X ++ ",".toList ++ Syn.intText i ++ ")".toList =
      Syn.print (.call f (.cons (.ref X) (.cons (.int i) .nil))) := by
  subst h
  simp [Syn.print, Syn.printArgs]

theorem app_print (f t : List Char) (e : Syn.E) (h : t = Syn.print e) :
    Lex.quoteId f ++ "(".toList ++ t ++ ")".toList = Syn.print (.call f (.cons e .nil)) := by
  subst h
  simp [Syn.print, Syn.printArgs]

/-- The text of a value in a data file is the printed expression. -/
theorem dzn_print (x : Val) : x.dzn = Syn.print x.expr := by
  induction x with
  | int i => rfl
  | id n => rfl
  | anon X i => exact anon_print _ _ (by decide +kernel) X i
  | app c v ih => exact app_print _ _ _ ih

theorem expr_sorted (Γ : List Char → Syn.Srt) : ∀ x : Val, ∃ s, Syn.Sorted Γ x.expr s
  | .int i => ⟨.num, by simp [Val.expr, Syn.Sorted]⟩
  | .id n => ⟨Γ n, by simp [Val.expr, Syn.Sorted, Syn.Fits]⟩
  | .anon X i => ⟨Γ "to_enum".toList, by
      simp only [Val.expr, Syn.Sorted, Syn.SortedL, and_true]
      exact ⟨Or.inl rfl, ⟨Γ X, Or.inl rfl⟩, ⟨.num, rfl⟩⟩⟩
  | .app c v => ⟨Γ c, by
      simp only [Val.expr, Syn.Sorted, Syn.SortedL, and_true]
      exact ⟨Or.inl rfl, expr_sorted Γ v⟩⟩

theorem expr_canonical : ∀ x : Val, Syn.Canonical x.expr
  | .int i => by simp [Val.expr, Syn.Canonical]
  | .id n => by simp [Val.expr, Syn.Canonical]
  | .anon X i => by simp [Val.expr, Syn.Canonical, Syn.CanonicalL]
  | .app c v => by simp [Val.expr, Syn.Canonical, Syn.CanonicalL, expr_canonical v]

theorem expr_inj : ∀ {x y : Val}, x.expr = y.expr → x = y
  | .int _, .int _, h => by simpa [Val.expr] using h
  | .id _, .id _, h => by simpa [Val.expr] using h
  | .anon _ _, .anon _ _, h => by simpa [Val.expr] using h
  | .app _ v, .app _ w, h => by
    simp only [Val.expr, Syn.E.call.injEq, Syn.Es.cons.injEq, and_true] at h
    rw [h.1, expr_inj h.2]
  | .int _, .id _, h => by simp [Val.expr] at h
  | .int _, .anon _ _, h => by simp [Val.expr] at h
  | .int _, .app _ _, h => by simp [Val.expr] at h
  | .id _, .int _, h => by simp [Val.expr] at h
  | .id _, .anon _ _, h => by simp [Val.expr] at h
  | .id _, .app _ _, h => by simp [Val.expr] at h
  | .anon _ _, .int _, h => by simp [Val.expr] at h
  | .anon _ _, .id _, h => by simp [Val.expr] at h
  | .anon _ _, .app _ _, h => by simp [Val.expr] at h
  | .app _ _, .int _, h => by simp [Val.expr] at h
  | .app _ _, .id _, h => by simp [Val.expr] at h
  | .app _ _, .anon _ _, h => by simp [Val.expr] at h

/-- C87: what is printed for a data file is read back as the same value: the lexer and the parser accept the text, and
the expression they give evaluates to the value that was printed.  (The names are names that the lexer can deliver and
the integers are representable, `Syn.Clean`; the other conditions are those of `C87_text_partial`.) -/
theorem _root_.MZ.C87_read_back_partial {ds : List Decl} (h : Ok ds) (hD : Distinct ds) (hg : ∀ d ∈ ds, NoGap d)
    (hp : ∀ d ∈ ds, d.Prints .dzn) {es} (hb : buildAll [] ds = some es) {k : Nat} {e : Enum} (he : es[k]? = some e)
    (hc : ∀ x ∈ (vals ds).getD k [], Syn.Clean x.expr) {i : Int} (hi : i ∈ e.set) :
    ∃ t x, e.text true false (some i) = some t ∧ Syn.parse (Syn.lex t) = .ok x.expr ∧ evalVal es x = some (some k, i) := by
  have hR := rel_of_build h hb
  have hk : k < (vals ds).length := by
    rw [hR.len_vs, ← hR.len_es]
    exact (List.getElem?_eq_some_iff.1 he).1
  have hv : (vals ds)[k]? = some (vals ds)[k] := List.getElem?_eq_getElem hk
  obtain ⟨e', h1, h2⟩ := vals_row h hb hv
  rw [he] at h1
  cases h1
  rw [Enum.set, mem_upTo, h2] at hi
  rw [getD_of_some hv] at hc
  have hl : (i - 1).toNat < (vals ds)[k].length := by omega
  have hx := List.getElem?_eq_getElem hl
  have hi1 : ((i - 1).toNat : Int) + 1 = i := by omega
  obtain ⟨e', h3, h4⟩ := C87_text_partial h hg hp hb hv hx
  rw [he] at h3
  cases h3
  rw [hi1] at h4
  have h5 := C87_expression_value h hD hb hv hx
  rw [hi1] at h5
  obtain ⟨s, hs⟩ := expr_sorted (fun _ => .num) (vals ds)[k][(i - 1).toNat]
  refine ⟨_, _, h4, ?_, h5⟩
  show Syn.parse (Syn.lex (Val.dzn _)) = _
  rw [dzn_print]
  exact C24_structure hs (hc _ (List.getElem_mem hl)) (expr_canonical _)

/-- C87: different values of enumerated types have different texts in data files. -/
theorem _root_.MZ.C87_text_injective {x y : Val} (hx : Syn.Clean x.expr) (hy : Syn.Clean y.expr) (h : x.dzn = y.dzn) : x = y := by
  rw [dzn_print, dzn_print] at h
  obtain ⟨s, hs⟩ := expr_sorted (fun _ => .num) x
  obtain ⟨t, ht⟩ := expr_sorted (fun _ => .num) y
  exact expr_inj (C24_unambiguous hs ht hx hy (expr_canonical _) (expr_canonical _) h)

/-- C87: arrays and sets are printed element by element. -/
theorem _root_.MZ.C87_collections_text (f : TextFn) (m : Mode) (g : Option Int → Str) :
    (∀ xs : List (Option Int), (∀ x ∈ xs, f m.b m.j x = some (g x)) →
      arrayText f m.b m.j xs = some ("[".toList ++ List.intercalate ", ".toList (xs.map g) ++ "]".toList)) ∧
    (∀ s : List Int, (∀ x ∈ s, f m.b m.j (some x) = some (g (some x))) →
      setText f m.b m.j (some s) =
        some (match m with
          | .json => "{\"set\":[".toList ++ List.intercalate ", ".toList (s.map (fun x => g (some x))) ++ "]}".toList
          | _ => "{".toList ++ List.intercalate ", ".toList (s.map (fun x => g (some x))) ++ "}".toList)) ∧
    setText f m.b m.j none = some (if m = .json then "null".toList else "<>".toList) := by
  refine ⟨?_, ?_, by cases m <;> rfl⟩
  · intro xs h
    unfold arrayText
    rw [mapM_some h]
    rfl
  · intro s h
    unfold setText
    simp only
    rw [mapM_some (g := fun x => g (some x)) h]
    have e1 : "{\"set\":[".toList = "{".toList ++ "\"set\":[".toList := by decide +kernel
    have e2 : "]}".toList = "]".toList ++ "}".toList := by decide +kernel
    cases m with
    | plain => simp [Mode.j]
    | dzn => simp [Mode.j]
    | json =>
      simp only [Mode.j, e1, e2, Option.bind_eq_bind, Option.bind_some, if_true, List.append_assoc]

/-! ## Successors, predecessors and conversion -/

/-- C87: `enum_next` of a value of an enumerated type is the smallest larger value, and undefined for the largest;
the same holds for a variable. -/
theorem _root_.MZ.C87_enum_next (n : Int) {x : Int} (hx : x ∈ upTo n) :
    (∀ y, enumNext (upTo n) x = some y ↔ y ∈ upTo n ∧ x < y ∧ ∀ z ∈ upTo n, x < z → y ≤ z) ∧
    enumNextVar (upTo n) x = enumNext (upTo n) x := by
  have hm := mem_upTo.1 hx
  constructor
  · intro y
    unfold enumNext
    split_ifs with h
    · have h' := mem_upTo.1 h
      simp only [Option.some.injEq]
      constructor
      · rintro rfl
        exact ⟨h, by omega, fun z _ hz => by omega⟩
      · rintro ⟨h1, h2, h3⟩
        have := h3 (x + 1) h (by omega)
        omega
    · simp only [reduceCtorEq, false_iff, not_and]
      intro h1 h2
      rw [mem_upTo] at h h1
      omega
  · have hl : (upTo n).getLast? = some n := by
      rw [List.getLast?_eq_getElem?, upTo_length, upTo_get, if_pos (by omega)]
      congr 1
      omega
    unfold enumNextVar enumNext
    rw [hl]
    simp only
    split_ifs with h1 h2 h2
    · rfl
    · rw [mem_upTo] at h2; omega
    · rw [mem_upTo] at h2; omega
    · rfl

/-- C87: `enum_prev` of a value of an enumerated type is the largest smaller value, and undefined for the smallest;
the same holds for a variable. -/
theorem _root_.MZ.C87_enum_prev (n : Int) {x : Int} (hx : x ∈ upTo n) :
    (∀ y, enumPrev (upTo n) x = some y ↔ y ∈ upTo n ∧ y < x ∧ ∀ z ∈ upTo n, z < x → z ≤ y) ∧
    enumPrevVar (upTo n) x = enumPrev (upTo n) x := by
  have hm := mem_upTo.1 hx
  constructor
  · intro y
    unfold enumPrev
    split_ifs with h
    · have h' := mem_upTo.1 h
      simp only [Option.some.injEq]
      constructor
      · rintro rfl
        exact ⟨h, by omega, fun z _ hz => by omega⟩
      · rintro ⟨h1, h2, h3⟩
        have := h3 (x - 1) h (by omega)
        omega
    · simp only [reduceCtorEq, false_iff, not_and]
      intro h1 h2
      rw [mem_upTo] at h h1
      omega
  · have hl : (upTo n).head? = some 1 := by
      rw [List.head?_eq_getElem?, upTo_get, if_pos (by omega)]
      rfl
    unfold enumPrevVar enumPrev
    rw [hl]
    simp only
    split_ifs with h1 h2 h2
    · rfl
    · rw [mem_upTo] at h2; omega
    · rw [mem_upTo] at h2; omega
    · rfl

/-- C87: `enum_next` and `enum_prev` undo each other, and keep absent values absent. -/
theorem _root_.MZ.C87_next_prev (n : Int) {x y : Int} (hx : x ∈ upTo n) (hy : y ∈ upTo n) :
    (enumNext (upTo n) x = some y ↔ enumPrev (upTo n) y = some x) ∧
    optVersion enumNext (upTo n) none = some none ∧ optVersion enumPrev (upTo n) none = some none ∧
    (optVersion enumNext (upTo n) (some x) = some (some y) ↔ enumNext (upTo n) x = some y) := by
  refine ⟨?_, rfl, rfl, by simp [optVersion]⟩
  unfold enumNext enumPrev
  constructor
  · intro h
    split_ifs at h with h1
    cases h
    rw [if_pos (by simpa using hx)]
    simp
  · intro h
    split_ifs at h with h1
    cases h
    rw [if_pos (by simpa using hy)]
    simp

/-- C87: `to_enum(X, x)` is `x` if it is in `X` and undefined otherwise, for a parameter and for a variable; for a set it is
the set, if all its elements are in `X`. -/
theorem _root_.MZ.C87_to_enum (X : List Int) :
    (∀ x y, toEnum X x = some y ↔ x ∈ X ∧ y = x) ∧ (∀ x, toEnumVar X x = toEnum X x) ∧
    (∀ s r, toEnumSet X s = some r ↔ (∀ x ∈ s, x ∈ X) ∧ r = s) := by
  refine ⟨fun x y => toEnum_some, fun x => rfl, ?_⟩
  intro s
  unfold toEnumSet
  induction s with
  | nil => intro r; simp [eq_comm]
  | cons a s ih =>
    intro r
    rw [List.mapM_cons]
    simp only [Option.bind_eq_bind, Option.bind_eq_some_iff, Option.pure_def, Option.some.injEq, toEnum_some, ih,
      List.forall_mem_cons]
    constructor
    · rintro ⟨b, ⟨h1, rfl⟩, c, ⟨h2, rfl⟩, rfl⟩
      exact ⟨⟨h1, h2⟩, rfl⟩
    · rintro ⟨⟨h1, h2⟩, rfl⟩
      exact ⟨a, ⟨h1, rfl⟩, s, ⟨h2, rfl⟩, rfl⟩

/-- C87: the constraints of `to_enum(X, x)` for a set variable hold exactly if `x` is a subset of `X` and the result is
`x`.  (`univ` contains every value that the sets can have.) -/
theorem _root_.MZ.C87_to_enum_set_variable (X univ : List Int) (hX : ∀ i ∈ X, i ∈ univ) (x y : Int → Bool)
    (hx : ∀ i, x i = true → i ∈ univ) (hy : ∀ i, y i = true → i ∈ univ) :
    toEnumSetVar X x y univ = true ↔ (∀ i, x i = true → i ∈ X) ∧ y = x := by
  unfold toEnumSetVar
  simp only [Bool.and_eq_true, List.all_eq_true, Bool.or_eq_true, Bool.not_eq_true', decide_eq_true_eq, beq_iff_eq]
  constructor
  · rintro ⟨⟨h1, h2⟩, h3⟩
    have hxX : ∀ i, x i = true → i ∈ X := by
      intro i hi
      rcases h2 i (hx i hi) with e | e
      · rw [hi] at e; cases e
      · exact e
    refine ⟨hxX, ?_⟩
    funext i
    by_cases hi : i ∈ X
    · exact (h3 i hi).symm
    · have e1 : x i = false := by
        by_contra hc
        exact hi (hxX i (by simpa using hc))
      have e2 : y i = false := by
        by_contra hc
        have hc : y i = true := by simpa using hc
        rcases h1 i (hy i hc) with e | e
        · rw [hc] at e; cases e
        · exact hi e
      rw [e1, e2]
  · rintro ⟨h1, rfl⟩
    refine ⟨⟨?_, ?_⟩, fun i _ => rfl⟩ <;>
    · intro i _
      by_cases hc : y i = true
      · exact Or.inr (h1 i hc)
      · exact Or.inl (by simpa using hc)

/-! ## A declaration with every kind of part -/

/-- `enum Foo = {A, B}; enum Bar = C(Foo) ++ {'my id'} ++ _(1..2) ++ D({3, 5, 9}) ++ E(2..4); enum Qux = F(Bar);` -/
def sample : List Decl :=
  [⟨"Foo".toList, [.ids ["A".toList, "B".toList]]⟩,
   ⟨"Bar".toList, [.cons "C".toList (.enum 0), .ids ["my id".toList], .anonSet [1, 2],
      .cons "D".toList (.ints [3, 5, 9]), .cons "E".toList (.ints [2, 3, 4])]⟩,
   ⟨"Qux".toList, [.cons "F".toList (.enum 1)]⟩]

theorem sample_ok : Ok sample := by
  refine ⟨?_, ?_, ?_, trivial⟩
  · intro p hp
    simp only [List.mem_singleton] at hp
    subst hp
    trivial
  · intro p hp
    simp only [List.mem_cons, List.not_mem_nil, or_false] at hp
    rcases hp with rfl | rfl | rfl | rfl | rfl
    · show 0 < _
      simp
    · trivial
    · trivial
    · show IsSet _
      unfold IsSet
      decide
    · show IsSet _
      unfold IsSet
      decide
  · intro p hp
    simp only [List.mem_singleton] at hp
    subst hp
    show 1 < _
    simp

theorem sample_distinct : Distinct sample := by
  unfold Distinct
  decide +kernel

theorem sample_prints : (∀ d ∈ sample, NoGap d) ∧ ∀ d ∈ sample, d.Prints .dzn := by
  constructor
  · intro d hd
    simp only [sample, List.mem_cons, List.not_mem_nil, or_false] at hd
    rcases hd with rfl | rfl | rfl <;>
    · intro i hi
      rcases i with _ | _ | _ | _ | _ | i <;> simp at hi
  · intro d hd
    simp only [sample, List.mem_cons, List.not_mem_nil, or_false] at hd
    rcases hd with rfl | rfl | rfl <;>
    · refine ⟨?_, ?_⟩
      · intro p hp c k s
        simp only [List.mem_cons, List.not_mem_nil, or_false] at hp
        rcases hp with rfl | rfl | rfl | rfl | rfl <;> simp
      · intro _
        decide +kernel

/-- The tenth value of `Bar` is `E(3)`, its third `'my id'`; the values of `Qux` are those of `Bar`. -/
example : ∃ es, buildAll [] sample = some es ∧
    (es.map Enum.card) = [2, 11, 11] ∧
    (es.map (fun e => e.text true false (some 3))) = [none, some "'my id'".toList, some "F('my id')".toList] ∧
    (es.map (fun e => e.text false false (some 5))) = [none, some "to_enum(Bar,5)".toList, some "F(to_enum(Bar,5))".toList] ∧
    (es.map (fun e => e.text false true (some 7))) =
      [none, some "{ \"c\" : \"D\", \"e\" : 5}".toList, some "{ \"c\" : \"F\", \"e\" : { \"c\" : \"D\", \"e\" : 5}}".toList] ∧
    evalVal es (.app "F".toList (.app "E".toList (.int 3))) = some (some 2, 10) ∧
    evalVal es (.app "F".toList (.app "D".toList (.int 4))) = none := by
  obtain ⟨es, h⟩ := C87_accepted sample_ok
  refine ⟨es, h, ?_⟩
  have e : buildAll [] sample = some es := h
  have : es = (buildAll [] sample).get (by decide +kernel) := by
    simp [e]
  rw [this]
  refine ⟨by decide +kernel, by decide +kernel, by decide +kernel, by decide +kernel, by decide +kernel, by decide +kernel⟩

/-- The values of the first type can be lexed. -/
example : ∀ x ∈ (vals sample).getD 0 [], Syn.Clean x.expr := by
  have e : (vals sample).getD 0 [] = [.id "A".toList, .id "B".toList] := by decide +kernel
  rw [e]
  intro x hx
  simp only [List.mem_cons, List.not_mem_nil, or_false] at hx
  rcases hx with rfl | rfl
  · exact ⟨⟨"A".toList, [], rfl⟩, by decide +kernel⟩
  · exact ⟨⟨"B".toList, [], rfl⟩, by decide +kernel⟩

/-! ## Where the English claim fails -/

/-- C87 fails for an empty list of identifiers before another part: in `enum X = {A} ++ {} ++ {B}` the value `B` cannot be
printed, because no cardinality is recorded for the empty part and the later parts are tested with the wrong bounds. -/
theorem _root_.MZ.C87_empty_part_fails :
    let ds : List Decl := [⟨"X".toList, [.ids ["A".toList], .ids [], .ids ["B".toList]]⟩]
    Ok ds ∧ Distinct ds ∧ vals ds = [[.id "A".toList, .id "B".toList]] ∧
    (buildAll [] ds).map (fun es => es.map (fun e => (e.card, e.text false false (some 1), e.text false false (some 2)))) =
      some [(2, some "A".toList, none)] := by
  refine ⟨⟨?_, trivial⟩, by unfold Distinct; decide +kernel, by decide +kernel, by decide +kernel⟩
  intro p hp
  simp only [List.mem_cons, List.not_mem_nil, or_false] at hp
  rcases hp with rfl | rfl | rfl <;> trivial

/-- C87 fails for a negative number of anonymous values: in `enum X = {A} ++ anon_enum(-1) ++ {B}` the identifiers `A` and
`B` are the same value. -/
theorem _root_.MZ.C87_negative_anonymous_fails :
    let ds : List Decl := [⟨"X".toList, [.ids ["A".toList], .anon (-1), .ids ["B".toList]]⟩]
    Distinct ds ∧
    (buildAll [] ds).map (fun es => (es.map Enum.card, evalVal es (.id "A".toList), evalVal es (.id "B".toList))) =
      some ([1], some (some 0, 1), some (some 0, 1)) := by
  refine ⟨by unfold Distinct; decide +kernel, by decide +kernel⟩

/-- C87 fails for anonymous values of a type whose name needs quotes: the text for a data file is not an expression. -/
theorem _root_.MZ.C87_quoted_name_fails :
    let ds : List Decl := [⟨"my enum".toList, [.anon 2]⟩]
    Ok ds ∧ Distinct ds ∧
    (buildAll [] ds).map (fun es => es.map (fun e => e.text true false (some 1))) =
      some [some "to_enum(my enum,1)".toList] ∧
    Syn.parse (Syn.lex "to_enum(my enum,1)".toList) = .err := by
  refine ⟨⟨?_, trivial⟩, by unfold Distinct; decide +kernel, by decide +kernel, rfl⟩
  intro p hp
  simp only [List.mem_singleton] at hp
  subst hp
  show (0 : Int) ≤ 2
  decide

/-- C87 fails in JSON for a constructor whose argument is a set of members of another type: `enum Foo = {A, B}; enum X =
C({B});` prints the argument without the object that JSON needs. -/
theorem _root_.MZ.C87_subset_json_fails :
    let ds : List Decl := [⟨"Foo".toList, [.ids ["A".toList, "B".toList]]⟩, ⟨"X".toList, [.cons "C".toList (.sub 0 [2])]⟩]
    vals ds = [[.id "A".toList, .id "B".toList], [.app "C".toList (.id "B".toList)]] ∧
    (Val.app "C".toList (.id "B".toList)).json = "{ \"c\" : \"C\", \"e\" : {\"e\":\"B\"}}".toList ∧
    (buildAll [] ds).map (fun es => es.map (fun e => e.text false true (some 1))) =
      some [some "{\"e\":\"A\"}".toList, some "{ \"c\" : \"C\", \"e\" : B}".toList] := by
  refine ⟨by decide +kernel, by decide +kernel, by decide +kernel⟩

/-- C87 fails for `enum_next` in a set that is not a whole enumerated type: a parameter has no successor in `{1, 3}`, a
variable gets one that is not in the set. -/
theorem _root_.MZ.C87_next_in_set_fails :
    enumNext [1, 3] 1 = none ∧ enumNextVar [1, 3] 1 = some 2 ∧ (2 : Int) ∉ [1, 3] := by
  decide

end Enums
end MZ
