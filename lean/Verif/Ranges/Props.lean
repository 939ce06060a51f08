import Verif.Ranges.Queries
/-!
# C05–C08: integer sets

Statements use only `Mem`, `Normal` and `SetLex` of `Verif/Ranges/Spec.lean`, and the functions
of the model.
-/
namespace MZ

/-! ## C05 normal form -/

/-- Building a set from bounds gives exactly the integers between them, in normal form
(values.hh 658 `IntSetVal::a(m,n)`). -/
theorem C05_of_bounds (m n : Ext) (hm : m ≠ .posInf) (hn : n ≠ .negInf) :
    Normal (IntSet.ofBounds m n) ∧
    ∀ x, Mem x (IntSet.ofBounds m n) ↔ (m ≤ .fin x ∧ .fin x ≤ n) :=
  ⟨normal_iff.2 (ofBounds_spec m n hm hn).1, (ofBounds_spec m n hm hn).2⟩

example : Normal (IntSet.ofBounds (.fin 3) .posInf) ∧ Mem 7 (IntSet.ofBounds (.fin 3) .posInf) ∧
    ¬ Mem 2 (IntSet.ofBounds (.fin 3) .posInf) := by
  have h := C05_of_bounds (.fin 3) .posInf (by decide) (by decide)
  exact ⟨h.1, (h.2 7).2 (by decide), fun k => absurd ((h.2 2).1 k) (by decide)⟩

/-- Building a set from any list of integers, in any order and with repetitions, gives exactly
its elements, in normal form (values.hh 681). -/
theorem C05_of_values (s : List Int) :
    Normal (IntSet.ofValues s) ∧ ∀ x, Mem x (IntSet.ofValues s) ↔ x ∈ s :=
  ⟨normal_iff.2 (ofValues_spec s).1, (ofValues_spec s).2⟩

example : IntSet.ofValues [5, 1, 2, 2, 7, 6, 3] = [⟨.fin 1, .fin 3⟩, ⟨.fin 5, .fin 7⟩] := by
  refine NF_unique (ofValues_spec _).1 ?_ ?_
  · rw [← normal_iff]; exact ⟨by decide, by decide⟩
  · intro x
    rw [(ofValues_spec _).2]
    simp [Mem, Range.Mem]; omega

/-- The stored ranges are determined by the set: two normal forms of the same set are
identical. -/
theorem C05_canonical (l m : List Range) (hl : Normal l) (hm : Normal m)
    (h : ∀ x, Mem x l ↔ Mem x m) : l = m :=
  NF_unique (normal_iff.1 hl) (normal_iff.1 hm) h

example : Normal [⟨.fin 1, .fin 3⟩, ⟨.fin 5, .posInf⟩] ∧
    ¬ Normal [⟨.fin 1, .fin 3⟩, ⟨.fin 4, .fin 6⟩] := by
  constructor
  · exact ⟨by decide, by decide⟩
  · intro h; exact absurd h.2 (by decide)

/-! ## C06 union, intersection, difference -/

/-- `Ranges::Union` (iter.hh 299–400). -/
theorem C06_union (i j : List Range) (hi : Normal i) (hj : Normal j) :
    Normal (Ranges.union i j) ∧ ∀ x, Mem x (Ranges.union i j) ↔ (Mem x i ∨ Mem x j) := by
  have h := union_spec i j (normal_iff.1 hi) (normal_iff.1 hj)
  exact ⟨normal_iff.2 h.1, h.2.1⟩

/-- `Ranges::Inter` (iter.hh 402–480). -/
theorem C06_inter (i j : List Range) (hi : Normal i) (hj : Normal j) :
    Normal (Ranges.inter i j) ∧ ∀ x, Mem x (Ranges.inter i j) ↔ (Mem x i ∧ Mem x j) := by
  have h := inter_spec i j (normal_iff.1 hi) (normal_iff.1 hj)
  exact ⟨normal_iff.2 h.1, h.2.1⟩

/-- `Ranges::Diff` (iter.hh 482–600): the iterator always terminates. -/
theorem C06_diff (i j : List Range) (hi : Normal i) (hj : Normal j) :
    ∃ l, Ranges.diff i j = some l ∧ Normal l ∧ ∀ x, Mem x l ↔ (Mem x i ∧ ¬ Mem x j) := by
  obtain ⟨l, h1, h2, h3⟩ := diff_spec i j (normal_iff.1 hi) (normal_iff.1 hj)
  exact ⟨l, h1, normal_iff.2 h2, h3⟩

/-- Restricting a stream to an interval (iter.hh 110–191 `Bounded`). -/
theorem C06_bounded (mn mx : Option Ext) (l : List Range) (hl : Normal l)
    (hmn : ∀ m ∈ mn, m ≠ .posInf) (hmx : ∀ m ∈ mx, m ≠ .negInf)
    (hle : ∀ m ∈ mn, ∀ M ∈ mx, m ≤ M) :
    Normal (Ranges.bounded mn mx l) ∧
    ∀ x, Mem x (Ranges.bounded mn mx l) ↔
      (Mem x l ∧ (∀ m ∈ mn, m ≤ .fin x) ∧ (∀ M ∈ mx, .fin x ≤ M)) := by
  have h := bounded_spec mn mx l (normal_iff.1 hl) hmn hmx hle
  refine ⟨normal_iff.2 h.1, fun x => ?_⟩
  rw [h.2.2 x]
  have e1 : lowCut mn ≤ .fin x ↔ ∀ m ∈ mn, m ≤ .fin x := by cases mn <;> simp [lowCut]
  have e2 : Ext.fin x < highCut mx ↔ ∀ M ∈ mx, .fin x ≤ M := by
    cases mx <;> simp [highCut, Ext.fin_le_iff_lt_succ]
  rw [e1, e2]

/-- Without `min ≤ max` the clause fails: an empty range is delivered. (The code only uses the
one-sided iterators, flatten_internal.hh 733, 741, 892, 899.) -/
theorem C06_bounded_needs_order :
    Ranges.bounded (some (.fin 5)) (some (.fin 3)) [⟨.fin 1, .fin 9⟩] = [⟨.fin 5, .fin 3⟩] ∧
    ¬ Normal [⟨.fin 5, .fin 3⟩] := by
  constructor
  · decide
  · intro h; exact absurd h.1 (by decide)

/-- A non-trivial instance of all three operators. -/
example :
    Ranges.union [⟨.negInf, .fin 3⟩, ⟨.fin 8, .fin 9⟩] [⟨.fin 4, .fin 5⟩, ⟨.fin 7, .fin 7⟩]
      = [⟨.negInf, .fin 5⟩, ⟨.fin 7, .fin 9⟩] ∧
    Ranges.inter [⟨.negInf, .fin 3⟩, ⟨.fin 8, .posInf⟩] [⟨.fin 2, .fin 9⟩]
      = [⟨.fin 2, .fin 3⟩, ⟨.fin 8, .fin 9⟩] ∧
    Ranges.diff [⟨.fin 1, .fin 9⟩] [⟨.fin 0, .fin 2⟩, ⟨.fin 4, .fin 5⟩, ⟨.fin 9, .posInf⟩]
      = some [⟨.fin 3, .fin 3⟩, ⟨.fin 6, .fin 8⟩] := by
  refine ⟨?_, ?_, ?_⟩
  · refine C05_canonical _ _ (C06_union _ _ ?_ ?_).1 ?_ (fun x => ?_)
    · exact ⟨by decide, by decide⟩
    · exact ⟨by decide, by decide⟩
    · exact ⟨by decide, by decide⟩
    · rw [(C06_union _ _ ⟨by decide, by decide⟩ ⟨by decide, by decide⟩).2]
      simp [Mem, Range.Mem]; omega
  · refine C05_canonical _ _ (C06_inter _ _ ?_ ?_).1 ?_ (fun x => ?_)
    · exact ⟨by decide, by decide⟩
    · exact ⟨by decide, by decide⟩
    · exact ⟨by decide, by decide⟩
    · rw [(C06_inter _ _ ⟨by decide, by decide⟩ ⟨by decide, by decide⟩).2]
      simp [Mem, Range.Mem]; omega
  · decide

/-! ## C07 queries -/

/-- Membership test (values.hh 713). -/
theorem C07_contains (v : Int) (l : List Range) (hl : Normal l) :
    IntSet.contains (.fin v) l = true ↔ Mem v l := contains_spec (normal_iff.1 hl)

/-- Subset test (iter.hh 711). -/
theorem C07_subset (i j : List Range) (hi : Normal i) (hj : Normal j) :
    Ranges.subset i j = true ↔ ∀ x, Mem x i → Mem x j :=
  subset_spec i j (normal_iff.1 hi) (normal_iff.1 hj)

/-- Range-in-set test (values.hh 638). -/
theorem C07_range_subset (r : Range) (l : List Range) (hr : Normal [r]) (hl : Normal l) :
    IntSet.isSubset r l = true ↔ ∀ x, r.Mem x → Mem x l :=
  isSubset_spec (NF_cons.1 (normal_iff.1 hr)).1 (normal_iff.1 hl)

/-- Disjointness test (iter.hh 726). -/
theorem C07_disjoint (i j : List Range) (hi : Normal i) (hj : Normal j) :
    Ranges.disjoint i j = true ↔ ∀ x, ¬ (Mem x i ∧ Mem x j) :=
  disjoint_spec i j (normal_iff.1 hi) (normal_iff.1 hj)

/-- Equality tests on streams (iter.hh 697) and on stored sets (values.hh 726). -/
theorem C07_equal (i j : List Range) (hi : Normal i) (hj : Normal j) :
    (Ranges.equal i j = true ↔ ∀ x, Mem x i ↔ Mem x j) ∧
    (IntSet.equal i j = true ↔ ∀ x, Mem x i ↔ Mem x j) := by
  have key : i = j ↔ ∀ x, Mem x i ↔ Mem x j :=
    ⟨fun h x => by rw [h], C05_canonical i j hi hj⟩
  exact ⟨equal_iff.trans key, intset_equal_iff.trans key⟩

/-- Three-way comparison (iter.hh 741): the answer `subset` is given exactly for subsets,
`disjoint` exactly for disjoint sets which are not subsets. -/
theorem C07_compare (i j : List Range) (hi : Normal i) (hj : Normal j) :
    (Ranges.compare i j = .subset ↔ ∀ x, Mem x i → Mem x j) ∧
    (Ranges.compare i j = .disjoint ↔
      (¬ ∀ x, Mem x i → Mem x j) ∧ ∀ x, ¬ (Mem x i ∧ Mem x j)) := by
  have h := compareLoop_spec true true i j (normal_iff.1 hi) (normal_iff.1 hj)
  simp only [true_and] at h
  unfold Ranges.compare
  rw [← h.1, ← h.2]
  cases h1 : (Ranges.compareLoop true true i j).1 <;>
    cases h2 : (Ranges.compareLoop true true i j).2 <;> simp [h1, h2]

/-- Smallest and largest element (values.hh 602, 607). -/
theorem C07_min_max (l : List Range) (hl : Normal l) (m : Int) :
    (IntSet.min? l = some (.fin m) ↔ (Mem m l ∧ ∀ y, Mem y l → m ≤ y)) ∧
    (IntSet.max? l = some (.fin m) ↔ (Mem m l ∧ ∀ y, Mem y l → y ≤ m)) :=
  ⟨min_spec (normal_iff.1 hl), max_spec (normal_iff.1 hl)⟩

/-- Cardinality (iter.hh 683, values.hh 627): the number of elements, or infinity. -/
theorem C07_cardinality (l : List Range) (hl : Normal l) :
    (∀ n, Ranges.cardinality l = .fin n → {x | Mem x l}.Finite ∧ ({x | Mem x l}.ncard : Int) = n) ∧
    (Ranges.cardinality l = .posInf ↔ {x | Mem x l}.Infinite) ∧
    Ranges.cardinality l ≠ .negInf := by
  have h := card_spec (normal_iff.1 hl)
  cases e : Ranges.cardinality l with
  | negInf => rw [e] at h; exact h.elim
  | fin n =>
    rw [e] at h; dsimp only at h
    refine ⟨fun k hk => ?_, ?_, by simp⟩
    · simp at hk; subst hk; exact h
    · constructor
      · intro h; simp at h
      · intro h2; exact absurd h.1 h2
  | posInf =>
    rw [e] at h; dsimp only at h
    refine ⟨fun k hk => by simp at hk, ⟨fun _ => h, fun _ => rfl⟩, by simp⟩

example : Ranges.cardinality [⟨.fin 1, .fin 3⟩, ⟨.fin 7, .fin 7⟩] = .fin 4 ∧
    Ranges.compare [⟨.fin 1, .fin 3⟩] [⟨.fin 5, .fin 9⟩] = .disjoint := by
  constructor
  · decide
  · have n1 : Normal [⟨.fin 1, .fin 3⟩] := ⟨by decide, by decide⟩
    have n2 : Normal [⟨.fin 5, .fin 9⟩] := ⟨by decide, by decide⟩
    rw [(C07_compare _ _ n1 n2).2]
    constructor
    · intro h; have := h 1 ⟨_, List.mem_singleton.2 rfl, by unfold Range.Mem; decide⟩
      simp [Mem, Range.Mem] at this
    · intro x; simp [Mem, Range.Mem]; omega

/-! ## C08 order on sets -/

/-- `<` on sets (iter.hh 773, used by the evaluator for `<` and `>` on sets) is the
lexicographic order of the ascending element sequences, for sets bounded below. -/
theorem C08_less_lex (i j : List Range) (hi : Normal i) (hj : Normal j)
    (bi : ∀ r ∈ i, r.lo ≠ .negInf) (bj : ∀ r ∈ j, r.lo ≠ .negInf) :
    (Ranges.less i j = true ↔ SetLex (Mem · i) (Mem · j)) ∧
    (Ranges.lessEq i j = true ↔ (SetLex (Mem · i) (Mem · j) ∨ ∀ x, Mem x i ↔ Mem x j)) := by
  have h1 : Ranges.less i j = true ↔ SetLex (Mem · i) (Mem · j) := by
    constructor
    · exact less_lex (normal_iff.1 hi) (normal_iff.1 hj) bi bj
    · intro h
      by_contra hc
      rcases less_total (by simpa using hc) with e | e
      · subst e; exact SetLex.irrefl _ h
      · exact h.asymm (less_lex (normal_iff.1 hj) (normal_iff.1 hi) bj bi e)
  refine ⟨h1, ?_⟩
  rw [lessEq_iff, h1]
  exact or_congr_right ⟨fun h x => by rw [h], C05_canonical i j hi hj⟩

/-- `<` is trichotomous and irreflexive on all normalised sets. -/
theorem C08_trichotomy (i j : List Range) :
    Ranges.less i j = true ∨ i = j ∨ Ranges.less j i = true := by
  by_cases h : Ranges.less i j = true
  · exact Or.inl h
  · rcases less_total (by simpa using h) with e | e
    · exact Or.inr (Or.inl e)
    · exact Or.inr (Or.inr e)

theorem C08_irrefl : ∀ i : List Range, Ranges.less i i = false
  | [] => rfl
  | a :: i => by simp [Ranges.less, C08_irrefl i]

theorem C08_trans : ∀ (i j k : List Range), Ranges.less i j = true → Ranges.less j k = true →
    Ranges.less i k = true
  | [], [], _, h, _ => by simp [Ranges.less] at h
  | [], _ :: _, [], _, h => by simp [Ranges.less] at h
  | [], _ :: _, _ :: _, _, _ => by simp [Ranges.less]
  | _ :: _, [], _, h, _ => by simp [Ranges.less] at h
  | _ :: _, _ :: _, [], _, h => by simp [Ranges.less] at h
  | a :: i, b :: j, c :: k, h1, h2 => by
    have ih := C08_trans i j k
    rw [less_cons] at h1 h2 ⊢
    have e1 : Ranges.less i [] = true → False := by cases i <;> simp [Ranges.less]
    have e2 : Ranges.less j [] = true → False := by cases j <;> simp [Ranges.less]
    have e3 : k ≠ [] → Ranges.less [] k = true := by cases k <;> simp [Ranges.less]
    grind

example : Ranges.less [⟨.fin 1, .fin 3⟩] [⟨.fin 1, .fin 5⟩] = true ∧
    Ranges.less [⟨.fin 1, .fin 5⟩] [⟨.fin 1, .fin 3⟩, ⟨.fin 9, .fin 9⟩] = true := by decide

end MZ
