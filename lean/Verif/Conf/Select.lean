import Verif.Conf.Spec

/-! # Sets of numbers, the table of tags, and the selection -/

namespace MZ
namespace Conf

theorem find_lookup {α} (k : Str) : ∀ m : List (Str × α), find k m = m.lookup k
  | [] => rfl
  | (k', v) :: m => by
    rw [find, List.lookup_cons, find_lookup k m]
    by_cases h : k' = k
    · subst h; simp
    · rw [if_neg h, show (k == k') = false from by simpa using fun e => h e.symm]

/-! ## Sets -/

/-- Increasing lists. -/
def Inc (s : List Nat) : Prop := s.Pairwise (· < ·)

theorem mem_insert {i j : Nat} : ∀ {s : List Nat}, j ∈ insert i s ↔ j = i ∨ j ∈ s
  | [] => by simp [insert]
  | k :: s => by
    rw [insert]
    split_ifs with h1 h2
    · simp
    · subst h2; simp
    · rw [List.mem_cons, mem_insert, List.mem_cons]
      tauto

theorem inc_insert {i : Nat} : ∀ {s : List Nat}, Inc s → Inc (insert i s)
  | [], _ => by simp [insert, Inc]
  | k :: s, h => by
    have hk := List.pairwise_cons.1 h
    rw [insert]
    split_ifs with h1 h2
    · refine List.pairwise_cons.2 ⟨?_, h⟩
      intro j hj
      rcases List.mem_cons.1 hj with rfl | hj
      · exact h1
      · exact lt_trans h1 (hk.1 j hj)
    · exact h
    · refine List.pairwise_cons.2 ⟨?_, inc_insert hk.2⟩
      intro j hj
      rcases mem_insert.1 hj with rfl | hj
      · omega
      · exact hk.1 j hj

theorem foldl_insert {p : Nat → Prop} [DecidablePred p] : ∀ (l s : List Nat), Inc s →
    Inc (l.foldl (fun s i => if p i then insert i s else s) s) ∧
    ∀ j, j ∈ l.foldl (fun s i => if p i then insert i s else s) s ↔ j ∈ s ∨ (j ∈ l ∧ p j)
  | [], s, h => by simp [h]
  | a :: l, s, h => by
    rw [List.foldl_cons]
    by_cases hp : p a
    · rw [if_pos hp]
      have := foldl_insert (p := p) l _ (inc_insert (i := a) h)
      refine ⟨this.1, fun j => ?_⟩
      rw [this.2 j, mem_insert, List.mem_cons]
      constructor
      · rintro ((rfl | h) | h)
        · exact Or.inr ⟨Or.inl rfl, hp⟩
        · exact Or.inl h
        · exact Or.inr ⟨Or.inr h.1, h.2⟩
      · rintro (h | ⟨rfl | h, h'⟩)
        · exact Or.inl (Or.inr h)
        · exact Or.inl (Or.inl rfl)
        · exact Or.inr ⟨h, h'⟩
    · rw [if_neg hp]
      have := foldl_insert (p := p) l s h
      refine ⟨this.1, fun j => ?_⟩
      rw [this.2 j, List.mem_cons]
      constructor
      · rintro (h | h)
        · exact Or.inl h
        · exact Or.inr ⟨Or.inr h.1, h.2⟩
      · rintro (h | ⟨rfl | h, h'⟩)
        · exact Or.inl h
        · exact absurd h' hp
        · exact Or.inr ⟨h, h'⟩

theorem foldl_insert_all (l : List Nat) : Inc (l.foldl (fun s i => insert i s) []) ∧
    ∀ j, j ∈ l.foldl (fun s i => insert i s) [] ↔ j ∈ l := by
  have := foldl_insert (p := fun _ => True) l [] List.Pairwise.nil
  simp only [if_true, List.not_mem_nil, false_or, and_true] at this
  exact this

theorem intersect_spec : ∀ (s t : List Nat), Inc s → Inc t →
    Inc (intersect s t) ∧ ∀ j, j ∈ intersect s t ↔ j ∈ s ∧ j ∈ t
  | [], t, _, _ => by rw [intersect]; simp [Inc]
  | i :: s, [], _, _ => by rw [intersect]; simp [Inc]
  | i :: s, k :: t, hs, ht => by
    have hi := List.pairwise_cons.1 hs
    have hk := List.pairwise_cons.1 ht
    rw [intersect]
    split_ifs with h1 h2
    · have := intersect_spec s (k :: t) hi.2 ht
      refine ⟨this.1, fun j => ?_⟩
      rw [this.2, List.mem_cons (l := s)]
      constructor
      · exact fun h => ⟨Or.inr h.1, h.2⟩
      · rintro ⟨rfl | h, h'⟩
        · rcases List.mem_cons.1 h' with rfl | h'
          · omega
          · have := hk.1 _ h'; omega
        · exact ⟨h, h'⟩
    · have := intersect_spec (i :: s) t hs hk.2
      refine ⟨this.1, fun j => ?_⟩
      rw [this.2, List.mem_cons (l := t)]
      constructor
      · exact fun h => ⟨h.1, Or.inr h.2⟩
      · rintro ⟨h', rfl | h⟩
        · rcases List.mem_cons.1 h' with rfl | h'
          · omega
          · have := hi.1 _ h'; omega
        · exact ⟨h', h⟩
    · have e : i = k := by omega
      subst e
      have := intersect_spec s t hi.2 hk.2
      refine ⟨List.pairwise_cons.2 ⟨fun j hj => hi.1 j ((this.2 j).1 hj).1, this.1⟩, fun j => ?_⟩
      rw [List.mem_cons, this.2, List.mem_cons, List.mem_cons]
      tauto
termination_by s t => s.length + t.length

theorem inc_head {s : List Nat} (h : Inc s) {i : Nat} : s.head? = some i ↔ i ∈ s ∧ ∀ j ∈ s, i ≤ j := by
  cases s with
  | nil => simp
  | cons a s =>
    have ha := List.pairwise_cons.1 h
    rw [List.head?_cons, Option.some.injEq]
    constructor
    · rintro rfl
      refine ⟨List.mem_cons_self, fun j hj => ?_⟩
      rcases List.mem_cons.1 hj with rfl | hj
      · exact le_refl _
      · exact le_of_lt (ha.1 j hj)
    · rintro ⟨h1, h2⟩
      have h3 := h2 a List.mem_cons_self
      rcases List.mem_cons.1 h1 with rfl | h1
      · rfl
      · have := ha.1 i h1; omega

theorem inc_find {p : Nat → Bool} : ∀ {s : List Nat}, Inc s → ∀ {i : Nat},
    s.find? p = some i ↔ i ∈ s ∧ p i = true ∧ ∀ j ∈ s, p j = true → i ≤ j
  | [], _, i => by simp
  | a :: s, h, i => by
    have ha := List.pairwise_cons.1 h
    by_cases hp : p a = true
    · rw [List.find?_cons_of_pos hp, Option.some.injEq]
      constructor
      · rintro rfl
        refine ⟨List.mem_cons_self, hp, fun j hj _ => ?_⟩
        rcases List.mem_cons.1 hj with rfl | hj
        · exact le_refl _
        · exact le_of_lt (ha.1 j hj)
      · rintro ⟨h1, h2, h3⟩
        have h4 := h3 a List.mem_cons_self hp
        rcases List.mem_cons.1 h1 with rfl | h1
        · rfl
        · have := ha.1 i h1; omega
    · rw [List.find?_cons_of_neg (by simpa using hp), inc_find ha.2]
      constructor
      · rintro ⟨h1, h2, h3⟩
        refine ⟨List.mem_cons_of_mem _ h1, h2, fun j hj hpj => ?_⟩
        rcases List.mem_cons.1 hj with rfl | hj
        · exact absurd hpj hp
        · exact h3 j hj hpj
      · rintro ⟨h1, h2, h3⟩
        rcases List.mem_cons.1 h1 with rfl | h1
        · exact absurd h2 hp
        · exact ⟨h1, h2, fun j hj => h3 j (List.mem_cons_of_mem _ hj)⟩

/-! ## The table of tags -/

theorem find_addTag (t : Str) (i : Nat) (k : Str) : ∀ m : List (Str × List Nat),
    find k (addTag t i m) = if k = t then some ((find k m).getD [] ++ [i]) else find k m
  | [] => by
    simp only [addTag, find]
    by_cases h : t = k
    · subst h; simp
    · rw [if_neg h, if_neg (fun e => h e.symm)]
  | (k', v) :: m => by
    rw [addTag]
    by_cases h : k' = t
    · subst h
      rw [if_pos rfl, find, find]
      by_cases h' : k' = k
      · subst h'; simp
      · rw [if_neg h', if_neg h', if_neg (fun e => h' e.symm)]
    · rw [if_neg h, find, find, find_addTag t i k m]
      by_cases h' : k' = k
      · subst h'
        rw [if_pos rfl, if_neg h, if_pos rfl]
      · rw [if_neg h', if_neg h']

theorem find_addTags (i : Nat) (k : Str) : ∀ (ts : List Str) (m : List (Str × List Nat)),
    (∀ j, j ∈ (find k (ts.foldl (fun m t => addTag t i m) m)).getD [] ↔
      j ∈ (find k m).getD [] ∨ (j = i ∧ k ∈ ts)) ∧
    (find k (ts.foldl (fun m t => addTag t i m) m) = none ↔ find k m = none ∧ k ∉ ts)
  | [], m => by simp
  | t :: ts, m => by
    rw [List.foldl_cons]
    have := find_addTags i k ts (addTag t i m)
    rw [find_addTag] at this
    refine ⟨fun j => ?_, ?_⟩
    · rw [this.1 j]
      by_cases h : k = t
      · subst h
        simp
        tauto
      · rw [if_neg h]
        simp [h]
    · rw [this.2]
      by_cases h : k = t
      · subst h
        simp
      · rw [if_neg h]
        simp [h]

theorem afterLastDot_iff : ∀ {s t : Str}, afterLastDot s = some t ↔ ∃ p, s = p ++ '.' :: t ∧ '.' ∉ t
  | [], t => by simp [afterLastDot]
  | c :: s, t => by
    rw [afterLastDot]
    cases h : afterLastDot s with
    | some r =>
      simp only [Option.some.injEq]
      have hr := (afterLastDot_iff (s := s) (t := r)).1 h
      constructor
      · rintro rfl
        obtain ⟨p, rfl, hp⟩ := hr
        exact ⟨c :: p, rfl, hp⟩
      · rintro ⟨p, hp, ht⟩
        cases p with
        | nil =>
          rw [List.nil_append, List.cons.injEq] at hp
          obtain ⟨q, rfl, -⟩ := hr
          exfalso
          apply ht
          rw [← hp.2]
          simp
        | cons c' p =>
          rw [List.cons_append, List.cons.injEq] at hp
          have := (afterLastDot_iff (s := s) (t := t)).2 ⟨p, hp.2, ht⟩
          rw [h] at this
          exact Option.some.inj this
    | none =>
      have hn : ∀ t, ¬ ∃ p, s = p ++ '.' :: t ∧ '.' ∉ t := fun t ht => by
        rw [(afterLastDot_iff (s := s) (t := t)).2 ht] at h
        cases h
      by_cases hc : c = '.'
      · subst hc
        simp only [if_true, Option.some.injEq]
        constructor
        · rintro rfl
          refine ⟨[], rfl, fun hd => ?_⟩
          have : (afterLastDot s).isSome := by
            clear hn h
            induction s with
            | nil => simp at hd
            | cons c' s ih =>
              rw [afterLastDot]
              cases e : afterLastDot s with
              | some r => simp
              | none =>
                rcases List.mem_cons.1 hd with rfl | hd
                · simp
                · have := ih hd
                  rw [e] at this
                  simp at this
          rw [h] at this
          simp at this
        · rintro ⟨p, hp, ht⟩
          cases p with
          | nil => simpa using hp
          | cons c' p =>
            rw [List.cons_append, List.cons.injEq] at hp
            exact absurd ⟨p, hp.2, ht⟩ (hn t)
      · simp only [if_neg hc, reduceCtorEq, false_iff]
        rintro ⟨p, hp, ht⟩
        cases p with
        | nil => simp at hp; exact hc hp.1
        | cons c' p =>
          rw [List.cons_append, List.cons.injEq] at hp
          exact hn t ⟨p, hp.2, ht⟩

theorem mem_allTags {defaults : List (Str × Str)} {sc : Solver} {t : Str} :
    t ∈ allTags defaults sc ↔ Carries defaults sc t := by
  unfold allTags Carries
  simp only [List.mem_append, List.mem_singleton, find_lookup]
  rw [← afterLastDot_iff]
  cases afterLastDot (lower sc.id) with
  | none =>
    cases defaults.lookup [] with
    | none => simp; tauto
    | some d =>
      by_cases hd : d = lower sc.id
      · simp [hd]; tauto
      · simp [hd]; tauto
  | some l =>
    have e1 : t ∈ (if l ≠ lower sc.name then [l] else []) ↔ t = l ∧ l ≠ lower sc.name := by
      split_ifs with h <;> simp [h]
    cases defaults.lookup [] with
    | none =>
      simp only [e1, Option.some.injEq]
      by_cases hl : l = lower sc.name
      · simp [hl, eq_comm]; tauto
      · simp [hl]; rw [eq_comm (a := l)]; tauto
    | some d =>
      have e2 : t ∈ (if d = lower sc.id then ["default".toList] else []) ↔ t = "default".toList ∧ d = lower sc.id := by
        split_ifs with h <;> simp [h]
      simp only [e1, e2, Option.some.injEq]
      rw [eq_comm (a := l) (b := t)]
      by_cases hl : l = lower sc.name
      · subst hl; tauto
      · tauto

/-- What the table of a list of solvers contains. -/
structure TableOk (defaults : List (Str × Str)) (scs : List Solver) (T : Table) : Prop where
  solvers : T.solvers = scs
  defs : T.defaults = defaults
  mem : ∀ t j, j ∈ (find t T.tags).getD [] ↔ ∃ sc, scs[j]? = some sc ∧ Carries defaults sc t
  none : ∀ t, find t T.tags = none ↔ ∀ sc ∈ scs, ¬ Carries defaults sc t

theorem tableOk_add {defaults scs T} (h : TableOk defaults scs T) (sc : Solver) :
    TableOk defaults (scs ++ [sc]) (addConfig T sc) := by
  refine ⟨by simp [addConfig, h.solvers], by simp [addConfig, h.defs], ?_, ?_⟩
  · intro t j
    show j ∈ (find t ((allTags T.defaults sc).foldl (fun m t => addTag t T.solvers.length m) T.tags)).getD [] ↔ _
    rw [(find_addTags T.solvers.length t _ _).1 j, h.mem, h.defs, mem_allTags, h.solvers]
    constructor
    · rintro (⟨sc', h1, h2⟩ | ⟨rfl, h2⟩)
      · exact ⟨sc', by rw [List.getElem?_append_left (List.getElem?_eq_some_iff.1 h1).1]; exact h1, h2⟩
      · exact ⟨sc, by simp, h2⟩
    · rintro ⟨sc', h1, h2⟩
      by_cases hj : j < scs.length
      · rw [List.getElem?_append_left hj] at h1
        exact Or.inl ⟨sc', h1, h2⟩
      · rw [List.getElem?_append_right (by omega)] at h1
        have : j - scs.length = 0 := by
          by_contra hc
          rw [List.getElem?_eq_none (by simp; omega)] at h1
          cases h1
        rw [this] at h1
        cases h1
        exact Or.inr ⟨by omega, h2⟩
  · intro t
    show find t ((allTags T.defaults sc).foldl (fun m t => addTag t T.solvers.length m) T.tags) = _ ↔ _
    rw [(find_addTags T.solvers.length t _ _).2, h.none, h.defs, mem_allTags]
    simp only [List.mem_append, List.mem_singleton]
    constructor
    · rintro ⟨h1, h2⟩ sc' (h3 | rfl)
      · exact h1 sc' h3
      · exact h2
    · intro h1
      exact ⟨fun sc' h3 => h1 sc' (Or.inl h3), h1 sc (Or.inr rfl)⟩

theorem tableOk_foldl {defaults} : ∀ (l scs : List Solver) (T : Table), TableOk defaults scs T →
    TableOk defaults (scs ++ l) (l.foldl addConfig T)
  | [], scs, T, h => by simpa using h
  | sc :: l, scs, T, h => by
    rw [List.foldl_cons]
    have := tableOk_foldl l _ _ (tableOk_add h sc)
    simpa using this

theorem tableOk (defaults : List (Str × Str)) (scs : List Solver) : TableOk defaults scs (populate defaults scs) := by
  have : TableOk defaults [] { solvers := [], tags := [], defaults := defaults } :=
    ⟨rfl, rfl, by simp [find], by simp [find]⟩
  have := tableOk_foldl scs [] _ this
  rw [List.nil_append] at this
  exact this

/-! ## The selection -/

theorem withVersion_spec {defaults scs T} (h : TableOk defaults scs T) (tv : Str) (idx : List Nat)
    (hi : ∀ i ∈ idx, i < scs.length) : Inc (withVersion T tv idx) ∧
    ∀ j, j ∈ withVersion T tv idx ↔ j ∈ idx ∧ (tv = [] ∨ ∃ sc, scs[j]? = some sc ∧ sc.version = tv) := by
  unfold withVersion
  have := foldl_insert (p := fun i => tv = [] ∨ some tv = (T.solvers[i]?).map Solver.version) idx [] List.Pairwise.nil
  refine ⟨this.1, fun j => ?_⟩
  rw [this.2 j, h.solvers]
  simp only [List.not_mem_nil, false_or]
  refine and_congr_right fun hj => or_congr_right ?_
  rw [List.getElem?_eq_getElem (hi j hj)]
  simp [eq_comm]

theorem takeWhile_all {p : Char → Bool} : ∀ {l : Str}, (∀ a ∈ l, p a = true) → l.takeWhile p = l
  | [], _ => rfl
  | a :: l, h => by
    rw [List.takeWhile_cons_of_pos (h a List.mem_cons_self), takeWhile_all (fun b hb => h b (List.mem_cons_of_mem _ hb))]

theorem dropWhile_all {p : Char → Bool} : ∀ {l : Str}, (∀ a ∈ l, p a = true) → l.dropWhile p = []
  | [], _ => rfl
  | a :: l, h => by
    rw [List.dropWhile_cons_of_pos (h a List.mem_cons_self), dropWhile_all (fun b hb => h b (List.mem_cons_of_mem _ hb))]

theorem getTag_text {t v : Str} (ht : '@' ∉ t) : getTag (if v = [] then t else t ++ '@' :: v) = t := by
  have : ∀ r : Str, (t ++ '@' :: r).takeWhile (· ≠ '@') = t := by
    intro r
    rw [List.takeWhile_append_of_pos (by intro a ha; simp; rintro rfl; exact ht ha)]
    simp
  unfold getTag
  split_ifs with h
  · exact takeWhile_all (by intro a ha; simp; rintro rfl; exact ht ha)
  · exact this v

theorem getVersion_text {t v : Str} (ht : '@' ∉ t) : getVersion (if v = [] then t else t ++ '@' :: v) = v := by
  unfold getVersion
  split_ifs with h
  · rw [dropWhile_all (by intro a ha; simp; rintro rfl; exact ht ha)]
    simp [h]
  · rw [List.dropWhile_append_of_pos (by intro a ha; simp; rintro rfl; exact ht ha)]
    simp

/-- The candidates after the first `n` requests, in terms of lower case tags and versions. -/
def Cand (defaults : List (Str × Str)) (scs : List Solver) (first : Bool) (rs : List (Str × Str)) (i : Nat) : Prop :=
  ∃ sc, scs[i]? = some sc ∧ ∀ k r, rs[k]? = some r →
    Carries defaults sc r.1 ∧
    (r.2 = [] ∨ sc.version = r.2 ∨
      (first = true ∧ k = 0 ∧ ∀ sc' ∈ scs, Carries defaults sc' r.1 → sc'.version ≠ r.2))

theorem find_some {defaults scs T} (h : TableOk defaults scs T) {t : Str} {idx : List Nat} (hf : find t T.tags = some idx) :
    (∀ j, j ∈ idx ↔ ∃ sc, scs[j]? = some sc ∧ Carries defaults sc t) ∧ ∀ j ∈ idx, j < scs.length := by
  have h1 : ∀ j, j ∈ idx ↔ ∃ sc, scs[j]? = some sc ∧ Carries defaults sc t := by
    intro j
    have := h.mem t j
    rw [hf] at this
    exact this
  refine ⟨h1, fun j hj => ?_⟩
  obtain ⟨sc, e, -⟩ := (h1 j).1 hj
  exact (List.getElem?_eq_some_iff.1 e).1

theorem selectFirst_spec {defaults scs T} (h : TableOk defaults scs T) {w t v : Str} (ht : getTag w = t) (hv : getVersion w = v) :
    (selectFirst T w = none → ∀ i, ¬ Cand defaults scs true [(t, v)] i) ∧
    ∀ sel, selectFirst T w = some sel → Inc sel ∧ (∀ i, i ∈ sel ↔ Cand defaults scs true [(t, v)] i) := by
  unfold selectFirst
  rw [ht, hv]
  have one : ∀ i, Cand defaults scs true [(t, v)] i ↔ ∃ sc, scs[i]? = some sc ∧ Carries defaults sc t ∧
      (v = [] ∨ sc.version = v ∨ ∀ sc' ∈ scs, Carries defaults sc' t → sc'.version ≠ v) := by
    intro i
    unfold Cand
    refine exists_congr fun sc => and_congr_right fun _ => ?_
    constructor
    · intro hk
      simpa using hk 0 (t, v) rfl
    · intro hk k r hr
      cases k with
      | zero =>
        cases hr
        simpa using hk
      | succ k => simp at hr
  cases hf : find t T.tags with
  | none =>
    refine ⟨fun _ i hi => ?_, fun sel hs => by cases hs⟩
    obtain ⟨sc, e, h1, -⟩ := (one i).1 hi
    exact (h.none t).1 hf sc (List.mem_of_getElem? e) h1
  | some idx =>
    obtain ⟨m1, m2⟩ := find_some h hf
    refine ⟨fun hc => by simp at hc, fun sel hs => ?_⟩
    simp only [Option.some.injEq] at hs
    obtain ⟨w1, w2⟩ := withVersion_spec h v idx m2
    by_cases hn : withVersion T v idx = []
    · rw [if_pos hn] at hs
      subst hs
      obtain ⟨f1, f2⟩ := foldl_insert_all idx
      refine ⟨f1, fun i => ?_⟩
      rw [f2, one, m1]
      constructor
      · rintro ⟨sc, e, hc⟩
        refine ⟨sc, e, hc, Or.inr (Or.inr ?_)⟩
        intro sc' hs' hc' hv'
        obtain ⟨j, hj⟩ := List.mem_iff_getElem?.1 hs'
        have : j ∈ withVersion T v idx := (w2 j).2 ⟨(m1 j).2 ⟨sc', hj, hc'⟩, Or.inr ⟨sc', hj, hv'⟩⟩
        rw [hn] at this
        simp at this
      · rintro ⟨sc, e, hc, -⟩
        exact ⟨sc, e, hc⟩
    · rw [if_neg hn] at hs
      subst hs
      refine ⟨w1, fun i => ?_⟩
      rw [w2, one, m1]
      constructor
      · rintro ⟨⟨sc, e, hc⟩, hv'⟩
        refine ⟨sc, e, hc, ?_⟩
        rcases hv' with hv' | ⟨sc', e', hv'⟩
        · exact Or.inl hv'
        · rw [e] at e'
          cases e'
          exact Or.inr (Or.inl hv')
      · rintro ⟨sc, e, hc, hv'⟩
        refine ⟨⟨sc, e, hc⟩, ?_⟩
        rcases hv' with hv' | hv' | hv'
        · exact Or.inl hv'
        · exact Or.inr ⟨sc, e, hv'⟩
        · by_cases hv0 : v = []
          · exact Or.inl hv0
          exfalso
          apply hn
          rw [List.eq_nil_iff_forall_not_mem]
          intro j hj
          obtain ⟨hj1, hj2⟩ := (w2 j).1 hj
          obtain ⟨sc', e', hc'⟩ := (m1 j).1 hj1
          rcases hj2 with hj2 | ⟨sc'', e'', hj2⟩
          · exact hv0 hj2
          · rw [e'] at e''
            cases e''
            exact hv' sc' (List.mem_of_getElem? e') hc' hj2

theorem cand_append {defaults scs rs r i} (hrs : rs ≠ []) : Cand defaults scs true (rs ++ [r]) i ↔
    Cand defaults scs true rs i ∧ Cand defaults scs false [r] i := by
  unfold Cand
  constructor
  · rintro ⟨sc, e, hk⟩
    refine ⟨⟨sc, e, fun k q hq => ?_⟩, ⟨sc, e, fun k q hq => ?_⟩⟩
    · exact hk k q (by rw [List.getElem?_append_left (List.getElem?_eq_some_iff.1 hq).1]; exact hq)
    · cases k with
      | succ k => simp at hq
      | zero =>
        simp only [List.getElem?_cons_zero, Option.some.injEq] at hq
        subst hq
        have := hk rs.length r (by simp)
        have hl : rs.length ≠ 0 := by simpa using hrs
        simpa [hl] using this
  · rintro ⟨⟨sc, e, hk⟩, ⟨sc', e', hk'⟩⟩
    rw [e] at e'
    cases e'
    refine ⟨sc, e, fun k q hq => ?_⟩
    by_cases hkl : k < rs.length
    · rw [List.getElem?_append_left hkl] at hq
      exact hk k q hq
    · rw [List.getElem?_append_right (by omega)] at hq
      have h0 : k - rs.length = 0 := by
        by_contra hc
        rw [List.getElem?_eq_none (by simp; omega)] at hq
        cases hq
      rw [h0] at hq
      have := hk' 0 q hq
      exact ⟨this.1, this.2.imp_right (Or.imp_right (by simp))⟩

theorem cand_one {defaults scs T} (h : TableOk defaults scs T) {t v : Str} {idx} (hf : find t T.tags = some idx) (i : Nat) :
    i ∈ withVersion T v idx ↔ Cand defaults scs false [(t, v)] i := by
  obtain ⟨m1, m2⟩ := find_some h hf
  rw [(withVersion_spec h v idx m2).2, m1]
  unfold Cand
  constructor
  · rintro ⟨⟨sc, e, hc⟩, hv⟩
    refine ⟨sc, e, fun k q hq => ?_⟩
    cases k with
    | succ k => simp at hq
    | zero =>
      cases hq
      refine ⟨hc, hv.imp_right ?_⟩
      rintro ⟨sc', e', hv'⟩
      rw [e] at e'
      cases e'
      exact Or.inl hv'
  · rintro ⟨sc, e, hk⟩
    have := hk 0 (t, v) rfl
    refine ⟨⟨sc, e, this.1⟩, this.2.imp_right ?_⟩
    rintro (hv | ⟨hc, -⟩)
    · exact ⟨sc, e, hv⟩
    · cases hc

theorem cand_mono {defaults scs rs rs' i} (h : Cand defaults scs true (rs ++ rs') i) : Cand defaults scs true rs i := by
  obtain ⟨sc, e, hk⟩ := h
  exact ⟨sc, e, fun k q hq => hk k q (by rw [List.getElem?_append_left (List.getElem?_eq_some_iff.1 hq).1]; exact hq)⟩

theorem selectRest_spec {defaults scs T} (h : TableOk defaults scs T) : ∀ (ws : List Str) (rs : List (Str × Str)) (sel : List Nat)
    (defs : List Str), rs ≠ [] → Inc sel → (∀ i, i ∈ sel ↔ Cand defaults scs true rs i) →
    (∀ d, d ∈ defs ↔ ∃ r ∈ rs, defaults.lookup r.1 = some d) →
    (selectRest T ws sel defs = none → ∀ i, ¬ Cand defaults scs true (rs ++ ws.map (fun w => (getTag w, getVersion w))) i) ∧
    ∀ sel' defs', selectRest T ws sel defs = some (sel', defs') → Inc sel' ∧
      (∀ i, i ∈ sel' ↔ Cand defaults scs true (rs ++ ws.map (fun w => (getTag w, getVersion w))) i) ∧
      (∀ d, d ∈ defs' ↔ ∃ r ∈ rs ++ ws.map (fun w => (getTag w, getVersion w)), defaults.lookup r.1 = some d)
  | [], rs, sel, defs, hrs, hs, hm, hd => by
    refine ⟨fun hc => by simp [selectRest] at hc, fun sel' defs' he => ?_⟩
    simp only [selectRest, Option.some.injEq, Prod.mk.injEq] at he
    obtain ⟨rfl, rfl⟩ := he
    rw [List.map_nil, List.append_nil]
    exact ⟨hs, hm, hd⟩
  | w :: ws, rs, sel, defs, hrs, hs, hm, hd => by
    have hsplit : rs ++ (w :: ws).map (fun w => (getTag w, getVersion w)) =
        (rs ++ [(getTag w, getVersion w)]) ++ ws.map (fun w => (getTag w, getVersion w)) := by simp
    rw [hsplit, selectRest]
    cases hf : find (getTag w) T.tags with
    | none =>
      refine ⟨fun _ i hi => ?_, fun sel' defs' he => by cases he⟩
      obtain ⟨-, ⟨sc, e, hk⟩⟩ := (cand_append hrs).1 (cand_mono hi)
      exact (h.none _).1 hf sc (List.mem_of_getElem? e) (hk 0 _ rfl).1
    | some idx =>
      obtain ⟨m1, m2⟩ := find_some h hf
      obtain ⟨i1, i2⟩ := intersect_spec sel _ hs (withVersion_spec h (getVersion w) idx m2).1
      have hm' : ∀ i, i ∈ intersect sel (withVersion T (getVersion w) idx) ↔
          Cand defaults scs true (rs ++ [(getTag w, getVersion w)]) i := by
        intro i
        rw [i2, hm, cand_one h hf, cand_append hrs]
      simp only
      by_cases hn : intersect sel (withVersion T (getVersion w) idx) = []
      · rw [if_pos hn]
        refine ⟨fun _ i hi => ?_, fun sel' defs' he => by cases he⟩
        have := (hm' i).2 (cand_mono hi)
        rw [hn] at this
        simp at this
      · rw [if_neg hn]
        refine selectRest_spec h ws _ _ _ (by simp) i1 hm' ?_
        intro d
        rw [find_lookup, h.defs]
        have : (∃ r ∈ rs ++ [(getTag w, getVersion w)], defaults.lookup r.1 = some d) ↔
            (∃ r ∈ rs, defaults.lookup r.1 = some d) ∨ defaults.lookup (getTag w) = some d := by
          simp only [List.mem_append, List.mem_singleton]
          constructor
          · rintro ⟨r, hr | rfl, e⟩
            · exact Or.inl ⟨r, hr, e⟩
            · exact Or.inr e
          · rintro (⟨r, hr, e⟩ | e)
            · exact ⟨r, Or.inl hr, e⟩
            · exact ⟨_, Or.inr rfl, e⟩
        rw [this, ← hd]
        cases defaults.lookup (getTag w) with
        | none => simp
        | some d' =>
          simp only [List.mem_cons, Option.some.injEq]
          constructor
          · rintro (rfl | h)
            · exact Or.inr rfl
            · exact Or.inl h
          · rintro (h | rfl)
            · exact Or.inr h
            · exact Or.inl rfl

theorem choose_spec {defaults} {scs : List Solver} {T} (h : TableOk defaults scs T) {sel : List Nat} (hs : Inc sel) (defs : List Str) (i : Nat) :
    choose T defs sel = some i ↔ i ∈ sel ∧
      (((∃ sc : Solver, scs[i]? = some sc ∧ sc.id ∈ defs) ∧ ∀ j ∈ sel, (∃ sc : Solver, scs[j]? = some sc ∧ sc.id ∈ defs) → i ≤ j) ∨
        ((∀ j ∈ sel, ¬ ∃ sc : Solver, scs[j]? = some sc ∧ sc.id ∈ defs) ∧ ∀ j ∈ sel, i ≤ j)) := by
  unfold choose
  rw [h.solvers]
  have hp : ∀ j : Nat, ((scs[j]?).map (fun sc : Solver => decide (sc.id ∈ defs))).getD false = true ↔ ∃ sc : Solver, scs[j]? = some sc ∧ sc.id ∈ defs := by
    intro j
    cases scs[j]? <;> simp
  by_cases hl : 1 < sel.length
  · rw [if_pos hl]
    cases hf : sel.find? (fun i => ((scs[i]?).map (fun sc : Solver => decide (sc.id ∈ defs))).getD false) with
    | some k =>
      obtain ⟨k1, k2, k3⟩ := (inc_find hs).1 hf
      simp only [hp] at k2 k3
      simp only [Option.some.injEq]
      constructor
      · rintro rfl
        exact ⟨k1, Or.inl ⟨k2, k3⟩⟩
      · rintro ⟨h1, ⟨h2, h3⟩ | ⟨h2, h3⟩⟩
        · have a1 := k3 i h1 h2
          have a2 := h3 k k1 k2
          omega
        · exact absurd k2 (h2 k k1)
    | none =>
      rw [List.find?_eq_none] at hf
      simp only [hp] at hf
      simp only [inc_head hs]
      constructor
      · rintro ⟨h1, h2⟩
        exact ⟨h1, Or.inr ⟨hf, h2⟩⟩
      · rintro ⟨h1, ⟨h2, h3⟩ | ⟨h2, h3⟩⟩
        · exact absurd h2 (hf i h1)
        · exact ⟨h1, h3⟩
  · rw [if_neg hl, inc_head hs]
    have huniq : ∀ j ∈ sel, ∀ k ∈ sel, j = k := by
      cases sel with
      | nil => simp
      | cons a s =>
        cases s with
        | nil => intro j hj k hk; simp at hj hk; rw [hj, hk]
        | cons b s => simp at hl
    constructor
    · rintro ⟨h1, h2⟩
      refine ⟨h1, ?_⟩
      by_cases hc : ∃ sc : Solver, scs[i]? = some sc ∧ sc.id ∈ defs
      · exact Or.inl ⟨hc, fun j hj _ => h2 j hj⟩
      · exact Or.inr ⟨fun j hj => by rw [huniq j hj i h1]; exact hc, h2⟩
    · rintro ⟨h1, -⟩
      exact ⟨h1, fun j hj => by rw [huniq i h1 j hj]⟩

/-! ## The text -/

theorem toLower_sep {c d : Char} (hd : d.toNat < 97) (h : c.toLower = d) : c = d := by
  unfold Char.toLower at h
  split at h
  · rename_i hc
    exfalso
    subst h
    have h1 : 65 ≤ c.val.toNat := hc.1
    have h2 : c.val.toNat ≤ 90 := hc.2
    have e : (c.val + ('a'.val - 'A'.val)).toNat = c.val.toNat + 32 := by
      rw [UInt32.toNat_add]
      show (c.val.toNat + 32) % 2 ^ 32 = _
      omega
    have hd' : (c.val + ('a'.val - 'A'.val)).toNat < 97 := hd
    omega
  · exact h

theorem mem_lower {d : Char} (hd : d.toNat < 97) {s : Str} (h : d ∉ s) : d ∉ lower s := by
  intro hm
  obtain ⟨c, hc, e⟩ := List.mem_map.1 hm
  rw [toLower_sep hd e] at hc
  exact h hc

theorem lower_sep {d : Char} (hd : d.toNat < 65) : d.toLower = d := by
  unfold Char.toLower
  split
  · rename_i hc
    have h1 : 65 ≤ d.val.toNat := hc.1
    have : d.toNat = d.val.toNat := rfl
    omega
  · rfl

theorem words_run (sep : Char) : ∀ (w s cur : Str), sep ∉ w → words sep (w ++ s) cur = words sep s (cur ++ w)
  | [], s, cur, _ => by simp
  | c :: w, s, cur, h => by
    rw [List.cons_append, words, if_neg (fun e : c = sep => h (e ▸ List.mem_cons_self)),
      words_run sep w s _ (fun hm => h (List.mem_cons_of_mem _ hm))]
    simp

theorem words_text (sep : Char) : ∀ (ws : List Str), (∀ w ∈ ws, sep ∉ w ∧ w ≠ []) →
    words sep (List.intercalate [sep] ws) [] = ws
  | [], _ => by simp [words]
  | [w], h => by
    have hw := h w List.mem_cons_self
    have := words_run sep w [] [] hw.1
    simpa [words, hw.2] using this
  | w :: w' :: ws, h => by
    have hw := h w List.mem_cons_self
    have e : List.intercalate [sep] (w :: w' :: ws) = w ++ sep :: List.intercalate [sep] (w' :: ws) := by
      simp [List.intercalate]
    rw [e, words_run sep w _ [] hw.1, words, if_pos rfl, words_text sep (w' :: ws) (fun v hv => h v (List.mem_cons_of_mem _ hv))]
    simp

theorem lower_intercalate : ∀ ws : List Str, lower (List.intercalate [','] ws) = List.intercalate [','] (ws.map lower)
  | [] => rfl
  | [w] => by simp
  | w :: w' :: ws => by
    have e : ∀ (a b : Str) (l : List Str), List.intercalate [','] (a :: b :: l) = a ++ ',' :: List.intercalate [','] (b :: l) := by
      intro a b l; simp [List.intercalate]
    rw [e, List.map_cons, List.map_cons, e, ← List.map_cons, ← lower_intercalate (w' :: ws)]
    simp [lower]

theorem lower_text (r : Req) : lower r.text = (if lower r.version = [] then lower r.tag else lower r.tag ++ '@' :: lower r.version) := by
  unfold Req.text
  have : lower r.version = [] ↔ r.version = [] := by simp [lower]
  by_cases h : r.version = []
  · rw [if_pos h, if_pos (this.2 h)]
  · rw [if_neg h, if_neg (fun e => h (this.1 e))]
    simp [lower]

theorem words_reqText {rs : List Req} (hrs : ∀ r ∈ rs, r.Ok) : words ',' (lower (reqText rs)) [] = rs.map (fun r => lower r.text) := by
  unfold reqText
  rw [lower_intercalate, List.map_map]
  refine words_text ',' _ ?_
  intro w hw
  obtain ⟨r, hr, rfl⟩ := List.mem_map.1 hw
  obtain ⟨h1, h2, h3, h4⟩ := hrs r hr
  have hc : ',' ∉ r.text := by
    unfold Req.text
    split_ifs
    · exact h2
    · simp [h2, h4]
  refine ⟨mem_lower (by decide) hc, ?_⟩
  intro e
  have : r.text = [] := by simpa [lower] using e
  unfold Req.text at this
  split_ifs at this
  · exact h1 this
  · simp at this

theorem tagVersion {r : Req} (hr : r.Ok) : getTag (lower r.text) = lower r.tag ∧ getVersion (lower r.text) = lower r.version := by
  have h : '@' ∉ lower r.tag := mem_lower (by decide) hr.2.2.1
  rw [lower_text]
  exact ⟨getTag_text h, getVersion_text h⟩

theorem cand_iff {defaults scs} {rs : List Req} {i : Nat} :
    Cand defaults scs true (rs.map (fun r => (lower r.tag, lower r.version))) i ↔ Candidate defaults scs rs i := by
  unfold Cand Candidate
  refine exists_congr fun sc => and_congr_right fun _ => ?_
  have hl : ∀ v : Str, lower v = [] ↔ v = [] := by intro v; simp [lower]
  constructor
  · intro h k r hr
    have := h k (lower r.tag, lower r.version) (by rw [List.getElem?_map, hr]; rfl)
    simpa [hl] using this
  · intro h k q hq
    rw [List.getElem?_map] at hq
    obtain ⟨r, hr, rfl⟩ := Option.map_eq_some_iff.1 hq
    simpa [hl] using h k r hr

theorem select_iff (defaults : List (Str × Str)) (scs : List Solver) (rs : List Req) (hne : rs ≠ []) (hrs : ∀ r ∈ rs, r.Ok) (i : Nat) :
    select (populate defaults scs) (reqText rs) = some i ↔ Chosen defaults scs rs i := by
  have h := tableOk defaults scs
  generalize populate defaults scs = T at h
  unfold select
  rw [words_reqText hrs]
  obtain ⟨r, rs', rfl⟩ := List.exists_cons_of_ne_nil hne
  rw [List.map_cons]
  show selectFrom T _ _ = some i ↔ _
  unfold selectFrom
  obtain ⟨t1, t2⟩ := tagVersion (hrs r List.mem_cons_self)
  have hmap : (rs'.map (fun r => lower r.text)).map (fun w => (getTag w, getVersion w)) =
      rs'.map (fun r => (lower r.tag, lower r.version)) := by
    rw [List.map_map]
    refine List.map_congr_left fun q hq => ?_
    obtain ⟨q1, q2⟩ := tagVersion (hrs q (List.mem_cons_of_mem _ hq))
    simp [q1, q2]
  have hcand : ∀ j, Cand defaults scs true ([(lower r.tag, lower r.version)] ++
      (rs'.map (fun r => lower r.text)).map (fun w => (getTag w, getVersion w))) j ↔ Candidate defaults scs (r :: rs') j := by
    intro j
    rw [hmap, ← cand_iff]
    rfl
  obtain ⟨f1, f2⟩ := selectFirst_spec h t1 t2
  cases hf : selectFirst T (lower r.text) with
  | none =>
    simp only [Option.bind_eq_bind, Option.bind_none, reduceCtorEq, false_iff]
    rintro ⟨hc, -⟩
    exact f1 hf i (cand_mono ((hcand i).2 hc))
  | some sel =>
    obtain ⟨s1, s2⟩ := f2 sel hf
    have hd : ∀ d, d ∈ (match find (getTag (lower r.text)) T.defaults with
        | some d => [d]
        | none => []) ↔ ∃ q ∈ [(lower r.tag, lower r.version)], defaults.lookup q.1 = some d := by
      intro d
      rw [t1, find_lookup, h.defs]
      cases hl : defaults.lookup (lower r.tag) with
      | none => simp [hl]
      | some d' => simp [hl, eq_comm]
    obtain ⟨r1, r2⟩ := selectRest_spec h (rs'.map (fun r => lower r.text)) _ sel _ (by simp) s1 s2 hd
    simp only [Option.bind_eq_bind, Option.bind_some]
    cases hr : selectRest T (rs'.map (fun r => lower r.text)) sel (match find (getTag (lower r.text)) T.defaults with
        | some d => [d]
        | none => []) with
    | none =>
      simp only [Option.bind_none, reduceCtorEq, false_iff]
      rintro ⟨hc, -⟩
      exact r1 hr i ((hcand i).2 hc)
    | some p =>
      obtain ⟨sel', defs'⟩ := p
      obtain ⟨q1, q2, q3⟩ := r2 sel' defs' hr
      simp only [Option.bind_some]
      rw [choose_spec h q1]
      have hpref : ∀ j, (∃ sc : Solver, scs[j]? = some sc ∧ sc.id ∈ defs') ↔ Preferred defaults scs (r :: rs') j := by
        intro j
        unfold Preferred
        refine exists_congr fun sc => and_congr_right fun _ => ?_
        rw [q3, hmap]
        constructor
        · rintro ⟨q, hq, e⟩
          rw [List.singleton_append, List.mem_cons] at hq
          rcases hq with rfl | hq
          · exact ⟨r, List.mem_cons_self, e⟩
          · obtain ⟨r', hr', rfl⟩ := List.mem_map.1 hq
            exact ⟨r', List.mem_cons_of_mem _ hr', e⟩
        · rintro ⟨r', hr', e⟩
          refine ⟨(lower r'.tag, lower r'.version), ?_, e⟩
          rw [List.singleton_append, List.mem_cons]
          rcases List.mem_cons.1 hr' with rfl | hr'
          · exact Or.inl rfl
          · exact Or.inr (List.mem_map.2 ⟨r', hr', rfl⟩)
      unfold Chosen
      simp only [q2, hcand, hpref]

end Conf
end MZ
