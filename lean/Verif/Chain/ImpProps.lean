import Verif.Chain.Imp
import Verif.Linear.Lemmas

/-!
# C42: compressing implications keeps the solutions for the other variables
-/

namespace MZ
namespace Chain

/-! ## What happens to the items -/

theorem addItem_items (s : State) (it : Item) : (addItem s it).items = s.items ++ [some it] := rfl

theorem addAll_items (added : List Item) : ∀ s : State, (added.foldl addItem s).items = s.items ++ added.map some := by
  induction added with
  | nil => intro s; simp
  | cons a as ih => intro s; simp [ih, addItem_items]

theorem compressItem_items {old new : Nat} {s s' : State} {i : Nat} (h : compressItem old new s i = some s') :
    ∃ it rep added, s.items[i]? = some (some it) ∧ effect old new it = some (rep, added) ∧
      s'.items = s.items.set i rep ++ added.map some := by
  unfold compressItem at h
  split at h
  · rename_i it hit
    split at h
    · cases h
    · rename_i rep added he
      refine ⟨it, rep, added, hit, he, ?_⟩
      simp only [Option.some.injEq] at h
      subst h
      rw [addAll_items]
      congr 1
      split <;> rfl
  · cases h

theorem compressAll_items {old new : Nat} : ∀ (T : List Nat) (s s' : State), compressAll old new s T = some s' →
    T.Nodup → (∀ i ∈ T, i < s.items.length) →
    s.items.length ≤ s'.items.length ∧
    (∀ i, i ∉ T → i < s.items.length → s'.items[i]? = s.items[i]?) ∧
    (∀ i ∈ T, ∃ it rep added, s.items[i]? = some (some it) ∧ effect old new it = some (rep, added) ∧
      s'.items[i]? = some rep ∧ ∀ a ∈ added, ∃ j, s.items.length ≤ j ∧ s'.items[j]? = some (some a)) ∧
    (∀ j a, s.items.length ≤ j → s'.items[j]? = some (some a) →
      ∃ i ∈ T, ∃ it rep added, s.items[i]? = some (some it) ∧ effect old new it = some (rep, added) ∧ a ∈ added) := by
  intro T
  induction T with
  | nil =>
    intro s s' h _ _
    simp only [compressAll, Option.some.injEq] at h
    subst h
    refine ⟨le_refl _, fun _ _ _ => rfl, by simp, fun j a hj ha => ?_⟩
    rw [List.getElem?_eq_none hj] at ha
    cases ha
  | cons i T ih =>
    intro s s' h hnd hlt
    simp only [compressAll] at h
    split at h
    · cases h
    · rename_i s1 h1
      obtain ⟨it, rep, added, hit, he, hs1⟩ := compressItem_items h1
      have hnd' := List.nodup_cons.1 hnd
      have hlen : s1.items.length = s.items.length + added.length := by rw [hs1]; simp
      obtain ⟨k0, k1, k2, k3⟩ := ih s1 s' h hnd'.2 (fun j hj => by
        have := hlt j (List.mem_cons_of_mem _ hj)
        omega)
      have hold : ∀ j, j < s.items.length → j ≠ i → s1.items[j]? = s.items[j]? := by
        intro j hj hne
        rw [hs1, List.getElem?_append_left (by simpa using hj), List.getElem?_set_ne (by omega)]
      have hi : i < s.items.length := hlt i (by simp)
      have hnew : s1.items[i]? = some rep := by
        rw [hs1, List.getElem?_append_left (by simpa using hi)]
        simp [hi]
      refine ⟨by omega, ?_, ?_, ?_⟩
      · intro j hj hjl
        simp only [List.mem_cons, not_or] at hj
        rw [k1 j hj.2 (by omega), hold j hjl hj.1]
      · intro j hj
        rcases List.mem_cons.1 hj with rfl | hj
        · refine ⟨it, rep, added, hit, he, ?_, ?_⟩
          · rw [k1 j hnd'.1 (by omega), hnew]
          · intro a ha
            obtain ⟨m, hm, hma⟩ := List.getElem_of_mem ha
            have hml : s.items.length + m < s1.items.length := by omega
            refine ⟨s.items.length + m, by omega, ?_⟩
            have hnot : s.items.length + m ∉ T := by
              intro hT
              have := hlt _ (List.mem_cons_of_mem _ hT)
              omega
            rw [k1 _ hnot hml, hs1, List.getElem?_append_right (by simp)]
            simp [hm, hma]
        · obtain ⟨it', rep', added', a1, a2, a3, a4⟩ := k2 j hj
          have hne : j ≠ i := fun h => hnd'.1 (h ▸ hj)
          refine ⟨it', rep', added', ?_, a2, a3, ?_⟩
          · rw [← hold j (hlt j (List.mem_cons_of_mem _ hj)) hne]; exact a1
          · intro a ha
            obtain ⟨m, hm, h2⟩ := a4 a ha
            exact ⟨m, by omega, h2⟩
      · intro j a hj ha
        by_cases hjl : j < s1.items.length
        · by_cases hT : j ∈ T
          · have := hlt j (List.mem_cons_of_mem _ hT); omega
          · rw [k1 j hT hjl, hs1, List.getElem?_append_right (by simpa using hj)] at ha
            refine ⟨i, by simp, it, rep, added, hit, he, ?_⟩
            have := List.mem_of_getElem? ha
            simpa using this
        · obtain ⟨m, hm, it', rep', added', a1, a2, a3⟩ := k3 j a (by omega) ha
          have hne : m ≠ i := by rintro rfl; exact hnd'.1 hm
          refine ⟨m, List.mem_cons_of_mem _ hm, it', rep', added', ?_, a2, a3⟩
          rw [← hold m (hlt m (List.mem_cons_of_mem _ hm)) hne]; exact a1

/-! ## Counting -/

/-- The live items that contain `v`, as a set of indices. -/
def occSet (S : Sig) (s : State) (v : Nat) : Finset Nat :=
  (Finset.range s.items.length).filter fun i =>
    (match s.items.getD i none with | some it => it.mentions S v | none => false) = true

theorem filter_range {α : Type} (p : α → Bool) (d : α) : ∀ l : List α,
    (l.filter p).length = ((Finset.range l.length).filter fun i => p (l.getD i d) = true).card := by
  intro l
  induction l using List.reverseRecOn with
  | nil => simp
  | append_singleton l a ih =>
    rw [List.filter_append, List.length_append, ih, List.length_append, List.length_singleton,
      Finset.range_add_one, Finset.filter_insert]
    have hsame : ((Finset.range l.length).filter fun i => p ((l ++ [a]).getD i d) = true)
        = ((Finset.range l.length).filter fun i => p (l.getD i d) = true) := by
      apply Finset.filter_congr
      intro i hi
      rw [Finset.mem_range] at hi
      simp [List.getD_eq_getElem?_getD, List.getElem?_append_left hi]
    rw [hsame]
    have hlast : (l ++ [a]).getD l.length d = a := by simp [List.getD_eq_getElem?_getD]
    rw [hlast]
    by_cases h : p a = true
    · rw [if_pos h, Finset.card_insert_of_notMem (by simp)]
      simp [h]
    · rw [if_neg h]
      simp [h]

theorem occurrences_card (S : Sig) (s : State) (v : Nat) : occurrences S s v = (occSet S s v).card := by
  unfold occurrences occSet
  exact filter_range _ none s.items

theorem mem_occSet {S : Sig} {s : State} {v i : Nat} :
    i ∈ occSet S s v ↔ ∃ it, s.items[i]? = some (some it) ∧ it.mentions S v = true := by
  unfold occSet
  rw [Finset.mem_filter, Finset.mem_range]
  constructor
  · rintro ⟨h, h2⟩
    rw [List.getD_eq_getElem?_getD, List.getElem?_eq_getElem h] at h2
    simp only [Option.getD_some] at h2
    cases hi : s.items[i] with
    | none => rw [hi] at h2; simp at h2
    | some it => rw [hi] at h2; exact ⟨it, by rw [List.getElem?_eq_getElem h, hi], h2⟩
  · rintro ⟨it, h, h2⟩
    have hlt : i < s.items.length := (List.getElem?_eq_some_iff.1 h).1
    refine ⟨hlt, ?_⟩
    rw [List.getD_eq_getElem?_getD, h]
    exact h2

/-- The items stored under `v`. -/
def todo (s : State) (v : Nat) : List Nat := (s.track.filter (fun e => e.1 == v)).map (·.2)

theorem todo_length (s : State) (v : Nat) : (todo s v).length = count s v := by simp [todo, count]

theorem mem_todo {s : State} {v i : Nat} : i ∈ todo s v ↔ (v, i) ∈ s.track := by
  unfold todo
  simp only [List.mem_map, List.mem_filter, beq_iff_eq]
  constructor
  · rintro ⟨⟨a, b⟩, ⟨h, rfl⟩, rfl⟩; exact h
  · intro h; exact ⟨(v, i), ⟨h, rfl⟩, rfl⟩

theorem todo_nodup {s : State} (h : s.track.Nodup) (v : Nat) : (todo s v).Nodup := by
  unfold todo
  refine List.Nodup.map_on ?_ (h.filter _)
  rintro ⟨a, b⟩ ha ⟨c, d⟩ hc (rfl : b = d)
  simp only [List.mem_filter, beq_iff_eq] at ha hc
  rw [ha.2, hc.2]

theorem rhsOf_some {s : State} {v : Nat} {it : Item} (h : rhsOf s v = some it) :
    ∃ i : Nat, s.items[i]? = some (some it) ∧ it.declares = some v := by
  unfold rhsOf at h
  have h1 := List.find?_some h
  have h2 := List.mem_of_find?_eq_some h
  simp only [List.mem_filterMap, id_eq, exists_eq_right] at h2
  obtain ⟨i, hi, he⟩ := List.getElem_of_mem h2
  exact ⟨i, by rw [List.getElem?_eq_getElem hi, he], by simpa using h1⟩

theorem rhsOf_none {s : State} {v : Nat} (h : rhsOf s v = none) {i : Nat} {it : Item}
    (hi : s.items[i]? = some (some it)) : it.declares ≠ some v := by
  unfold rhsOf at h
  rw [List.find?_eq_none] at h
  have := h it (by
    simp only [List.mem_filterMap, id_eq, exists_eq_right]
    exact List.mem_of_getElem? hi)
  simpa using this

theorem keys_mentions {S : Sig} {it : Item} {v : Nat} (h : v ∈ it.keys) (hd : it.declares ≠ some v) :
    it.mentions S v = true := by
  cases it with
  | clause pos neg => simp only [Item.keys] at h; simp [Item.mentions, h]
  | imp p b => simp only [Item.keys, List.mem_singleton] at h; simp [Item.mentions, h]
  | revmap b => simp only [Item.keys, List.mem_singleton] at h; simp [Item.mentions, h]
  | forallD y xs => simp only [Item.keys, List.mem_singleton] at h; simp [Item.declares, h] at hd
  | existsD y xs pos =>
    cases pos <;> simp [Item.keys] at h
    simp [Item.declares, h] at hd
  | predD y p pos =>
    cases pos <;> simp [Item.keys] at h
    simp [Item.declares, h] at hd
  | other n => simp [Item.keys] at h

/-- The situation in which `y` is eliminated: apart from the implication `x → y`, every item that contains `y` is stored
under `y`; or `y` is a conjunction that occurs nowhere else. -/
theorem situation {S : Sig} {keep : Nat → Bool} {s : State} {x y i0 : Nat} (hex : Sound s) (hdecl : Declared s)
    (hi0 : s.items[i0]? = some (some (.clause [y] [x]))) (hxy : x ≠ y) (h : canCompress S keep s y = true) :
    keep y = false ∧ i0 ∉ todo s y ∧
    ((∃ d xs, todo s y = [d] ∧ s.items[d]? = some (some (.forallD y xs)) ∧ occSet S s y = {i0}) ∨
     ((∀ i it, i ∈ occSet S s y → s.items[i]? = some (some it) → i = i0 ∨ i ∈ todo s y) ∧
      (∀ i it, s.items[i]? = some (some it) → it.declares = some y → i ∈ todo s y ∧ it.mentions S y = false ∧
        ∀ xs, it ≠ .forallD y xs))) := by
  simp only [canCompress, Bool.and_eq_true, Bool.not_eq_true', decide_eq_true_eq] at h
  obtain ⟨⟨hk, hc⟩, hr⟩ := h
  have hnot : i0 ∉ todo s y := by
    intro hm
    obtain ⟨it, h1, h2⟩ := hex.mem y i0 (mem_todo.1 hm)
    rw [hi0] at h1
    cases h1
    simp only [Item.keys, List.mem_singleton] at h2
    exact hxy h2.symm
  have hnd := todo_nodup hex.nodup y
  have hocc0 : i0 ∈ occSet S s y := mem_occSet.2 ⟨_, hi0, by simp [Item.mentions]⟩
  refine ⟨hk, hnot, ?_⟩
  cases hrhs : rhsOf s y with
  | none =>
    rw [hrhs] at hr
    simp only [decide_eq_true_eq] at hr
    right
    have hsub : insert i0 (todo s y).toFinset ⊆ occSet S s y := by
      intro i hi
      rw [Finset.mem_insert, List.mem_toFinset] at hi
      rcases hi with rfl | hi
      · exact hocc0
      · obtain ⟨it, h1, h2⟩ := hex.mem y i (mem_todo.1 hi)
        exact mem_occSet.2 ⟨it, h1, keys_mentions h2 (rhsOf_none hrhs h1)⟩
    have hcard : (occSet S s y).card ≤ (insert i0 (todo s y).toFinset).card := by
      rw [← occurrences_card, hr, Finset.card_insert_of_notMem (by simpa using hnot),
        List.toFinset_card_of_nodup hnd, todo_length]
    have heq := Finset.eq_of_subset_of_card_le hsub hcard
    refine ⟨fun i it hi _ => ?_, fun i it hi hd => absurd hd (rhsOf_none hrhs hi)⟩
    rw [← heq, Finset.mem_insert, List.mem_toFinset] at hi
    exact hi
  | some dit =>
    obtain ⟨d, hd1, hd2⟩ := rhsOf_some hrhs
    have honly : ∀ i it, s.items[i]? = some (some it) → it.declares = some y → i = d := fun i it h1 h2 =>
      hdecl i d it dit y h1 hd1 h2 hd2
    have hgen : occurrences S s y = count s y → (∀ xs, dit ≠ .forallD y xs) →
        (∀ i it, i ∈ occSet S s y → s.items[i]? = some (some it) → i = i0 ∨ i ∈ todo s y) ∧
        (∀ i it, s.items[i]? = some (some it) → it.declares = some y → i ∈ todo s y ∧ it.mentions S y = false ∧
          ∀ xs, it ≠ .forallD y xs) := by
      intro hr hnf
      have hne0 : i0 ≠ d := by
        rintro rfl
        rw [hi0] at hd1
        cases hd1
        cases hd2
      have hsub : insert i0 ((todo s y).toFinset.erase d) ⊆ occSet S s y := by
        intro i hi
        rw [Finset.mem_insert, Finset.mem_erase, List.mem_toFinset] at hi
        rcases hi with rfl | ⟨hne, hi⟩
        · exact hocc0
        · obtain ⟨it, h1, h2⟩ := hex.mem y i (mem_todo.1 hi)
          exact mem_occSet.2 ⟨it, h1, keys_mentions h2 (fun h => hne (honly i it h1 h))⟩
      have hle := Finset.card_le_card hsub
      rw [← occurrences_card, hr, Finset.card_insert_of_notMem (by simp [hnot])] at hle
      have hd : d ∈ todo s y := by
        by_contra hcon
        rw [Finset.erase_eq_of_notMem (by simpa using hcon), List.toFinset_card_of_nodup hnd, todo_length] at hle
        omega
      have hcard : (occSet S s y).card ≤ (insert i0 ((todo s y).toFinset.erase d)).card := by
        rw [← occurrences_card, hr, Finset.card_insert_of_notMem (by simp [hnot]),
          Finset.card_erase_of_mem (by simpa using hd), List.toFinset_card_of_nodup hnd, todo_length]
        omega
      have heq := Finset.eq_of_subset_of_card_le hsub hcard
      refine ⟨fun i it hi _ => ?_, fun i it hi hdi => ?_⟩
      · rw [← heq, Finset.mem_insert, Finset.mem_erase, List.mem_toFinset] at hi
        exact hi.imp id And.right
      · have hid := honly i it hi hdi
        subst hid
        rw [hd1] at hi
        cases hi
        refine ⟨hd, ?_, hnf⟩
        have hnm : i ∉ occSet S s y := by
          rw [← heq]
          simp only [Finset.mem_insert, Finset.mem_erase, ne_eq, not_true_eq_false, false_and, or_false]
          exact hne0.symm
        by_contra hcon
        exact hnm (mem_occSet.2 ⟨_, hd1, by simpa using hcon⟩)
    rw [hrhs] at hr
    cases dit with
    | forallD y' xs =>
      left
      simp only [Bool.and_eq_true, decide_eq_true_eq] at hr
      have hy : y' = y := by simpa [Item.declares] using hd2
      subst hy
      have hlen : (todo s y').length = 1 := by rw [todo_length]; exact hr.2
      obtain ⟨d', hd'⟩ := List.length_eq_one_iff.1 hlen
      have : (occSet S s y').card = 1 := by rw [← occurrences_card]; exact hr.1
      obtain ⟨a, ha⟩ := Finset.card_eq_one.1 this
      have ha0 : a = i0 := by
        rw [ha, Finset.mem_singleton] at hocc0
        exact hocc0.symm
      subst ha0
      have hdd : d' = d := by
        have hmem : d' ∈ todo s y' := by rw [hd']; simp
        obtain ⟨it, h1, h2⟩ := hex.mem y' d' (mem_todo.1 hmem)
        by_contra hne
        have hm := keys_mentions (S := S) h2 (fun h => hne (honly d' it h1 h))
        have hocc : d' ∈ occSet S s y' := mem_occSet.2 ⟨it, h1, hm⟩
        rw [ha, Finset.mem_singleton] at hocc
        exact hnot (hocc ▸ hmem)
      subst hdd
      exact ⟨d', xs, hd', hd1, ha⟩
    | existsD y' xs pos => right; exact hgen (by simpa using hr) (by simp)
    | predD y' p pos => right; exact hgen (by simpa using hr) (by simp)
    | clause _ _ => simp [Item.declares] at hd2
    | imp _ _ => simp [Item.declares] at hd2
    | revmap _ => simp [Item.declares] at hd2
    | other _ => simp [Item.declares] at hd2

/-! ## The meaning of the items -/

theorem holds_congr {I : Interp} {S : Sig} (hI : I.Respects S) {it : Item} {y : Nat} {σ τ : Nat → Bool}
    (hm : it.mentions S y = false) (hd : it.declares ≠ some y) (he : ∀ v, v ≠ y → σ v = τ v) (h : it.Holds I σ) :
    it.Holds I τ := by
  have hlist : ∀ xs : List Nat, y ∉ xs → ∀ v ∈ xs, σ v = τ v := fun xs hy v hv =>
    he v (by rintro rfl; exact hy hv)
  cases it with
  | clause pos neg =>
    simp only [Item.mentions, decide_eq_false_iff_not, not_or] at hm
    rcases h with ⟨v, hv, h⟩ | ⟨v, hv, h⟩
    · exact Or.inl ⟨v, hv, by rw [← hlist pos hm.1 v hv]; exact h⟩
    · exact Or.inr ⟨v, hv, by rw [← hlist neg hm.2 v hv]; exact h⟩
  | imp p b =>
    simp only [Item.mentions, decide_eq_false_iff_not, not_or] at hm
    intro hb
    rw [← he b (fun e => hm.2 e.symm)] at hb
    exact hI.1 p σ τ (hlist _ hm.1) (h hb)
  | revmap b => trivial
  | forallD z xs =>
    simp only [Item.mentions, decide_eq_false_iff_not] at hm
    simp only [Item.declares, ne_eq, Option.some.injEq] at hd
    simp only [Item.Holds] at h ⊢
    rw [← he z hd, h]
    exact forall₂_congr fun v hv => by rw [hlist xs hm v hv]
  | existsD z xs pos =>
    simp only [Item.mentions, decide_eq_false_iff_not] at hm
    simp only [Item.declares, ne_eq, Option.some.injEq] at hd
    have hex : (∃ v ∈ xs, σ v = true) ↔ ∃ v ∈ xs, τ v = true := by
      constructor
      · rintro ⟨v, hv, h⟩; exact ⟨v, hv, by rw [← hlist xs hm v hv]; exact h⟩
      · rintro ⟨v, hv, h⟩; exact ⟨v, hv, by rw [hlist xs hm v hv]; exact h⟩
    cases pos with
    | true => intro hz; rw [← he z hd] at hz; exact hex.1 (h hz)
    | false => simp only [Item.Holds] at h ⊢; rw [← he z hd, h]; exact hex
  | predD z p pos =>
    simp only [Item.mentions, decide_eq_false_iff_not] at hm
    simp only [Item.declares, ne_eq, Option.some.injEq] at hd
    have hp : I.call p σ ↔ I.call p τ :=
      ⟨hI.1 p σ τ (hlist _ hm), hI.1 p τ σ (fun v hv => (hlist _ hm v hv).symm)⟩
    cases pos with
    | true => intro hz; rw [← he z hd] at hz; exact hp.1 (h hz)
    | false => simp only [Item.Holds] at h ⊢; rw [← he z hd, h]; exact hp
  | other n =>
    simp only [Item.mentions, decide_eq_false_iff_not] at hm
    exact hI.2 n σ τ (hlist _ hm) h

/-- From the old items to the new ones. -/
theorem effect_fwd {I : Interp} {σ : Nat → Bool} {x y : Nat} {it : Item} {rep : Option Item} {added : List Item}
    (hy : y ∈ it.keys) (hxy : σ x = true → σ y = true) (he : effect y x it = some (rep, added)) (h : it.Holds I σ) :
    (∀ r, rep = some r → r.Holds I σ) ∧ ∀ a ∈ added, a.Holds I σ := by
  cases it with
  | clause pos neg =>
    simp only [effect] at he
    split at he
    · cases he; simp
    · cases he
      refine ⟨by simp, fun a ha => ?_⟩
      simp only [List.mem_singleton] at ha
      subst ha
      rcases h with h | ⟨v, hv, h⟩
      · exact Or.inl h
      · right
        refine ⟨if v = y then x else v, List.mem_map.2 ⟨v, hv, rfl⟩, ?_⟩
        split
        · rename_i e
          subst e
          cases hx : σ x with
          | false => rfl
          | true => rw [hxy hx] at h; cases h
        · exact h
  | imp p b =>
    simp only [Item.keys, List.mem_singleton] at hy
    subst hy
    cases he
    exact ⟨fun r hr => by cases hr; exact fun hx => h (hxy hx), by simp⟩
  | revmap b => cases he; exact ⟨fun r hr => by cases hr; trivial, by simp⟩
  | forallD z xs =>
    simp only [Item.keys, List.mem_singleton] at hy
    subst hy
    cases he
    refine ⟨fun r hr => by cases hr; exact h, fun a ha => ?_⟩
    simp only [List.mem_map, List.mem_filter] at ha
    obtain ⟨v, ⟨hv, -⟩, rfl⟩ := ha
    cases hx : σ x with
    | false => exact Or.inr ⟨x, by simp, hx⟩
    | true => exact Or.inl ⟨v, by simp, h.1 (hxy hx) v hv⟩
  | existsD z xs pos =>
    cases pos with
    | false => simp [effect] at he
    | true =>
      simp only [Item.keys, if_true, List.mem_singleton] at hy
      subst hy
      cases xs with
      | nil => simp [effect] at he
      | cons x0 xs =>
        simp only [effect, Option.some.injEq, Prod.mk.injEq] at he
        obtain ⟨rfl, rfl⟩ := he
        refine ⟨by simp, fun a ha => ?_⟩
        split at ha
        · simp only [List.mem_singleton] at ha
          subst ha
          cases hx : σ x with
          | false => exact Or.inr ⟨x, by simp, hx⟩
          | true => exact Or.inl (h (hxy hx))
        · simp at ha
  | predD z p pos =>
    cases pos with
    | false => simp [effect] at he
    | true =>
      simp only [Item.keys, if_true, List.mem_singleton] at hy
      subst hy
      cases he
      refine ⟨fun r hr => by cases hr; exact h, fun a ha => ?_⟩
      simp only [List.mem_singleton] at ha
      subst ha
      exact fun hx => h (hxy hx)
  | other n => simp [effect] at he

/-- From the new items to the old ones, when `y` gets the value of `x`. -/
theorem effect_bwd {I : Interp} {S : Sig} (hI : I.Respects S) {σ : Nat → Bool} {x y : Nat} {it : Item}
    {rep : Option Item} {added : List Item} (hxy : x ≠ y) (hy : y ∈ it.keys) (he : effect y x it = some (rep, added))
    (hsep : ∀ p b, it = .imp p b → b ∉ S.args p)
    (hd : it.declares = some y → it.mentions S y = false ∧ ∀ xs, it ≠ .forallD y xs)
    (h1 : ∀ r, rep = some r → r.Holds I σ) (h2 : ∀ a ∈ added, a.Holds I σ) :
    it.Holds I (setv σ y (σ x)) := by
  have hne : ∀ v, v ≠ y → setv σ y (σ x) v = σ v := fun v hv => by simp [setv, hv]
  have hyv : setv σ y (σ x) y = σ x := by simp [setv]
  cases it with
  | clause pos neg =>
    simp only [Item.keys] at hy
    have taut : y ∈ pos → (Item.clause pos neg).Holds I (setv σ y (σ x)) := by
      intro hp
      cases hx : σ x with
      | true => exact Or.inl ⟨y, hp, by rw [← hx] at *; exact hyv.trans hx⟩
      | false => exact Or.inr ⟨y, hy, by rw [← hx] at *; exact hyv.trans hx⟩
    simp only [effect] at he
    split at he
    · rename_i hc
      have hpos := hc.2
      obtain ⟨z, hz⟩ := List.length_eq_one_iff.1 hc.1
      rw [hz, List.mem_singleton] at hy
      subst hy
      rw [hpos, hz]
      cases hx : σ x with
      | true => exact Or.inl ⟨x, by simp, by rw [← hx, hne x hxy]⟩
      | false => exact Or.inr ⟨y, by simp, by rw [← hx]; exact hyv⟩
    · cases he
      by_cases hp : y ∈ pos
      · exact taut hp
      · rcases h2 _ (List.mem_singleton.2 rfl) with ⟨v, hv, h⟩ | ⟨v, hv, h⟩
        · exact Or.inl ⟨v, hv, by rw [hne v (by rintro rfl; exact hp hv)]; exact h⟩
        · rw [List.mem_map] at hv
          obtain ⟨w, hw, rfl⟩ := hv
          split at h
          · rename_i e
            subst e
            exact Or.inr ⟨w, hw, hyv.trans h⟩
          · rename_i e
            exact Or.inr ⟨w, hw, by rw [hne w e]; exact h⟩
  | imp p b =>
    simp only [Item.keys, List.mem_singleton] at hy
    subst hy
    cases he
    intro hb
    rw [hyv] at hb
    have := h1 _ rfl hb
    exact hI.1 p σ _ (fun v hv => (hne v (by rintro rfl; exact hsep p _ rfl hv)).symm) this
  | revmap b => trivial
  | forallD z xs =>
    simp only [Item.keys, List.mem_singleton] at hy
    subst hy
    exact absurd rfl ((hd rfl).2 xs)
  | existsD z xs pos =>
    cases pos with
    | false => simp [effect] at he
    | true =>
      simp only [Item.keys, if_true, List.mem_singleton] at hy
      subst hy
      have hm := (hd rfl).1
      simp only [Item.mentions, decide_eq_false_iff_not] at hm
      intro hb
      rw [hyv] at hb
      cases xs with
      | nil => simp [effect] at he
      | cons x0 xs =>
        simp only [effect, Option.some.injEq, Prod.mk.injEq] at he
        obtain ⟨rfl, rfl⟩ := he
        have hval : ∃ v ∈ x0 :: xs, σ v = true := by
          by_cases hx0 : x0 = x
          · exact ⟨x0, by simp, by rw [hx0]; exact hb⟩
          · have := h2 (.clause (x0 :: xs) [x]) (by simp [hx0])
            rcases this with h | ⟨v, hv, h⟩
            · exact h
            · simp only [List.mem_singleton] at hv
              subst hv
              rw [hb] at h; cases h
        obtain ⟨v, hv, h⟩ := hval
        exact ⟨v, hv, by rw [hne v (by rintro rfl; exact hm hv)]; exact h⟩
  | predD z p pos =>
    cases pos with
    | false => simp [effect] at he
    | true =>
      simp only [Item.keys, if_true, List.mem_singleton] at hy
      subst hy
      have hm := (hd rfl).1
      simp only [Item.mentions, decide_eq_false_iff_not] at hm
      cases he
      intro hb
      rw [hyv] at hb
      have := h2 (.imp p x) (by simp) hb
      exact hI.1 p σ _ (fun v hv => (hne v (by rintro rfl; exact hm hv)).symm) this
  | other n => simp [effect] at he

theorem setv_self (σ : Nat → Bool) (y : Nat) : setv σ y (σ y) = σ := by
  funext v; simp only [setv]; split
  · rename_i e; rw [e]
  · rfl

theorem setv_setv (σ : Nat → Bool) (y : Nat) (a b : Bool) : setv (setv σ y a) y b = setv σ y b := by
  funext v; simp only [setv]; split <;> rfl

theorem iteration_next {S : Sig} {keep : Nat → Bool} {s s' : State} {e : Nat × Nat}
    (h : iteration S keep s e = .next s') :
    ∃ x y s2, s.items[e.2]? = some (some (.clause [y] [x])) ∧ canCompress S keep s y = true ∧ x ≠ y ∧
      compressAll y x { s with track := s.track.filter (fun e => e.1 != y) } (todo s y) = some s2 ∧
      s'.items = s2.items.set e.2 none ∧ s'.track = s2.track.erase e := by
  unfold iteration at h
  split at h
  · rename_i y x hi
    split at h
    · rename_i hc
      split at h
      · cases h
      · rename_i hne
        dsimp only at h
        split at h
        · cases h
        · rename_i s2 h2
          cases h
          exact ⟨x, y, s2, hi, hc, hne, h2, rfl, rfl⟩
    · cases h
  · cases h
  · cases h

theorem step_sol {I : Interp} {S : Sig} {keep : Nat → Bool} {s s' : State} {e : Nat × Nat} (hI : I.Respects S)
    (hex : Sound s) (hsep : Clean S s) (hdecl : Declared s) (h : iteration S keep s e = .next s') :
    ∃ y, keep y = false ∧ (∀ σ, s.Sol I σ → s'.Sol I σ) ∧ ∀ σ, s'.Sol I σ → ∃ b, s.Sol I (setv σ y b) := by
  obtain ⟨x, y, s2, hi0, hc, hxy, hall, hs', -⟩ := iteration_next h
  obtain ⟨hk, hnot, hsit⟩ := situation hex hdecl hi0 hxy hc
  have htodo : ∀ i ∈ todo s y, ∃ it, s.items[i]? = some (some it) ∧ y ∈ it.keys := fun i hi =>
    hex.mem y i (mem_todo.1 hi)
  have hlt : ∀ i ∈ todo s y, i < s.items.length := by
    intro i hi
    obtain ⟨it, h1, -⟩ := htodo i hi
    exact (List.getElem?_eq_some_iff.1 h1).1
  obtain ⟨k0, k1, k2, k3⟩ := compressAll_items _ _ _ hall (todo_nodup hex.nodup y) hlt
  dsimp only at k0 k1 k2 k3
  have hi0lt : e.2 < s.items.length := (List.getElem?_eq_some_iff.1 hi0).1
  have hget : ∀ j, j ≠ e.2 → s'.items[j]? = s2.items[j]? := by
    intro j hj
    rw [hs', List.getElem?_set_ne (by omega)]
  have hmem : ∀ {st : State} {it : Item}, some it ∈ st.items ↔ ∃ i : Nat, st.items[i]? = some (some it) := by
    intro st it
    exact List.mem_iff_getElem?
  refine ⟨y, hk, fun σ hσ it hit => ?_, fun σ hσ => ?_⟩
  · obtain ⟨j, hj⟩ := hmem.1 hit
    have hje : j ≠ e.2 := by
      rintro rfl
      rw [hs', List.getElem?_set_self (by omega)] at hj
      cases hj
    rw [hget j hje] at hj
    have hxy' : σ x = true → σ y = true := by
      intro hx
      rcases hσ _ (hmem.2 ⟨_, hi0⟩) with ⟨v, hv, h⟩ | ⟨v, hv, h⟩
      · simp only [List.mem_singleton] at hv; subst hv; exact h
      · simp only [List.mem_singleton] at hv; subst hv; rw [hx] at h; cases h
    by_cases hjl : j < s.items.length
    · by_cases hT : j ∈ todo s y
      · obtain ⟨it0, rep, added, a1, a2, a3, -⟩ := k2 j hT
        rw [a3] at hj
        cases hj
        obtain ⟨it1, b1, b2⟩ := htodo j hT
        rw [a1] at b1
        cases b1
        exact (effect_fwd b2 hxy' a2 (hσ _ (hmem.2 ⟨_, a1⟩))).1 _ rfl
      · rw [k1 j hT hjl] at hj
        exact hσ _ (hmem.2 ⟨_, hj⟩)
    · obtain ⟨i, hi, it0, rep, added, a1, a2, a3⟩ := k3 j it (by omega) hj
      obtain ⟨it1, b1, b2⟩ := htodo i hi
      rw [a1] at b1
      cases b1
      exact (effect_fwd b2 hxy' a2 (hσ _ (hmem.2 ⟨_, a1⟩))).2 _ a3
  · -- the items of `s'` that come from `s`
    have hkeep : ∀ i it, s.items[i]? = some (some it) → i ≠ e.2 → i ∉ todo s y → it.Holds I σ := by
      intro i it hi hne hT
      apply hσ
      refine hmem.2 ⟨i, ?_⟩
      rw [hget i hne, k1 i hT (List.getElem?_eq_some_iff.1 hi).1]
      exact hi
    have heff : ∀ i ∈ todo s y, ∃ it rep added, s.items[i]? = some (some it) ∧ y ∈ it.keys ∧
        effect y x it = some (rep, added) ∧ (∀ r, rep = some r → r.Holds I σ) ∧ ∀ a ∈ added, a.Holds I σ := by
      intro i hi
      obtain ⟨it, rep, added, a1, a2, a3, a4⟩ := k2 i hi
      obtain ⟨it1, b1, b2⟩ := htodo i hi
      rw [a1] at b1
      cases b1
      have hne : i ≠ e.2 := by rintro rfl; exact hnot hi
      refine ⟨it, rep, added, a1, b2, a2, ?_, ?_⟩
      · rintro r rfl
        exact hσ r (hmem.2 ⟨i, by rw [hget i hne, a3]⟩)
      · intro a ha
        obtain ⟨j, hj, hja⟩ := a4 a ha
        exact hσ a (hmem.2 ⟨j, by rw [hget j (by omega), hja]⟩)
    rcases hsit with ⟨d, xs, ht, hd, hocc⟩ | ⟨hocc, hdec⟩
    · refine ⟨σ y, ?_⟩
      rw [setv_self]
      intro it hit
      obtain ⟨i, hi⟩ := hmem.1 hit
      obtain ⟨it0, rep, added, a1, a2, a3, a4, a5⟩ := heff d (by rw [ht]; simp)
      rw [hd] at a1
      cases a1
      simp only [effect, Option.some.injEq, Prod.mk.injEq] at a3
      obtain ⟨rfl, rfl⟩ := a3
      have hfa := a4 _ rfl
      by_cases hie : i = e.2
      · subst hie
        rw [hi0] at hi
        cases hi
        cases hx : σ x with
        | false => exact Or.inr ⟨x, by simp, hx⟩
        | true =>
          refine Or.inl ⟨y, by simp, hfa.2 fun v hv => ?_⟩
          by_cases hvx : v = x
          · rw [hvx]; exact hx
          · rcases a5 (.clause [v] [x]) (by
              simp only [List.mem_map, List.mem_filter]
              exact ⟨v, ⟨hv, by simpa using hvx⟩, rfl⟩) with ⟨w, hw, h⟩ | ⟨w, hw, h⟩
            · simp only [List.mem_singleton] at hw; subst hw; exact h
            · simp only [List.mem_singleton] at hw; subst hw; rw [hx] at h; cases h
      · by_cases hid : i = d
        · subst hid
          rw [hd] at hi
          cases hi
          exact hfa
        · exact hkeep i it hi hie (by rw [ht]; simpa using hid)
    · refine ⟨σ x, ?_⟩
      intro it hit
      obtain ⟨i, hi⟩ := hmem.1 hit
      by_cases hT : i ∈ todo s y
      · obtain ⟨it0, rep, added, a1, a2, a3, a4, a5⟩ := heff i hT
        rw [hi] at a1
        cases a1
        exact effect_bwd hI hxy a2 a3 (fun p b hb => hsep.separate p b (by rw [← hb]; exact hit))
          (fun hd => ⟨(hdec i it hi hd).2.1, (hdec i it hi hd).2.2⟩) a4 a5
      · by_cases hie : i = e.2
        · subst hie
          rw [hi0] at hi
          cases hi
          cases hx : σ x with
          | false => exact Or.inr ⟨x, by simp, by simp [setv, hxy, hx]⟩
          | true => exact Or.inl ⟨y, by simp, by simp [setv]⟩
        · have hm : it.mentions S y = false := by
            by_contra hcon
            rcases hocc i it (mem_occSet.2 ⟨it, hi, by simpa using hcon⟩) hi with h | h
            · exact hie h
            · exact hT h
          have hd : it.declares ≠ some y := fun hd => hT (hdec i it hi hd).1
          exact holds_congr hI hm hd (fun v hv => by simp [setv, hv]) (hkeep i it hi hie hT)

/-! ## The multimap -/

theorem store_track (s : State) (i : Nat) (it : Item) : (store s i it).track = s.track ++ it.keys.map (·, i) := rfl

/-- While the items of `y` are processed. -/
structure Mid (y : Nat) (s : State) : Prop where
  nodup : s.track.Nodup
  mem : ∀ v i, (v, i) ∈ s.track → ∃ it, s.items[i]? = some (some it) ∧ v ∈ it.keys
  gone : ∀ i, (y, i) ∉ s.track

theorem keys_nodup {pos neg : List Nat} (h : neg.Nodup) : (Item.clause pos neg).keys.Nodup := h

theorem mid_add {y : Nat} {s : State} (h : Mid y s) {it : Item} (hk : it.keys.Nodup) (hy : y ∉ it.keys) :
    Mid y (addItem s it) := by
  refine ⟨?_, ?_, ?_⟩
  · rw [addItem, store_track, List.nodup_append]
    refine ⟨h.nodup, hk.map (fun a b hab => by simpa using hab), ?_⟩
    rintro ⟨v, i⟩ hv e he rfl
    obtain ⟨it', h1, -⟩ := h.mem v i hv
    have hlt := (List.getElem?_eq_some_iff.1 h1).1
    simp only [List.mem_map, Prod.mk.injEq] at he
    obtain ⟨a, -, -, h2⟩ := he
    omega
  · intro v i hv
    rw [addItem, store_track, List.mem_append] at hv
    rw [addItem_items]
    rcases hv with hv | hv
    · obtain ⟨it', h1, h2⟩ := h.mem v i hv
      refine ⟨it', ?_, h2⟩
      rw [List.getElem?_append_left (List.getElem?_eq_some_iff.1 h1).1]
      exact h1
    · simp only [List.mem_map, Prod.mk.injEq] at hv
      obtain ⟨a, ha, rfl, rfl⟩ := hv
      exact ⟨it, by simp, ha⟩
  · intro i hv
    rw [addItem, store_track, List.mem_append] at hv
    rcases hv with hv | hv
    · exact h.gone i hv
    · simp only [List.mem_map, Prod.mk.injEq] at hv
      obtain ⟨a, ha, rfl, -⟩ := hv
      exact hy ha

theorem mid_addAll {y : Nat} : ∀ (added : List Item) (s : State), Mid y s → (∀ a ∈ added, a.keys.Nodup ∧ y ∉ a.keys) →
    Mid y (added.foldl addItem s) := by
  intro added
  induction added with
  | nil => intro s h _; exact h
  | cons a as ih =>
    intro s h ha
    exact ih _ (mid_add h (ha a (by simp)).1 (ha a (by simp)).2) (fun b hb => ha b (List.mem_cons_of_mem _ hb))

theorem untrack_sub (old i : Nat) : ∀ (vs : List Nat) (track : List (Nat × Nat)),
    (untrack old i track vs).Sublist track := by
  intro vs
  induction vs with
  | nil => intro track; exact List.Sublist.refl _
  | cons v vs ih =>
    intro track
    unfold untrack
    refine (ih _).trans ?_
    split
    · exact List.Sublist.refl _
    · exact List.erase_sublist

theorem untrack_gone (old i : Nat) : ∀ (vs : List Nat) (track : List (Nat × Nat)), track.Nodup → ∀ v ∈ vs, v ≠ old →
    (v, i) ∉ untrack old i track vs := by
  intro vs
  induction vs with
  | nil => simp
  | cons w vs ih =>
    intro track hnd v hv hvo
    unfold untrack
    by_cases hwv : v = w
    · subst hwv
      rw [if_neg hvo]
      intro hm
      have := (untrack_sub old i vs _).subset hm
      rw [hnd.mem_erase_iff] at this
      exact this.1 rfl
    · have hv' : v ∈ vs := by simpa [hwv] using hv
      refine ih _ ?_ v hv' hvo
      split
      · exact hnd
      · exact hnd.erase _

/-- Removing an item that has no entries any more. -/
theorem mid_set {y : Nat} {s : State} (h : Mid y s) {i : Nat} {rep : Option Item} {track : List (Nat × Nat)}
    (hsub : track.Sublist s.track)
    (hrep : ∀ v, (v, i) ∈ track → ∃ r, rep = some r ∧ v ∈ r.keys) :
    Mid y { items := s.items.set i rep, track := track } := by
  refine ⟨hsub.nodup h.nodup, ?_, fun j hj => h.gone j (hsub.subset hj)⟩
  intro v j hv
  obtain ⟨it, h1, h2⟩ := h.mem v j (hsub.subset hv)
  by_cases hji : j = i
  · subst hji
    obtain ⟨r, hr, hvr⟩ := hrep v hv
    exact ⟨r, by simp [(List.getElem?_eq_some_iff.1 h1).1, hr], hvr⟩
  · exact ⟨it, by dsimp only; rw [List.getElem?_set_ne (fun h => hji h.symm)]; exact h1, h2⟩

theorem mid_compressItem {y x : Nat} {s s' : State} {i : Nat} (hxy : x ≠ y) (h : Mid y s)
    (hc : compressItem y x s i = some s') {it : Item} (hit : s.items[i]? = some (some it)) (hy : y ∈ it.keys)
    (hn : ∀ rep added, effect y x it = some (rep, added) → ∀ a ∈ added, a.keys.Nodup) : Mid y s' := by
  have hilt := (List.getElem?_eq_some_iff.1 hit).1
  have hmem : ∀ v, (v, i) ∈ s.track → v ∈ it.keys := by
    intro v hv
    obtain ⟨it', h1, h2⟩ := h.mem v i hv
    rw [hit] at h1
    cases h1
    exact h2
  unfold compressItem at hc
  rw [hit] at hc
  dsimp only at hc
  split at hc
  · cases hc
  · rename_i rep added he
    have hn' := hn rep added he
    simp only [Option.some.injEq] at hc
    subst hc
    cases it with
    | clause pos neg =>
      dsimp only
      refine mid_addAll _ _ (mid_set h ?_ ?_) ?_
      · split
        · exact List.Sublist.refl _
        · exact untrack_sub _ _ _ _
      · intro v hv
        exfalso
        split at hv
        · rename_i hcond
          have hvk := hmem v hv
          simp only [Item.keys] at hvk hy
          obtain ⟨z, hz⟩ := List.length_eq_one_iff.1 hcond.1
          rw [hz, List.mem_singleton] at hvk hy
          rw [hvk, ← hy] at hv
          exact h.gone i hv
        · have hvs := (untrack_sub _ _ _ _).subset hv
          by_cases hvy : v = y
          · subst hvy; exact h.gone i hvs
          · exact untrack_gone y i neg s.track h.nodup v (hmem v hvs) hvy hv
      · intro a ha
        refine ⟨hn' a ha, ?_⟩
        simp only [effect] at he
        split at he
        · cases he; simp at ha
        · cases he
          simp only [List.mem_singleton] at ha
          subst ha
          simp only [Item.keys, List.mem_map, not_exists, not_and]
          intro v _ hv
          split at hv
          · exact hxy hv
          · rename_i hne; exact hne hv
    | imp p b =>
      simp only [Item.keys, List.mem_singleton] at hy
      subst hy
      cases he
      dsimp only
      simp only [List.foldl_nil]
      have hno : ∀ v, (v, i) ∉ s.track := by
        intro v hv
        have := hmem v hv
        simp only [Item.keys, List.mem_singleton] at this
        subst this
        exact h.gone i hv
      have hm := mid_set (i := i) (rep := some (Item.imp p x)) h (List.Sublist.refl _) (fun v hv => absurd hv (hno v))
      refine ⟨?_, ?_, ?_⟩
      · rw [store_track, List.nodup_append]
        refine ⟨hm.nodup, by simp [Item.keys], ?_⟩
        rintro e he1 e' he2 rfl
        simp only [Item.keys, List.map_cons, List.map_nil, List.mem_singleton] at he2
        subst he2
        exact hno x he1
      · intro v j hv
        rw [store_track, List.mem_append] at hv
        rcases hv with hv | hv
        · exact hm.mem v j hv
        · simp only [Item.keys, List.map_cons, List.map_nil, List.mem_singleton, Prod.mk.injEq] at hv
          obtain ⟨rfl, rfl⟩ := hv
          exact ⟨.imp p v, by simp [store, hilt], by simp [Item.keys]⟩
      · intro j hv
        rw [store_track, List.mem_append] at hv
        rcases hv with hv | hv
        · exact hm.gone j hv
        · simp only [Item.keys, List.map_cons, List.map_nil, List.mem_singleton, Prod.mk.injEq] at hv
          exact hxy hv.1.symm
    | revmap b =>
      cases he
      dsimp only
      exact mid_set h (List.Sublist.refl _) (fun v hv => ⟨_, rfl, hmem v hv⟩)
    | forallD z xs =>
      cases he
      dsimp only
      refine mid_addAll _ _ (mid_set h (List.Sublist.refl _) (fun v hv => ⟨_, rfl, hmem v hv⟩)) ?_
      intro a ha
      refine ⟨hn' a ha, ?_⟩
      simp only [List.mem_map] at ha
      obtain ⟨v, -, rfl⟩ := ha
      simpa [Item.keys] using hxy.symm
    | existsD z xs pos =>
      cases pos with
      | false => simp [effect] at he
      | true =>
        simp only [Item.keys, if_true, List.mem_singleton] at hy
        subst hy
        cases xs with
        | nil => simp [effect] at he
        | cons x0 xs =>
          simp only [effect, Option.some.injEq, Prod.mk.injEq] at he
          obtain ⟨rfl, rfl⟩ := he
          dsimp only
          refine mid_addAll _ _ (mid_set h (List.Sublist.refl _) ?_) ?_
          · intro v hv
            have := hmem v hv
            simp only [Item.keys, if_true, List.mem_singleton] at this
            subst this
            exact absurd hv (h.gone i)
          · intro a ha
            refine ⟨hn' a ha, ?_⟩
            split at ha
            · simp only [List.mem_singleton] at ha
              subst ha
              simpa [Item.keys] using hxy.symm
            · simp at ha
    | predD z p pos =>
      cases pos with
      | false => simp [effect] at he
      | true =>
        cases he
        dsimp only
        refine mid_addAll _ _ (mid_set h (List.Sublist.refl _) (fun v hv => ⟨_, rfl, hmem v hv⟩)) ?_
        intro a ha
        simp only [List.mem_singleton] at ha
        subst ha
        simpa [Item.keys] using hxy.symm
    | other n => simp [effect] at he

theorem mid_compressAll {y x : Nat} (hxy : x ≠ y) : ∀ (T : List Nat) (s s' : State), Mid y s → T.Nodup →
    compressAll y x s T = some s' →
    (∀ i ∈ T, ∃ it, s.items[i]? = some (some it) ∧ y ∈ it.keys ∧
      ∀ rep added, effect y x it = some (rep, added) → ∀ a ∈ added, a.keys.Nodup) → Mid y s' := by
  intro T
  induction T with
  | nil =>
    intro s s' h _ hc _
    simp only [compressAll, Option.some.injEq] at hc
    subst hc; exact h
  | cons i T ih =>
    intro s s' h hnd hc hT
    simp only [compressAll] at hc
    split at hc
    · cases hc
    · rename_i s1 h1
      obtain ⟨it, a1, a2, a3⟩ := hT i (by simp)
      have hm := mid_compressItem hxy h h1 a1 a2 a3
      obtain ⟨-, rep, added, -, -, hs1⟩ := compressItem_items h1
      have hnd' := List.nodup_cons.1 hnd
      refine ih s1 s' hm hnd'.2 hc (fun j hj => ?_)
      obtain ⟨jt, b1, b2, b3⟩ := hT j (List.mem_cons_of_mem _ hj)
      refine ⟨jt, ?_, b2, b3⟩
      have hne : i ≠ j := fun h => hnd'.1 (h ▸ hj)
      have hlt := (List.getElem?_eq_some_iff.1 b1).1
      rw [hs1, List.getElem?_append_left (by simpa using hlt), List.getElem?_set_ne hne]
      exact b1

theorem step_sound {S : Sig} {keep : Nat → Bool} {s s' : State} {e : Nat × Nat} (hex : Sound s) (he : e ∈ s.track)
    (hcl : Clean S s') (h : iteration S keep s e = .next s') : Sound s' := by
  obtain ⟨x, y, s2, hi0, hc, hxy, hall, hs', ht'⟩ := iteration_next h
  have hnd := todo_nodup hex.nodup y
  have htodo : ∀ i ∈ todo s y, ∃ it, s.items[i]? = some (some it) ∧ y ∈ it.keys := fun i hi =>
    hex.mem y i (mem_todo.1 hi)
  have hlt : ∀ i ∈ todo s y, i < s.items.length := by
    intro i hi
    obtain ⟨it, h1, -⟩ := htodo i hi
    exact (List.getElem?_eq_some_iff.1 h1).1
  have hi0lt : e.2 < s.items.length := (List.getElem?_eq_some_iff.1 hi0).1
  obtain ⟨k0, k1, k2, k3⟩ := compressAll_items _ _ _ hall hnd hlt
  dsimp only at k0 k1 k2 k3
  have hstart : Mid y { s with track := s.track.filter (fun e => e.1 != y) } := by
    refine ⟨hex.nodup.filter _, ?_, ?_⟩
    · intro v i hv
      exact hex.mem v i (List.mem_filter.1 hv).1
    · intro i hi
      have := (List.mem_filter.1 hi).2
      simp at this
  have hmid := mid_compressAll hxy (todo s y) _ s2 hstart hnd hall (fun i hi => by
    obtain ⟨it, h1, h2⟩ := htodo i hi
    refine ⟨it, h1, h2, fun rep added hr a ha => ?_⟩
    obtain ⟨it', rep', added', b1, b2, -, b4⟩ := k2 i hi
    rw [h1] at b1
    cases b1
    rw [hr] at b2
    cases b2
    cases a with
    | clause pos neg =>
      obtain ⟨j, hj, hja⟩ := b4 _ ha
      refine hcl.nodup pos neg ?_
      have : s'.items[j]? = some (some (.clause pos neg)) := by
        rw [hs', List.getElem?_set_ne (by omega)]; exact hja
      exact List.mem_of_getElem? this
    | existsD _ _ pos => cases pos <;> simp [Item.keys]
    | predD _ _ pos => cases pos <;> simp [Item.keys]
    | _ => simp [Item.keys])
  have hex1 : e.1 = x := by
    obtain ⟨it, h1, h2⟩ := hex.mem e.1 e.2 he
    rw [hi0] at h1
    cases h1
    simpa [Item.keys] using h2
  have hsub : (s2.track.erase e).Sublist s2.track := List.erase_sublist
  refine ⟨by rw [ht']; exact hmid.nodup.erase _, ?_⟩
  intro v i hv
  rw [ht'] at hv
  obtain ⟨it, h1, h2⟩ := hmid.mem v i (hsub.subset hv)
  by_cases hie : i = e.2
  · exfalso
    subst hie
    -- the implication itself is not changed by the processing
    have hnot : e.2 ∉ todo s y := by
      intro hm
      obtain ⟨it', c1, c2⟩ := htodo _ hm
      rw [hi0] at c1
      cases c1
      simp only [Item.keys, List.mem_singleton] at c2
      exact hxy c2.symm
    rw [k1 _ hnot hi0lt, hi0] at h1
    cases h1
    simp only [Item.keys, List.mem_singleton] at h2
    have : (v, e.2) = e := by rw [h2, ← hex1]
    rw [this, hmid.nodup.mem_erase_iff] at hv
    exact hv.1 rfl
  · exact ⟨it, by rw [hs', List.getElem?_set_ne (fun h => hie h.symm)]; exact h1, h2⟩

theorem effect_declares {x y : Nat} {it : Item} {rep : Option Item} {added : List Item}
    (he : effect y x it = some (rep, added)) :
    (∀ r, rep = some r → r.declares = it.declares) ∧ ∀ a ∈ added, a.declares = none := by
  cases it with
  | clause pos neg =>
    simp only [effect] at he
    split at he <;> cases he <;> simp [Item.declares]
  | imp p b => cases he; simp [Item.declares]
  | revmap b => cases he; simp [Item.declares]
  | forallD z xs =>
    cases he
    refine ⟨by simp, fun a ha => ?_⟩
    simp only [List.mem_map] at ha
    obtain ⟨v, -, rfl⟩ := ha
    rfl
  | existsD z xs pos =>
    cases pos with
    | false => simp [effect] at he
    | true =>
      cases xs with
      | nil => simp [effect] at he
      | cons x0 xs =>
        simp only [effect, Option.some.injEq, Prod.mk.injEq] at he
        obtain ⟨rfl, rfl⟩ := he
        refine ⟨by simp, fun a ha => ?_⟩
        split at ha
        · simp only [List.mem_singleton] at ha; subst ha; rfl
        · simp at ha
  | predD z p pos =>
    cases pos with
    | false => simp [effect] at he
    | true => cases he; simp [Item.declares]
  | other n => simp [effect] at he

theorem step_declared {S : Sig} {keep : Nat → Bool} {s s' : State} {e : Nat × Nat} (hex : Sound s)
    (hd : Declared s) (h : iteration S keep s e = .next s') : Declared s' := by
  obtain ⟨x, y, s2, hi0, hc, hxy, hall, hs', -⟩ := iteration_next h
  have hlt : ∀ i ∈ todo s y, i < s.items.length := by
    intro i hi
    obtain ⟨it, h1, -⟩ := hex.mem y i (mem_todo.1 hi)
    exact (List.getElem?_eq_some_iff.1 h1).1
  obtain ⟨k0, k1, k2, k3⟩ := compressAll_items _ _ _ hall (todo_nodup hex.nodup y) hlt
  dsimp only at k0 k1 k2 k3
  have hi0lt : e.2 < s.items.length := (List.getElem?_eq_some_iff.1 hi0).1
  have key : ∀ (j : Nat) (it : Item) (z : Nat), s'.items[j]? = some (some it) → it.declares = some z →
      ∃ it0, s.items[j]? = some (some it0) ∧ it0.declares = some z := by
    intro j it z hj hz
    have hje : j ≠ e.2 := by
      rintro rfl
      rw [hs', List.getElem?_set_self (by omega)] at hj
      cases hj
    rw [hs', List.getElem?_set_ne (by omega)] at hj
    by_cases hjl : j < s.items.length
    · by_cases hT : j ∈ todo s y
      · obtain ⟨it0, rep, added, a1, a2, a3, -⟩ := k2 j hT
        rw [a3] at hj
        cases hj
        exact ⟨it0, a1, by rw [← (effect_declares a2).1 _ rfl]; exact hz⟩
      · rw [k1 j hT hjl] at hj
        exact ⟨it, hj, hz⟩
    · obtain ⟨i, hi, it0, rep, added, a1, a2, a3⟩ := k3 j it (by omega) hj
      rw [(effect_declares a2).2 _ a3] at hz
      cases hz
  intro i j it jt z h1 h2 h3 h4
  obtain ⟨it0, a1, a2⟩ := key i it z h1 h3
  obtain ⟨jt0, b1, b2⟩ := key j jt z h2 h4
  exact hd i j it0 jt0 z a1 b1 a2 b2

theorem start_track (items : List Item) (v i : Nat) :
    (v, i) ∈ (start items).track ↔ ∃ it, items[i]? = some it ∧ v ∈ it.keys := by
  simp only [start, List.mem_flatten, List.mem_map, Prod.exists]
  constructor
  · rintro ⟨l, ⟨it, j, hm, rfl⟩, h⟩
    rw [List.mk_mem_zipIdx_iff_getElem?] at hm
    simp only [List.mem_map, Prod.mk.injEq] at h
    obtain ⟨a, ha, rfl, rfl⟩ := h
    exact ⟨it, hm, ha⟩
  · rintro ⟨it, h1, h2⟩
    exact ⟨_, ⟨it, i, List.mk_mem_zipIdx_iff_getElem?.2 h1, rfl⟩, List.mem_map.2 ⟨v, h2, rfl⟩⟩

theorem start_sound {S : Sig} {items : List Item} (hc : Clean S (start items)) : Sound (start items) := by
  refine ⟨?_, ?_⟩
  · have hk : ∀ it ∈ items, it.keys.Nodup := by
      intro it hit
      cases it with
      | clause pos neg => exact hc.nodup pos neg (by simpa [start] using hit)
      | existsD _ _ pos => cases pos <;> simp [Item.keys]
      | predD _ _ pos => cases pos <;> simp [Item.keys]
      | _ => simp [Item.keys]
    have : ∀ (l : List Item) (n : Nat), (∀ it ∈ l, it.keys.Nodup) →
        (((l.zipIdx n).map fun p => p.1.keys.map (·, p.2)).flatten).Nodup := by
      intro l
      induction l with
      | nil => intro n _; simp
      | cons a l ih =>
        intro n hl
        simp only [List.zipIdx_cons, List.map_cons, List.flatten_cons]
        rw [List.nodup_append]
        refine ⟨(hl a (by simp)).map (fun p q hpq => by simpa using hpq),
          ih (n + 1) (fun it hit => hl it (List.mem_cons_of_mem _ hit)), ?_⟩
        rintro ⟨v, i⟩ h1 e h2 rfl
        simp only [List.mem_map, Prod.mk.injEq] at h1
        obtain ⟨w, -, -, rfl⟩ := h1
        simp only [List.mem_flatten, List.mem_map, Prod.exists] at h2
        obtain ⟨m, ⟨it, j, hm, rfl⟩, h⟩ := h2
        simp only [List.mem_map, Prod.mk.injEq] at h
        obtain ⟨w', -, -, rfl⟩ := h
        have := List.le_snd_of_mem_zipIdx hm
        simp only at this
        omega
    exact this items 0 hk
  · intro v i h
    obtain ⟨it, h1, h2⟩ := (start_track items v i).1 h
    exact ⟨it, by simp [start, h1], h2⟩

theorem run_sol {I : Interp} {S : Sig} {keep : Nat → Bool} {s s' : State} (hI : I.Respects S)
    (hr : Run S keep s s') : Sound s → Clean S s → Declared s → ∀ σ, s.Extends I keep σ ↔ s'.Extends I keep σ := by
  induction hr with
  | done s => intro _ _ _ σ; exact Iff.rfl
  | step s s1 s2 e he h hc hr ih =>
    intro hs hcl hd σ
    rw [← ih (step_sound hs he hc h) hc (step_declared hs hd h) σ]
    obtain ⟨y, hy, h1, h2⟩ := step_sol hI hs hcl hd h
    constructor
    · rintro ⟨τ, ht, hsol⟩; exact ⟨τ, ht, h1 τ hsol⟩
    · rintro ⟨τ, ht, hsol⟩
      obtain ⟨b, hb⟩ := h2 τ hsol
      refine ⟨_, fun v hv => ?_, hb⟩
      have hvy : v ≠ y := by rintro rfl; rw [hy] at hv; cases hv
      simp [setv, hvy, ht v hv]

theorem compressAll_defined {y x : Nat} : ∀ (T : List Nat) (s : State), T.Nodup →
    (∀ i ∈ T, ∃ it, s.items[i]? = some (some it) ∧ effect y x it ≠ none) → compressAll y x s T ≠ none := by
  intro T
  induction T with
  | nil => intro s _ _; simp [compressAll]
  | cons i T ih =>
    intro s hnd hT
    have hnd' := List.nodup_cons.1 hnd
    obtain ⟨it, h1, h2⟩ := hT i (by simp)
    simp only [compressAll]
    split
    · rename_i hn
      unfold compressItem at hn
      rw [h1] at hn
      dsimp only at hn
      split at hn
      · rename_i he; exact absurd he h2
      · cases hn
    · rename_i s1 hs1
      obtain ⟨it', rep, added, -, -, hs⟩ := compressItem_items hs1
      refine ih s1 hnd'.2 (fun j hj => ?_)
      obtain ⟨jt, b1, b2⟩ := hT j (List.mem_cons_of_mem _ hj)
      refine ⟨jt, ?_, b2⟩
      have hne : i ≠ j := fun h => hnd'.1 (h ▸ hj)
      have hlt := (List.getElem?_eq_some_iff.1 b1).1
      rw [hs, List.getElem?_append_left (by simpa using hlt), List.getElem?_set_ne hne]
      exact b1

theorem effect_defined {y x : Nat} {it : Item} (hy : y ∈ it.keys) (hne : ∀ b, it ≠ .existsD y [] b) :
    effect y x it ≠ none := by
  cases it with
  | clause pos neg => simp only [effect]; split <;> simp
  | existsD z xs pos =>
    cases pos with
    | false => simp [Item.keys] at hy
    | true =>
      simp only [Item.keys, if_true, List.mem_singleton] at hy
      subst hy
      cases xs with
      | nil => exact absurd rfl (hne true)
      | cons a as => simp [effect]
  | predD z p pos =>
    cases pos with
    | false => simp [Item.keys] at hy
    | true => simp [effect]
  | other n => simp [Item.keys] at hy
  | _ => simp [effect]

end Chain
end MZ
