import Verif.Occ.Lemmas

namespace MZ
namespace Occ

/-- Declarations are found by their index. -/
structure Idx (s : State) : Prop where
  idem : ∀ v, s.root (s.root v) = s.root v
  idx : ∀ v j, s.idx v = some j → s.items[j]? = some none ∨ ∃ rhs, Live s j (.decl v rhs)
  idx' : ∀ v j rhs, Live s j (.decl v rhs) → s.idx v = some j ∧ s.root v = v

/-- Every occurrence is recorded. -/
def Cov (s : State) : Prop := ∀ j v, Uses s j v → ∃ S, s.map (s.root v) = some S ∧ j ∈ S

theorem linv_iff (s : State) : LInv none s ↔ Idx s ∧ Cov s := by
  constructor
  · intro H
    refine ⟨⟨H.idem, H.idx, H.idx'⟩, ?_⟩
    intro j v h
    obtain ⟨S, hS⟩ := Option.ne_none_iff_exists'.mp (H.dfd j v h)
    exact ⟨S, hS, H.cov j v (by simp) h S hS⟩
  · rintro ⟨I, C⟩
    refine ⟨I.idem, I.idx, I.idx', ?_, ?_⟩
    · intro j v h
      obtain ⟨S, hS, _⟩ := C j v h
      simp [hS]
    · intro j v _ h S hS
      obtain ⟨S', hS', h'⟩ := C j v h
      rw [hS] at hS'
      simp at hS'
      exact hS' ▸ h'

theorem live_unique {s : State} {j : Nat} {b b' : Body} (h : Live s j b) (h' : Live s j b') : b = b' := by
  rw [Live] at h h'
  rw [h] at h'
  simpa using h'

/-- A new content for the item at a place where there is none. -/
theorem put_item {s s' : State} (C : Cov s) {i : Nat} {b : Body} (hno : ∀ b', ¬ Live s i b') (hr : s'.root = s.root)
    (hm : s'.map = insMap s i b.occ) (hi : Live s' i b) (hi' : ∀ j, j ≠ i → ∀ b', Live s' j b' ↔ Live s j b') :
    Cov s' ∧ (Exact s → Exact s') := by
  constructor
  · rintro j v ⟨b', h1, u, h2, h3⟩
    rw [hr] at h3
    rw [hm, hr]
    by_cases hj : j = i
    · subst hj
      have := live_unique h1 hi
      subst this
      have : s.root v ∈ b'.occ.map s.root := List.mem_map.mpr ⟨u, h2, h3⟩
      exact ⟨insert j ((s.map (s.root v)).getD ∅), by simp only [insMap, if_pos this], Finset.mem_insert_self _ _⟩
    · obtain ⟨S, hS, hjS⟩ := C j v ⟨b', (hi' j hj b').mp h1, u, h2, h3⟩
      simp only [insMap]
      split
      · exact ⟨_, rfl, by simp [hS, hjS]⟩
      · exact ⟨S, hS, hjS⟩
  · intro X r hrr S hS k hk
    rw [hr] at hrr
    rw [hm] at hS
    have old : ∀ S0, s.map r = some S0 → k ∈ S0 → Uses s' k r := by
      intro S0 h0 hk0
      obtain ⟨b', h1, u, h2, h3⟩ := X r hrr S0 h0 k hk0
      have hki : k ≠ i := by rintro rfl; exact hno _ h1
      exact ⟨b', (hi' k hki b').mpr h1, u, h2, by rw [hr]; exact h3⟩
    simp only [insMap] at hS
    split at hS
    · rename_i hmem
      simp only [Option.some.injEq] at hS
      subst hS
      rcases Finset.mem_insert.mp hk with h | h
      · subst h
        obtain ⟨u, h2, h3⟩ := List.mem_map.mp hmem
        exact ⟨b, hi, u, h2, by rw [hr, h3, hrr]⟩
      · cases hm0 : s.map r with
        | none => simp [hm0] at h
        | some S0 => exact old S0 hm0 (by simpa [hm0] using h)
    · exact old S hS hk

theorem addItem_spec {s : State} (I : Idx s) (C : Cov s) (b : Body)
    (fresh : ∀ v rhs, b = .decl v rhs → s.idx v = none ∧ s.root v = v) :
    Idx (addItem s b) ∧ Cov (addItem s b) ∧ (Exact s → Exact (addItem s b)) := by
  have e1 : (addItem s b).items = s.items ++ [some b] := by cases b <;> simp [addItem, collect_eq]
  have e2 : (addItem s b).root = s.root := by cases b <;> simp [addItem, collect_eq]
  have e3 : (addItem s b).map = insMap s s.items.length b.occ := by
    cases b <;> simp only [addItem, collect_eq] <;> rfl
  have e4 : (addItem s b).idx = match (generalizing := false) b with
      | .decl v _ => upd s.idx v (some s.items.length) | .con _ => s.idx := by
    cases b <;> simp [addItem, collect_eq]
  have hl : Live (addItem s b) s.items.length b := by rw [Live, e1]; simp
  have hl' : ∀ j, j ≠ s.items.length → ∀ b', Live (addItem s b) j b' ↔ Live s j b' := by
    intro j hj b'
    rw [Live, Live, e1]
    by_cases h : j < s.items.length
    · rw [List.getElem?_append_left h]
    · rw [List.getElem?_eq_none (by simp; omega), List.getElem?_eq_none (by omega)]
  refine ⟨⟨by rw [e2]; exact I.idem, ?_, ?_⟩, put_item C (i := s.items.length) (b := b) ?_ e2 e3 hl hl'⟩
  · intro v j hj
    have old : s.idx v = some j → (addItem s b).items[j]? = some none ∨ ∃ rhs, Live (addItem s b) j (.decl v rhs) := by
      intro h
      rcases I.idx v j h with h' | ⟨rhs, h'⟩
      · left
        rw [e1, List.getElem?_append_left]
        · exact h'
        · by_contra hc; rw [List.getElem?_eq_none (by omega)] at h'; simp at h'
      · exact .inr ⟨rhs, (hl' j (by have := live_lt h'; omega) _).mpr h'⟩
    rw [e4] at hj
    cases b with
    | con occ => exact old hj
    | decl w rhs =>
      simp only [upd] at hj
      split at hj
      · rename_i h; subst h; simp at hj; subst hj; exact .inr ⟨rhs, hl⟩
      · exact old hj
  · intro v j rhs hj
    rw [e4, e2]
    by_cases hjl : j = s.items.length
    · subst hjl
      have := live_unique hj hl
      subst this
      simp only [upd, if_pos]
      exact ⟨trivial, (fresh v rhs rfl).2⟩
    · obtain ⟨h1, h2⟩ := I.idx' v j rhs ((hl' j hjl _).mp hj)
      refine ⟨?_, h2⟩
      cases b with
      | con occ => exact h1
      | decl w rhs' =>
        simp only [upd]
        split
        · rename_i h; subst h; rw [(fresh _ _ rfl).1] at h1; simp at h1
        · exact h1
  · intro b' h; have := live_lt h; omega

theorem not_uses {s : State} (C : Cov s) {v : Nat} (h : occurrences s v = 0) (k : Nat) : ¬ Uses s k v := by
  intro hu
  obtain ⟨S, hS, hk⟩ := C k v hu
  rw [occ_zero.mp h S hS] at hk
  simp at hk

theorem removeItem_spec (E : Env) {s : State} (I : Idx s) (C : Cov s) {i : Nat} {b : Body} (hb : Live s i b) :
    ∃ s', removeItem E s i = .done s' ∧ Idx s' ∧ Cov s' ∧ (Exact s → Exact s') ∧ s'.root = s.root ∧ s'.idx = s.idx ∧
      s'.items[i]? = some none ∧
      (∀ j, j ≠ i → s'.items[j]? = s.items[j]? ∨ (s'.items[j]? = some none ∧
        ∃ v rhs, Live s j (.decl v rhs) ∧ E.free v = true ∧ E.output v = false ∧ ∀ k, ¬ Uses s' k v)) ∧
      (∀ r j, s.idx r = some j → E.free r = true → E.output r = false → s.map r ≠ some ∅ → s'.map r = some ∅ →
        s'.items[j]? = some none) ∧ (∀ r, s'.map r = none ↔ s.map r = none) := by
  have H := (linv_iff s).mpr ⟨I, C⟩
  obtain ⟨ds, h1, h2, h3⟩ := uncollect_eq E.free i b.occ s (fun u hu => H.dfd i u ⟨_, hb, u, hu, rfl⟩)
  have hmem : ∀ r S, eraseMap s i b.occ r = some S → ∃ S0, s.map r = some S0 ∧ S ⊆ S0 ∧ (r ∈ b.occ.map s.root → i ∉ S) ∧
      ∀ k ∈ S0, k ≠ i → k ∈ S := by
    intro r S h
    simp only [eraseMap] at h
    split at h
    · obtain ⟨S0, a, rfl⟩ := Option.map_eq_some_iff.mp h
      exact ⟨S0, a, Finset.erase_subset _ _, by simp, by intro k hk hki; simp [hk, hki]⟩
    · rename_i hn
      exact ⟨S, h, fun _ h => h, fun h => absurd h hn, fun k hk _ => hk⟩
  have H1 : LInv (some i) { s with map := eraseMap s i b.occ } := by
    refine ⟨I.idem, I.idx, I.idx', ?_, ?_⟩
    · intro j v h
      have := H.dfd j v h
      simp only [eraseMap]
      split <;> simpa using this
    · intro j v hj h S hS
      obtain ⟨S0, a, _, _, d⟩ := hmem _ _ hS
      exact d j (H.cov j v (by simp) h S0 a) (by simpa using hj)
  have X1 : Exact s → Exact { s with map := eraseMap s i b.occ } := by
    intro X r hr S hS k hk
    obtain ⟨S0, a, c, _⟩ := hmem _ _ hS
    exact X r hr S0 a k (c hk)
  obtain ⟨s2, a1, a2, a3, a4, a5⟩ := loop_spec true E.free E.output E.free (fun _ _ h => h) (some i) s (size s + ds.length)
    { s with map := eraseMap s i b.occ } ds.reverse H1 (by simp [size]) (by
      intro _ d hd
      obtain ⟨m1, m2, m3⟩ := (h3 d).mp (List.mem_reverse.mp hd)
      refine ⟨?_, m3⟩
      rw [occ_zero]
      intro S hS
      obtain ⟨u, _, hu⟩ := List.mem_map.mp m1
      have : s.root d = d := by rw [← hu, I.idem]
      simp only [this] at hS
      rw [m2] at hS
      simpa using hS.symm)
  have hlen : i < s2.items.length := by rw [a3.len]; exact live_lt hb
  have I3 : Idx { s2 with items := s2.items.set i none } := by
    refine ⟨a2.idem, ?_, ?_⟩
    · intro v k hk
      by_cases hki : k = i
      · left; subst hki; simp [hlen]
      · rcases a2.idx v k hk with h | ⟨rhs, h⟩
        · left; simpa [Ne.symm hki] using h
        · exact .inr ⟨rhs, set_none_some.mpr ⟨hki, h⟩⟩
    · intro v k rhs h
      exact a2.idx' v k rhs (set_none_some.mp h).2
  have C3 : Cov { s2 with items := s2.items.set i none } := by
    rintro j v ⟨b', q1, u, q2, q3⟩
    obtain ⟨q4, q5⟩ := set_none_some.mp q1
    have hu : Uses s2 j v := ⟨b', q5, u, q2, q3⟩
    obtain ⟨S, hS⟩ := Option.ne_none_iff_exists'.mp (a2.dfd j v hu)
    exact ⟨S, hS, a2.cov j v (by simpa using q4) hu S hS⟩
  refine ⟨{ s2 with items := s2.items.set i none }, ?_, I3, C3, ?_, a3.root, a3.idx, by simp [hlen], ?_, ?_, ?_⟩
  · have ha : cascade E (size s + ds.length) { s with map := eraseMap s i b.occ } ds.reverse = .done s2 := a1
    rw [removeItem, show s.items[i]? = some (some b) from hb]
    simp only [h1, ha]
  · intro X r hr S hS k hk
    simp only at hr hS
    obtain ⟨b', q1, u, q2, q3⟩ := a4 (X1 X) r hr S hS k hk
    refine ⟨b', set_none_some.mpr ⟨?_, q1⟩, u, q2, q3⟩
    rintro rfl
    obtain ⟨S1, p1, p2⟩ := a3.sub r S hS
    obtain ⟨S0, p3, p4, p5, _⟩ := hmem _ _ p1
    rw [a3.root] at hr
    simp only at hr
    obtain ⟨b0, w1, u0, w2, w3⟩ := X r hr S0 p3 k (p4 (p2 hk))
    have := live_unique w1 hb
    subst this
    exact p5 (List.mem_map.mpr ⟨u0, w2, w3.trans hr⟩) (p2 hk)
  · intro j hj
    simp only
    rw [List.getElem?_set_ne (Ne.symm hj)]
    rcases a3.items j with h | ⟨h, v, rhs, c, d, f, g⟩
    · exact .inl h
    · exact .inr ⟨h, v, rhs, c, d, f, not_uses C3 g⟩
  · intro r j q1 q2 q3 q4 q5
    simp only at q5 ⊢
    by_cases hji : j = i
    · subst hji; simp [hlen]
    · rw [List.getElem?_set_ne (Ne.symm hji)]
      have hP : Pend E.free E.output E.free s { s with map := eraseMap s i b.occ } ds.reverse := by
        intro r' j' p1 p2 p3 p4 p5 p6
        right
        simp only at p6
        rw [List.mem_reverse, h3]
        refine ⟨?_, p6, p2⟩
        by_contra hcon
        simp only [eraseMap, if_neg hcon] at p6
        exact p5 p6
      rcases a5 hP r j (by rw [a3.idx]; exact q1) q2 q3 q2 q4 q5 with h | h
      · exact h
      · simp at h
  · intro r
    refine (a3.nn r).trans ?_
    simp only [eraseMap]
    split <;> simp

theorem removeDeleted_spec (E : Env) {s : State} (I : Idx s) (C : Cov s) (vs : List Nat) :
    ∃ s', removeDeleted E s vs = .done s' ∧ Idx s' ∧ Cov s' ∧ (Exact s → Exact s') ∧ s'.root = s.root ∧ s'.idx = s.idx ∧
      (∀ j : Nat, s'.items[j]? = s.items[j]? ∨ (s'.items[j]? = some none ∧
        ∃ v rhs, Live s j (.decl v rhs) ∧ E.removable v = true ∧ ∀ k, ¬ Uses s' k v)) ∧
      (∀ v ∈ vs, ∀ j, s.idx v = some j → E.removable v = true → E.free v = true → (s.map v = some ∅) →
        s'.items[j]? = some none) := by
  have H := (linv_iff s).mpr ⟨I, C⟩
  -- the variables that wait have no occurrence in a state without occurrences
  obtain ⟨s', a1, a2, a3, a4, a5⟩ := loop_spec false E.removable (fun _ => false) E.free (by simp) none
    { s with map := fun r => if r ∈ vs then none else s.map r } (size s + vs.length) s vs H (by simp) (by simp)
  obtain ⟨I2, C2⟩ := (linv_iff s').mp a2
  refine ⟨s', a1, I2, C2, a4, a3.root, a3.idx, ?_, ?_⟩
  · intro j
    rcases a3.items j with h | ⟨h, v, rhs, c, d, f, g⟩
    · exact .inl h
    · exact .inr ⟨h, v, rhs, c, d, not_uses C2 g⟩
  · intro v hv j q1 q2 q3 q4
    have hP : Pend E.removable (fun _ => false) E.free { s with map := fun r => if r ∈ vs then none else s.map r } s vs := by
      intro r' j' p1 p2 p3 p4 p5 p6
      right
      by_contra hcon
      simp only [if_neg hcon] at p5
      exact p5 p6
    have hz : s'.map v = some ∅ := by
      have := a3.nn v
      cases hm : s'.map v with
      | none => rw [hm] at this; simp [q4] at this
      | some S =>
        obtain ⟨S0, b1, b2⟩ := a3.sub v S hm
        rw [q4] at b1
        simp at b1
        subst b1
        rw [Finset.subset_empty.mp b2]
    rcases a5 hP v j (by rw [a3.idx]; exact q1) q2 rfl q3 (by simp [hv]) hz with h | h
    · exact h
    · simp at h

theorem set_some_live {s : State} {i : Nat} {b : Body} {l : List (Option Body)} (hi : i < l.length) (h : s.items = l.set i (some b)) :
    Live s i b ∧ ∀ j, j ≠ i → ∀ b', Live s j b' ↔ l[j]? = some (some b') := by
  constructor
  · rw [Live, h]; simp [hi]
  · intro j hj b'; rw [Live, h, List.getElem?_set_ne (Ne.symm hj)]

theorem replaceItem_spec (E : Env) {s : State} (I : Idx s) (C : Cov s) {i : Nat} {old : List Nat} (hb : Live s i (.con old))
    (occ : List Nat) : ∃ s', replaceItem E s i occ = some s' ∧ Idx s' ∧ Cov s' ∧ (Exact s → Exact s') ∧
      s'.items = s.items.set i (some (.con occ)) ∧ s'.root = s.root := by
  have H := (linv_iff s).mpr ⟨I, C⟩
  obtain ⟨ds, h1, h2, h3⟩ := uncollect_eq E.free i old s (fun u hu => H.dfd i u ⟨_, hb, u, hu, rfl⟩)
  obtain ⟨K1, K2⟩ := drop_item H hb
  obtain ⟨I1, C1⟩ := (linv_iff _).mp K1
  have e : replaceItem E s i occ =
      some { s with map := insMap { s with map := eraseMap s i old, items := s.items.set i none } i occ,
                    items := s.items.set i (some (.con occ)) } := by
    rw [replaceItem, show s.items[i]? = some (some (.con old)) from hb]
    simp only [h1, collect_eq]
    rfl
  refine ⟨_, e, ?_, ?_⟩
  · refine ⟨I.idem, ?_, ?_⟩
    · intro v k hk
      rcases I.idx v k hk with h | ⟨rhs, h⟩
      · left
        have : k ≠ i := by rintro rfl; rw [Live, h] at hb; simp at hb
        simp only
        rw [List.getElem?_set_ne (Ne.symm this)]
        exact h
      · right
        refine ⟨rhs, ?_⟩
        have : k ≠ i := by rintro rfl; have := live_unique h hb; simp at this
        rw [Live]
        simp only
        rw [List.getElem?_set_ne (Ne.symm this)]
        exact h
    · intro v k rhs h
      have : k ≠ i := by
        rintro rfl
        rw [Live] at h
        simp [live_lt hb] at h
      rw [Live] at h
      simp only at h
      rw [List.getElem?_set_ne (Ne.symm this)] at h
      exact I.idx' v k rhs h
  · have key := @put_item { s with map := eraseMap s i old, items := s.items.set i none }
      { s with map := insMap { s with map := eraseMap s i old, items := s.items.set i none } i occ,
               items := s.items.set i (some (.con occ)) } C1 i (.con occ)
      (by intro b' h; exact (set_none_some.mp h).1 rfl) rfl rfl (by rw [Live]; simp [live_lt hb])
      (by
        intro j hj b'
        rw [Live, Live]
        simp only
        rw [List.getElem?_set_ne (Ne.symm hj), List.getElem?_set_ne (Ne.symm hj)])
    exact ⟨key.1, fun X => key.2 (K2 X), rfl, rfl⟩

end Occ
end MZ
