import Verif.Strings.Model
import Verif.Linear.Lemmas
/-!
# C26: interned strings; C47: operations on strings
-/
namespace MZ
namespace Str

/-! ## Specification -/

/-- Histories: strings are interned (the allocator delivers an address that is not in use) and collections
keep an arbitrary set of them. -/
inductive Reach : State → Prop
  | init : Reach State.init
  | intern {st st' : State} {s : Bytes} {fresh : Nat} {r : Option Nat} :
      Reach st → st.get fresh = none → intern st s fresh = .ok (r, st') → Reach st'
  | collect {st st' : State} {keep : Nat → Bool} :
      Reach st → collect st keep = .ok st' → Reach st'

/-- A string without a zero byte. -/
def NoZero (s : Bytes) : Prop := 0 ∉ s

/-! ## strncmp -/

theorem strncmp_cons (n x y : Nat) (a b : Bytes) : strncmp (n + 1) (x :: a) (y :: b) =
    if x = y then (if x = 0 then 0 else strncmp n a b) else (x : Int) - y := by
  rw [strncmp]
  by_cases h : x = y
  · rw [if_pos h, if_neg (by simpa using h)]; rfl
  · rw [if_neg h, if_pos (by simpa using h)]; rfl

theorem strncmp_self (n : Nat) (a : Bytes) : strncmp n a a = 0 := by
  induction n generalizing a with
  | zero => rfl
  | succ n ih => rw [strncmp]; simp [ih]

theorem strncmp_symm {n : Nat} {a b : Bytes} (h : strncmp n a b = 0) : strncmp n b a = 0 := by
  induction n generalizing a b with
  | zero => rfl
  | succ n ih =>
    rw [strncmp] at h ⊢
    by_cases h1 : a.headD 0 ≠ b.headD 0
    · rw [if_pos h1] at h; omega
    · rw [if_neg h1] at h
      rw [if_neg (fun e => h1 e.symm)]
      simp only [ne_eq, Decidable.not_not] at h1
      by_cases h2 : a.headD 0 = 0
      · rw [if_pos (h1 ▸ h2)]
      · rw [if_neg h2] at h; rw [if_neg (h1 ▸ h2)]; exact ih h

theorem strncmp_trans {n : Nat} {a b c : Bytes} (h : strncmp n a b = 0) (h' : strncmp n b c = 0) :
    strncmp n a c = 0 := by
  induction n generalizing a b c with
  | zero => rfl
  | succ n ih =>
    rw [strncmp] at h h' ⊢
    by_cases h1 : a.headD 0 ≠ b.headD 0
    · rw [if_pos h1] at h; omega
    rw [if_neg h1] at h
    by_cases h2 : b.headD 0 ≠ c.headD 0
    · rw [if_pos h2] at h'; omega
    rw [if_neg h2] at h'
    simp only [ne_eq, Decidable.not_not] at h1 h2
    rw [if_neg (by rw [h1, h2]; simp)]
    by_cases h3 : a.headD 0 = 0
    · rw [if_pos h3]
    · rw [if_neg h3] at h ⊢; rw [if_neg (h1 ▸ h3)] at h'; exact ih h h'

/-- Without zero bytes in the first text, `strncmp` compares the first `n` characters. -/
theorem strncmp_eq_zero {n : Nat} {a b : Bytes} (ha : NoZero a) (hn : n ≤ a.length) (hb : n ≤ b.length) :
    strncmp n a b = 0 ↔ a.take n = b.take n := by
  induction n generalizing a b with
  | zero => simp [strncmp]
  | succ n ih =>
    cases a with
    | nil => simp at hn
    | cons x a =>
      cases b with
      | nil => simp at hb
      | cons y b =>
        rw [strncmp_cons]
        simp only [List.take_succ_cons, List.cons.injEq]
        have hx : x ≠ 0 := fun e => ha (by simp [e])
        by_cases h1 : x = y
        · subst h1
          rw [if_pos rfl, if_neg hx, ih (fun e => ha (by simp [e])) (by simpa using hn) (by simpa using hb)]
          simp
        · rw [if_neg h1]
          simp only [h1, false_and, iff_false]
          omega

theorem cEquals_iff {a b : Bytes} (ha : NoZero a) : cEquals a b = true ↔ a = b := by
  unfold cEquals
  rw [Bool.and_eq_true, beq_iff_eq, beq_iff_eq]
  constructor
  · rintro ⟨h1, h2⟩
    rw [strncmp_eq_zero ha (le_refl _) (by omega), List.take_length, h1, List.take_length] at h2
    exact h2
  · rintro rfl; exact ⟨rfl, strncmp_self _ _⟩

theorem keyEq_refl (a : Bytes) : keyEq a a = true := by
  unfold keyEq cEquals; simp [strncmp_self]

theorem keyEq_symm {a b : Bytes} (h : keyEq a b = true) : keyEq b a = true := by
  unfold keyEq cEquals at *
  simp only [Bool.and_eq_true, beq_iff_eq] at *
  exact ⟨h.1.symm, h.2.1.symm, by rw [← h.2.1]; exact strncmp_symm h.2.2⟩

theorem keyEq_trans {a b c : Bytes} (h : keyEq a b = true) (h' : keyEq b c = true) : keyEq a c = true := by
  unfold keyEq cEquals at *
  simp only [Bool.and_eq_true, beq_iff_eq] at *
  exact ⟨h.1.trans h'.1, h.2.1.trans h'.2.1, strncmp_trans h.2.2 (by rw [h.2.1]; exact h'.2.2)⟩

theorem keyEq_iff {a b : Bytes} (ha : NoZero a) : keyEq a b = true ↔ a = b := by
  constructor
  · intro h
    unfold keyEq at h
    rw [Bool.and_eq_true] at h
    exact (cEquals_iff ha).1 h.2
  · rintro rfl; exact keyEq_refl _

/-! ## Invariant -/

/-- The table holds each object in memory exactly once, and no two objects have the same key. -/
structure Inv (st : State) : Prop where
  heapNodup : (st.heap.map (·.1)).Nodup
  tableNodup : st.table.Nodup
  mem : ∀ a, a ∈ st.table ↔ a ∈ st.heap.map (·.1)
  uniq : ∀ p ∈ st.heap, ∀ q ∈ st.heap, keyEq p.2 q.2 = true → p = q

theorem get_of_mem {st : State} (hn : (st.heap.map (·.1)).Nodup) {p : Nat × Bytes} (hp : p ∈ st.heap) :
    st.get p.1 = some p.2 := by
  unfold State.get
  have : st.heap.find? (·.1 == p.1) = some p := by
    generalize hl : st.heap = l at hn hp ⊢
    clear hl
    induction l with
    | nil => simp at hp
    | cons q t ih =>
      rw [List.map_cons, List.nodup_cons] at hn
      rw [List.find?_cons]
      rcases List.mem_cons.1 hp with rfl | hp'
      · simp
      · have : q.1 ≠ p.1 := fun e => hn.1 (e ▸ List.mem_map_of_mem hp')
        simp only [beq_eq_false_iff_ne.2 this]
        exact ih hn.2 hp'
  rw [this]; rfl

theorem mem_of_get {st : State} {a : Nat} {s : Bytes} (h : st.get a = some s) : (a, s) ∈ st.heap := by
  unfold State.get at h
  cases hf : st.heap.find? (·.1 == a) with
  | none => rw [hf] at h; simp at h
  | some p =>
    rw [hf] at h
    have h1 := List.mem_of_find?_eq_some hf
    have h2 := List.find?_some hf
    simp at h h2
    rw [← h, ← h2]; exact h1

theorem get_none_iff {st : State} {a : Nat} : st.get a = none ↔ a ∉ st.heap.map (·.1) := by
  unfold State.get
  simp only [Option.map_eq_none_iff, List.find?_eq_none, List.mem_map, not_exists, not_and, beq_iff_eq]

theorem findKey_spec {st : State} (hn : (st.heap.map (·.1)).Nodup) (s : Bytes) (l : List Nat)
    (hl : ∀ a ∈ l, a ∈ st.heap.map (·.1)) :
    (∃ a x, findKey st s l = .ok (some a) ∧ a ∈ l ∧ st.get a = some x ∧ keyEq x s = true) ∨
    (findKey st s l = .ok none ∧ ∀ a ∈ l, ∀ x, st.get a = some x → keyEq x s = false) := by
  induction l with
  | nil => right; simp [findKey]
  | cons a l ih =>
    rw [findKey]
    obtain ⟨p, hp, rfl⟩ := List.mem_map.1 (hl a (by simp))
    rw [get_of_mem hn hp]
    simp only
    by_cases hk : keyEq p.2 s = true
    · left; rw [if_pos hk]
      exact ⟨p.1, p.2, rfl, by simp, get_of_mem hn hp, hk⟩
    · rw [if_neg hk]
      rcases ih fun a ha => hl a (by simp [ha]) with ⟨a, x, h1, h2, h3, h4⟩ | ⟨h1, h2⟩
      · exact .inl ⟨a, x, h1, by simp [h2], h3, h4⟩
      · refine .inr ⟨h1, ?_⟩
        intro a ha x hx
        rcases List.mem_cons.1 ha with rfl | ha
        · rw [get_of_mem hn hp] at hx; cases hx; simpa using hk
        · exact h2 a ha x hx

theorem inv_init : Inv State.init :=
  ⟨by simp [State.init], by simp [State.init], by simp [State.init], by simp [State.init]⟩

/-- Interning succeeds, and its effect. -/
theorem intern_spec {st : State} (hi : Inv st) (s : Bytes) (fresh : Nat) (hf : st.get fresh = none) :
    (s = [] ∧ intern st s fresh = .ok (none, st)) ∨
    (s ≠ [] ∧ ∃ a x, intern st s fresh = .ok (some a, st) ∧ st.get a = some x ∧ keyEq x s = true) ∨
    (s ≠ [] ∧ intern st s fresh = .ok (some fresh, ⟨(fresh, s) :: st.heap, fresh :: st.table⟩) ∧
      ∀ p ∈ st.heap, keyEq p.2 s = false) := by
  unfold intern
  by_cases hs : s = []
  · left; subst hs; exact ⟨rfl, rfl⟩
  · right
    rw [if_neg (by simpa using hs)]
    rcases findKey_spec hi.heapNodup s st.table fun a ha => (hi.mem a).1 ha with ⟨a, x, h1, h2, h3, h4⟩ | ⟨h1, h2⟩
    · left
      refine ⟨hs, a, x, ?_, h3, h4⟩
      rw [h1]; rfl
    · right
      refine ⟨hs, by rw [h1]; rfl, ?_⟩
      intro p hp
      exact h2 p.1 ((hi.mem p.1).2 (List.mem_map_of_mem hp)) _ (get_of_mem hi.heapNodup hp)

theorem inv_add {st : State} (hi : Inv st) (s : Bytes) (fresh : Nat) (hf : st.get fresh = none)
    (hk : ∀ p ∈ st.heap, keyEq p.2 s = false) : Inv ⟨(fresh, s) :: st.heap, fresh :: st.table⟩ := by
  rw [get_none_iff] at hf
  refine ⟨?_, ?_, ?_, ?_⟩
  · simp only [List.map_cons, List.nodup_cons]; exact ⟨hf, hi.heapNodup⟩
  · rw [List.nodup_cons]; exact ⟨fun h => hf ((hi.mem _).1 h), hi.tableNodup⟩
  · intro a; simp only [List.mem_cons, List.map_cons, hi.mem a]
  · intro p hp q hq h
    rcases List.mem_cons.1 hp with rfl | hp <;> rcases List.mem_cons.1 hq with rfl | hq
    · rfl
    · have := hk q hq; rw [keyEq_symm h] at this; simp at this
    · have := hk p hp; rw [h] at this; simp at this
    · exact hi.uniq p hp q hq h

/-- The destruction loop removes exactly the table entries of the strings that are not kept. -/
theorem destroyAll_spec (keep : Nat → Bool) (H : List (Nat × Bytes)) (hN : (H.map (·.1)).Nodup)
    (hU : ∀ p ∈ H, ∀ q ∈ H, keyEq p.2 q.2 = true → p = q) :
    ∀ (l : List (Nat × Bytes)) (T : List Nat), (∀ p ∈ l, p ∈ H) → (l.map (·.1)).Nodup → T.Nodup →
      (∀ a ∈ T, a ∈ H.map (·.1)) → (∀ p ∈ l, p.1 ∈ T) →
      ∃ T', destroyAll keep l ⟨H, T⟩ = .ok ⟨H, T'⟩ ∧ T'.Nodup ∧
        ∀ a, a ∈ T' ↔ a ∈ T ∧ ¬ (keep a = false ∧ a ∈ l.map (·.1)) := by
  intro l
  induction l with
  | nil => intro T _ _ hT _ _; exact ⟨T, rfl, hT, by simp⟩
  | cons p l ih =>
    intro T hl hnd hT hTH hlT
    obtain ⟨a, s⟩ := p
    rw [List.map_cons, List.nodup_cons] at hnd
    rw [destroyAll]
    by_cases hk : keep a = true
    · rw [if_pos hk]
      obtain ⟨T', h1, h2, h3⟩ := ih T (fun p hp => hl p (by simp [hp])) hnd.2 hT hTH fun p hp => hlT p (by simp [hp])
      refine ⟨T', h1, h2, ?_⟩
      intro b
      rw [h3 b, List.map_cons, List.mem_cons]
      constructor
      · rintro ⟨hb, hn⟩
        refine ⟨hb, ?_⟩
        rintro ⟨hkb, rfl | hbl⟩
        · simp [hkb] at hk
        · exact hn ⟨hkb, hbl⟩
      · rintro ⟨hb, hn⟩
        exact ⟨hb, fun ⟨h, h'⟩ => hn ⟨h, .inr h'⟩⟩
    · rw [if_neg hk]
      have hk' : keep a = false := by simpa using hk
      have haT : a ∈ T := hlT (a, s) (by simp)
      have hd : destroy ⟨H, T⟩ s = .ok ⟨H, T.erase a⟩ := by
        unfold destroy
        rcases findKey_spec (st := ⟨H, T⟩) hN s T hTH with ⟨b, x, h1, h2, h3, h4⟩ | ⟨h1, h2⟩
        · have hb : (b, x) = (a, s) := hU _ (mem_of_get h3) _ (hl _ (by simp)) h4
          simp only
          rw [h1]
          cases hb; rfl
        · have := h2 a haT s (get_of_mem (st := ⟨H, T⟩) hN (p := (a, s)) (hl _ (by simp)))
          rw [keyEq_refl] at this; simp at this
      rw [hd, Res.ok_bind]
      obtain ⟨T', h1, h2, h3⟩ := ih (T.erase a) (fun p hp => hl p (by simp [hp])) hnd.2 (hT.erase a)
        (fun b hb => hTH b (List.mem_of_mem_erase hb)) (fun p hp => by
          rw [hT.mem_erase_iff]
          exact ⟨fun e => hnd.1 (List.mem_map.2 ⟨p, hp, e⟩), hlT p (by simp [hp])⟩)
      refine ⟨T', h1, h2, ?_⟩
      intro b
      rw [h3 b, hT.mem_erase_iff, List.map_cons, List.mem_cons]
      constructor
      · rintro ⟨⟨hne, hb⟩, hn⟩
        refine ⟨hb, ?_⟩
        rintro ⟨hkb, rfl | hbl⟩
        · exact hne rfl
        · exact hn ⟨hkb, hbl⟩
      · rintro ⟨hb, hn⟩
        exact ⟨⟨fun e => hn ⟨e ▸ hk', .inl e⟩, hb⟩, fun ⟨h, h'⟩ => hn ⟨h, .inr h'⟩⟩

theorem collect_spec {st : State} (hi : Inv st) (keep : Nat → Bool) :
    ∃ T', collect st keep = .ok ⟨st.heap.filter (keep ·.1), T'⟩ ∧ Inv ⟨st.heap.filter (keep ·.1), T'⟩ := by
  obtain ⟨T', h1, h2, h3⟩ := destroyAll_spec keep st.heap hi.heapNodup hi.uniq st.heap st.table (fun _ h => h)
    hi.heapNodup hi.tableNodup (fun a ha => (hi.mem a).1 ha) (fun p hp => (hi.mem p.1).2 (List.mem_map_of_mem hp))
  refine ⟨T', ?_, ?_⟩
  · unfold collect
    have : destroyAll keep st.heap st = .ok ⟨st.heap, T'⟩ := h1
    rw [this]; rfl
  · refine ⟨?_, h2, ?_, ?_⟩
    · exact (List.Sublist.map _ List.filter_sublist).nodup hi.heapNodup
    · intro a
      rw [h3 a, hi.mem a]
      simp only [List.mem_map, List.mem_filter]
      constructor
      · rintro ⟨⟨p, hp, rfl⟩, hn⟩
        refine ⟨p, ⟨hp, ?_⟩, rfl⟩
        by_contra hk
        exact hn ⟨by simpa using hk, p, hp, rfl⟩
      · rintro ⟨p, ⟨hp, hk⟩, rfl⟩
        refine ⟨⟨p, hp, rfl⟩, ?_⟩
        rintro ⟨hk', -⟩
        rw [hk] at hk'; simp at hk'
    · intro p hp q hq
      exact hi.uniq p (List.mem_filter.1 hp).1 q (List.mem_filter.1 hq).1

theorem reach_inv {st : State} (h : Reach st) : Inv st := by
  induction h with
  | init => exact inv_init
  | @intern st st' s fresh r _ hf he ih =>
    rcases intern_spec ih s fresh hf with ⟨_, h⟩ | ⟨_, a, x, h, _⟩ | ⟨_, h, hk⟩
    · rw [h] at he; cases he; exact ih
    · rw [h] at he; cases he; exact ih
    · rw [h] at he; cases he; exact inv_add ih s fresh hf hk
  | @collect st st' keep _ he ih =>
    obtain ⟨T', h, hi⟩ := collect_spec ih keep
    rw [h] at he; cases he; exact hi

/-! ## C26 -/

/-- **C26** (partial: strings without zero bytes). In every state reached by any history, two live string
objects are the same object exactly if they have the same characters. The full property, for all strings, is
refuted by `C26_zero_byte_collision`. -/
theorem _root_.MZ.C26_identity_partial {st : State} (h : Reach st) {a b : Nat} {x y : Bytes}
    (hx : st.get a = some x) (hy : st.get b = some y) (hz : NoZero x) : a = b ↔ x = y := by
  have hi := reach_inv h
  constructor
  · rintro rfl; rw [hx] at hy; exact Option.some.inj hy
  · rintro rfl
    have := hi.uniq _ (mem_of_get hx) _ (mem_of_get hy) (keyEq_refl _)
    exact congrArg Prod.fst this

/-- **C26** (partial: strings without zero bytes). Interning never fails, the object it delivers has the
characters asked for, and all objects that were live before are unchanged. -/
theorem _root_.MZ.C26_intern_partial {st : State} (h : Reach st) (s : Bytes) (hs : s ≠ []) (hz : NoZero s) (fresh : Nat)
    (hf : st.get fresh = none) :
    ∃ a st', intern st s fresh = .ok (some a, st') ∧ st'.get a = some s ∧
      ∀ b x, st.get b = some x → st'.get b = some x := by
  have hi := reach_inv h
  rcases intern_spec hi s fresh hf with ⟨h0, _⟩ | ⟨_, a, x, he, hx, hk⟩ | ⟨_, he, hk⟩
  · exact absurd h0 hs
  · refine ⟨a, st, he, ?_, fun _ _ h => h⟩
    rw [hx, (keyEq_iff hz).1 (keyEq_symm hk)]
  · have hi' := inv_add hi s fresh hf hk
    refine ⟨fresh, _, he, ?_, ?_⟩
    · exact get_of_mem hi'.heapNodup (p := (fresh, s)) (by simp)
    · intro b x hb
      exact get_of_mem hi'.heapNodup (p := (b, x)) (List.mem_cons_of_mem _ (mem_of_get hb))

/-- The empty string is the null pointer. -/
theorem _root_.MZ.C26_intern_empty (st : State) (fresh : Nat) : intern st [] fresh = .ok (none, st) := rfl

/-- **C26**. A collection never fails, keeps exactly the objects that are marked, with their contents, and all
others are gone from memory and from the table. -/
theorem _root_.MZ.C26_collect {st : State} (h : Reach st) (keep : Nat → Bool) :
    ∃ st', collect st keep = .ok st' ∧
      (∀ a, st'.get a = if keep a then st.get a else none) ∧ (∀ a, a ∈ st'.table ↔ a ∈ st.table ∧ keep a = true) := by
  have hi := reach_inv h
  obtain ⟨T', he, hi'⟩ := collect_spec hi keep
  refine ⟨_, he, ?_, ?_⟩
  · intro a
    by_cases hk : keep a = true
    · rw [if_pos hk]
      cases hg : st.get a with
      | none =>
        rw [get_none_iff] at hg ⊢
        intro hm
        obtain ⟨p, hp, rfl⟩ := List.mem_map.1 hm
        exact hg (List.mem_map_of_mem (List.mem_filter.1 hp).1)
      | some x =>
        exact get_of_mem hi'.heapNodup (p := (a, x)) (List.mem_filter.2 ⟨mem_of_get hg, hk⟩)
    · rw [if_neg hk, get_none_iff]
      intro hm
      obtain ⟨p, hp, rfl⟩ := List.mem_map.1 hm
      exact hk (List.mem_filter.1 hp).2
  · intro a
    rw [hi'.mem a, hi.mem a]
    simp only [List.mem_map, List.mem_filter]
    constructor
    · rintro ⟨p, ⟨hp, hk⟩, rfl⟩; exact ⟨⟨p, hp, rfl⟩, hk⟩
    · rintro ⟨⟨p, hp, rfl⟩, hk⟩; exact ⟨p, ⟨hp, hk⟩, rfl⟩

/-- **C26**. The table never refers to a freed object, whatever bytes the strings contain: looking up a key is
always defined. -/
theorem _root_.MZ.C26_no_dangling_key {st : State} (h : Reach st) (s : Bytes) : findKey st s st.table ≠ .ub := by
  have hi := reach_inv h
  rcases findKey_spec hi.heapNodup s st.table fun a ha => (hi.mem a).1 ha with ⟨a, x, h1, _⟩ | ⟨h1, _⟩ <;>
    rw [h1] <;> simp

/-- **C26** (refuted for strings with a zero byte). After `x\0Aa` has been interned, interning the different
string `x\0BB` yields the same object. -/
theorem _root_.MZ.C26_zero_byte_collision :
    ∃ (st : State) (a : Nat) (s t : Bytes), Reach st ∧ s ≠ t ∧ st.get a = some s ∧
      ∀ fresh, intern st t fresh = .ok (some a, st) := by
  refine ⟨⟨[(1, [120, 0, 65, 97])], [1]⟩, 1, [120, 0, 65, 97], [120, 0, 66, 66], ?_, by decide, rfl, ?_⟩
  · exact .intern (fresh := 1) (s := [120, 0, 65, 97]) .init rfl rfl
  · intro fresh
    have : findKey ⟨[(1, [120, 0, 65, 97])], [1]⟩ [120, 0, 66, 66] [1] = .ok (some 1) := by decide +kernel
    unfold intern
    rw [if_neg (by decide)]
    simp only [this]
    rfl

example : ∃ st, Reach st ∧ st.get 1 = some [97] ∧ st.get 2 = some [98] :=
  ⟨_, .intern (s := [98]) (fresh := 2) (.intern (s := [97]) (fresh := 1) .init rfl rfl) rfl rfl, rfl, rfl⟩

/-! ## C47: operations on handles -/

/-- A handle to a string object (never an empty one), without zero bytes. -/
def Ok (h : Handle) : Prop := ∀ s, h = some s → s ≠ [] ∧ NoZero s

theorem bytes_size (h : Handle) : h.size = h.bytes.length := by cases h <;> rfl

/-- **C47**. Comparison with a text is equality of the contents. -/
theorem _root_.MZ.C47_equal (h : Handle) (hh : Ok h) (t : Bytes) :
    (eqS h t = true ↔ h.bytes = t) ∧ (NoZero t → (eqC h t = true ↔ h.bytes = t)) := by
  cases h with
  | none =>
    constructor
    · cases t <;> simp [eqS, Handle.size, Handle.bytes]
    · intro _; cases t <;> simp [eqC, Handle.size, Handle.bytes]
  | some s =>
    obtain ⟨hne, hz⟩ := hh s rfl
    have key : s.length = t.length → (strncmp s.length s t = 0 ↔ s = t) := by
      intro hl
      rw [strncmp_eq_zero hz (le_refl _) (by omega), List.take_length, hl, List.take_length]
    constructor
    · simp only [eqS, Handle.size, Handle.bytes, Option.getD_some, Option.isNone_some, Bool.false_or,
        Bool.and_eq_true, beq_iff_eq]
      constructor
      · rintro ⟨h1, h2⟩; exact (key h1).1 h2
      · rintro rfl; exact ⟨rfl, strncmp_self _ _⟩
    · intro _
      simp only [eqC, Handle.size, Handle.bytes, Option.getD_some, Bool.and_eq_true, beq_iff_eq, Bool.or_eq_true]
      constructor
      · rintro ⟨h1, h2⟩
        rcases h2 with h2 | h2
        · have : s = [] := List.length_eq_zero_iff.1 (by omega)
          exact absurd this hne
        · exact (key h1).1 (by rw [h1]; exact h2)
      · rintro rfl; exact ⟨rfl, .inr (strncmp_self _ _)⟩

/-- Lexicographic order of byte strings. -/
inductive Lex : Bytes → Bytes → Prop
  | nil (c : Nat) (t : Bytes) : Lex [] (c :: t)
  | head {c d : Nat} (s t : Bytes) : c < d → Lex (c :: s) (d :: t)
  | tail (c : Nat) {s t : Bytes} : Lex s t → Lex (c :: s) (c :: t)

theorem lex_strncmp (s : Bytes) : ∀ t : Bytes, NoZero s → NoZero t →
    (Lex s t ↔ if strncmp (min s.length t.length) s t = 0 then s.length < t.length
      else strncmp (min s.length t.length) s t < 0) := by
  induction s with
  | nil =>
    intro t _ _
    simp only [List.length_nil, Nat.zero_min, strncmp, if_true]
    cases t with
    | nil => simp; rintro ⟨⟩
    | cons c t => simp; exact .nil c t
  | cons c s ih =>
    intro t hs ht
    cases t with
    | nil => simp [strncmp]; rintro ⟨⟩
    | cons d t =>
      have hc : c ≠ 0 := fun e => hs (by simp [e])
      simp only [List.length_cons, Nat.succ_min_succ]
      rw [strncmp_cons]
      by_cases h : c = d
      · subst h
        simp only [if_true, if_neg hc]
        have := ih t (fun e => hs (by simp [e])) (fun e => ht (by simp [e]))
        simp only [Nat.add_lt_add_iff_right]
        rw [← this]
        constructor
        · intro h; cases h with
          | head _ _ h => omega
          | tail _ h => exact h
        · exact .tail c
      · simp only [if_neg h]
        rw [if_neg (by omega)]
        constructor
        · intro h'; cases h' with
          | head _ _ h => omega
          | tail _ _ => exact absurd rfl h
        · intro h'; exact .head s t (by omega)

/-- **C47**. `<` on strings is the lexicographic order of the bytes. -/
theorem _root_.MZ.C47_less (h k : Handle) (hh : Ok h) (hk : Ok k) : lt h k = true ↔ Lex h.bytes k.bytes := by
  cases h with
  | none =>
    cases k with
    | none => simp [lt, Handle.bytes]; rintro ⟨⟩
    | some t =>
      obtain ⟨hne, _⟩ := hk t rfl
      obtain ⟨c, t, rfl⟩ := List.exists_cons_of_ne_nil hne
      simp [lt, Handle.bytes]; exact .nil c t
  | some s =>
    obtain ⟨_, hz⟩ := hh s rfl
    have hz' : NoZero k.bytes := by
      cases k with
      | none => simp [NoZero, Handle.bytes]
      | some t => exact (hk t rfl).2
    have := lex_strncmp s k.bytes hz hz'
    show _ ↔ Lex s k.bytes
    rw [this]
    simp only [lt, bytes_size]
    split <;> simp

/-- The lexicographic order is a strict total order. -/
theorem _root_.MZ.C47_order (s t u : Bytes) :
    ¬ Lex s s ∧ (Lex s t → Lex t u → Lex s u) ∧ (Lex s t ∨ s = t ∨ Lex t s) := by
  refine ⟨?_, ?_, ?_⟩
  · intro h
    generalize hs : s = s' at h
    have : ∀ {a b : Bytes}, Lex a b → a ≠ b := by
      intro a b h
      induction h with
      | nil => simp
      | head _ _ h => simp; omega
      | tail c _ ih => simpa using ih
    subst hs
    exact this h rfl
  · intro h
    induction h generalizing u with
    | nil c t => intro h'; cases h' with
      | head _ _ _ => exact .nil _ _
      | tail _ _ => exact .nil _ _
    | head _ _ h => intro h'; cases h' with
      | head _ _ h2 => exact .head _ _ (by omega)
      | tail _ _ => exact .head _ _ h
    | tail c _ ih => intro h'; cases h' with
      | head _ _ h2 => exact .head _ _ h2
      | tail _ h2 => exact .tail c (ih _ h2)
  · induction s generalizing t with
    | nil => cases t with
      | nil => exact .inr (.inl rfl)
      | cons c t => exact .inl (.nil c t)
    | cons c s ih => cases t with
      | nil => exact .inr (.inr (.nil c s))
      | cons d t =>
        rcases Nat.lt_trichotomy c d with h | rfl | h
        · exact .inl (.head _ _ h)
        · rcases ih t with h | rfl | h
          · exact .inl (.tail c h)
          · exact .inr (.inl rfl)
          · exact .inr (.inr (.tail c h))
        · exact .inr (.inr (.head _ _ h))

/-- **C47**. `beginsWith` and `endsWith` test for a beginning and an end. -/
theorem _root_.MZ.C47_affixes (h : Handle) (hh : Ok h) (t : Bytes) :
    (beginsWith h t = true ↔ ∃ r, h.bytes = t ++ r) ∧ (endsWith h t = true ↔ ∃ r, h.bytes = r ++ t) := by
  cases h with
  | none =>
    constructor
    · cases t <;> simp [beginsWith, Handle.size, Handle.bytes]
    · cases t <;> simp [endsWith, Handle.size, Handle.bytes]
  | some s =>
    obtain ⟨hne, hz⟩ := hh s rfl
    constructor
    · simp only [beginsWith, Option.isNone_some, Bool.false_or, Bool.and_eq_true, decide_eq_true_eq, beq_iff_eq]
      simp only [Handle.size, Handle.bytes, Option.getD_some]
      constructor
      · rintro ⟨h1, h2⟩
        rw [strncmp_eq_zero hz h1 (le_refl _), List.take_length] at h2
        exact ⟨s.drop t.length, by conv_lhs => rw [← List.take_append_drop t.length s, h2]⟩
      · rintro ⟨r, rfl⟩
        have : t.length ≤ (t ++ r).length := by simp
        refine ⟨this, ?_⟩
        rw [strncmp_eq_zero hz this (le_refl _)]; simp
    · simp only [endsWith, Option.isNone_some, Bool.false_or, Bool.and_eq_true, decide_eq_true_eq, beq_iff_eq]
      simp only [Handle.size, Handle.bytes, Option.getD_some]
      have hzd : NoZero (s.drop (s.length - t.length)) := fun h => hz (List.mem_of_mem_drop h)
      constructor
      · rintro ⟨h1, h2⟩
        have hl : (s.drop (s.length - t.length)).length = t.length := by rw [List.length_drop]; omega
        rw [strncmp_eq_zero hzd (by omega) (le_refl _), List.take_length,
          List.take_of_length_le (by omega)] at h2
        exact ⟨s.take (s.length - t.length), by
          conv_lhs => rw [← List.take_append_drop (s.length - t.length) s, h2]⟩
      · rintro ⟨r, rfl⟩
        refine ⟨by simp, ?_⟩
        have : (r ++ t).drop ((r ++ t).length - t.length) = t := by
          rw [List.length_append, Nat.add_sub_cancel, List.drop_left]
        rw [this]; exact strncmp_self _ _

/-- **C47**. A substring consists of the characters at the positions asked for, and a start behind the end is an
error. -/
theorem _root_.MZ.C47_substr (h : Handle) (pos : Nat) (count : Option Nat) :
    (pos ≤ h.bytes.length → ∃ r, substr h pos count = .ok r ∧
      r.length = (match count with | none => h.bytes.length - pos | some n => min (h.bytes.length - pos) n) ∧
      ∀ i, i < r.length → r[i]? = h.bytes[pos + i]?) ∧
    (h.bytes.length < pos → substr h pos count = .err) := by
  unfold substr
  rw [bytes_size]
  constructor
  · intro hp
    rw [if_neg (by omega)]
    have key : ∀ n, n ≤ h.bytes.length - pos →
        ((h.bytes.drop pos).take n).length = n ∧
        ∀ i, i < ((h.bytes.drop pos).take n).length → ((h.bytes.drop pos).take n)[i]? = h.bytes[pos + i]? := by
      intro n hn
      have hl : ((h.bytes.drop pos).take n).length = n := by simp; omega
      refine ⟨hl, ?_⟩
      intro i hi
      rw [hl] at hi
      rw [List.getElem?_take, if_pos hi, List.getElem?_drop]
    cases count with
    | none => exact ⟨_, rfl, key _ (le_refl _)⟩
    | some n => exact ⟨_, rfl, key _ (Nat.min_le_left _ _)⟩
  · intro hp; rw [if_pos (by omega)]

/-- **C47**. `find` returns the first position not before `pos` with that character, or reports that there is
none. -/
theorem _root_.MZ.C47_find (h : Handle) (ch pos : Nat) :
    (∀ i, find h ch pos = some i ↔
      pos ≤ i ∧ h.bytes[i]? = some ch ∧ ∀ j, pos ≤ j → j < i → h.bytes[j]? ≠ some ch) ∧
    (find h ch pos = none ↔ ∀ i, pos ≤ i → h.bytes[i]? ≠ some ch) := by
  have key : ∀ (s : Bytes) n i0, s.length - i0 = n →
      (∀ i, findLoop s ch n i0 = some i ↔ i0 ≤ i ∧ s[i]? = some ch ∧ ∀ j, i0 ≤ j → j < i → s[j]? ≠ some ch) ∧
      (findLoop s ch n i0 = none ↔ ∀ i, i0 ≤ i → s[i]? ≠ some ch) := by
    intro s n
    induction n with
    | zero =>
      intro i0 hn
      have hnone : ∀ i, i0 ≤ i → s[i]? ≠ some ch := by
        intro i hi; rw [List.getElem?_eq_none (by omega)]; simp
      refine ⟨fun i => ⟨fun h => by simp [findLoop] at h, fun ⟨h1, h2, _⟩ => absurd h2 (hnone i h1)⟩, ?_⟩
      simp only [findLoop, true_iff]; exact hnone
    | succ n ih =>
      intro i0 hn
      rw [findLoop]
      by_cases hc : s[i0]? = some ch
      · rw [if_pos hc]
        constructor
        · intro i
          constructor
          · intro h; cases h; exact ⟨le_refl _, hc, by omega⟩
          · rintro ⟨h1, h2, h3⟩
            by_cases he : i0 = i
            · rw [he]
            · exact absurd hc (h3 i0 (le_refl _) (by omega))
        · constructor
          · simp
          · intro h; exact absurd hc (h i0 (le_refl _))
      · rw [if_neg hc]
        obtain ⟨h1, h2⟩ := ih (i0 + 1) (by omega)
        constructor
        · intro i
          rw [h1 i]
          constructor
          · rintro ⟨a, b, c⟩
            refine ⟨by omega, b, ?_⟩
            intro j hj hji
            by_cases he : j = i0
            · rw [he]; exact hc
            · exact c j (by omega) hji
          · rintro ⟨a, b, c⟩
            refine ⟨?_, b, fun j hj => c j (by omega)⟩
            by_contra hlt
            have : i = i0 := by omega
            rw [this] at b; exact hc b
        · rw [h2]
          constructor
          · intro h i hi
            by_cases he : i = i0
            · rw [he]; exact hc
            · exact h i (by omega)
          · intro h i hi; exact h i (by omega)
  unfold find
  rw [bytes_size]
  by_cases hp : pos ≥ h.bytes.length
  · rw [if_pos hp]
    have hnone : ∀ i, pos ≤ i → h.bytes[i]? ≠ some ch := by
      intro i hi; rw [List.getElem?_eq_none (by omega)]; simp
    exact ⟨fun i => ⟨fun h => by simp at h, fun ⟨h1, h2, _⟩ => absurd h2 (hnone i h1)⟩,
      by simp only [true_iff]; exact hnone⟩
  · rw [if_neg hp]; exact key h.bytes _ pos rfl

/-- **C47** (`findLastOf`, partial). If the character occurs, the position delivered is that of its last
occurrence. The full statement would include that a missing character is reported; see
`C47_findLastOf_missing`. -/
theorem _root_.MZ.C47_findLastOf_partial (s : Bytes) (ch : Nat) (h : ch ∈ s) :
    ∃ i, findLastOf (some s) ch none = .ok i ∧ s[i]? = some ch ∧ ∀ j, i < j → s[j]? ≠ some ch := by
  have key : ∀ n, (∃ k, k ≤ n ∧ s[k]? = some ch) → (∀ j, n < j → s[j]? ≠ some ch) →
      ∃ i, lastLoop s ch n = .ok i ∧ s[i]? = some ch ∧ ∀ j, i < j → s[j]? ≠ some ch := by
    intro n
    induction n with
    | zero =>
      rintro ⟨k, hk, hc⟩ hr
      obtain rfl : k = 0 := by omega
      exact ⟨0, by rw [lastLoop, if_pos hc], hc, hr⟩
    | succ n ih =>
      rintro ⟨k, hk, hc⟩ hr
      rw [lastLoop]
      by_cases h1 : s[n + 1]? = some ch
      · rw [if_pos h1]; exact ⟨n + 1, rfl, h1, hr⟩
      · rw [if_neg h1]
        refine ih ⟨k, ?_, hc⟩ ?_
        · by_contra hlt
          have : k = n + 1 := by omega
          rw [this] at hc; exact h1 hc
        · intro j hj
          by_cases he : j = n + 1
          · rw [he]; exact h1
          · exact hr j (by omega)
  obtain ⟨k, hk, hc⟩ := List.mem_iff_getElem.1 h
  refine key (s.length - 1) ⟨k, by omega, by rw [List.getElem?_eq_getElem hk, hc]⟩ ?_
  intro j hj
  rw [List.getElem?_eq_none (by omega)]; simp

/-- **C47** (`findLastOf`, refuted). If the character does not occur, the search runs off the beginning of the
string (the loop condition is always true). -/
theorem _root_.MZ.C47_findLastOf_missing (s : Bytes) (ch : Nat) (pos : Option Nat) (h : ch ∉ s) :
    findLastOf (some s) ch pos = .ub := by
  have key : ∀ n, lastLoop s ch n = .ub := by
    intro n
    have hn : ∀ i : Nat, s[i]? ≠ some ch := fun i e => h (List.mem_of_getElem? e)
    induction n with
    | zero => rw [lastLoop, if_neg (hn 0)]
    | succ n ih => rw [lastLoop, if_neg (hn _), ih]
  exact key _

example : Ok (some [97, 98]) := by
  intro s h; cases h; exact ⟨by simp, by simp [NoZero]⟩
example : endsWith (some [97, 46, 109]) [46, 109] = true ∧ lt (some [97]) (some [97, 98]) = true := by decide

end Str
end MZ
