import Verif.Occ.Unify

/-!
# C38: occurrences of variables in the flat model
-/

namespace MZ
namespace Occ

theorem unify_declares (E : Env) {s s' : State} (I : Idx s) (C : Cov s) {a b : Nat} (h : unify E s a b = some s')
    (hab : s.root a ≠ s.root b) : (∃ i, Declares s i (s.root a)) ∧ ∃ i, Declares s i (s.root b) := by
  rw [unify] at h
  simp only [if_neg hab] at h
  have hset : ∀ P : Nat → Prop, P (if E.output (s.root a) = true then s.root b else s.root a) →
      P (if E.output (s.root a) = true then s.root a else s.root b) → P (s.root a) ∧ P (s.root b) := by
    intro P h1 h2
    split at h1
    · rename_i hc; rw [if_pos hc] at h2; exact ⟨h2, h1⟩
    · rename_i hc; rw [if_neg hc] at h2; exact ⟨h1, h2⟩
  refine hset (fun v => ∃ i, Declares s i v) ?_ ?_
  all_goals
    generalize (if E.output (s.root a) = true then s.root b else s.root a) = v0 at *
    generalize (if E.output (s.root a) = true then s.root a else s.root b) = v1 at *
    split at h
    · rename_i j0 j1 x0 x1
      have key0 : ∃ r, Live s j0 (.decl v0 r) := by
        rcases I.idx v0 j0 x0 with q | q
        · simp [dropAlias, rhsAt, q] at h
        · exact q
      obtain ⟨r0, L0⟩ := key0
      obtain ⟨s1, r0', e1, I1, C1, rr1, xx1, L0', Lo, T1⟩ := dropAlias_spec (v1 := v1) I C L0
      have key1 : ∃ r, Live s j1 (.decl v1 r) := by
        rcases I.idx v1 j1 x1 with q | q
        · exfalso
          have hj : j1 ≠ j0 := by rintro rfl; rw [Live, q] at L0; simp at L0
          have : rhsAt s1 j1 = none := by
            cases hr : rhsAt s1 j1 with
            | none => rfl
            | some p =>
              have := (Lo j1 hj _).mp (live_of_rhsAt hr)
              rw [Live, q] at this
              simp at this
          simp [e1, moveRhs, this] at h
        · exact q
      obtain ⟨r1, L1⟩ := key1
      first
        | exact ⟨j0, r0, L0⟩
        | exact ⟨j1, r1, L1⟩
    · simp at h

theorem reach_inv {t : Bool} {s : State} (h : Reach t s) : Idx s ∧ Cov s ∧ (t = true → Exact s) := by
  induction h with
  | empty =>
    refine ⟨⟨fun _ => rfl, ?_, ?_⟩, ?_, ?_⟩
    · intro v j h; simp [empty] at h
    · intro v j rhs h; simp [Live, empty] at h
    · rintro j v ⟨b, h, _⟩; simp [Live, empty] at h
    · intro _ r _ S hS; simp [empty] at hS
  | step s s' _ h' ih =>
    obtain ⟨I, C, X⟩ := ih
    cases h' with
    | add _ b fresh =>
      obtain ⟨a, c, d⟩ := addItem_spec I C b fresh
      exact ⟨a, c, fun ht => d (X ht)⟩
    | remove E _ _ i h =>
      have hl : ∃ b, Live s i b := by
        rw [removeItem] at h
        split at h
        · exact ⟨_, ‹_›⟩
        · simp at h
      obtain ⟨b, hb⟩ := hl
      obtain ⟨s2, e, a, c, d, _⟩ := removeItem_spec E I C hb
      rw [h] at e
      simp at e
      subst e
      exact ⟨a, c, fun ht => d (X ht)⟩
    | removeDeleted E _ _ vs h =>
      obtain ⟨s2, e, a, c, d, _⟩ := removeDeleted_spec E I C vs
      rw [h] at e
      simp at e
      subst e
      exact ⟨a, c, fun ht => d (X ht)⟩
    | replace E _ _ i occ h =>
      have hl : ∃ old, Live s i (.con old) := by
        rw [replaceItem] at h
        split at h
        · exact ⟨_, ‹_›⟩
        · simp at h
      obtain ⟨b, hb⟩ := hl
      obtain ⟨s2, e, a, c, d, _⟩ := replaceItem_spec E I C hb occ
      rw [h] at e
      simp at e
      subst e
      exact ⟨a, c, fun ht => d (X ht)⟩
    | unify E _ _ a b ht h =>
      by_cases hab : s.root a = s.root b
      · simp [unify, hab] at h
        subst h
        exact ⟨I, C, X⟩
      · obtain ⟨⟨i0, d0⟩, ⟨i1, d1⟩⟩ := unify_declares E I C h hab
        obtain ⟨s2, e, p, q, r, _⟩ := unify_spec E I C a b i0 i1 d0 d1
        rw [h] at e
        simp at e
        subst e
        exact ⟨p, q, fun h' => r (ht h') (X h')⟩
    | dropRhs _ j v rhs ht h =>
      refine ⟨idx_setRhs I h rfl rfl rfl, ?_, fun h' => by rw [ht] at h'; simp at h'⟩
      obtain ⟨l1, l2⟩ := set_some_live (s := setRhs s j v none) (b := .decl v none) (live_lt h) rfl
      rintro k w ⟨b, q1, u, q2, q3⟩
      by_cases hk : k = j
      · subst hk; exact absurd ⟨b, q1, u, q2, q3⟩ (no_use l1)
      · exact C k w ⟨b, (l2 k hk b).mp q1, u, q2, q3⟩

theorem uses_root {s : State} (I : Idx s) (i v : Nat) : Uses s i (s.root v) ↔ Uses s i v := by
  unfold Uses
  rw [I.idem]

theorem exact_map {s : State} (I : Idx s) (C : Cov s) (X : Exact s) (i v : Nat) :
    (∃ S, s.map (s.root v) = some S ∧ i ∈ S) ↔ Uses s i v := by
  constructor
  · rintro ⟨S, hS, hi⟩
    exact (uses_root I i v).mp (X _ (I.idem v) S hS i hi)
  · exact C i v

theorem sumUsages_spec {f : Nat → Option (Nat × Bool)} {items : List (Option Body)} {P Q : Nat → Prop}
    (hf : ∀ w u, f w = some u → (u.1 = 0 ↔ ¬ P w) ∧ (u.2 = true ↔ Q w)) : ∀ (L : List Nat) (acc res : Nat × Bool),
    sumUsages f items L acc = some res →
    (res.1 = 0 ↔ acc.1 = 0 ∧ ∀ i ∈ L, ∃ w occ, items[i]? = some (some (.decl w (some (.expr true occ)))) ∧ ¬ P w) ∧
    (res.2 = true ↔ acc.2 = true ∨ ∃ i ∈ L, ∃ w occ, items[i]? = some (some (.decl w (some (.expr true occ)))) ∧ Q w) := by
  intro L
  induction L with
  | nil => intro acc res h; simp [sumUsages] at h; subst h; simp
  | cons i L ih =>
    intro acc res h
    rw [sumUsages] at h
    split at h
    · rename_i w occ hi
      cases hw : f w with
      | none => simp [hw] at h
      | some u =>
        simp only [hw] at h
        obtain ⟨h1, h2⟩ := ih _ _ h
        obtain ⟨g1, g2⟩ := hf w u hw
        constructor
        · rw [h1]
          simp only [List.mem_cons, forall_eq_or_imp, Nat.add_eq_zero_iff, hi, Option.some.injEq, Body.decl.injEq, Rhs.expr.injEq,
            true_and]
          rw [g1]
          constructor
          · rintro ⟨⟨a, b⟩, c⟩; exact ⟨a, ⟨w, occ, ⟨rfl, rfl⟩, b⟩, c⟩
          · rintro ⟨a, ⟨w', _, ⟨rfl, _⟩, b⟩, c⟩; exact ⟨⟨a, b⟩, c⟩
        · rw [h2]
          simp only [List.mem_cons, exists_eq_or_imp, Bool.or_eq_true, hi, Option.some.injEq, Body.decl.injEq, Rhs.expr.injEq,
            true_and]
          rw [g2]
          constructor
          · rintro ((a | a) | a)
            · exact .inl a
            · exact .inr (.inl ⟨w, occ, ⟨rfl, rfl⟩, a⟩)
            · exact .inr (.inr a)
          · rintro (a | ⟨w', _, ⟨rfl, _⟩, a⟩ | a)
            · exact .inl (.inl a)
            · exact .inl (.inr a)
            · exact .inr a
    · rename_i hno
      obtain ⟨h1, h2⟩ := ih _ _ h
      constructor
      · rw [h1]
        simp only [List.mem_cons, forall_eq_or_imp, Nat.add_eq_zero_iff]
        constructor
        · rintro ⟨⟨_, a⟩, _⟩; simp at a
        · rintro ⟨_, ⟨w, occ, a, _⟩, _⟩; exact absurd a (hno w occ)
      · rw [h2]
        simp only [List.mem_cons, exists_eq_or_imp]
        constructor
        · rintro (a | a)
          · exact .inl a
          · exact .inr (.inr a)
        · rintro (a | ⟨w, occ, a, _⟩ | a)
          · exact .inl a
          · exact absurd a (hno w occ)
          · exact .inr a

theorem sumUsages_some {f : Nat → Option (Nat × Bool)} {items : List (Option Body)} : ∀ (L : List Nat) (acc : Nat × Bool),
    (∀ i ∈ L, ∀ w occ, items[i]? = some (some (.decl w (some (.expr true occ)))) → f w ≠ none) →
    sumUsages f items L acc ≠ none := by
  intro L
  induction L with
  | nil => intro acc _; simp [sumUsages]
  | cons i L ih =>
    intro acc h
    rw [sumUsages]
    split
    · rename_i w occ hi
      cases hw : f w with
      | none => exact absurd hw (h i (by simp) w occ hi)
      | some u => exact ih _ (fun k hk => h k (List.mem_cons_of_mem _ hk))
    · exact ih _ (fun k hk => h k (List.mem_cons_of_mem _ hk))

theorem used_iff (s : State) (v : Nat) : UsedThrough s v ↔
    ∃ i, Uses s i v ∧ ¬ ∃ w occ, s.items[i]? = some (some (.decl w (some (.expr true occ)))) ∧ ¬ UsedThrough s w := by
  constructor
  · intro h
    cases h with
    | direct _ i b h hl ha =>
      refine ⟨i, h, ?_⟩
      rintro ⟨w, occ, a, _⟩
      rw [Live, a] at hl
      simp at hl
      exact ha w occ hl.symm
    | array _ i w occ h hl hw =>
      refine ⟨i, h, ?_⟩
      rintro ⟨w', occ', a, c⟩
      rw [Live, a] at hl
      simp at hl
      exact c (hl.1 ▸ hw)
  · rintro ⟨i, h, hn⟩
    have h' := h
    obtain ⟨b, hl, _⟩ := h'
    by_cases ha : ∃ w occ, b = .decl w (some (.expr true occ))
    · obtain ⟨w, occ, rfl⟩ := ha
      refine .array v i w occ h hl ?_
      by_contra hc
      exact hn ⟨w, occ, hl, hc⟩
    · exact .direct v i b h hl (fun w occ e => ha ⟨w, occ, e⟩)

theorem output_iff (E : Env) (s : State) (v : Nat) : OutputThrough E s v ↔ E.output v = true ∨
    ∃ i, Uses s i v ∧ ∃ w occ, s.items[i]? = some (some (.decl w (some (.expr true occ)))) ∧ OutputThrough E s w := by
  constructor
  · intro h
    cases h with
    | direct _ h => exact .inl h
    | array _ i w occ h hl hw => exact .inr ⟨i, h, w, occ, hl, hw⟩
  · rintro (h | ⟨i, h, w, occ, hl, hw⟩)
    · exact .direct v h
    · exact .array v i w occ h hl hw

end Occ

open Occ

/-- The number of occurrences of a variable is the number of items of the flat model that contain it or an identifier
that has been unified with it. -/
theorem C38_counts_partial {s : State} (h : Reach true s) (v : Nat) : occurrences s v = {i | Uses s i v}.ncard := by
  obtain ⟨I, C, X⟩ := reach_inv h
  have key := fun i => exact_map I C (X rfl) i v
  unfold occurrences
  cases hm : s.map (s.root v) with
  | none =>
    have : {i | Uses s i v} = ∅ := by
      ext i
      simp only [Set.mem_setOf_eq, Set.mem_empty_iff_false, iff_false, ← key i, hm]
      simp
    simp [this]
  | some S =>
    have : {i | Uses s i v} = (S : Set Nat) := by
      ext i
      simp only [Set.mem_setOf_eq, ← key i, hm, Finset.mem_coe]
      simp
    rw [this, Set.ncard_coe_finset]

/-- After any operations, the number of occurrences is never too small. -/
theorem C38_counts_enough {t : Bool} {s : State} (h : Reach t s) (v : Nat) :
    {i | Uses s i v}.ncard ≤ occurrences s v ∧ (occurrences s v = 0 → ∀ i, ¬ Uses s i v) := by
  obtain ⟨I, C, _⟩ := reach_inv h
  refine ⟨?_, fun h i => not_uses C h i⟩
  unfold occurrences
  cases hm : s.map (s.root v) with
  | none =>
    have : {i | Uses s i v} = ∅ := by
      ext i
      simp only [Set.mem_setOf_eq, Set.mem_empty_iff_false, iff_false]
      intro hu
      obtain ⟨S, hS, _⟩ := C i v hu
      rw [hm] at hS
      simp at hS
    simp [this]
  | some S =>
    have : {i | Uses s i v} ⊆ (S : Set Nat) := by
      intro i hu
      obtain ⟨S', hS, hi⟩ := C i v hu
      rw [hm] at hS
      simp at hS
      exact hS ▸ hi
    have := Set.ncard_le_ncard this (Finset.finite_toSet S)
    rwa [Set.ncard_coe_finset] at this

/-- Items can always be removed, changed and unified: no assertion fails, and the removal of declarations ends. -/
theorem C38_defined {t : Bool} {s : State} (h : Reach t s) (E : Env) :
    (∀ i b, Live s i b → ∃ s', removeItem E s i = .done s') ∧
    (∀ vs, ∃ s', removeDeleted E s vs = .done s') ∧
    (∀ i old occ, Live s i (.con old) → ∃ s', replaceItem E s i occ = some s') ∧
    (∀ a b i j, Declares s i (s.root a) → Declares s j (s.root b) → ∃ s', unify E s a b = some s') := by
  obtain ⟨I, C, _⟩ := reach_inv h
  refine ⟨?_, ?_, ?_, ?_⟩
  · intro i b hb
    obtain ⟨s', e, _⟩ := removeItem_spec E I C hb
    exact ⟨s', e⟩
  · intro vs
    obtain ⟨s', e, _⟩ := removeDeleted_spec E I C vs
    exact ⟨s', e⟩
  · intro i old occ hb
    obtain ⟨s', e, _⟩ := replaceItem_spec E I C hb occ
    exact ⟨s', e⟩
  · intro a b i j ha hb
    obtain ⟨s', e, _⟩ := unify_spec E I C a b i j ha hb
    exact ⟨s', e⟩

/-- Removing an item removes that item; every other item stays as it is, except declarations of free variables that are
not output and that no item of the new model uses. -/
theorem C38_remove {t : Bool} {s s' : State} (h : Reach t s) (E : Env) (i : Nat) (hr : removeItem E s i = .done s') :
    (∀ b, ¬ Live s' i b) ∧
    ∀ j, j ≠ i → s'.items[j]? = s.items[j]? ∨
      ((∀ b, ¬ Live s' j b) ∧ ∃ v, Declares s j v ∧ E.free v = true ∧ E.output v = false ∧ ∀ k, ¬ Uses s' k v) := by
  obtain ⟨I, C, _⟩ := reach_inv h
  have hl : ∃ b, Live s i b := by
    rw [removeItem] at hr
    split at hr
    · exact ⟨_, ‹_›⟩
    · simp at hr
  obtain ⟨b, hb⟩ := hl
  obtain ⟨s2, e, _, _, _, _, _, h1, h2, _⟩ := removeItem_spec E I C hb
  rw [hr] at e
  simp at e
  subst e
  refine ⟨fun b hb => by rw [Live, h1] at hb; simp at hb, fun j hj => ?_⟩
  rcases h2 j hj with h | ⟨h, v, rhs, p, q, r, w⟩
  · exact .inl h
  · exact .inr ⟨fun b hb => by rw [Live, h] at hb; simp at hb, v, ⟨rhs, p⟩, q, r, w⟩

/-- Removing an item leaves no garbage: the declaration of a free variable that is not output and that loses its last
use is removed with it. -/
theorem C38_remove_complete_partial {s s' : State} (h : Reach true s) (E : Env) (i : Nat) (hr : removeItem E s i = .done s')
    (v j k : Nat) (hd : Declares s j v) (hf : E.free v = true) (ho : E.output v = false) (hu : Uses s k v)
    (hn : ∀ k, ¬ Uses s' k v) : ∀ b, ¬ Live s' j b := by
  obtain ⟨I, C, X⟩ := reach_inv h
  have hl : ∃ b, Live s i b := by
    rw [removeItem] at hr
    split at hr
    · exact ⟨_, ‹_›⟩
    · simp at hr
  obtain ⟨b, hb⟩ := hl
  obtain ⟨s2, e, I2, C2, X2, r2, _, _, _, h3, h4⟩ := removeItem_spec E I C hb
  rw [hr] at e
  simp at e
  subst e
  obtain ⟨rhs, hl⟩ := hd
  obtain ⟨hx, hroot⟩ := I.idx' v j rhs hl
  obtain ⟨S, hS, hk⟩ := C k v hu
  rw [hroot] at hS
  have hne : s.map v ≠ some ∅ := by
    rw [hS]
    intro he
    simp at he
    subst he
    simp at hk
  have hz : s'.map v = some ∅ := by
    cases hm : s'.map v with
    | none => rw [(h4 v).mp hm] at hS; simp at hS
    | some S' =>
      congr 1
      by_contra hc
      obtain ⟨k', hk'⟩ := Finset.nonempty_iff_ne_empty.mpr hc
      exact hn k' (X2 (X rfl) v (by rw [r2]; exact hroot) S' hm k' hk')
  have := h3 v j hx hf ho hne hz
  intro b hb
  rw [Live, this] at hb
  simp at hb

/-- The clean-up at the end of the optimiser removes nothing but declarations of removable variables that no item of the
new model uses. -/
theorem C38_cleanup {t : Bool} {s s' : State} (h : Reach t s) (E : Env) (vs : List Nat) (hr : removeDeleted E s vs = .done s')
    (j : Nat) : s'.items[j]? = s.items[j]? ∨
      ((∀ b, ¬ Live s' j b) ∧ ∃ v, Declares s j v ∧ E.removable v = true ∧ ∀ k, ¬ Uses s' k v) := by
  obtain ⟨I, C, _⟩ := reach_inv h
  obtain ⟨s2, e, _, _, _, _, _, h1, _⟩ := removeDeleted_spec E I C vs
  rw [hr] at e
  simp at e
  subst e
  rcases h1 j with h | ⟨h, v, rhs, p, q, w⟩
  · exact .inl h
  · exact .inr ⟨fun b hb => by rw [Live, h] at hb; simp at hb, v, ⟨rhs, p⟩, q, w⟩

/-- A change of a constraint changes no other item. -/
theorem C38_replace {t : Bool} {s s' : State} (h : Reach t s) (E : Env) (i : Nat) (occ : List Nat)
    (hr : replaceItem E s i occ = some s') : s'.items = s.items.set i (some (.con occ)) ∧ s'.root = s.root := by
  obtain ⟨I, C, _⟩ := reach_inv h
  have hl : ∃ old, Live s i (.con old) := by
    rw [replaceItem] at hr
    split at hr
    · exact ⟨_, ‹_›⟩
    · simp at hr
  obtain ⟨b, hb⟩ := hl
  obtain ⟨s2, e, _, _, _, h1, h2⟩ := replaceItem_spec E I C hb occ
  rw [hr] at e
  simp at e
  subst e
  exact ⟨h1, h2⟩

/-- Unification makes two variables one, and merges no others. -/
theorem C38_unify {t : Bool} {s s' : State} (h : Reach t s) (E : Env) (a b : Nat) (hr : unify E s a b = some s') :
    s'.root a = s'.root b ∧
    ∀ u w, s'.root u = s'.root w → s.root u = s.root w ∨
      (s.root u = s.root a ∨ s.root u = s.root b) ∧ (s.root w = s.root a ∨ s.root w = s.root b) := by
  obtain ⟨I, C, _⟩ := reach_inv h
  by_cases hab : s.root a = s.root b
  · simp [unify, hab] at hr
    subst hr
    exact ⟨hab, fun u w h => .inl h⟩
  · obtain ⟨⟨i0, d0⟩, ⟨i1, d1⟩⟩ := unify_declares E I C hr hab
    obtain ⟨s2, e, _, _, _, h1, h2⟩ := unify_spec E I C a b i0 i1 d0 d1
    rw [hr] at e
    simp at e
    subst e
    exact ⟨h1, h2⟩

/-- The number of usages is zero exactly if the variable is used by nothing but declarations of arrays and sets that are
themselves not used; the flag says exactly whether the variable or an array that contains it is output. -/
theorem C38_usages_partial {s : State} (h : Reach true s) (E : Env) : ∀ (n v : Nat) (u : Nat × Bool), usages E n s v = some u →
    (u.1 = 0 ↔ ¬ UsedThrough s v) ∧ (u.2 = true ↔ OutputThrough E s v) := by
  obtain ⟨I, C, X⟩ := reach_inv h
  intro n
  induction n with
  | zero => intro v u h; simp [usages] at h
  | succ n ih =>
    intro v u hu
    have key := fun i => exact_map I C (X rfl) i v
    rw [usages] at hu
    rw [used_iff, output_iff]
    cases hm : s.map (s.root v) with
    | none =>
      simp only [hm, Option.some.injEq] at hu
      have hno : ∀ i, ¬ Uses s i v := by intro i; rw [← key i, hm]; simp
      subst hu
      simp [hno]
    | some S =>
      simp only [hm] at hu
      obtain ⟨h1, h2⟩ := sumUsages_spec (P := UsedThrough s) (Q := OutputThrough E s) (fun w u hw => ih w u hw) _ _ _ hu
      have hmem : ∀ i, i ∈ (List.range s.items.length).filter (fun i => decide (i ∈ S)) ↔ Uses s i v := by
        intro i
        rw [← key i, hm]
        simp only [List.mem_filter, List.mem_range, decide_eq_true_eq, Option.some.injEq, exists_eq_left']
        refine ⟨fun h => h.2, fun h => ⟨?_, h⟩⟩
        obtain ⟨b, hl, _⟩ := (key i).mp ⟨S, hm, h⟩
        exact live_lt hl
      simp only [hmem] at h1 h2
      constructor
      · rw [h1]
        constructor
        · rintro ⟨_, h⟩ ⟨i, hi, hn⟩; exact hn (h i hi)
        · intro h; exact ⟨trivial, fun i hi => by by_contra hc; exact h ⟨i, hi, hc⟩⟩
      · rw [h2]

/-- The usages are defined if no array contains itself through others. -/
theorem C38_usages_defined {s : State} (h : Reach true s) (E : Env) (rank : Nat → Nat)
    (hrank : ∀ v i w occ, Uses s i v → Live s i (.decl w (some (.expr true occ))) → rank w < rank v) :
    ∀ v, usages E (rank v + 1) s v ≠ none := by
  obtain ⟨I, C, X⟩ := reach_inv h
  have : ∀ n v, rank v < n → usages E n s v ≠ none := by
    intro n
    induction n with
    | zero => intro v hv; omega
    | succ n ih =>
      intro v hv
      rw [usages]
      cases hm : s.map (s.root v) with
      | none => simp
      | some S =>
        apply sumUsages_some
        intro i hi w occ hw
        apply ih
        have : Uses s i v := by
          rw [← exact_map I C (X rfl) i v, hm]
          simp only [List.mem_filter, decide_eq_true_eq] at hi
          exact ⟨S, rfl, hi.2⟩
        have := hrank v i w occ this hw
        omega
  intro v
  exact this _ v (by omega)

namespace Occ

/-- Every variable is free and removable, none is output. -/
def plain : Env := ⟨fun _ => true, fun _ => false, fun _ => true⟩

/-- Three variables, an array of two of them, a constraint. -/
def sample : State :=
  addItem (addItem (addItem (addItem (addItem empty (.decl 0 none)) (.decl 1 none)) (.decl 2 (some (.expr false [0, 0]))))
    (.decl 3 (some (.expr true [1, 2])))) (.con [3, 2])

theorem sample_reach (t : Bool) : Reach t sample := by
  refine .step _ _ (.step _ _ (.step _ _ (.step _ _ (.step _ _ .empty (.add _ _ ?_)) (.add _ _ ?_)) (.add _ _ ?_)) (.add _ _ ?_))
    (.add _ _ ?_)
  all_goals
    intro v rhs h
    first
      | (simp only [Body.decl.injEq] at h; obtain ⟨rfl, _⟩ := h; decide)
      | simp at h

/-- Variable `1` is equal to variable `0` by its right hand side. -/
def aliased : State := addItem (addItem empty (.decl 0 none)) (.decl 1 (some (.alias 0)))

theorem aliased_reach (t : Bool) : Reach t aliased := by
  refine .step _ _ (.step _ _ .empty (.add _ _ ?_)) (.add _ _ ?_)
  all_goals
    intro v rhs h
    simp only [Body.decl.injEq] at h
    obtain ⟨rfl, _⟩ := h
    decide

end Occ

/-- The full statement of `C38_counts_partial` fails: a right hand side that is an identifier is dropped by the
unification without being unregistered, so that the variable that remains keeps an occurrence in an item that is not
in the model any more. -/
theorem C38_alias_fails : ∃ s v, Reach false s ∧ (∀ i, ¬ Uses s i v) ∧ occurrences s v = 1 := by
  have h : ∃ s', unify plain aliased 1 0 = some s' ∧ s'.items = [some (.decl 0 none), none] ∧ occurrences s' 0 = 1 := by
    refine ⟨_, rfl, rfl, ?_⟩
    decide
  obtain ⟨s', h1, h2, h3⟩ := h
  refine ⟨s', 0, .step _ _ (aliased_reach false) (.unify plain _ _ 1 0 (by simp) h1), ?_, h3⟩
  rintro i ⟨b, hl, u, hu, _⟩
  rw [Live, h2] at hl
  match i with
  | 0 => simp at hl; subst hl; simp [Body.occ] at hu
  | 1 => simp at hl
  | i + 2 => simp at hl

/-- Replacing one argument of a constraint forgets the occurrences in its other arguments: the variable is still used,
and has no occurrence.  The next removal of an item could delete its declaration. -/
theorem C38_replace_argument_fails : ∃ s s' i v, Reach true s ∧ replaceArgument plain s i [3] [3] [] [1] = some s' ∧
    Uses s' i v ∧ occurrences s' v = 0 := by
  have h0 : ∃ s', replaceArgument plain (addItem (addItem (addItem empty (.decl 3 none)) (.decl 1 none)) (.con [3, 3])) 2 [3] [3] [] [1] =
      some s' ∧ s'.items[2]? = some (some (.con [3, 1])) ∧ occurrences s' 3 = 0 := by
    refine ⟨_, rfl, rfl, ?_⟩
    decide
  obtain ⟨s', h1, h2, h3⟩ := h0
  refine ⟨_, s', 2, 3, ?_, h1, ⟨_, h2, 3, by simp [Body.occ], rfl⟩, h3⟩
  refine .step _ _ (.step _ _ (.step _ _ .empty (.add _ _ ?_)) (.add _ _ ?_)) (.add _ _ ?_)
  all_goals
    intro v rhs h
    first
      | (simp only [Body.decl.injEq] at h; obtain ⟨rfl, _⟩ := h; decide)
      | simp at h

/-- Non-vacuity: variable `2` has two occurrences, `0` has one. -/
example : occurrences sample 2 = 2 ∧ occurrences sample 0 = 1 ∧ Reach true sample := by
  refine ⟨by decide, by decide, sample_reach true⟩

/-- Non-vacuity: the removal of the constraint removes everything. -/
example : ∃ s', removeItem plain sample 4 = .done s' ∧ s'.items = [none, none, none, none, none] := ⟨_, rfl, rfl⟩

/-- Non-vacuity: an output variable and what it uses stay. -/
example : ∃ s', removeItem ⟨fun _ => true, fun v => v = 2, fun _ => true⟩ sample 4 = .done s' ∧
    s'.items = [some (.decl 0 none), none, some (.decl 2 (some (.expr false [0, 0]))), none, none] := ⟨_, rfl, rfl⟩

/-- Non-vacuity: a unification that is tidy, after which the variables `1` and `2` have the two occurrences together. -/
example : Tidy plain sample 1 2 ∧ ∃ s', unify plain sample 1 2 = some s' ∧ occurrences s' 1 = 2 ∧ occurrences s' 0 = 1 := by
  refine ⟨?_, _, rfl, by decide, by decide⟩
  intro i0 i1 r0 r1 h0 _
  left
  have h0 : Live sample i0 (.decl 1 r0) := h0
  unfold Live at h0
  match i0 with
  | 0 => simp [sample, addItem, collect_eq, empty] at h0
  | 1 => simp [sample, addItem, collect_eq, empty] at h0; exact h0.symm
  | 2 => simp [sample, addItem, collect_eq, empty] at h0
  | 3 => simp [sample, addItem, collect_eq, empty] at h0
  | 4 => simp [sample, addItem, collect_eq, empty] at h0
  | i + 5 => simp [sample, addItem, collect_eq, empty] at h0

/-- Non-vacuity: variable `1` is used once, through the array; `2` is used twice. -/
example : usages plain 3 sample 1 = some (1, false) ∧ usages plain 3 sample 2 = some (2, false) := by decide

end MZ
