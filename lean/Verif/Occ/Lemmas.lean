import Verif.Occ.Spec
import Mathlib.Algebra.BigOperators.Group.List.Basic
import Mathlib.Tactic.Tauto

namespace MZ
namespace Occ

/-- The map after `uncollect`. -/
def eraseMap (s : State) (i : Nat) (occ : List Nat) (r : Nat) : Option (Finset Nat) :=
  if r ∈ occ.map s.root then (s.map r).map (·.erase i) else s.map r

/-- The map after `collect`. -/
def insMap (s : State) (i : Nat) (occ : List Nat) (r : Nat) : Option (Finset Nat) :=
  if r ∈ occ.map s.root then some (insert i ((s.map r).getD ∅)) else s.map r

theorem collect_eq (i : Nat) : ∀ (occ : List Nat) (s : State), collect s i occ = { s with map := insMap s i occ } := by
  intro occ
  induction occ with
  | nil =>
    intro s
    have : insMap s i [] = s.map := by funext r; simp [insMap]
    rw [collect, this]
  | cons v vs ih =>
    intro s
    have h : add s v i = { s with map := upd s.map (s.root v) (some (insert i ((s.map (s.root v)).getD ∅))) } := by
      rw [add]; cases h : s.map (s.root v) <;> simp
    rw [collect, ih, h]
    simp only [State.mk.injEq, true_and, and_true]
    funext r
    simp only [insMap, upd, List.map_cons, List.mem_cons]
    by_cases h1 : r ∈ vs.map s.root <;> by_cases h2 : r = s.root v <;> simp [h1, h2]

theorem uncollect_eq (free : Nat → Bool) (i : Nat) : ∀ (occ : List Nat) (s : State),
    (∀ v ∈ occ, s.map (s.root v) ≠ none) →
    ∃ ds, uncollect free s i occ = some ({ s with map := eraseMap s i occ }, ds) ∧ ds.length ≤ occ.length ∧
      ∀ d, d ∈ ds ↔ d ∈ occ.map s.root ∧ eraseMap s i occ d = some ∅ ∧ free d = true := by
  intro occ
  induction occ with
  | nil =>
    intro s _
    have : eraseMap s i [] = s.map := by funext r; simp [eraseMap]
    exact ⟨[], by rw [uncollect, this], by simp, by simp⟩
  | cons v vs ih =>
    intro s h
    obtain ⟨S, hS⟩ := Option.ne_none_iff_exists'.mp (h v (by simp))
    have h1 : remove s v i = some ({ s with map := upd s.map (s.root v) (some (S.erase i)) }, (S.erase i).card) := by
      simp [remove, hS]
    obtain ⟨ds, e1, e2, e3⟩ := ih { s with map := upd s.map (s.root v) (some (S.erase i)) } (by
      intro u hu
      simp only [upd]
      split
      · simp
      · exact h u (by simp [hu]))
    have hm : eraseMap { s with map := upd s.map (s.root v) (some (S.erase i)) } i vs = eraseMap s i (v :: vs) := by
      funext r
      simp only [eraseMap, upd, List.map_cons, List.mem_cons]
      by_cases h1 : r ∈ vs.map s.root <;> by_cases h2 : r = s.root v <;> simp [h1, h2]
      · subst h2; simp [h1, hS]
      · subst h2; simp [h1, hS]
    rw [hm] at e1 e3
    refine ⟨(if (S.erase i).card = 0 && free (s.root v) then [s.root v] else []) ++ ds, ?_, ?_, ?_⟩
    · rw [uncollect, h1]; simp only [e1]
    · rw [List.length_append, List.length_cons]; split <;> simp <;> omega
    · intro d
      rw [List.mem_append, e3, List.map_cons, List.mem_cons]
      have hv : eraseMap s i (v :: vs) (s.root v) = some (S.erase i) := by simp [eraseMap, hS]
      constructor
      · rintro (h | ⟨h, h', h''⟩)
        · split at h
          · rename_i hc
            simp only [List.mem_singleton] at h
            subst h
            simp only [Bool.and_eq_true, decide_eq_true_eq, Finset.card_eq_zero] at hc
            exact ⟨.inl rfl, by rw [hv, hc.1], hc.2⟩
          · simp at h
        · exact ⟨.inr h, h', h''⟩
      · rintro ⟨h | h, h', h''⟩
        · left
          subst h
          rw [hv] at h'
          simp only [Option.some.injEq] at h'
          simp [h', h'']
        · exact .inr ⟨h, h', h''⟩

theorem size_set (s s1 : State) (j : Nat) (b : Body) (h : Live s j b) (hi : s1.items = s.items.set j none) :
    size s1 + (b.occ.length + 1) = size s := by
  unfold size Live at *
  rw [hi]
  generalize s.items = l at h
  clear hi
  induction l generalizing j with
  | nil => simp at h
  | cons x xs ih =>
    cases j with
    | zero => simp at h; subst h; simp; omega
    | succ j =>
      simp only [List.getElem?_cons_succ] at h
      have := ih j h
      simp only [List.set_cons_succ, List.map_cons, List.sum_cons]
      omega

theorem live_lt {s : State} {j : Nat} {b : Body} (h : Live s j b) : j < s.items.length := by
  unfold Live at h
  by_contra hc
  rw [List.getElem?_eq_none (by omega)] at h
  simp at h

/-- What holds while declarations are removed.  Item `e` is exempt. -/
structure LInv (e : Option Nat) (s : State) : Prop where
  idem : ∀ v, s.root (s.root v) = s.root v
  idx : ∀ v j, s.idx v = some j → s.items[j]? = some none ∨ ∃ rhs, Live s j (.decl v rhs)
  idx' : ∀ v j rhs, Live s j (.decl v rhs) → s.idx v = some j ∧ s.root v = v
  dfd : ∀ j v, Uses s j v → s.map (s.root v) ≠ none
  cov : ∀ j v, some j ≠ e → Uses s j v → ∀ S, s.map (s.root v) = some S → j ∈ S

/-- Nothing is recorded that is not an occurrence. -/
def Exact (s : State) : Prop := ∀ r, s.root r = r → ∀ S, s.map r = some S → ∀ j ∈ S, Uses s j r

/-- What the removal of declarations does. -/
structure Shrunk (gate block : Nat → Bool) (s s' : State) : Prop where
  root : s'.root = s.root
  idx : s'.idx = s.idx
  len : s'.items.length = s.items.length
  nn : ∀ r, s'.map r = none ↔ s.map r = none
  sub : ∀ r S', s'.map r = some S' → ∃ S, s.map r = some S ∧ S' ⊆ S
  items : ∀ j : Nat, s'.items[j]? = s.items[j]? ∨
    (s'.items[j]? = some none ∧ ∃ v rhs, Live s j (.decl v rhs) ∧ gate v = true ∧ block v = false ∧ occurrences s' v = 0)

theorem occ_zero {s : State} {v : Nat} : occurrences s v = 0 ↔ ∀ S, s.map (s.root v) = some S → S = ∅ := by
  unfold occurrences
  cases h : s.map (s.root v) <;> simp

theorem Shrunk.occ {gate block : Nat → Bool} {s s' : State} (h : Shrunk gate block s s') {v : Nat}
    (hz : occurrences s v = 0) : occurrences s' v = 0 := by
  rw [occ_zero] at *
  intro S' hS'
  rw [h.root] at hS'
  obtain ⟨S, h1, h2⟩ := h.sub _ _ hS'
  exact Finset.subset_empty.mp (hz S h1 ▸ h2)

theorem Shrunk.refl (gate block : Nat → Bool) (s : State) : Shrunk gate block s s :=
  ⟨rfl, rfl, rfl, fun _ => Iff.rfl, fun _ S h => ⟨S, h, fun _ h => h⟩, fun _ => .inl rfl⟩

theorem Shrunk.trans {gate block : Nat → Bool} {s s1 s2 : State} (h1 : Shrunk gate block s s1)
    (h2 : Shrunk gate block s1 s2) : Shrunk gate block s s2 := by
  refine ⟨h2.root.trans h1.root, h2.idx.trans h1.idx, h2.len.trans h1.len, fun r => (h2.nn r).trans (h1.nn r), ?_, ?_⟩
  · intro r S' h
    obtain ⟨S, a, b⟩ := h2.sub r S' h
    obtain ⟨S0, a0, b0⟩ := h1.sub r S a
    exact ⟨S0, a0, b.trans b0⟩
  · intro j
    rcases h2.items j with a | ⟨a, v, rhs, b, c, d, f⟩
    · rcases h1.items j with a' | ⟨a', v, rhs, b, c, d, f⟩
      · exact .inl (a.trans a')
      · exact .inr ⟨a.trans a', v, rhs, b, c, d, h2.occ f⟩
    · rcases h1.items j with a' | ⟨a', _⟩
      · exact .inr ⟨a, v, rhs, a'.symm.trans b, c, d, f⟩
      · rw [Live, a'] at b; simp at b

theorem uses_mono {s s1 : State} (hr : s1.root = s.root)
    (hi : ∀ (j : Nat) (b : Body), s1.items[j]? = some (some b) → s.items[j]? = some (some b)) {j v : Nat}
    (h : Uses s1 j v) : Uses s j v := by
  obtain ⟨b, h1, u, h2, h3⟩ := h
  exact ⟨b, hi j b h1, u, h2, by rw [← hr]; exact h3⟩

theorem set_none_some {l : List (Option Body)} {i j : Nat} {b : Body} :
    (l.set i none)[j]? = some (some b) ↔ j ≠ i ∧ l[j]? = some (some b) := by
  rw [List.getElem?_set]
  split
  · rename_i h; subst h
    constructor
    · intro h; split at h <;> simp at h
    · rintro ⟨h, _⟩; simp at h
  · rename_i h; exact ⟨fun h' => ⟨fun hh => h hh.symm, h'⟩, fun h' => h'.2⟩

/-- Removing item `j` together with its occurrences. -/
theorem drop_item {e : Option Nat} {s : State} (H : LInv e s) {j : Nat} {b : Body} (hb : Live s j b) :
    LInv e { s with map := eraseMap s j b.occ, items := s.items.set j none } ∧
    (Exact s → Exact { s with map := eraseMap s j b.occ, items := s.items.set j none }) := by
  have hu : ∀ {k v}, Uses { s with map := eraseMap s j b.occ, items := s.items.set j none } k v → k ≠ j ∧ Uses s k v := by
    rintro k v ⟨b', h1, u, h2, h3⟩
    obtain ⟨h4, h5⟩ := set_none_some.mp h1
    exact ⟨h4, b', h5, u, h2, h3⟩
  refine ⟨⟨H.idem, ?_, ?_, ?_, ?_⟩, ?_⟩
  · intro v k hk
    by_cases hkj : k = j
    · left
      subst hkj
      simp [live_lt hb]
    · rcases H.idx v k hk with h | ⟨rhs, h⟩
      · left; simpa [Ne.symm hkj] using h
      · exact .inr ⟨rhs, set_none_some.mpr ⟨hkj, h⟩⟩
  · intro v k rhs h
    exact H.idx' v k rhs (set_none_some.mp h).2
  · intro k v h
    have := H.dfd k v (hu h).2
    simp only [eraseMap]
    split
    · simpa using this
    · exact this
  · intro k v hk h S hS
    obtain ⟨h1, h2⟩ := hu h
    simp only [eraseMap] at hS
    split at hS
    · obtain ⟨S0, a, rfl⟩ := Option.map_eq_some_iff.mp hS
      exact Finset.mem_erase.mpr ⟨h1, H.cov k v hk h2 S0 a⟩
    · exact H.cov k v hk h2 S hS
  · intro X r hr S hS k hk
    simp only at hr
    have key : ∃ S0, s.map r = some S0 ∧ k ∈ S0 ∧ (r ∈ b.occ.map s.root → k ≠ j) := by
      simp only [eraseMap] at hS
      split at hS
      · obtain ⟨S0, a, rfl⟩ := Option.map_eq_some_iff.mp hS
        obtain ⟨c, d⟩ := Finset.mem_erase.mp hk
        exact ⟨S0, a, d, fun _ => c⟩
      · rename_i hn
        exact ⟨S, hS, hk, fun h => absurd h hn⟩
    obtain ⟨S0, a, c, d⟩ := key
    obtain ⟨b', h1, u, h2, h3⟩ := X r hr S0 a k c
    have hkj : k ≠ j := by
      by_contra hkj
      subst hkj
      have : b' = b := by rw [Live] at h1 hb; rw [h1] at hb; simpa using hb
      subst this
      exact d (List.mem_map.mpr ⟨u, h2, h3.trans hr⟩) rfl
    exact ⟨b', set_none_some.mpr ⟨hkj, h1⟩, u, h2, h3⟩

/-- Every variable that lost its last occurrence since `s0` is removed or waits to be removed. -/
def Pend (gate block free : Nat → Bool) (s0 s : State) (todo : List Nat) : Prop :=
  ∀ r j, s.idx r = some j → gate r = true → block r = false → free r = true → s0.map r ≠ some ∅ → s.map r = some ∅ →
    s.items[j]? = some none ∨ r ∈ todo

theorem loop_spec (strict : Bool) (gate block free : Nat → Bool) (hg : strict = true → ∀ d, free d = true → gate d = true)
    (e : Option Nat) (s0 : State) : ∀ (n : Nat) (s : State) (todo : List Nat), LInv e s → size s + todo.length ≤ n →
    (strict = true → ∀ d ∈ todo, occurrences s d = 0 ∧ gate d = true) →
    ∃ s', loop strict gate block free n s todo = .done s' ∧ LInv e s' ∧ Shrunk gate block s s' ∧ (Exact s → Exact s') ∧
      (Pend gate block free s0 s todo → Pend gate block free s0 s' []) := by
  intro n
  induction n with
  | zero =>
    intro s todo H hn _
    have : todo = [] := List.length_eq_zero_iff.mp (by omega)
    subst this
    exact ⟨s, by rw [loop], H, Shrunk.refl .., id, id⟩
  | succ n ih =>
    intro s todo H hn hs
    cases todo with
    | nil => exact ⟨s, by rw [loop], H, Shrunk.refl .., id, id⟩
    | cons cur todo =>
      rw [loop]
      have hskip : (Pend gate block free s0 s (cur :: todo) → Pend gate block free s0 s todo) →
          ∃ s', loop strict gate block free n s todo = .done s' ∧ LInv e s' ∧ Shrunk gate block s s' ∧
          (Exact s → Exact s') ∧ (Pend gate block free s0 s (cur :: todo) → Pend gate block free s0 s' []) := by
        intro hp
        obtain ⟨s', a, b, c, d, f⟩ := ih s todo H (by simp at hn; omega)
          (fun h x hx => hs h x (List.mem_cons_of_mem _ hx))
        exact ⟨s', a, b, c, d, fun h => f (hp h)⟩
      have hp : (∀ j, s.idx cur = some j → gate cur = true → block cur = false → s.map cur = some ∅ → s.items[j]? = some none) →
          Pend gate block free s0 s (cur :: todo) → Pend gate block free s0 s todo := by
        intro h h' r j h1 h2 h3 h4 h5 h6
        rcases h' r j h1 h2 h3 h4 h5 h6 with h7 | h7
        · exact .inl h7
        · rcases List.mem_cons.mp h7 with h8 | h8
          · subst h8; exact .inl (h j h1 h2 h3 h6)
          · exact .inr h8
      split
      · rename_i hc
        split
        · rename_i hi
          exact hskip (hp (fun j hj => by rw [hi] at hj; simp at hj))
        · rename_i j hi
          split
          · rename_i v rhs hl
            have hv : v = cur := by
              rcases H.idx cur j hi with h | ⟨rhs', h⟩
              · rw [h] at hl; simp at hl
              · rw [Live, hl] at h; simp at h; exact h.1
            subst hv
            split
            · rename_i hb
              exact hskip (hp (fun _ _ _ h => by rw [hb] at h; simp at h))
            · rename_i hb
              have hb : block v = false := by simpa using hb
              have hlive : Live s j (.decl v rhs) := hl
              obtain ⟨ds, h1, h2, h3⟩ := uncollect_eq free j (Body.decl v rhs).occ s
                (fun u hu => H.dfd j u ⟨_, hlive, u, hu, rfl⟩)
              rw [h1]
              obtain ⟨K1, K2⟩ := drop_item H hlive
              have hsz := size_set s { s with map := eraseMap s j (Body.decl v rhs).occ, items := s.items.set j none } j _
                hlive rfl
              have hsh : Shrunk gate block s
                  { s with map := eraseMap s j (Body.decl v rhs).occ, items := s.items.set j none } := by
                have hsub : ∀ r S', eraseMap s j (Body.decl v rhs).occ r = some S' → ∃ S, s.map r = some S ∧ S' ⊆ S := by
                  intro r S' h
                  simp only [eraseMap] at h
                  split at h
                  · obtain ⟨S0, a, rfl⟩ := Option.map_eq_some_iff.mp h
                    exact ⟨S0, a, Finset.erase_subset _ _⟩
                  · exact ⟨S', h, fun _ h => h⟩
                refine ⟨rfl, rfl, by simp, ?_, hsub, ?_⟩
                · intro r; simp only [eraseMap]; split <;> simp
                · intro k
                  by_cases hkj : k = j
                  · right
                    subst hkj
                    refine ⟨by simp [live_lt hlive], v, rhs, hlive, hc.2, hb, ?_⟩
                    rw [occ_zero]
                    intro S' hS'
                    obtain ⟨S, a, b⟩ := hsub _ _ hS'
                    exact Finset.subset_empty.mp (occ_zero.mp hc.1 S a ▸ b)
                  · left; simp [Ne.symm hkj]
              obtain ⟨s', a, b, c, d, f⟩ := ih { s with map := eraseMap s j (Body.decl v rhs).occ, items := s.items.set j none }
                (ds.reverse ++ todo) K1 (by simp at hn ⊢; omega) (by
                  intro hst x hx
                  rcases List.mem_append.mp hx with hx | hx
                  · obtain ⟨m1, m2, m3⟩ := (h3 x).mp (List.mem_reverse.mp hx)
                    refine ⟨?_, hg hst x m3⟩
                    rw [occ_zero]
                    intro S hS
                    obtain ⟨u, _, hu⟩ := List.mem_map.mp m1
                    have : s.root x = x := by rw [← hu, H.idem]
                    simp only [this] at hS
                    rw [m2] at hS
                    simpa using hS.symm
                  · exact ⟨hsh.occ (hs hst x (List.mem_cons_of_mem _ hx)).1, (hs hst x (List.mem_cons_of_mem _ hx)).2⟩)
              refine ⟨s', a, b, hsh.trans c, fun X => d (K2 X), fun P => f ?_⟩
              intro r k q1 q2 q3 q4 q5 q6
              simp only at q1 q6 ⊢
              by_cases hkj : k = j
              · left; subst hkj; simp [live_lt hlive]
              · by_cases hr : s.map r = some ∅
                · rcases P r k q1 q2 q3 q4 q5 hr with h | h
                  · left; rw [List.getElem?_set_ne (Ne.symm hkj)]; exact h
                  · rcases List.mem_cons.mp h with h | h
                    · subst h; rw [hi] at q1; simp at q1; exact absurd q1.symm hkj
                    · exact .inr (List.mem_append_right _ h)
                · right
                  apply List.mem_append_left
                  rw [List.mem_reverse, h3]
                  refine ⟨?_, q6, q4⟩
                  by_contra hcon
                  simp only [eraseMap, if_neg hcon] at q6
                  exact hr q6
          · rename_i hl
            exact hskip (hp (fun k hk _ _ _ => by rw [hi] at hk; simp at hk; subst hk; exact hl))
          · rename_i hno hno'
            exfalso
            rcases H.idx cur j hi with h | ⟨rhs', h⟩
            · exact hno' h
            · exact hno _ _ h
      · rename_i hc
        cases strict with
        | true => exact absurd (hs rfl cur (by simp)) hc
        | false =>
          simp only [Bool.false_eq_true, if_false]
          refine hskip (hp (fun j hj hgt _ hm => ?_))
          rcases H.idx cur j hj with h | ⟨rhs', h⟩
          · exact h
          · exfalso
            apply hc
            refine ⟨?_, hgt⟩
            rw [occ_zero, (H.idx' _ _ _ h).2, hm]
            simp
end Occ
end MZ
