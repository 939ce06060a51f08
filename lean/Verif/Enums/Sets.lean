import Verif.Enums.Spec
import Mathlib.Data.List.Basic

/-! Lemmas on sets of integers: contiguous sets, the sparse inverse, constructors and their inverses. -/

namespace MZ
namespace Enums

theorem mem_upTo {n v : Int} : v ∈ upTo n ↔ 1 ≤ v ∧ v ≤ n := by
  unfold upTo
  simp only [List.mem_map, List.mem_range]
  constructor
  · rintro ⟨i, hi, rfl⟩
    omega
  · rintro ⟨h1, h2⟩
    exact ⟨(v - 1).toNat, by omega, by omega⟩

theorem upTo_length (n : Int) : (upTo n).length = n.toNat := by simp [upTo]

theorem upTo_get (n : Int) (i : Nat) : (upTo n)[i]? = if i < n.toNat then some ((i : Int) + 1) else none := by
  unfold upTo
  rw [List.getElem?_map]
  by_cases h : i < n.toNat
  · rw [List.getElem?_range h, if_pos h]; rfl
  · rw [if_neg h, List.getElem?_eq_none (by simpa using h)]; rfl

theorem isSet_upTo (n : Int) : IsSet (upTo n) := by
  unfold IsSet upTo
  rw [List.pairwise_map]
  refine List.Pairwise.imp ?_ (List.pairwise_lt_range (n := n.toNat))
  intro a b h
  omega

/-- Elements of an increasing list are at least as far apart as their positions. -/
theorem isSet_gap {s : List Int} (h : IsSet s) : ∀ {i j : Nat} {a b : Int}, i ≤ j → s[i]? = some a → s[j]? = some b →
    a + ((j : Int) - i) ≤ b := by
  intro i j
  induction j with
  | zero =>
    intro a b hij ha hb
    have : i = 0 := by omega
    subst this
    rw [ha] at hb
    cases hb
    simp
  | succ j ih =>
    intro a b hij ha hb
    by_cases e : i = j + 1
    · subst e
      rw [ha] at hb
      cases hb
      simp
    · have hj : j < s.length := by
        have := (List.getElem?_eq_some_iff.1 hb).1
        omega
      have hc : s[j]? = some s[j] := List.getElem?_eq_getElem hj
      have h1 := ih (by omega) ha hc
      obtain ⟨hj', hb'⟩ := List.getElem?_eq_some_iff.1 hb
      have h2 : s[j] < s[j + 1] := List.pairwise_iff_getElem.1 h j (j + 1) hj hj' (by omega)
      rw [hb'] at h2
      push_cast
      omega

theorem isSet_inj {s : List Int} (h : IsSet s) {i j : Nat} {a : Int} (hi : s[i]? = some a) (hj : s[j]? = some a) : i = j := by
  rcases le_total i j with e | e
  · have := isSet_gap h e hi hj
    omega
  · have := isSet_gap h e hj hi
    omega

theorem head_get {s : List Int} {mn : Int} (h : s.head? = some mn) : s[0]? = some mn := by
  cases s with
  | nil => cases h
  | cons a s => simpa using h

theorem last_get {s : List Int} {mx : Int} (h : s.getLast? = some mx) : s[s.length - 1]? = some mx := by
  rw [List.getLast?_eq_getElem?] at h
  exact h

theorem head_last_some {s : List Int} {i : Nat} {x : Int} (h : s[i]? = some x) :
    ∃ mn mx, s.head? = some mn ∧ s.getLast? = some mx := by
  cases s with
  | nil => simp at h
  | cons a s => exact ⟨a, _, rfl, List.getLast?_eq_some_getLast (by simp)⟩

/-- The elements of a contiguous set are consecutive. -/
theorem contiguous_get {s : List Int} (h : IsSet s) (hc : contiguous s = true) {mn : Int} (hm : s.head? = some mn)
    {i : Nat} {x : Int} (hx : s[i]? = some x) : x = mn + i := by
  obtain ⟨mn', mx, h1, h2⟩ := head_last_some hx
  rw [hm] at h1
  cases h1
  unfold contiguous at hc
  rw [hm, h2] at hc
  have hc := of_decide_eq_true hc
  have hi := (List.getElem?_eq_some_iff.1 hx).1
  have g1 := isSet_gap h (Nat.zero_le i) (head_get hm) hx
  have g2 := isSet_gap h (by omega : i ≤ s.length - 1) hx (last_get h2)
  have : ((s.length - 1 : Nat) : Int) = (s.length : Int) - 1 := by omega
  push_cast at g1
  omega

theorem contiguous_mem {s : List Int} (h : IsSet s) (hc : contiguous s = true) {mn : Int} (hm : s.head? = some mn)
    {i : Nat} (hi : i < s.length) : s[i]? = some (mn + i) := by
  have := List.getElem?_eq_getElem hi
  rw [contiguous_get h hc hm this] at this
  exact this

theorem fillInverse_length (mn : Int) : ∀ (vs : List Int) (i : Int) (el : List Int),
    (fillInverse mn vs i el).length = el.length
  | [], _, _ => rfl
  | v :: vs, i, el => by rw [fillInverse, fillInverse_length mn vs]; simp

theorem fillInverse_other (mn : Int) : ∀ (vs : List Int) (i : Int) (el : List Int) (p : Nat),
    (∀ v ∈ vs, (v - mn).toNat ≠ p) → (fillInverse mn vs i el)[p]? = el[p]?
  | [], _, _, _, _ => rfl
  | v :: vs, i, el, p, h => by
    rw [fillInverse, fillInverse_other mn vs (i + 1) _ p (fun w hw => h w (List.mem_cons_of_mem _ hw)),
      List.getElem?_set_ne (h v List.mem_cons_self)]

theorem fillInverse_get (mn : Int) : ∀ (vs : List Int) (i : Int) (el : List Int), IsSet vs → (∀ v ∈ vs, mn ≤ v) →
    (∀ v ∈ vs, (v - mn).toNat < el.length) → ∀ (q : Nat) (x : Int), vs[q]? = some x →
    (fillInverse mn vs i el)[(x - mn).toNat]? = some (i + q)
  | [], _, _, _, _, _, q, x, h => by simp at h
  | v :: vs, i, el, hs, hm, hl, q, x, h => by
    obtain ⟨h1, h2⟩ := List.pairwise_cons.1 hs
    cases q with
    | zero =>
      simp only [List.getElem?_cons_zero, Option.some.injEq] at h
      subst h
      rw [fillInverse, fillInverse_other mn vs _ _ _ ?_, List.getElem?_set_self (hl v List.mem_cons_self)]
      · simp
      · intro w hw e
        have := h1 w hw
        have := hm v List.mem_cons_self
        omega
    | succ q =>
      simp only [List.getElem?_cons_succ] at h
      rw [fillInverse, fillInverse_get mn vs (i + 1) _ h2 (fun w hw => hm w (List.mem_cons_of_mem _ hw))
        (fun w hw => by rw [List.length_set]; exact hl w (List.mem_cons_of_mem _ hw)) q x h]
      push_cast
      congr 1
      omega

/-- The sparse inverse maps every element of the set to its position. -/
theorem sparseInverse_get {s : List Int} (h : IsSet s) {i : Nat} {x : Int} (hx : s[i]? = some x) :
    ∃ mn a, sparseInverse s = some (mn, a) ∧ access mn a x = some ((i : Int) + 1) := by
  obtain ⟨mn, mx, h1, h2⟩ := head_last_some hx
  refine ⟨mn, fillInverse mn s 1 (List.replicate (mx - mn + 1).toNat 1), by unfold sparseInverse; rw [h1, h2], ?_⟩
  have lo : ∀ v ∈ s, mn ≤ v := by
    intro v hv
    obtain ⟨j, hj⟩ := List.mem_iff_getElem?.1 hv
    have := isSet_gap h (Nat.zero_le j) (head_get h1) hj
    push_cast at this
    omega
  have hi : ∀ v ∈ s, v ≤ mx := by
    intro v hv
    obtain ⟨j, hj⟩ := List.mem_iff_getElem?.1 hv
    have hjl := (List.getElem?_eq_some_iff.1 hj).1
    have := isSet_gap h (by omega : j ≤ s.length - 1) hj (last_get h2)
    omega
  unfold access
  rw [if_pos (lo x (List.mem_of_getElem? hx)),
    fillInverse_get mn s 1 _ h lo (fun v hv => by
      rw [List.length_replicate]
      have := lo v hv
      have := hi v hv
      omega) i x hx]
  rw [Int.add_comm]

theorem access_one {α} (a : List α) (i : Nat) : access 1 a ((i : Int) + 1) = a[i]? := by
  unfold access
  rw [if_pos (by omega)]
  congr 1
  omega

theorem access_one_some {α} {a : List α} {v : Int} {x : α} (h : access 1 a v = some x) :
    ∃ i : Nat, v = (i : Int) + 1 ∧ a[i]? = some x := by
  unfold access at h
  split_ifs at h with h1
  exact ⟨(v - 1).toNat, by omega, h⟩

theorem toEnum_some {X : List Int} {v w : Int} : toEnum X v = some w ↔ v ∈ X ∧ w = v := by
  unfold toEnum
  split_ifs with h
  · simp [h, eq_comm]
  · simp [h]

theorem toEnum_mem {X : List Int} {v : Int} (h : v ∈ X) : toEnum X v = some v := by
  rw [toEnum, if_pos h]

theorem plusPrev_eq (prev : Option Int) (v : Int) : plusPrev prev v = prev.getD 0 + v := by
  cases prev <;> simp [plusPrev]

theorem minusPrev_eq (v : Int) (prev : Option Int) : minusPrev v prev = v - prev.getD 0 := by
  cases prev <;> simp [minusPrev]

/-- A constructor whose values come after `off` other values. -/
structure Cons.At (c : Cons) (off : Nat) : Prop where
  set : IsSet c.elems
  prev : c.prev.getD 0 = off
  argMin : c.argMin = off - (minOr0 c.elems - 1)

theorem apply_get {c : Cons} {off : Nat} (h : c.At off) (X : List Int) {i : Nat} {x : Int} (hx : c.elems[i]? = some x) :
    c.apply X x = toEnum X ((off + i + 1 : Nat) : Int) := by
  unfold Cons.apply
  rw [if_pos (List.mem_of_getElem? hx)]
  obtain ⟨mn, mx, h1, h2⟩ := head_last_some hx
  by_cases hc : contiguous c.elems = true
  · rw [if_pos hc]
    congr 1
    rw [contiguous_get h.set hc h1 hx, h.argMin, minOr0, h1]
    simp only [hc, if_true]
    push_cast
    omega
  · rw [if_neg hc]
    obtain ⟨mn', a, e1, e2⟩ := sparseInverse_get h.set hx
    simp only [e1, e2, Option.bind_eq_bind, Option.bind_some]
    congr 1
    rw [h.argMin, minOr0, h1]
    simp only [hc]
    push_cast
    omega

theorem apply_none {c : Cons} (X : List Int) {x : Int} (hx : x ∉ c.elems) : c.apply X x = none := by
  unfold Cons.apply
  rw [if_neg hx]

/-- The inverse of a constructor gives the element at the position of the value among those of the constructor. -/
theorem inverse_get {c : Cons} {off : Nat} (h : c.At off) {X : List Int} {i : Nat} {x : Int} (hx : c.elems[i]? = some x)
    (hX : ((off + i + 1 : Nat) : Int) ∈ X) : c.inverse X ((off + i + 1 : Nat) : Int) = some x := by
  unfold Cons.inverse
  rw [if_pos hX]
  obtain ⟨mn, mx, h1, h2⟩ := head_last_some hx
  have hmem := List.mem_of_getElem? hx
  by_cases hc : contiguous c.elems = true
  · rw [if_pos hc]
    have : ((off + i + 1 : Nat) : Int) - c.argMin = x := by
      rw [contiguous_get h.set hc h1 hx, h.argMin, minOr0, h1]
      simp only [hc, if_true]
      push_cast
      omega
    rw [this, toEnum_mem hmem]
  · rw [if_neg hc]
    have : minusPrev ((off + i + 1 : Nat) : Int) c.prev = (i : Int) + 1 := by
      rw [minusPrev_eq, h.prev]
      push_cast
      omega
    simp only [this, access_one, hx, Option.bind_eq_bind, Option.bind_some, toEnum_mem hmem]

/-- The inverse is defined for the values of the constructor only. -/
theorem inverse_some {c : Cons} {off : Nat} (h : c.At off) {X : List Int} {v x : Int} (hv : c.inverse X v = some x) :
    v ∈ X ∧ ∃ i : Nat, c.elems[i]? = some x ∧ v = ((off + i + 1 : Nat) : Int) := by
  unfold Cons.inverse at hv
  split_ifs at hv with h1 hc
  · obtain ⟨hm, rfl⟩ := toEnum_some.1 hv
    obtain ⟨i, hi⟩ := List.mem_iff_getElem?.1 hm
    obtain ⟨mn, mx, e1, e2⟩ := head_last_some hi
    refine ⟨h1, i, hi, ?_⟩
    have := contiguous_get h.set hc e1 hi
    rw [h.argMin, minOr0, e1] at this
    simp only [hc, if_true] at this
    push_cast
    omega
  · simp only [Option.bind_eq_bind, Option.bind_eq_some_iff] at hv
    obtain ⟨e, he, hv⟩ := hv
    obtain ⟨hm, rfl⟩ := toEnum_some.1 hv
    obtain ⟨i, hi, hg⟩ := access_one_some he
    refine ⟨h1, i, hg, ?_⟩
    rw [minusPrev_eq, h.prev] at hi
    push_cast
    omega

end Enums
end MZ
