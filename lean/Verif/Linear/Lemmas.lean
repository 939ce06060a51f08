import Verif.Linear.Spec
import Verif.IntVal.Props
import Mathlib.Algebra.BigOperators.Intervals
import Mathlib.Algebra.Order.BigOperators.Group.Finset
import Mathlib.Algebra.BigOperators.Ring.Finset
import Mathlib.Data.List.Nodup
import Mathlib.Data.List.Range
/-!
# Lemmas for linear expressions
-/
namespace MZ

theorem Res.bind_eq_ok {α β : Type} {m : Res α} {f : α → Res β} {b : β} :
    (m >>= f) = .ok b ↔ ∃ a, m = .ok a ∧ f a = .ok b := by
  cases m with
  | ok a => simp
  | err => simp
  | ub => simp

theorem safePlus_ok {x y z : Int} (h : safePlus x y = .ok z) : z = x + y ∧ inLL z := by
  unfold safePlus at h
  split at h <;> rw [Res.bind_eq_ok] at h <;> obtain ⟨t, _, h⟩ := h <;> split at h <;>
    first | (exact absurd h (by simp)) | (have := ll_eq_ok h; rw [this.1]; exact ⟨rfl, this.2⟩)

theorem safeMinus_ok {x y z : Int} (h : safeMinus x y = .ok z) : z = x - y ∧ inLL z := by
  unfold safeMinus at h
  split at h <;> rw [Res.bind_eq_ok] at h <;> obtain ⟨t, _, h⟩ := h <;> split at h <;>
    first | (exact absurd h (by simp)) | (have := ll_eq_ok h; rw [this.1]; exact ⟨rfl, this.2⟩)

theorem safeMult_ok {x y z : Int} (h : safeMult x y = .ok z) : z = x * y ∧ inLL z := by
  unfold safeMult at h
  split at h
  · rename_i hy; injection h with h; subst h hy; exact ⟨by simp, by decide⟩
  · rw [Res.bind_eq_ok] at h; obtain ⟨t, _, h⟩ := h
    rw [Res.bind_eq_ok] at h; obtain ⟨t, _, h⟩ := h
    split at h
    · exact absurd h (by simp)
    · have := ll_eq_ok h; rw [this.1]; exact ⟨rfl, this.2⟩

namespace Linear
open Finset

theorem addMul_ok {d c v z : Int} (h : addMul d c v = .ok z) : z = d + c * v := by
  unfold addMul at h; rw [Res.bind_eq_ok] at h; obtain ⟨t, h1, h2⟩ := h
  rw [(safePlus_ok h2).1, (safeMult_ok h1).1]

/-- Weighted sum of a coefficient vector. -/
def T (n : Nat) (e : Nat → Int) (c : Nat → Int) : Int := ∑ i ∈ range n, c i * e i

theorem T_upd (n : Nat) (e c : Nat → Int) (i : Nat) (a : Int) (hi : i < n) :
    T n e (upd c i a) = T n e c + (a - c i) * e i := by
  have hm : i ∈ range n := by simpa using hi
  unfold T
  rw [← Finset.add_sum_erase _ _ hm, ← Finset.add_sum_erase _ (fun i => c i * e i) hm]
  have : ∑ x ∈ (range n).erase i, upd c i a x * e x = ∑ x ∈ (range n).erase i, c x * e x := by
    apply Finset.sum_congr rfl
    intro x hx
    have : x ≠ i := (Finset.mem_erase.1 hx).1
    simp [upd, this]
  rw [this]; simp only [upd, if_true]; ring

theorem foldLits_value (n : Nat) (x : Nat → Atom) (ρ : Atom → Int) :
    ∀ (idx : List Nat) (c : Nat → Int) (d : Int) (r : (Nat → Int) × Int × List Nat),
      (∀ i ∈ idx, i < n) → foldLits x idx c d = .ok r →
      T n (fun i => (x i).eval ρ) r.1 + r.2.1 = T n (fun i => (x i).eval ρ) c + d ∧
      r.2.2 <:+ idx := by
  intro idx
  induction idx with
  | nil => intro c d r _ h; simp only [foldLits, Res.ok.injEq] at h; subst h; simp
  | cons i is ih =>
    intro c d r hn h
    rw [foldLits] at h
    split at h
    · rename_i v hx
      rw [Res.bind_eq_ok] at h; obtain ⟨d', h1, h2⟩ := h
      have := ih _ _ _ (fun j hj => hn j (List.mem_cons_of_mem _ hj)) h2
      refine ⟨?_, this.2.trans (List.suffix_cons _ _)⟩
      rw [this.1, T_upd _ _ _ _ _ (hn i (by simp)), addMul_ok h1, hx]
      simp only [Atom.eval]; ring
    · simp only [Res.ok.injEq] at h; subst h; simp

theorem merge_value (n : Nat) (x : Nat → Atom) (ρ : Atom → Int) :
    ∀ (is : List Nat) (cur : Nat) (c : Nat → Int) (d : Int) (r : (Nat → Int) × Int),
      (∀ i ∈ cur :: is, i < n) → (cur :: is).Nodup → merge x cur is c d = .ok r →
      T n (fun i => (x i).eval ρ) r.1 + r.2 = T n (fun i => (x i).eval ρ) c + d := by
  intro is
  induction is with
  | nil => intro cur c d r _ _ h; simp only [merge, Res.ok.injEq] at h; subst h; simp
  | cons i is ih =>
    intro cur c d r hn hnd h
    rw [merge] at h
    have hnd' : (cur :: is).Nodup := by
      simp only [List.nodup_cons, List.mem_cons, not_or] at hnd ⊢
      exact ⟨hnd.1.2, hnd.2.2⟩
    have hn' : ∀ j ∈ cur :: is, j < n := fun j hj => hn j (by simp at hj ⊢; tauto)
    have hci : i ≠ cur := by
      simp only [List.nodup_cons, List.mem_cons, not_or] at hnd; exact fun h => hnd.1.1 h.symm
    split at h
    · rename_i hx
      rw [Res.bind_eq_ok] at h; obtain ⟨s, h1, h2⟩ := h
      rw [ih _ _ _ _ hn' hnd' h2, T_upd _ _ _ _ _ (hn i (by simp)), T_upd _ _ _ _ _ (hn cur (by simp)),
        (safePlus_ok h1).1]
      simp only [upd, hci, if_false, hx]; ring
    · split at h
      · rename_i v hx
        rw [Res.bind_eq_ok] at h; obtain ⟨d', h1, h2⟩ := h
        rw [ih _ _ _ _ hn' hnd' h2, T_upd _ _ _ _ _ (hn i (by simp)), addMul_ok h1, hx]
        simp only [Atom.eval]; ring
      · exact ih _ _ _ _ (fun j hj => hn j (List.mem_cons_of_mem _ hj)) (List.nodup_cons.1 hnd).2 h

theorem compact_sum (n : Nat) (x : Nat → Atom) (c : Nat → Int) (ρ : Atom → Int) :
    sum ρ (compact n x c) = T n (fun i => (x i).eval ρ) c := by
  unfold sum compact T
  rw [List.map_map]
  induction n with
  | zero => simp
  | succ n ih =>
    rw [List.range_succ, List.filter_append, List.map_append, List.sum_append, ih,
      Finset.sum_range_succ]
    by_cases h : c n = 0 <;> simp [h]

theorem init_sum (ts : List (Int × Atom)) (ρ : Atom → Int) :
    T ts.length (fun i => ((ts.getD i (0, .lit 0)).2).eval ρ) (fun i => (ts.getD i (0, .lit 0)).1) =
      sum ρ ts := by
  unfold T sum
  induction ts with
  | nil => simp
  | cons t ts ih =>
    rw [List.length_cons, Finset.sum_range_succ', List.map_cons, List.sum_cons, add_comm]
    simp only [List.getD_cons_succ, List.getD_cons_zero]
    rw [ih]

/-! ### sortedness -/

theorem cmp_trans {a b c : Atom} (h1 : cmpExpIdx b a = false) (h2 : cmpExpIdx c b = false) :
    cmpExpIdx c a = false := by
  cases a <;> cases b <;> cases c <;> simp_all [cmpExpIdx] <;> omega

theorem cmp_antisymm {a b : Atom} (h1 : cmpExpIdx b a = false) (h2 : cmpExpIdx a b = false) :
    a = b := by
  cases a <;> cases b <;> simp_all [cmpExpIdx] <;> omega

/-- `x i` is not a literal. -/
def NonLit (a : Atom) : Prop := ∀ v, a ≠ .lit v

/-- Effect of the first loop on the coefficients. -/
theorem foldLits_shape (x : Nat → Atom) :
    ∀ (idx : List Nat) (c : Nat → Int) (d : Int) (r : (Nat → Int) × Int × List Nat),
      idx.Nodup → foldLits x idx c d = .ok r →
      (∀ j, j ∉ idx → r.1 j = c j) ∧ (∀ j, j ∈ idx → j ∉ r.2.2 → r.1 j = 0) ∧
      (∀ k ks, r.2.2 = k :: ks → NonLit (x k)) := by
  intro idx
  induction idx with
  | nil => intro c d r _ h; simp only [foldLits, Res.ok.injEq] at h; subst h; simp
  | cons i is ih =>
    intro c d r hnd h
    rw [foldLits] at h
    rw [List.nodup_cons] at hnd
    split at h
    · rename_i v hx
      rw [Res.bind_eq_ok] at h; obtain ⟨d', _, h2⟩ := h
      obtain ⟨a1, a2, a3⟩ := ih _ _ _ hnd.2 h2
      refine ⟨fun j hj => ?_, fun j hj hj' => ?_, a3⟩
      · rw [List.mem_cons, not_or] at hj
        rw [a1 j hj.2]; simp [upd, hj.1]
      · by_cases hji : j ∈ is
        · exact a2 j hji hj'
        · rw [a1 j hji]
          have : j = i := by simp [hji] at hj; exact hj
          simp [upd, this]
    · rename_i hx
      simp only [Res.ok.injEq] at h; subst h
      refine ⟨fun _ _ => rfl, fun j hj hj' => absurd hj hj', fun k ks hk => ?_⟩
      simp only [List.cons.injEq] at hk
      rw [← hk.1]; exact hx

theorem merge_shape (x : Nat → Atom) :
    ∀ (is : List Nat) (cur : Nat) (c : Nat → Int) (d : Int) (r : (Nat → Int) × Int),
      (cur :: is).Nodup → NonLit (x cur) →
      (cur :: is).Pairwise (fun i j => cmpExpIdx (x j) (x i) = false) →
      merge x cur is c d = .ok r →
      (∀ j, j ∉ cur :: is → r.1 j = c j) ∧
      (∀ j ∈ cur :: is, r.1 j ≠ 0 → NonLit (x j)) ∧
      (cur :: is).Pairwise (fun i j => r.1 i ≠ 0 → r.1 j ≠ 0 → x i ≠ x j) := by
  intro is
  induction is with
  | nil =>
    intro cur c d r _ hl _ h
    simp only [merge, Res.ok.injEq] at h; subst h
    refine ⟨fun _ _ => rfl, fun j hj _ => ?_, by simp⟩
    simp at hj; subst hj; exact hl
  | cons i is ih =>
    intro cur c d r hnd hl hs h
    rw [merge] at h
    have hnd0 := hnd
    simp only [List.nodup_cons, List.mem_cons, not_or] at hnd
    obtain ⟨⟨hci, hcis⟩, hiis, hisn⟩ := hnd
    have hs' : (cur :: is).Pairwise (fun i j => cmpExpIdx (x j) (x i) = false) := by
      rw [List.pairwise_cons] at hs ⊢
      exact ⟨fun j hj => hs.1 j (List.mem_cons_of_mem _ hj), (List.pairwise_cons.1 hs.2).2⟩
    have hndc : (cur :: is).Nodup := by rw [List.nodup_cons]; exact ⟨hcis, hisn⟩
    -- the two cases that clear index `i`
    have key : ∀ (c' : Nat → Int) (d' : Int), (∀ j, j ≠ cur → j ≠ i → c' j = c j) → c' i = 0 →
        merge x cur is c' d' = .ok r →
        (∀ j, j ∉ cur :: i :: is → r.1 j = c j) ∧
        (∀ j ∈ cur :: i :: is, r.1 j ≠ 0 → NonLit (x j)) ∧
        (cur :: i :: is).Pairwise (fun i j => r.1 i ≠ 0 → r.1 j ≠ 0 → x i ≠ x j) := by
      intro c' d' hc' hi0 h2
      obtain ⟨a1, a2, a3⟩ := ih _ _ _ _ hndc hl hs' h2
      have hri : r.1 i = 0 := by
        rw [a1 i (by simp only [List.mem_cons, not_or]; exact ⟨Ne.symm hci, hiis⟩), hi0]
      refine ⟨fun j hj => ?_, fun j hj hj0 => ?_, ?_⟩
      · simp only [List.mem_cons, not_or] at hj
        rw [a1 j (by simp only [List.mem_cons, not_or]; exact ⟨hj.1, hj.2.2⟩)]
        exact hc' j hj.1 hj.2.1
      · by_cases hji : j = i
        · subst hji; exact absurd hri hj0
        · exact a2 j (by simp only [List.mem_cons] at hj ⊢; tauto) hj0
      · rw [List.pairwise_cons] at a3 ⊢
        refine ⟨fun j hj => ?_, ?_⟩
        · rw [List.mem_cons] at hj
          rcases hj with rfl | hj
          · intro _ h0; exact absurd hri h0
          · exact a3.1 j hj
        · rw [List.pairwise_cons]
          exact ⟨fun j _ h0 => absurd hri h0, a3.2⟩
    split at h
    · rename_i hx
      rw [Res.bind_eq_ok] at h; obtain ⟨s, _, h2⟩ := h
      refine key _ _ (fun j h1 h3 => by simp [upd, h1, h3]) (by simp [upd]) h2
    · rename_i hne
      split at h
      · rename_i v hx
        rw [Res.bind_eq_ok] at h; obtain ⟨d', _, h2⟩ := h
        exact key _ _ (fun j h1 h3 => by simp [upd, h3]) (by simp [upd]) h2
      · rename_i hx
        have hli : NonLit (x i) := hx
        obtain ⟨a1, a2, a3⟩ := ih _ _ _ _ (List.nodup_cons.1 hnd0).2 hli
          (List.pairwise_cons.1 hs).2 h
        refine ⟨fun j hj => a1 j (fun hj' => hj (List.mem_cons_of_mem _ hj')), fun j hj hj0 => ?_, ?_⟩
        · rw [List.mem_cons] at hj
          rcases hj with rfl | hj
          · exact hl
          · exact a2 j hj hj0
        · rw [List.pairwise_cons]
          refine ⟨fun j hj _ _ heq => ?_, a3⟩
          -- x cur ≤ x i ≤ x j = x cur, so x i = x cur
          have h1 := (List.pairwise_cons.1 hs).1 i (by simp)
          have h2 : cmpExpIdx (x cur) (x i) = false := by
            rw [List.mem_cons] at hj
            rcases hj with rfl | hj
            · exact absurd heq.symm hne
            · rw [heq]; exact (List.pairwise_cons.1 (List.pairwise_cons.1 hs).2).1 j hj
          exact hne (cmp_antisymm h2 h1)

end Linear
end MZ
