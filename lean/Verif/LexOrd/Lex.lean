import Verif.LexOrd.Model
import Verif.Count.Lemmas

/-! # Lemmas on the lexicographic constraints -/

namespace MZ.LexOrd
open MZ.Globals MZ.LexOrd.Spec

section
variable {α : Type} [LinearOrder α]

theorem length_elems {α : Type} (a : Arr α) : (elems a).length = (a.hi - a.lo + 1).toNat := by simp [elems]

theorem len_eq_length {α : Type} (a : Arr α) : a.len = ((elems a).length : Int) := by
  rw [length_elems]
  unfold Arr.len Arr.idx
  rw [Int.card_Icc]
  congr 2
  omega

theorem getElem_elems {α : Type} (a : Arr α) (k : Nat) (h : k < (elems a).length) :
    (elems a)[k] = a.val (a.lo + (k : Int)) := by
  simp [elems]

theorem elems_compr {α : Type} (a : Arr α) : elems (a.compr id) = elems a := by
  apply List.ext_getElem
  · rw [length_elems (a.compr id)]
    have := len_eq_length a
    simp only [Arr.compr]
    omega
  · intro k h1 h2
    rw [getElem_elems, getElem_elems]
    simp only [Arr.compr, id]
    congr 1; omega

/-- A relation on lists that compares element by element. -/
structure Stepwise (R : List α → List α → Prop) : Prop where
  cons : ∀ a b s t, R (a :: s) (b :: t) ↔ a < b ∨ a = b ∧ R s t

theorem lex_stepwise : Stepwise (α := α) (List.Lex (· < ·)) where
  cons a b s t := by
    exact List.cons_lex_cons_iff

theorem lexEq_stepwise : Stepwise (α := α) (fun s t => List.Lex (· < ·) s t ∨ s = t) where
  cons a b s t := by
    rw [lex_stepwise.cons, List.cons.injEq]
    tauto

theorem lexBools_iff {R : List α → List α → Prop} (hR : Stepwise R) (x y : Arr α) (last : Prop)
    (hx : 0 < x.len) (hy : 0 < y.len)
    (hend : ∀ s t : List α, s.length + min (elems x).length (elems y).length = (elems x).length →
      t.length + min (elems x).length (elems y).length = (elems y).length → (R s t ↔ last))
    (b : Int → Prop) (hb : lexBools x y (min (x.hi - x.lo) (y.hi - y.lo)) last b) :
    b 0 ↔ R (elems x) (elems y) := by
  obtain ⟨hb1, hb2⟩ := hb
  have hxl := len_eq_length x
  have hyl := len_eq_length y
  have hxe := length_elems x
  have hye := length_elems y
  have key : ∀ d k : Nat, k + d = min (elems x).length (elems y).length →
      (b k ↔ R ((elems x).drop k) ((elems y).drop k)) := by
    intro d
    induction d with
    | zero =>
      intro k hk
      have e : (k : Int) = min (x.hi - x.lo) (y.hi - y.lo) + 1 := by omega
      rw [e, hb1, hend]
      · simp only [List.length_drop]; omega
      · simp only [List.length_drop]; omega
    | succ d ih =>
      intro k hk
      have hkx : k < (elems x).length := by omega
      have hky : k < (elems y).length := by omega
      rw [hb2 k (by omega) (by omega), List.drop_eq_getElem_cons hkx, List.drop_eq_getElem_cons hky, hR.cons,
        getElem_elems, getElem_elems]
      have := ih (k + 1) (by omega)
      rw [show ((k : Int) + 1) = ((k + 1 : Nat) : Int) by omega, this]
      constructor
      · rintro ⟨h1, h2 | h2⟩
        · exact Or.inl h2
        · rcases lt_or_eq_of_le h1 with h | h
          · exact Or.inl h
          · exact Or.inr ⟨h, h2⟩
      · rintro (h | ⟨h1, h2⟩)
        · exact ⟨le_of_lt h, Or.inl h⟩
        · exact ⟨le_of_eq h1, Or.inr h2⟩
  have := key _ 0 (Nat.zero_add _)
  simpa using this

/-- The Booleans from the last one backwards (a solution of `lexBools`). -/
def lexAux (x y : Arr α) (size : Int) (last : Prop) : Nat → Prop
  | 0 => last
  | d + 1 => x (x.lo + (size - d)) ≤ y (y.lo + (size - d)) ∧
      (x (x.lo + (size - d)) < y (y.lo + (size - d)) ∨ lexAux x y size last d)

/-- The Booleans always exist. -/
theorem lexBools_ex (x y : Arr α) (size : Int) (last : Prop) (hs : -1 ≤ size) : ∃ b, lexBools x y size last b := by
  refine ⟨fun i => lexAux x y size last (size + 1 - i).toNat, ?_, ?_⟩
  · dsimp only
    rw [show (size + 1 - (size + 1)).toNat = 0 by omega, lexAux]
  · intro i h0 h1
    dsimp only
    have e : (size + 1 - i).toNat = (size - i).toNat + 1 := by omega
    have e2 : size - ((size - i).toNat : Int) = i := by omega
    rw [e, show (size + 1 - (i + 1)).toNat = (size - i).toNat by omega, lexAux, e2]

theorem elems_nil {α : Type} {a : Arr α} (h : a.len = 0) : elems a = [] := by
  have := len_eq_length a
  exact List.length_eq_zero_iff.1 (by omega)

theorem elems_ne_nil {α : Type} {a : Arr α} (h : a.len ≠ 0) : elems a ≠ [] := by
  have := len_eq_length a
  intro e
  rw [e] at this
  exact h this

theorem lex_nil_iff {s : List α} : List.Lex (· < ·) [] s ↔ s ≠ [] := by
  cases s with
  | nil => simp only [ne_eq, not_true, iff_false]; intro h; cases h
  | cons a s => simp only [ne_eq, reduceCtorEq, not_false_eq_true, iff_true]; exact List.Lex.nil

theorem lex_not_nil {s : List α} : ¬ List.Lex (· < ·) s [] := by
  intro h; cases h

theorem len_nonneg {α : Type} (a : Arr α) : 0 ≤ a.len := by unfold Arr.len; omega

theorem iff_ex {P : (Int → Prop) → Prop} {q : Prop} (c : Prop) (hex : ∃ b, P b) (h : ∀ b, P b → (b 0 ↔ q)) :
    (∃ b : Int → Prop, P b ∧ (c ↔ b 0)) ↔ (c ↔ q) := by
  constructor
  · rintro ⟨b, hb, hc⟩; rw [hc, h b hb]
  · intro hc; obtain ⟨b, hb⟩ := hex; exact ⟨b, hb, by rw [hc, h b hb]⟩

theorem lexLessStd_iff (x y : Arr α) (c : Prop) : lexLessStd x y c ↔ (c ↔ LexLess x y) := by
  unfold lexLessStd LexLess
  have hxl := len_eq_length x
  have hyl := len_eq_length y
  have hxe := length_elems x
  have hye := length_elems y
  split
  · rename_i h
    rw [elems_nil h]
    simp only [lex_not_nil]
  · rename_i h1
    split
    · rename_i h2
      rw [elems_nil h2, lex_nil_iff]
      simp only [elems_ne_nil h1, ne_eq, not_false_eq_true]
    · rename_i h2
      have h1' := len_nonneg y
      have h2' := len_nonneg x
      apply iff_ex c (lexBools_ex _ _ _ _ (by omega))
      intro b hb
      refine lexBools_iff lex_stepwise x y _ (by omega) (by omega) ?_ b hb
      intro s t hs ht
      by_cases h : x.hi - x.lo < y.hi - y.lo
      · have : s = [] := List.length_eq_zero_iff.1 (by omega)
        subst this
        rw [lex_nil_iff]
        simp only [h, iff_true]
        rintro rfl
        simp only [List.length_nil] at ht hs
        omega
      · have : t = [] := List.length_eq_zero_iff.1 (by omega)
        subst this
        simp only [h, lex_not_nil]

theorem lexLessEqStd_iff (x y : Arr α) (c : Prop) : lexLessEqStd x y c ↔ (c ↔ LexLessEq x y) := by
  unfold lexLessEqStd LexLessEq LexLess
  have hxl := len_eq_length x
  have hyl := len_eq_length y
  have hxe := length_elems x
  have hye := length_elems y
  split
  · rename_i h
    rw [elems_nil h, lex_nil_iff]
    have : elems y ≠ [] ∨ [] = elems y := by
      by_cases h : elems y = []
      · exact Or.inr h.symm
      · exact Or.inl h
    simp only [this]
  · rename_i h1
    split
    · rename_i h2
      rw [elems_nil h2]
      simp only [lex_not_nil, elems_ne_nil h1, or_self, h1]
    · rename_i h2
      have h1' := len_nonneg y
      have h2' := len_nonneg x
      apply iff_ex c (lexBools_ex _ _ _ _ (by omega))
      intro b hb
      refine lexBools_iff lexEq_stepwise x y _ (by omega) (by omega) ?_ b hb
      intro s t hs ht
      by_cases h : x.hi - x.lo ≤ y.hi - y.lo
      · have : s = [] := List.length_eq_zero_iff.1 (by omega)
        subst this
        rw [lex_nil_iff]
        simp only [h, iff_true]
        cases t with
        | nil => exact Or.inr rfl
        | cons => exact Or.inl (List.cons_ne_nil _ _)
      · have : t = [] := List.length_eq_zero_iff.1 (by omega)
        subst this
        have hs' : s ≠ [] := by
          rintro rfl
          simp only [List.length_nil] at hs
          omega
        simp only [h, lex_not_nil, hs', or_self]

theorem elems_one {α : Type} {a : Arr α} (h : a.len = 1) : elems a = [a a.lo] := by
  have h1 := len_eq_length a
  have h2 := length_elems a
  unfold elems
  rw [show (a.hi - a.lo + 1).toNat = 1 by omega]
  simp

theorem lexLess_iff (xs ys : Arr α) (c : Prop) : lexLess xs ys c ↔ (c ↔ LexLess xs ys) := by
  unfold lexLess
  split
  · rename_i h
    unfold LexLess
    rw [elems_one h.1, elems_one h.2, lex_stepwise.cons]
    simp only [lex_not_nil, and_false, or_false]
  · split
    · rename_i h
      unfold LexLess
      rw [elems_nil h, lex_nil_iff]
      have h1 := len_eq_length ys
      have : 0 < ys.len ↔ elems ys ≠ [] := by
        rw [← List.length_pos_iff]; omega
      rw [this]
    · split
      · rename_i h
        unfold LexLess
        rw [elems_nil h]
        simp only [lex_not_nil]
      · rw [lexLessStd_iff]
        unfold LexLess
        rw [elems_compr, elems_compr]

theorem lexLessEq_iff (xs ys : Arr α) (c : Prop) : lexLessEq xs ys c ↔ (c ↔ LexLessEq xs ys) := by
  unfold lexLessEq
  split
  · rename_i h
    unfold LexLessEq LexLess
    rw [elems_one h.1, elems_one h.2, lex_stepwise.cons]
    simp only [lex_not_nil, and_false, or_false, List.cons.injEq, and_true, le_iff_lt_or_eq]
  · split
    · rename_i h
      unfold LexLessEq LexLess
      rw [elems_nil h, lex_nil_iff]
      have : elems ys ≠ [] ∨ [] = elems ys := by
        by_cases h : elems ys = []
        · exact Or.inr h.symm
        · exact Or.inl h
      simp only [this]
    · split
      · rename_i h1 h
        unfold LexLessEq LexLess
        rw [elems_nil h]
        simp only [lex_not_nil, elems_ne_nil h1, or_self]
      · rw [lexLessEqStd_iff]
        unfold LexLessEq LexLess
        rw [elems_compr, elems_compr]

theorem lex_trans : ∀ {s t u : List α}, List.Lex (· < ·) s t → List.Lex (· < ·) t u → List.Lex (· < ·) s u
  | [], _, u, h1, h2 => by
    rw [lex_nil_iff]; rintro rfl; exact lex_not_nil h2
  | a :: s, [], _, h1, _ => absurd h1 lex_not_nil
  | a :: s, b :: t, [], _, h2 => absurd h2 lex_not_nil
  | a :: s, b :: t, c :: u, h1, h2 => by
    rw [lex_stepwise.cons] at h1 h2 ⊢
    rcases h1 with h1 | ⟨rfl, h1⟩
    · rcases h2 with h2 | ⟨rfl, h2⟩
      · exact Or.inl (lt_trans h1 h2)
      · exact Or.inl h1
    · rcases h2 with h2 | ⟨rfl, h2⟩
      · exact Or.inl h2
      · exact Or.inr ⟨rfl, lex_trans h1 h2⟩

theorem lexLess_trans {x y z : Arr α} (h1 : LexLess x y) (h2 : LexLess y z) : LexLess x z := lex_trans h1 h2

theorem lexLessEq_trans {x y z : Arr α} (h1 : LexLessEq x y) (h2 : LexLessEq y z) : LexLessEq x z := by
  rcases h1 with h1 | h1
  · rcases h2 with h2 | h2
    · exact Or.inl (lex_trans h1 h2)
    · exact Or.inl (by unfold LexLess; rw [← h2]; exact h1)
  · unfold LexLessEq LexLess
    rw [h1]; exact h2

theorem adjacent {P : Int → Int → Prop} (ht : ∀ i j k, P i j → P j k → P i k) (lo hi : Int) :
    (∀ j, lo ≤ j → j ≤ hi → (lo ≤ j + 1 ∧ j + 1 ≤ hi) → P j (j + 1)) ↔
    (∀ j k, lo ≤ j → j < k → k ≤ hi → P j k) := by
  constructor
  · intro h j k hj hjk hk
    obtain ⟨d, rfl⟩ : ∃ d : Nat, k = j + d + 1 := ⟨(k - j - 1).toNat, by omega⟩
    clear hjk
    induction d with
    | zero =>
      have := h j hj (by omega) (by omega)
      rwa [show j + ((0 : Nat) : Int) + 1 = j + 1 by omega]
    | succ d ih =>
      have h1 := ih (by omega)
      have h2 := h (j + d + 1) (by omega) (by omega) (by omega)
      rw [show j + ((d + 1 : Nat) : Int) + 1 = j + d + 1 + 1 by omega]
      exact ht _ _ _ h1 h2
  · intro h j h1 h2 h3
    exact h j (j + 1) h1 (by omega) h3.2

theorem lexChainLess_iff (m : Mat α) : lexChainLess m ↔ ColumnsStrict m := by
  unfold lexChainLess ColumnsStrict
  simp only [lexLess_iff, true_iff]
  split
  · exact adjacent (P := fun j k => LexLess (col m j) (col m k)) (fun _ _ _ => lexLess_trans) _ _
  · simp only [true_iff]
    intro j k h1 h2 h3; omega

theorem lexChainLessEq_iff (m : Mat α) : lexChainLessEq m ↔ ColumnsSorted m := by
  unfold lexChainLessEq ColumnsSorted
  simp only [lexLessEq_iff, true_iff]
  split
  · exact adjacent (P := fun j k => LexLessEq (col m j) (col m k)) (fun _ _ _ => lexLessEq_trans) _ _
  · simp only [true_iff]
    intro j k h1 h2 h3; omega

theorem increasing_adj {R : α → α → Prop} (ht : ∀ a b c, R a b → R b c → R a c) (xs : Arr α) :
    (∀ i ∈ xs.idx.erase xs.lo, R (xs (i - 1)) (xs i)) ↔ (∀ i ∈ xs.idx, ∀ j ∈ xs.idx, i < j → R (xs i) (xs j)) := by
  have := adjacent (P := fun i j => R (xs i) (xs j)) (fun _ _ _ => ht _ _ _) xs.lo xs.hi
  constructor
  · intro h i hi j hj hij
    rw [Arr.mem_idx] at hi hj
    refine this.1 ?_ i j hi.1 hij hj.2
    intro j h1 h2 h3
    have := h (j + 1) (by rw [Finset.mem_erase, Arr.mem_idx]; omega)
    rwa [show j + 1 - 1 = j by omega] at this
  · intro h i hi
    rw [Finset.mem_erase, Arr.mem_idx] at hi
    exact h (i - 1) (by rw [Arr.mem_idx]; omega) i (by rw [Arr.mem_idx]; omega) (by omega)

end
end MZ.LexOrd
