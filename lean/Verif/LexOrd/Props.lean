import Verif.LexOrd.Sym

/-! # C75: the ordering, precedence and symmetry breaking constraints of the library mean what their
documentation says -/

namespace MZ.LexOrd
open MZ.Globals MZ.LexOrd.Spec

section
variable {α : Type} [LinearOrder α]

/-- `lex_less`, in every context: the value of the call is the lexicographic comparison of the two arrays from
first to last element, whatever their index sets and lengths. -/
theorem _root_.MZ.C75_lex_less (xs ys : Arr α) (c : Prop) : lexLess xs ys c ↔ (c ↔ LexLess xs ys) :=
  lexLess_iff xs ys c

/-- `lex_lesseq`, in every context. -/
theorem _root_.MZ.C75_lex_lesseq (xs ys : Arr α) (c : Prop) : lexLessEq xs ys c ↔ (c ↔ LexLessEq xs ys) :=
  lexLessEq_iff xs ys c

/-- The decompositions of the library are right for empty arrays too, without the wrappers. -/
theorem _root_.MZ.C75_lex_decompositions (x y : Arr α) (c : Prop) :
    (lexLessStd x y c ↔ (c ↔ LexLess x y)) ∧ (lexLessEqStd x y c ↔ (c ↔ LexLessEq x y)) :=
  ⟨lexLessStd_iff x y c, lexLessEqStd_iff x y c⟩

/-- `lex_chain_less` and `lex_chain_lesseq`: every column is smaller than (at most) every later one. -/
theorem _root_.MZ.C75_lex_chain (m : Mat α) :
    (lexChainLess m ↔ ColumnsStrict m) ∧ (lexChainLessEq m ↔ ColumnsSorted m) :=
  ⟨lexChainLess_iff m, lexChainLessEq_iff m⟩

/-- `lex2` and `strict_lex2`: rows and columns are sorted. -/
theorem _root_.MZ.C75_lex2 (m : Mat α) :
    (lex2 m ↔ ColumnsSorted m ∧ RowsSorted m) ∧ (strictLex2 m ↔ ColumnsStrict m ∧ RowsStrict m) := by
  unfold lex2 strictLex2
  rw [lexChainLessEq_iff, lexChainLessEq_iff, lexChainLess_iff, lexChainLess_iff]
  exact ⟨Iff.rfl, Iff.rfl⟩

/-- `increasing`. -/
theorem _root_.MZ.C75_increasing (xs : Arr α) : increasing xs ↔ Increasing xs := by
  unfold increasing Increasing
  split
  · exact increasing_adj (R := (· ≤ ·)) (fun _ _ _ => le_trans) xs
  · rename_i h
    refine iff_of_true trivial ?_
    intro i hi j hj hij
    have h1 := len_eq_length xs
    have h2 := length_elems xs
    rw [Arr.mem_idx] at hi hj
    omega

/-- `strictly_increasing` of a non-empty array of numbers or sets, and `increasing` of sets. -/
theorem _root_.MZ.C75_strictly_increasing_partial (xs : Arr α) (hne : xs.idx.Nonempty) :
    (strictlyIncreasing xs ↔ StrictlyIncreasing xs) ∧ (increasingSet xs ↔ Increasing xs) := by
  unfold strictlyIncreasing StrictlyIncreasing increasingSet Increasing
  rw [increasing_adj (R := (· < ·)) (fun _ _ _ => lt_trans) xs, increasing_adj (R := (· ≤ ·)) (fun _ _ _ => le_trans) xs]
  exact ⟨and_iff_right hne, and_iff_right hne⟩

/-- For an empty array the full statement fails: an empty array is sorted, but the constraint is not
satisfied, its index set having no minimum. -/
theorem _root_.MZ.C75_strictly_increasing_fails (xs : Arr α) (h : xs.len = 0) :
    (StrictlyIncreasing xs ∧ ¬ strictlyIncreasing xs) ∧ (Increasing xs ∧ ¬ increasingSet xs) := by
  have h0 := Count.len_zero.1 h
  unfold strictlyIncreasing StrictlyIncreasing increasingSet Increasing
  rw [h0]
  simp

/-- `var_perm_sym` for a list of permutations that is a group: the array is lex least under the list. -/
theorem _root_.MZ.C75_var_perm_sym_partial (xs : Arr α) (ps : Arr (Int → Int)) (hg : IsGroup xs.len ps) :
    varPermSym xs ps ↔ LexLeast xs ps := varPermSym_iff xs ps hg

/-- `var_sqr_sym`: no symmetry of the square makes the matrix smaller. -/
theorem _root_.MZ.C75_var_sqr_sym (n : Int) (hn : 0 ≤ n) (f : Int × Int → α) : varSqrSym n f ↔ SquareLeast n f :=
  varSqrSym_iff n hn f

end

/-- For other lists it is not what the documentation says: a list of one permutation is not used at all. -/
theorem _root_.MZ.C75_var_perm_sym_fails :
    ∃ (xs : Arr Int) (ps : Arr (Int → Int)), (∀ r ∈ ps.idx, IsPerm xs.len (ps r)) ∧
      varPermSym xs ps ∧ ¬ LexLeast xs ps := by
  have hlen : (⟨1, 2, fun i => if i = 1 then 2 else 1⟩ : Arr Int).len = 2 := by decide
  refine ⟨⟨1, 2, fun i => if i = 1 then 2 else 1⟩, ⟨1, 1, fun _ k => 3 - k⟩, ?_, ?_, ?_⟩
  · intro r _
    rw [hlen]
    constructor
    · intro k h1 h2; dsimp only; omega
    · intro k l h1 h2 h3 h4 h; dsimp only at h; omega
  · intro i hi j hj hij
    rw [Arr.mem_idx] at hi hj
    dsimp only at hi hj
    omega
  · intro h
    have := h 1 (by decide)
    unfold LexLessEq LexLess rearrange at this
    rw [hlen] at this
    have e1 : elems (⟨1, 2, fun i => if i = 1 then 2 else 1⟩ : Arr Int) = [2, 1] := by decide
    have e2 : elems (⟨1, 2, fun k => (fun i : Int => if i = 1 then 2 else 1) (1 + (3 - k) - 1)⟩ : Arr Int) = [1, 2] := by
      decide
    rw [e1] at this
    rw [e2] at this
    revert this
    decide

/-- `value_precede` on integers and on sets. -/
theorem _root_.MZ.C75_value_precede (before after : Int) (xs : Arr Int) (ss : Arr (Finset Int)) :
    (valuePrecede before after xs ↔ ValuePrecede before after xs) ∧
    (valuePrecedeSet before after ss ↔ ValuePrecedeSet before after ss) :=
  ⟨valuePrecede_iff before after xs, valuePrecedeSet_iff before after ss⟩

/-- `value_precede` on optional integers, unless zero is one of the two values and not a possible value of the
elements (`hadZero` false). -/
theorem _root_.MZ.C75_value_precede_opt_partial (before after : Int) (xs : Arr (Option Int)) (hadZero : Bool)
    (h : hadZero = true ∨ before ≠ 0 ∧ after ≠ 0) :
    valuePrecedeOpt before after xs hadZero ↔ ValuePrecedeOpt before after xs := by
  unfold valuePrecedeOpt
  rw [valuePrecede_iff]
  unfold ValuePrecede ValuePrecedeOpt
  rw [precedes_map]
  apply precedes_congr
  · intro i _
    apply getD_eq_iff
    intro _
    split <;> rcases h with h | h <;> simp_all <;> omega
  · intro i _
    apply getD_eq_iff
    intro _
    split <;> rcases h with h | h <;> simp_all <;> omega

/-- The full statement fails when zero is the first value: an absent element counts as an occurrence of it. -/
theorem _root_.MZ.C75_value_precede_opt_fails :
    ∃ (after : Int) (xs : Arr (Option Int)), (∀ i ∈ xs.idx, xs i ≠ some 0) ∧
      valuePrecedeOpt 0 after xs false ∧ ¬ ValuePrecedeOpt 0 after xs := by
  refine ⟨5, ⟨1, 2, fun i => if i = 1 then none else some 5⟩, ?_, ?_, ?_⟩
  · intro i _; dsimp only; split <;> simp
  · unfold valuePrecedeOpt
    rw [valuePrecede_iff]
    intro i hi hx
    have hl : (⟨1, 2, fun i => if i = 1 then none else some 5⟩ : Arr (Option Int)).len = 2 := by decide
    rw [Arr.mem_idx] at hi
    simp only [Arr.compr, hl] at hi hx
    have h1 : i ≠ 1 := by rintro rfl; simp at hx
    refine ⟨1, ?_, by omega, ?_⟩
    · rw [Arr.mem_idx]; simp only [Arr.compr, hl]; omega
    · simp [Arr.compr]
  · intro h
    obtain ⟨j, _, hlt, hj⟩ := h 2 (by decide) (by simp)
    dsimp only at hj
    split at hj <;> simp at hj

/-- `seq_precede_chain` on integers, for any sound bounds that admit a non-negative value. -/
theorem _root_.MZ.C75_seq_precede_chain_partial (xs : Arr Int) (l u : Int)
    (hb : ∀ i ∈ xs.idx, l ≤ xs i ∧ xs i ≤ u) (hu : xs.len = 0 ∨ 0 ≤ u) :
    seqPrecede xs l u ↔ SeqPrecede xs := seqPrecede_iff xs l u hb hu

/-- With bounds below zero the full statement fails: nothing is required of negative values, but the constraint
is never satisfied. -/
theorem _root_.MZ.C75_seq_precede_chain_fails (xs : Arr Int) (l u : Int) (hne : xs.len ≠ 0) (hu : u < 0)
    (hb : ∀ i ∈ xs.idx, l ≤ xs i ∧ xs i ≤ u) : SeqPrecede xs ∧ ¬ seqPrecede xs l u := by
  constructor
  · intro v hv i hi hx
    have := hb i hi
    omega
  · unfold seqPrecede
    rw [if_neg hne]
    rintro ⟨H, h1, _, h2, _⟩
    have hlo := h1 xs.lo ((Arr.mem_idx _ _).2 ⟨le_refl _, nonempty_of_len hne⟩)
    omega

/-- `seq_precede_chain` on sets, if the sets after the first are non-empty and the bounds admit zero (or the first
set is non-empty). -/
theorem _root_.MZ.C75_seq_precede_chain_set_partial (xs : Arr (Finset Int)) (l u : Int)
    (hb : ∀ i ∈ xs.idx, ∀ v ∈ xs i, l ≤ v ∧ v ≤ u) (hu : xs.len = 0 ∨ 0 ≤ u)
    (hl : l ≤ 0 ∨ xs.len = 0 ∨ (xs xs.lo).Nonempty) (hne : ∀ i ∈ xs.idx, i ≠ xs.lo → (xs i).Nonempty) :
    seqPrecedeSet xs l u ↔ SeqPrecedeSet xs := seqPrecedeSet_iff xs l u hb hu hl hne

/-- An empty set after the first position makes the constraint unsatisfiable, whatever the documentation says. -/
theorem _root_.MZ.C75_seq_precede_chain_set_fails :
    (∀ (xs : Arr (Finset Int)) (l u : Int), (∃ i ∈ xs.idx, i ≠ xs.lo ∧ xs i = ∅) → ¬ seqPrecedeSet xs l u) ∧
    ∃ xs : Arr (Finset Int), (∃ i ∈ xs.idx, i ≠ xs.lo ∧ xs i = ∅) ∧ SeqPrecedeSet xs := by
  constructor
  · rintro xs l u ⟨i, hi, hne, he⟩
    unfold seqPrecedeSet
    have hlen : xs.len ≠ 0 := by
      intro h
      rw [Count.len_zero.1 h] at hi
      exact absurd hi (Finset.notMem_empty i)
    rw [if_neg hlen]
    rintro ⟨H, _, _, _, h⟩
    obtain ⟨_, m, hm, _⟩ := h i (Finset.mem_erase.2 ⟨hne, hi⟩)
    rw [he] at hm
    exact absurd hm.1 (Finset.notMem_empty m)
  · refine ⟨⟨1, 2, fun i => if i = 1 then {1} else ∅⟩, ⟨2, by decide, by decide, by decide⟩, ?_⟩
    intro v hv i hi h
    dsimp only at h
    split at h
    · rw [Finset.mem_singleton] at h; omega
    · exact absurd h (Finset.notMem_empty _)

/-- `value_precede_chain` on integers, for any order (repeated values included) and any sound bounds: where it
gives an answer, the answer is right; it gives none only for an empty array. -/
theorem _root_.MZ.C75_value_precede_chain_partial (order xs : Arr Int) (l u lY uY : Int)
    (hb : ∀ i ∈ xs.idx, l ≤ xs i ∧ xs i ≤ u)
    (hY : (∀ i ∈ xs.idx, chainPos order (xs i) ≤ order.len) →
      ∀ i ∈ xs.idx, lY ≤ chainPos order (xs i) ∧ chainPos order (xs i) ≤ uY) (hx : xs.len ≠ 0) :
    ∃ p, valuePrecedeChain order xs l u lY uY = some p ∧ (p ↔ ValuePrecedeChain order xs) := by
  unfold valuePrecedeChain
  split
  · rename_i h
    refine ⟨True, rfl, iff_of_true trivial ?_⟩
    intro i hi
    rw [Count.len_zero.1 h] at hi
    exact absurd hi (Finset.notMem_empty i)
  · rename_i ho
    have hne := nonempty_of_len ho
    split
    · rename_i h
      obtain ⟨h1, h2, h3⟩ := h
      refine ⟨_, rfl, ?_⟩
      rw [seqPrecede_iff xs l u hb]
      · exact chain_shortcut order xs hne h1 h2 (fun k hk => by rw [h3]; exact (hb k hk).2)
      · right
        rw [← h3]
        have := le_maxOf (S := order.idx) (f := order) (i := order.lo) ((Arr.mem_idx _ _).2 ⟨le_refl _, hne⟩)
        rw [h2 order.lo ((Arr.mem_idx _ _).2 ⟨le_refl _, hne⟩)] at this
        omega
    · refine ⟨_, rfl, ?_⟩
      rw [← chain_iff order xs hne]
      apply and_congr_right
      intro hdom
      have hYb := hY (fun i hi => (hdom i hi).2)
      apply seqPrecede_iff
      · exact hYb
      · right
        have hlo : xs.lo ∈ xs.idx := (Arr.mem_idx _ _).2 ⟨le_refl _, nonempty_of_len hx⟩
        have h1 := (hYb xs.lo hlo).2
        have h2 := chainPos_nonneg order (xs xs.lo)
        omega

/-- For an empty array of variables the call is an error, although there is nothing to violate. -/
theorem _root_.MZ.C75_value_precede_chain_fails (order xs : Arr Int) (l u lY uY : Int) (ho : order.len ≠ 0)
    (hx : xs.len = 0) :
    ValuePrecedeChain order xs ∧ valuePrecedeChain order xs l u lY uY = none := by
  constructor
  · intro i _ _
    exact precedes_empty hx _ _
  · unfold valuePrecedeChain
    rw [if_neg ho, if_pos hx]

/-- `value_precede_chain` on optional integers, unless zero is in the order and not a possible value. -/
theorem _root_.MZ.C75_value_precede_chain_opt_partial (order : Arr Int) (xs : Arr (Option Int)) (hadZero : Bool)
    (l u lY uY : Int) (h0 : hadZero = true ∨ ∀ i ∈ order.idx, order i ≠ 0)
    (hb : ∀ i ∈ xs.idx, l ≤ (xs i).getD (if hadZero then maxOf order.idx order + 1 else 0) ∧
      (xs i).getD (if hadZero then maxOf order.idx order + 1 else 0) ≤ u)
    (hY : ∀ i ∈ xs.idx, lY ≤ chainPos order ((xs i).getD (if hadZero then maxOf order.idx order + 1 else 0)) ∧
      chainPos order ((xs i).getD (if hadZero then maxOf order.idx order + 1 else 0)) ≤ uY)
    (hx : xs.len ≠ 0) :
    ∃ p, valuePrecedeChainOpt order xs hadZero l u lY uY = some p ∧ (p ↔ ValuePrecedeChainOpt order xs) := by
  unfold valuePrecedeChainOpt
  obtain ⟨p, hp1, hp2⟩ := C75_value_precede_chain_partial order
    ⟨xs.lo, xs.hi, fun i => (xs i).getD (if hadZero then maxOf order.idx order + 1 else 0)⟩ l u lY uY hb
    (fun _ => hY) hx
  refine ⟨p, hp1, hp2.trans ?_⟩
  have hne : ∀ i ∈ order.idx, (if hadZero then maxOf order.idx order + 1 else 0) ≠ order i := by
    intro i hi
    have := le_maxOf (S := order.idx) (f := order) hi
    split
    · omega
    · rename_i h
      rcases h0 with h0 | h0
      · exact absurd h0 h
      · exact (h0 i hi).symm
  unfold ValuePrecedeChain ValuePrecedeChainOpt
  constructor
  · intro h i hi hi1 k hk hxk
    obtain ⟨j, hj, hjk, hxj⟩ := h i hi hi1 k hk ((getD_eq_iff (fun _ => hne _ hi1)).2 hxk)
    exact ⟨j, hj, hjk, (getD_eq_iff (fun _ => hne _ hi)).1 hxj⟩
  · intro h i hi hi1 k hk hxk
    obtain ⟨j, hj, hjk, hxj⟩ := h i hi hi1 k hk ((getD_eq_iff (fun _ => hne _ hi1)).1 hxk)
    exact ⟨j, hj, hjk, (getD_eq_iff (fun _ => hne _ hi)).2 hxj⟩

/-- `value_precede_chain` on sets, for a non-empty order. -/
theorem _root_.MZ.C75_value_precede_chain_set (order : Arr Int) (xs : Arr (Finset Int)) (hne : order.idx.Nonempty) :
    valuePrecedeChainSet order xs ↔ ValuePrecedeChainSet order xs := by
  unfold valuePrecedeChainSet ValuePrecedeChainSet
  rw [and_iff_right hne]
  simp only [valuePrecedeSet_iff]
  constructor
  · intro h i hi hi1
    rw [Arr.mem_idx] at hi hi1
    have := h (i + 1) (by omega) (by omega)
    rwa [show i + 1 - 1 = i by omega] at this
  · intro h i h1 h2
    have := h (i - 1) ((Arr.mem_idx _ _).2 (by omega)) ((Arr.mem_idx _ _).2 (by omega))
    rwa [show i - 1 + 1 = i by omega] at this

/-- `increasing` and `strictly_increasing` on optional integers, and the reified form: the elements that occur are
in order. -/
theorem _root_.MZ.C75_increasing_opt (xs : Arr (Option Int)) (lb : Int) (c : Prop)
    (hlb : ∀ i ∈ xs.idx, ∀ a, xs i = some a → lb ≤ a) :
    (increasingOpt xs lb ↔ IncreasingOpt xs) ∧ (increasingOptReif xs lb c ↔ (c ↔ IncreasingOpt xs)) ∧
    (strictlyIncreasingOpt xs lb ↔ StrictlyIncreasingOpt xs) := by
  have h1 := len_eq_length xs
  have h2 := length_elems xs
  have hlb' : ∀ i, 1 ≤ i → i ≤ (xs.compr id).len → ∀ a, (xs.compr id) i = some a → lb ≤ a := by
    intro i hi1 hi2 a ha
    rw [len_compr] at hi2
    exact hlb (xs.lo + i - 1) ((Arr.mem_idx _ _).2 (by omega)) a ha
  have hc1 := fun y (hy : lastPresent (xs.compr id) lb y) =>
    (opt_chain (R := (· ≤ ·)) (fun _ _ _ => le_trans) (xs.compr id) lb hlb' hy).trans (compr_pairs xs)
  have hc2 := fun y (hy : lastPresent (xs.compr id) (lb - 1) y) =>
    (opt_chain (R := (· < ·)) (fun _ _ _ => lt_trans) (xs.compr id) (lb - 1)
      (fun i a b v hv => by have := hlb' i a b v hv; omega) hy).trans (compr_pairs xs)
  simp only [len_compr] at hc1 hc2
  obtain ⟨y1, hy1⟩ := lastPresent_ex (xs.compr id) lb
  obtain ⟨y2, hy2⟩ := lastPresent_ex (xs.compr id) (lb - 1)
  refine ⟨⟨?_, ?_⟩, ⟨?_, ?_⟩, ⟨?_, ?_⟩⟩
  · rintro ⟨y, hy, h⟩; exact (hc1 y hy).1 h
  · intro h; exact ⟨y1, hy1, (hc1 y1 hy1).2 h⟩
  · rintro ⟨y, hy, h⟩; exact h.trans (hc1 y hy)
  · intro h; exact ⟨y1, hy1, h.trans (hc1 y1 hy1).symm⟩
  · rintro ⟨y, hy, h⟩; exact (hc2 y hy).1 h
  · intro h; exact ⟨y2, hy2, (hc2 y2 hy2).2 h⟩

/-- `strictly_increasing` on Booleans. -/
theorem _root_.MZ.C75_strictly_increasing_bool (xs : Arr Bool) : strictlyIncreasingBool xs ↔ StrictlyIncreasing xs := by
  have h1 := len_eq_length xs
  have h2 := length_elems xs
  unfold strictlyIncreasingBool StrictlyIncreasing
  split
  · simp only [false_iff]
    intro h
    have g1 := h xs.lo ((Arr.mem_idx _ _).2 (by omega)) (xs.lo + 1) ((Arr.mem_idx _ _).2 (by omega)) (by omega)
    have g2 := h (xs.lo + 1) ((Arr.mem_idx _ _).2 (by omega)) (xs.lo + 2) ((Arr.mem_idx _ _).2 (by omega)) (by omega)
    revert g1 g2
    generalize xs xs.lo = a
    generalize xs (xs.lo + 1) = b
    generalize xs (xs.lo + 2) = c
    revert a b c
    decide
  · split
    · constructor
      · rintro ⟨ha, hb⟩ i hi j hj hij
        rw [Arr.mem_idx] at hi hj
        obtain rfl : i = xs.lo := by omega
        obtain rfl : j = xs.lo + 1 := by omega
        rw [ha, hb]; decide
      · intro h
        have g1 := h xs.lo ((Arr.mem_idx _ _).2 (by omega)) (xs.lo + 1) ((Arr.mem_idx _ _).2 (by omega)) (by omega)
        revert g1
        generalize xs xs.lo = a
        generalize xs (xs.lo + 1) = b
        revert a b
        decide
    · refine iff_of_true trivial ?_
      intro i hi j hj hij
      rw [Arr.mem_idx] at hi hj
      omega

/-! ## Concrete cases -/

example : LexLess (⟨1, 2, fun i => i⟩ : Arr Int) ⟨5, 7, fun i => i - 4⟩ := by unfold LexLess; decide
example : ¬ LexLess (⟨1, 2, fun i => i⟩ : Arr Int) ⟨5, 6, fun i => i - 4⟩ := by unfold LexLess; decide
example : LexLessEq (⟨1, 2, fun i => i⟩ : Arr Int) ⟨5, 6, fun i => i - 4⟩ := by unfold LexLessEq LexLess; decide
example : lexLess (⟨0, -1, fun i => i⟩ : Arr Int) ⟨1, 1, fun i => i⟩ True := by
  rw [lexLess_iff]; exact iff_of_true trivial (by unfold LexLess; decide)
example : ∃ xs : Arr Int, xs.len = 3 ∧ SeqPrecede xs ∧ (∀ i ∈ xs.idx, (0 : Int) ≤ xs i ∧ xs i ≤ 3) := by
  refine ⟨⟨1, 3, fun i => i⟩, by decide, ?_, by decide⟩
  intro v hv i hi hx
  rw [Arr.mem_idx] at hi
  dsimp only at hi hx
  exact ⟨v, (Arr.mem_idx _ _).2 (by dsimp only; omega), by omega, rfl⟩
/-- An order with a repeated value: neither of its values may occur. -/
example : ValuePrecedeChain ⟨1, 2, fun _ => 7⟩ ⟨1, 2, fun _ => 3⟩ ∧ ¬ ValuePrecedeChain ⟨1, 2, fun _ => 7⟩ ⟨1, 1, fun _ => 7⟩ := by
  constructor
  · intro i _ _ k _ h; dsimp only at h; omega
  · intro h
    obtain ⟨j, hj, hlt, _⟩ := h 1 (by decide) (by decide) 1 (by decide) rfl
    rw [Arr.mem_idx] at hj
    dsimp only at hj
    omega
/-- The identity and the exchange of two positions form a group. -/
example : IsGroup 2 ⟨1, 2, fun r k => if r = 1 then k else 3 - k⟩ := by
  refine ⟨?_, ?_, ?_⟩
  · intro r _
    constructor
    · intro k h1 h2; dsimp only; split <;> omega
    · intro k l h1 h2 h3 h4 h; dsimp only at h; split at h <;> omega
  · intro r hr i hi
    rw [Arr.mem_idx] at hr hi
    dsimp only at hr hi
    by_cases e1 : r = 1
    · refine ⟨i, (Arr.mem_idx _ _).2 (by dsimp only; omega), ?_⟩
      intro k _ _; dsimp only; simp [e1]
    · refine ⟨3 - i, (Arr.mem_idx _ _).2 (by dsimp only; omega), ?_⟩
      intro k _ _; dsimp only; split_ifs <;> omega
  · intro i hi j hj
    rw [Arr.mem_idx] at hi hj
    dsimp only at hi hj
    by_cases e1 : i = j
    · refine ⟨1, (Arr.mem_idx _ _).2 (by dsimp only; omega), ?_⟩
      intro k _ _; dsimp only; simp [e1]
    · refine ⟨2, (Arr.mem_idx _ _).2 (by dsimp only; omega), ?_⟩
      intro k _ _; dsimp only; split_ifs <;> omega
/-- A square that is least, and one that is not. -/
example : SquareLeast 1 (fun _ => (5 : Int)) := fun s _ => Or.inr rfl
example : ¬ SquareLeast 2 (fun c => 4 - c.1 - c.2) := by
  intro h
  have := h (mirror 2 ∘ id) ⟨0, Or.inr rfl⟩
  revert this
  decide
example : strictlyIncreasingBool ⟨1, 2, fun i => decide (i = 2)⟩ := by unfold strictlyIncreasingBool; decide

end MZ.LexOrd
