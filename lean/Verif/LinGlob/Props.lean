import Verif.LinGlob.Circ
import Verif.LinGlob.Cum
import Verif.LinGlob.Reg

/-!
# The global constraints of the linear library

Property C82.  `share/minizinc/linear/` redefines a number of global constraints with 0/1 variables and linear inequalities.  Each
theorem says for which values of its variables the redefinition can be satisfied, in terms of the specifications of the standard
library (`Count.Spec`, `Chan.Spec`, `Graph.Spec`, `Sched.Spec`, `LexOrd.Spec`, `Ext.Spec`).
-/

namespace MZ.LinGlob

open MZ.Globals MZ.LinLib MZ.LinArith MZ.LexOrd.Spec MZ.Graph.Spec MZ.Sched.Spec MZ.Ext.Spec

/-- C82: `all_different` and `alldifferent_except_0` mean what they mean in the standard library. -/
theorem _root_.MZ.C82_all_different (o : Opts) (xs : Arr V) :
    (allDifferent o xs ↔ Count.Spec.AllDifferent (vals xs)) ∧
    (allDifferentExcept0 o xs ↔ Count.Spec.AllDifferentExcept (vals xs) {0}) :=
  ⟨allDifferent_iff o xs, allDifferentExcept0_iff o xs⟩

/-- C82: `inverse` and `inverse_in_range`, which may also be reified. -/
theorem _root_.MZ.C82_inverse (f g : Arr Int) :
    (inverse f g ↔ Chan.Spec.Inverse f g) ∧ (inverseInRange f g ↔ Chan.Spec.InverseInRange f g) ∧
    ∀ b, inverseInRangeReif f g b ↔ (b ↔ Chan.Spec.InverseInRange f g) :=
  ⟨inverse_iff f g, inverseInRange_iff f g, fun b => by rw [← inverseInRange_iff]; rfl⟩

/-- C82, partial: the reified `inverse` of two arrays that are not empty (or both empty). -/
theorem _root_.MZ.C82_inverse_reif_partial (f g : Arr Int) (b : Prop)
    (h : f.idx.Nonempty ∧ g.idx.Nonempty ∨ f.idx = ∅ ∧ g.idx = ∅) : inverseReif f g b ↔ (b ↔ Chan.Spec.Inverse f g) :=
  inverseReif_iff f g b h

/-- C82 fails for the reified `inverse` of an empty and a non-empty array: it is true, although no function from one element to
none has an inverse. -/
theorem _root_.MZ.C82_inverse_reif_fails :
    ∃ f g : Arr Int, inverseReif f g True ∧ ¬ Chan.Spec.Inverse f g := by
  refine ⟨⟨1, 0, fun _ => 1⟩, ⟨1, 1, fun _ => 1⟩, ?_, ?_⟩
  · unfold inverseReif
    refine ⟨fun _ i hi => ?_, fun _ => trivial⟩
    rw [Arr.mem_idx] at hi
    dsimp only at hi
    omega
  · rw [← inverse_iff]
    rintro ⟨-, h, -⟩
    have := h 1 (by decide)
    revert this
    decide

/-- C82: `circuit`, with any setting of the option for subtour elimination cuts.  The solver's own constraint is assumed to mean
a circuit.  As in the standard library a single node is no circuit. -/
theorem _root_.MZ.C82_circuit (o : Opts) (sec : Int) (cuts : Arr Int → Prop) (hcuts : ∀ f, cuts f ↔ Circuit f) (xs : Arr V) :
    circuit o sec cuts xs ↔ xs.len ≠ 1 ∧ Circuit (vals xs) :=
  ⟨circuit_sound o sec cuts (fun f => (hcuts f).1) xs,
    fun h => circuit_complete o sec cuts (fun f => (hcuts f).2) xs h.1 h.2⟩

/-- C82, partial: `subcircuit` of variables that point at nodes. -/
theorem _root_.MZ.C82_subcircuit_partial (o : Opts) (xs : Arr V) (hin : ∀ i ∈ xs.idx, (xs i).val ∈ xs.idx) :
    subcircuit o xs ↔ Subcircuit (vals xs) :=
  ⟨subcircuit_sound o xs hin, subcircuit_complete o xs⟩

/-- C82: `subcircuit` never loses a solution. -/
theorem _root_.MZ.C82_subcircuit_complete_partial (o : Opts) (xs : Arr V) (h : Subcircuit (vals xs)) : subcircuit o xs :=
  subcircuit_complete o xs h

/-- C82 fails for `subcircuit` of variables with larger domains: nothing keeps a node from pointing outside of the graph. -/
theorem _root_.MZ.C82_subcircuit_fails (o : Opts) :
    ∃ xs : Arr V, subcircuit o xs ∧ ¬ Subcircuit (vals xs) := by
  let xs : Arr V := ⟨1, 3, fun i => V.const (if i = 3 then 99 else 3 - i)⟩
  have hval : ∀ i, (vals xs).val i = if i = 3 then 99 else 3 - i := fun i => rfl
  refine ⟨xs, ?_, ?_⟩
  · have hm : ∀ i, i ∈ xs.idx ↔ 1 ≤ i ∧ i ≤ 3 := fun i => Arr.mem_idx _ _
    have h1 : (1 : Int) ∈ (vals xs).idx := by decide
    have hlen : xs.len = 3 := by decide
    have hf := Graph.firstin_spec (xs := vals xs) ⟨1, h1, by decide⟩
    have hf1 : (minOf xs.idx fun i => xs.hi + 1 + b2i (vals xs i ≠ i) * (i - xs.hi - 1)) = 1 := by
      have a := ((hm _).1 hf.1).1
      have b := hf.2.2 1 h1 (by decide)
      exact le_antisymm b a
    unfold subcircuit
    rw [if_neg (by rw [hlen]; decide)]
    dsimp only
    rw [hf1, hlen]
    have hhi : xs.hi = 3 := rfl
    have hlo : xs.lo = 1 := rfl
    refine ⟨fun i => i, 2, fun i hi => (hm i).1 hi, by rw [hhi, hlo]; decide, (hm 2).2 (by decide), ?_, ?_, ?_⟩
    · rw [allDifferent_iff]
      intro i hi j hj h
      rw [Arr.mem_idx] at hi hj
      have hi : 1 ≤ i ∧ i ≤ 3 := hi
      have hj : 1 ≤ j ∧ j ≤ 3 := hj
      change (vals xs).val i = (vals xs).val j at h
      rw [hval, hval] at h
      split_ifs at h <;> omega
    · refine ⟨fun h => absurd h (by rw [hhi]; decide), fun h => absurd (h 1 h1) (by decide)⟩
    · refine ⟨fun _ => ⟨⟨h1, rfl⟩, by decide, by decide, by decide, ⟨h1, by decide⟩, ?_⟩, fun _ => by rw [hhi]; decide⟩
      intro i hi j hj hij
      have hi := (hm i).1 hi
      have hj := (hm j).1 hj
      by_cases hc : (vals xs) i = j ∧ i ≠ 2
      · rw [b2i_true hc]
        have h3 := hc.1
        change (vals xs).val i = j at h3
        rw [hval] at h3
        have h4 := hc.2
        show i - j + 3 * 1 ≤ 3 - 1
        split_ifs at h3 <;> omega
      · rw [b2i_false hc]
        show i - j + 3 * 0 ≤ 3 - 1
        omega
  · intro h
    have := h.1 3 (by decide)
    revert this
    decide

/-- C82, partial: `cumulative` of tasks with positive durations and requirements that are not negative.  The constraint which the
solver may have for fixed durations is assumed to mean the same. -/
theorem _root_.MZ.C82_cumulative_partial (solver : Bool) (fixedDR : Prop) (limit : Nat) (s d r : Arr V) (b : V)
    (hr : ∀ i ∈ s.idx, 0 ≤ (r i).val) (hd : ∀ i ∈ s.idx, 0 < (d i).val) (hs : s.idx.Nonempty)
    (hf : fixedDR ↔ Cumulative s.idx (vals s) (vals d) (vals r) b.val) :
    cumulative solver fixedDR limit s d r b ↔ Cumulative s.idx (vals s) (vals d) (vals r) b.val := by
  unfold cumulative
  split_ifs with h1 h2 h3
  · have := Sched.none_iff (b := b.val) (dur_le s d) (req_le hr) h1
    have hc : ¬ (0 = s.idx.card) := fun e => absurd (Finset.card_pos.2 hs) (by omega)
    rw [show (vals s).idx = s.idx from rfl] at this
    rw [this]
    tauto
  · exact hf
  · exact timeDecomp_iff hr (fun i hi => (hd i hi).le) (Finset.card_pos.1 (by omega))
  · exact ⟨taskDecomp_sound hr (Finset.card_pos.1 (by omega)), taskDecomp_complete hr hd⟩

/-- C82: the schedules that `cumulative` accepts obey the limit also when there are durations 0. -/
theorem _root_.MZ.C82_cumulative_sound_partial (solver : Bool) (fixedDR : Prop) (limit : Nat) (s d r : Arr V) (b : V)
    (hr : ∀ i ∈ s.idx, 0 ≤ (r i).val) (hd : ∀ i ∈ s.idx, 0 ≤ (d i).val) (hs : s.idx.Nonempty)
    (hf : fixedDR → Cumulative s.idx (vals s) (vals d) (vals r) b.val) (h : cumulative solver fixedDR limit s d r b) :
    Cumulative s.idx (vals s) (vals d) (vals r) b.val := by
  unfold cumulative at h
  split_ifs at h with h1 h2 h3
  · have := Sched.none_iff (b := b.val) (dur_le s d) (req_le hr) h1
    have hc : ¬ (0 = s.idx.card) := fun e => absurd (Finset.card_pos.2 hs) (by omega)
    rw [show (vals s).idx = s.idx from rfl] at this
    rw [this]
    tauto
  · exact hf h
  · exact (timeDecomp_iff hr hd (Finset.card_pos.1 (by omega))).1 h
  · exact taskDecomp_sound hr (Finset.card_pos.1 (by omega)) h

/-- C82 fails for a task of duration 0 that requires more than the limit: the decomposition over tasks counts it, although it
never runs. -/
theorem _root_.MZ.C82_cumulative_fails : ∃ (s d r : Arr V) (b : V),
    (∀ i ∈ s.idx, 0 ≤ (r i).val ∧ 0 ≤ (d i).val) ∧ s.idx.Nonempty ∧
    Cumulative s.idx (vals s) (vals d) (vals r) b.val ∧ ¬ cumulative false False 0 s d r b := by
  let s : Arr V := ⟨1, 1, fun _ => V.const 0⟩
  let d : Arr V := ⟨1, 1, fun _ => V.icc 0 1 0 (by decide) (by decide)⟩
  let r : Arr V := ⟨1, 1, fun _ => V.const 5⟩
  refine ⟨s, d, r, V.const 3, fun i _ => ⟨(by decide : (0 : Int) ≤ 5), (by decide : (0 : Int) ≤ 0)⟩, ⟨1, by decide⟩, ?_, ?_⟩
  · intro t
    have : s.idx.filter (fun i => Runs (vals s) (vals d) i t) = ∅ := by
      apply Finset.filter_eq_empty_iff.2
      intro i _ h
      have h1 : (0 : Int) ≤ t := h.1
      have h2 : t < 0 + 0 := h.2
      omega
    rw [this]
    decide
  · have ht : tasks s d r = {1} := by decide
    have ht2 : taskTimes s d r = {0} := by decide
    unfold cumulative
    rw [ht, ht2]
    simp only [Finset.card_singleton]
    rw [if_neg (by decide), if_neg (by decide), if_neg (by decide)]
    intro h
    have := h 1 (by rw [ht]; decide)
    rw [ht] at this
    revert this
    decide

/-- C82: a conditional expression has the value that belongs to the first condition that holds. -/
theorem _root_.MZ.C82_if_then_else (n : Int) (c : Int → V) (hc : ∀ i, (c i).IsB) (k : Int) (hk : 1 ≤ k ∧ k ≤ n)
    (h1 : (c k).val = 1) (h0 : ∀ i, 1 ≤ i → i < k → (c i).val = 0) :
    (∀ x (y : V), ifThenElseInt n c x y ↔ y.val = x k) ∧ ∀ x (y : F), ifThenElseFloat n c x y ↔ y.val = x k :=
  ⟨fun x y => ifThenElseInt_iff n c hc x y ⟨hk, h1, h0⟩, fun x y => ifThenElseFloat_iff n c hc x y ⟨hk, h1, h0⟩⟩

/-- C82, partial: the lexicographic order of integers.  For the strict order the first array must be empty or not shorter; the
other one requires equal lengths and aborts otherwise. -/
theorem _root_.MZ.C82_lex_partial (o : Opts) (xs ys : Arr V) :
    (ys.len ≤ xs.len ∨ xs.len = 0 → (lexLessInt o xs ys ↔ LexLess (vals xs) (vals ys))) ∧
    ((lexLessEqInt o xs ys).isSome ↔ xs.len = ys.len) ∧
    ∀ c, lexLessEqInt o xs ys = some c → (c ↔ LexLessEq (vals xs) (vals ys)) := by
  refine ⟨lexLessInt_iff o xs ys, ?_, lexLessEqInt_iff o xs ys⟩
  unfold lexLessEqInt
  split_ifs with h <;> simp [h]

/-- C82 fails for the strict order when the first array is a proper prefix of the second: it is less, but not accepted. -/
theorem _root_.MZ.C82_lex_fails (o : Opts) :
    ∃ xs ys : Arr V, LexLess (vals xs) (vals ys) ∧ ¬ lexLessInt o xs ys := by
  refine ⟨⟨1, 1, fun _ => V.const 1⟩, ⟨1, 2, fun i => V.const i⟩, ?_, ?_⟩
  · show List.Lex (· < ·) [1] [1, 2]
    exact List.Lex.cons List.Lex.nil
  · rw [lexLessInt_flags o _ _ (by decide) (by decide)]
    rintro ⟨k, ⟨h1, h2⟩, -, h⟩
    have h2 : k ≤ 0 := h2
    obtain rfl : k = 0 := by omega
    revert h
    decide

/-- C82, partial: the lexicographic order of floats.  What is accepted is less; what is less is accepted when the first
difference is at least the tolerance. -/
theorem _root_.MZ.C82_lex_float_partial (o : Opts) (he : 0 < o.eps) (xs ys : Arr F) (h : ys.len ≤ xs.len ∨ xs.len = 0) :
    (lexLessFloat o xs ys → LexLess (fvals xs) (fvals ys)) ∧
    (LexLess (fvals xs) (fvals ys) →
      (∀ i ∈ xs.idx, ∀ j ∈ ys.idx, (xs i).val < (ys j).val → (xs i).val + o.eps ≤ (ys j).val) → lexLessFloat o xs ys) := by
  have nx := LexOrd.len_nonneg xs
  have ny := LexOrd.len_nonneg ys
  by_cases hy : ys.len = 0
  · have e : elems (fvals ys) = [] := LexOrd.elems_nil (show (fvals ys).len = 0 from hy)
    constructor
    · intro h1; unfold lexLessFloat at h1; rw [if_pos hy] at h1; exact h1.elim
    · intro h1; unfold LexLess at h1; rw [e] at h1; exact (LexOrd.lex_not_nil h1).elim
  by_cases hx : xs.len = 0
  · have e : elems (fvals xs) = [] := LexOrd.elems_nil (show (fvals xs).len = 0 from hx)
    have e2 : elems (fvals ys) ≠ [] := by
      intro e2
      have : (fvals ys).len = ((elems (fvals ys)).length : Int) := LexOrd.len_eq_length _
      rw [e2] at this
      exact hy this
    refine ⟨fun _ => ?_, fun _ _ => ?_⟩
    · unfold LexLess; rw [e]; exact lex_nil e2
    · unfold lexLessFloat; rw [if_neg hy, if_pos hx]; trivial
  have hl : (fvals ys).len ≤ (fvals xs).len := h.resolve_right hx
  rw [lexLessFloat_flags o he xs ys hx hy, lex_diffAt _ _ hl]
  constructor
  · rintro ⟨k, hk, h1, h2⟩
    refine ⟨k, hk, h1, ?_⟩
    exact lt_of_le_of_lt h2 (sub_lt_self _ he)
  · rintro ⟨k, hk, h1, h2⟩ ha
    refine ⟨k, hk, h1, ?_⟩
    have hk1 : k ≤ xs.hi - xs.lo := hk.2.trans (min_le_left _ _)
    have hk2 : k ≤ ys.hi - ys.lo := hk.2.trans (min_le_right _ _)
    have := ha (xs.lo + k) (by rw [Arr.mem_idx]; omega) (ys.lo + k) (by rw [Arr.mem_idx]; omega) h2
    exact le_sub_iff_add_le.2 this

/-- C82: a chain of columns in lexicographic order, and its two forms with one 1 and at most one 1 in each row. -/
theorem _root_.MZ.C82_lex_chain (o : Opts) (a : Mat V) :
    (lexChain o a ↔ ColumnsSorted (mvals a)) ∧
    (lexChainOrbitope o a 0 ↔ ColumnsSorted (mvals a)) ∧
    (lexChainOrbitope o a 1 ↔ ColumnsSorted (mvals a) ∧
      ∀ i, a.lo1 ≤ i → i ≤ a.hi1 → ∑ j ∈ Finset.Icc a.lo2 a.hi2, (mvals a).val i j = 1) ∧
    (lexChainOrbitope o a 2 ↔ ColumnsSorted (mvals a) ∧
      ∀ i, a.lo1 ≤ i → i ≤ a.hi1 → ∑ j ∈ Finset.Icc a.lo2 a.hi2, (mvals a).val i j ≤ 1) := by
  refine ⟨lexChain_iff o a, ?_, ?_, ?_⟩
  all_goals
    unfold lexChainOrbitope
    rw [lexChain_iff]
  · simp
  · rw [if_pos rfl]
    simp only [Finset.mem_Icc, and_imp]
    exact and_congr_right fun _ => forall_congr' fun i => forall_congr' fun _ => forall_congr' fun _ => eq_comm
  · rw [if_neg (by decide), if_pos rfl]
    simp only [Finset.mem_Icc, and_imp]
    rfl

/-- C82: the table, the sliding sum and the reified clause. -/
theorem _root_.MZ.C82_table_clause (xs : Arr V) (t : Mat Int) (low up w : Int) (as bs : List V) (b : V)
    (ha : ∀ x ∈ as, x.IsB) (hb : ∀ y ∈ bs, y.IsB) :
    (tableInt xs t ↔ InTable (vals xs) t) ∧
    (slidingSum low up w xs ↔ Chan.Spec.SlidingSum low up w (vals xs)) ∧
    (boolClauseReif as bs b ↔ (b.val = 1 ↔ (∃ x ∈ as, x.val = 1) ∨ ∃ y ∈ bs, y.val = 0)) := by
  refine ⟨tableInt_iff xs t, ?_, boolClauseReif_iff as bs b ha hb⟩
  unfold slidingSum
  constructor
  · intro h i h1 h2
    have h1 : xs.lo ≤ i := h1
    have h2 : i + w - 1 ≤ xs.hi := h2
    exact h i (Finset.mem_Icc.2 ⟨h1, by omega⟩)
  · intro h i hi
    rw [Finset.mem_Icc] at hi
    exact h i hi.1 (show i + w - 1 ≤ xs.hi by omega)

/-- C82: `regular` holds exactly for the sequences that the automaton accepts, whichever of the two decompositions is used for
each step. -/
theorem _root_.MZ.C82_regular (o : Opts) (limit : Nat) (xs : Arr V) (Q S : Int) (d : Int → Int → Int) (q0 : Int)
    (Fin : Finset Int) (hq : 1 ≤ q0 ∧ q0 ≤ Q)
    (hd : ∀ q s, 1 ≤ q → q ≤ Q → 1 ≤ s → s ≤ S → 0 ≤ d q s ∧ d q s ≤ Q) :
    regular o limit xs Q S d q0 Fin ↔ Accepts (stepOf d (fun x => 1 ≤ x ∧ x ≤ S)) Fin q0 (elems (vals xs)) :=
  regular_iff o limit xs Q S d q0 Fin hq hd

/-! ## The theorems apply -/

/-- Two variables with domain 1..2 and different values; equal values are rejected. -/
example (o : Opts) : allDifferent o ⟨1, 2, fun i => V.icc 1 99 (max 1 (min i 99)) (by omega) (by omega)⟩ ∧
    ¬ allDifferent o ⟨1, 2, fun _ => V.icc 1 2 1 (by decide) (by decide)⟩ := by
  constructor
  · rw [(C82_all_different o _).1]
    intro i hi j hj h
    rw [Arr.mem_idx] at hi hj
    have hi : 1 ≤ i ∧ i ≤ 2 := hi
    have hj : 1 ≤ j ∧ j ≤ 2 := hj
    have h : max 1 (min i 99) = max 1 (min j 99) := h
    omega
  · rw [(C82_all_different o _).1]
    intro h
    have := h 1 (by decide) 2 (by decide) rfl
    omega

/-- A circuit of two nodes, with every setting of the cuts. -/
example (o : Opts) (sec : Int) : circuit o sec Circuit ⟨1, 2, fun i => V.const (3 - i)⟩ := by
  rw [C82_circuit o sec Circuit (fun _ => Iff.rfl)]
  refine ⟨by decide, ?_, ?_⟩
  · intro i hi
    rw [Arr.mem_idx] at hi ⊢
    have hi : 1 ≤ i ∧ i ≤ 2 := hi
    show 1 ≤ 3 - i ∧ 3 - i ≤ 2
    omega
  · intro i hi j hj
    rw [Arr.mem_idx] at hi hj
    have hi : 1 ≤ i ∧ i ≤ 2 := hi
    have hj : 1 ≤ j ∧ j ≤ 2 := hj
    by_cases h : i = j
    · exact ⟨0, h⟩
    · refine ⟨1, ?_⟩
      show 3 - i = j
      omega

/-- Two tasks of duration 2 overlap: accepted with limit 2 and rejected with limit 1, by both decompositions. -/
example (limit : Nat) :
    cumulative false False limit ⟨1, 2, fun i => V.const i⟩ ⟨1, 2, fun _ => V.const 2⟩ ⟨1, 2, fun _ => V.const 1⟩ (V.const 2) ∧
    ¬ cumulative false False limit ⟨1, 2, fun i => V.const i⟩
      ⟨1, 2, fun _ => V.const 2⟩ ⟨1, 2, fun _ => V.const 1⟩ (V.const 1) := by
  have key : ∀ t : Int, ∑ i ∈ (Finset.Icc (1 : Int) 2).filter (fun i => Runs (fun i => i) (fun _ => 2) i t), (1 : Int) ≤ 2 := by
    intro t
    refine (Finset.sum_le_sum_of_subset_of_nonneg (Finset.filter_subset _ _) fun _ _ _ => by decide).trans (by decide)
  have h1 : (0 : Int) ≤ 1 := by decide
  have h2 : (0 : Int) < 2 := by decide
  constructor
  · unfold cumulative
    rw [if_neg (by decide), if_neg (by simp)]
    split_ifs
    · exact (timeDecomp_iff (fun _ _ => h1) (fun _ _ => h2.le) ⟨1, by decide⟩).2 key
    · exact taskDecomp_complete (fun _ _ => h1) (fun _ _ => h2) key
  · intro h
    have := C82_cumulative_sound_partial _ _ _ _ _ _ _ (fun _ _ => h1) (fun _ _ => h2.le) ⟨1, by decide⟩ False.elim h 2
    revert this
    decide

/-- The second of three conditions is the first that holds. -/
example (y : V) : ifThenElseInt 3 (fun i => V.bit (decide (2 ≤ i))) (fun i => 10 * i) y ↔ y.val = 20 :=
  (C82_if_then_else 3 _ (fun i => V.bit_isB _) 2 (by decide) (by decide) (fun i h1 h2 => by
    rw [V.bit_val, if_neg]; simp; omega)).1 _ y

/-- An automaton for the words over 1 and 2 that end in 2: it accepts `1 2`. -/
example (o : Opts) (limit : Nat) :
    regular o limit ⟨1, 2, fun i => V.icc 1 99 (max 1 (min i 99)) (by omega) (by omega)⟩ 2 2 (fun _ x => x) 1 {2} := by
  rw [C82_regular o limit _ 2 2 _ 1 {2} (by decide) (fun q s _ _ h3 h4 => ⟨by omega, by omega⟩)]
  show Accepts _ _ _ [1, 2]
  exact ⟨1, by decide, 2, by decide, (by decide : (2 : Int) ∈ ({2} : Finset Int))⟩

end MZ.LinGlob
