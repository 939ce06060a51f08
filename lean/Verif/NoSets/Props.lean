import Verif.NoSets.Lemmas

/-!
# C83: the elimination of set variables keeps the meaning of every set constraint
-/

namespace MZ.NoSets

open MZ.Globals MZ.LinLib MZ.LinArith MZ.NoSets.Spec

/-! ## Encoding -/

/-- Every value of the set variable has exactly one array of Booleans over the index set, and the value is recovered from the array
as it is printed. -/
theorem _root_.MZ.C83_encoding (x : SV) :
    (∃ b, IsBits x b ∧ ∀ b', IsBits x b' → b' = b) ∧
    (∀ b, IsBits x b → reverseMap (idx x) b = x.val ∧ ∀ i, (b i = true ↔ i ∈ x.val)) ∧
    -- every array of Booleans that is false outside of the upper bound is a value of a variable with this upper bound
    (x.par = false → ∀ b : Int → Bool, (∀ i, i ∉ x.ub → b i = false) →
      ∃ x' : SV, x'.ub = x.ub ∧ x'.par = false ∧ IsBits x' b) := by
  refine ⟨?_, ?_, ?_⟩
  · obtain ⟨b, hb⟩ := bits_ex x
    exact ⟨b, hb, fun b' hb' => (isBits_iff.1 hb').trans (isBits_iff.1 hb).symm⟩
  · intro b hb
    obtain rfl := isBits_iff.1 hb
    refine ⟨?_, fun i => by simp⟩
    ext i
    simp only [reverseMap, Finset.mem_filter, decide_eq_true_iff]
    exact ⟨fun h => h.2, fun h => ⟨mem_idx h, h⟩⟩
  · intro hp b hb
    refine ⟨⟨x.ub, x.ub.filter fun i => b i = true, Finset.filter_subset _ _, false, fun h => by cases h⟩, rfl, rfl, ?_⟩
    rw [isBits_iff]
    funext i
    by_cases hi : i ∈ x.ub
    · simp [hi]
    · simp [hi, hb i hi]

/-! ## Subset, equality, membership, cardinality -/

theorem sub_body {s t : SV} : (∀ i ∈ idx s, if ¬ i ∈ idx t then ¬ decide (i ∈ s.val) = true
    else (decide (i ∈ s.val) = true → decide (i ∈ t.val) = true)) ↔ s.val ⊆ t.val := by
  simp only [decide_eq_true_iff]
  constructor
  · intro h i hi
    have := h i (mem_idx hi)
    split_ifs at this with h1
    · exact this hi
    · exact absurd hi this
  · intro h i _
    split_ifs with h1
    · exact fun hi => h hi
    · exact fun hi => h1 (mem_idx (h hi))

theorem eq_body {s t : SV} : (∀ i ∈ idx s ∪ idx t, if ¬ i ∈ idx s then ¬ decide (i ∈ t.val) = true
    else if ¬ i ∈ idx t then ¬ decide (i ∈ s.val) = true else decide (i ∈ s.val) = decide (i ∈ t.val)) ↔ s.val = t.val := by
  simp only [decide_eq_true_iff, decide_eq_decide]
  constructor
  · intro h
    ext i
    by_cases hi : i ∈ idx s ∪ idx t
    · have := h i hi
      split_ifs at this with h1 h2
      · exact this
      · exact iff_of_false this fun h3 => h2 (mem_idx h3)
      · exact iff_of_false (fun h3 => h1 (mem_idx h3)) this
    · rw [Finset.mem_union, not_or] at hi
      exact iff_of_false (fun h3 => hi.1 (mem_idx h3)) fun h3 => hi.2 (mem_idx h3)
  · intro h i _
    split_ifs with h1 h2
    · rw [h]
    · rw [h]; exact fun h3 => h2 (mem_idx h3)
    · rw [← h]; exact fun h3 => h1 (mem_idx h3)

theorem ne_body {s t : SV} : (∃ i ∈ idx s ∪ idx t, if ¬ i ∈ idx s then decide (i ∈ t.val) = true
    else if ¬ i ∈ idx t then decide (i ∈ s.val) = true else decide (i ∈ s.val) ≠ decide (i ∈ t.val)) ↔ s.val ≠ t.val := by
  rw [← not_iff_not, not_ne_iff, ← eq_body]
  push Not
  refine forall_congr' fun i => forall_congr' fun _ => ?_
  split_ifs <;> simp

theorem bits_ex2 {s t : SV} {P : (Int → Bool) → (Int → Bool) → Prop} :
    (∃ bx bt, IsBits s bx ∧ IsBits t bt ∧ P bx bt) ↔ P (fun i => decide (i ∈ s.val)) (fun i => decide (i ∈ t.val)) := by
  constructor
  · rintro ⟨bx, bt, h1, h2, h⟩
    obtain rfl := isBits_iff.1 h1
    obtain rfl := isBits_iff.1 h2
    exact h
  · intro h
    exact ⟨_, _, isBits_iff.2 rfl, isBits_iff.2 rfl, h⟩

theorem bits_ex1 {s : SV} {P : (Int → Bool) → Prop} :
    (∃ bx, IsBits s bx ∧ P bx) ↔ P (fun i => decide (i ∈ s.val)) := by
  constructor
  · rintro ⟨bx, h1, h⟩
    obtain rfl := isBits_iff.1 h1
    exact h
  · intro h
    exact ⟨_, isBits_iff.2 rfl, h⟩

/-- The subset constraints. -/
theorem _root_.MZ.C83_subset (s t : SV) (b : Prop) :
    (setSubset s t ↔ s.val ⊆ t.val) ∧ (setSubsetReif s t b ↔ (b ↔ s.val ⊆ t.val)) ∧ (setSubsetImp s t b ↔ (b → s.val ⊆ t.val)) ∧
    (setSuperset s t ↔ t.val ⊆ s.val) ∧ (setSupersetReif s t b ↔ (b ↔ t.val ⊆ s.val)) ∧
    (setSupersetImp s t b ↔ (b → t.val ⊆ s.val)) := by
  unfold setSuperset setSupersetReif setSupersetImp setSubset setSubsetReif setSubsetImp
  simp only [bits_ex2, sub_body, and_self]

theorem setEq_iff {s t : SV} : setEq s t ↔ s.val = t.val := by
  unfold setEq setSubset
  simp only [bits_ex2, sub_body, eq_body]
  constructor
  · exact fun h => h.2.2
  · intro h; rw [h]; exact ⟨subset_rfl, subset_rfl, rfl⟩

theorem setNe_iff {s t : SV} : setNe s t ↔ s.val ≠ t.val := by
  unfold setNe; simp only [bits_ex2, ne_body]

theorem setEqReif_iff {f : Bool} {s t : SV} {b : Bool} : setEqReif f s t b ↔ (b = true ↔ s.val = t.val) := by
  unfold setEqReif
  simp only [bits_ex2, eq_body, setEq_iff, setNe_iff]
  cases f <;> cases b <;> simp

theorem setEqImp_iff {f : Bool} {s t : SV} {b : Bool} : setEqImp f s t b ↔ (b = true → s.val = t.val) := by
  unfold setEqImp
  simp only [bits_ex2, eq_body, setEq_iff]
  cases f <;> cases b <;> simp

/-- Equality and disequality, whether or not the control variable is already known. -/
theorem _root_.MZ.C83_equality (s t : SV) (fixed b : Bool) :
    (setEq s t ↔ s.val = t.val) ∧ (setNe s t ↔ s.val ≠ t.val) ∧
    (setEqReif fixed s t b ↔ (b = true ↔ s.val = t.val)) ∧ (setEqImp fixed s t b ↔ (b = true → s.val = t.val)) ∧
    (setNeReif fixed s t b ↔ (b = true ↔ s.val ≠ t.val)) ∧ (setNeImp fixed s t b ↔ (b = true → s.val ≠ t.val)) := by
  refine ⟨setEq_iff, setNe_iff, setEqReif_iff, setEqImp_iff, ?_, ?_⟩
  · unfold setNeReif
    rw [setEqReif_iff]
    cases b <;> simp
  · unfold setNeImp
    simp only [bits_ex2, ne_body, setNe_iff]
    cases fixed <;> cases b <;> simp

theorem setCard_iff {s : SV} {n : Int} : setCard s n ↔ (s.val.card : Int) = n := by
  unfold setCard
  rw [bits_ex1]
  have : ∑ i ∈ idx s, b2i (decide (i ∈ s.val) = true) = (s.val.card : Int) := by
    have h0 : s.val = (idx s).filter (· ∈ s.val) := by
      ext i
      rw [Finset.mem_filter]
      exact ⟨fun h => ⟨mem_idx h, h⟩, fun h => h.2⟩
    conv_rhs => rw [h0]
    rw [Finset.card_filter]
    push_cast
    refine Finset.sum_congr rfl fun i _ => ?_
    simp [b2i]
  rw [this]

/-- Membership and cardinality. -/
theorem _root_.MZ.C83_membership (s : SV) (x : Int) (b : Prop) :
    (setIn x s ↔ x ∈ s.val) ∧ (setInReifC x s b ↔ (b ↔ x ∈ s.val)) ∧ (setInReif x s b ↔ (b ↔ x ∈ s.val)) ∧
    (setInImpC x s b ↔ (b → x ∈ s.val)) ∧ (setInImp x s b ↔ (b → x ∈ s.val)) ∧ (setCard s x ↔ (s.val.card : Int) = x) := by
  refine ⟨?_, setInReifC_iff, ?_, ?_, ?_, setCard_iff⟩
  · unfold setIn; rw [bits_ex1, decide_eq_true_iff]
  · unfold setInReif; rw [bits_ex1, decide_eq_true_iff]
  · unfold setInImpC
    rw [bits_ex1, decide_eq_true_iff]
    split_ifs with h
    · rfl
    · have : x ∉ s.val := fun h' => h (s.sub h')
      simp [this]
  · unfold setInImp; rw [bits_ex1, decide_eq_true_iff]

/-! ## Order -/

theorem val_empty {s : SV} (h : s.ub = ∅) : s.val = ∅ := Finset.subset_empty.1 (h ▸ s.sub)

theorem less_empty {s : Finset Int} : ¬ SetLess s ∅ := by
  unfold SetLess; rw [Finset.sort_empty]; exact List.not_lex_nil

theorem empty_less {s : Finset Int} : SetLess ∅ s ↔ 1 ≤ s.card := by
  unfold SetLess
  rw [Finset.sort_empty, ← Finset.length_sort (· ≤ ·) (s := s)]
  cases s.sort (· ≤ ·) with
  | nil => simp
  | cons a l => simp

theorem empty_le {s : Finset Int} : SetLessEq ∅ s := by
  by_cases h : s = ∅
  · exact Or.inr h.symm
  · exact Or.inl (empty_less.2 (Finset.card_pos.2 (Finset.nonempty_iff_ne_empty.2 h)))

theorem le_empty {s : Finset Int} : SetLessEq s ∅ ↔ s = ∅ := by
  unfold SetLessEq; simp [less_empty]

theorem chain_use {Q : (Int → Bool) → Prop} {c : Int → Bool} {l : Int} {R : Prop} {p : Prop → Prop} (hq : ∃ c, Q c)
    (h : ∀ c, Q c → (c l = true ↔ R)) : (∃ c, Q c ∧ p (c l = true)) ↔ p R := by
  constructor
  · rintro ⟨c, h1, h2⟩; rwa [h c h1] at h2
  · intro hp
    obtain ⟨c, hc⟩ := hq
    exact ⟨c, hc, by rwa [h c hc]⟩

theorem ub_ne {s t : SV} (h : ¬ s.ub = ∅) : (s.ub ∪ t.ub).Nonempty :=
  (Finset.nonempty_iff_ne_empty.2 h).mono Finset.subset_union_left

/-- `s <= t` and `s < t` compare the increasing sequences of elements. -/
theorem _root_.MZ.C83_order (s t : SV) :
    (setLe s t ↔ SetLessEq s.val t.val) ∧ (setLt s t ↔ SetLess s.val t.val) := by
  constructor
  · unfold setLe
    split_ifs with h1 h2
    · rw [val_empty h1]; simp [empty_le]
    · rw [setEq_iff, val_empty h2, le_empty]; rfl
    · exact chain_use (c := fun _ => true) (p := fun q => q) (chainLe_ex s t _ _) fun c hc => chainLe_iff (ub_ne h1) hc
  · unfold setLt nonEmpty
    split_ifs with h1 h2
    · simp only [setCard_iff]
      rw [val_empty h1, empty_less]
      constructor
      · rintro ⟨n, h, h'⟩; omega
      · intro h; exact ⟨_, rfl, by omega⟩
    · rw [val_empty h2]; simp [less_empty]
    · exact chain_use (c := fun _ => true) (p := fun q => q) (chainLt_ex s t _ _) fun c hc => chainLt_iff (ub_ne h1) hc

/-- The reified strict order. -/
theorem _root_.MZ.C83_order_lt_reif (s t : SV) (b : Bool) :
    (setLtReif s t b ↔ (b = true ↔ SetLess s.val t.val)) ∧ (setLtImp s t b ↔ (b = true → SetLess s.val t.val)) := by
  constructor
  · unfold setLtReif nonEmpty
    split_ifs with h1 h2
    · simp only [setCard_iff]
      rw [val_empty h1, empty_less]
      constructor
      · rintro ⟨n, rfl, h'⟩; rw [h']; omega
      · intro h; exact ⟨_, rfl, by rw [h]; omega⟩
    · rw [val_empty h2]; simp [less_empty]
    · exact chain_use (c := fun _ => true) (p := fun q => (b = true ↔ q)) (chainLt_ex s t _ _) fun c hc => chainLt_iff (ub_ne h1) hc
  · unfold setLtImp nonEmpty
    split_ifs with h1 h2
    · simp only [setCard_iff]
      rw [val_empty h1, empty_less]
      constructor
      · rintro ⟨n, rfl, h'⟩ hb; have := h' hb; omega
      · intro h; exact ⟨_, rfl, fun hb => by have := h hb; omega⟩
    · rw [val_empty h2]; simp [less_empty]
    · exact chain_use (c := fun _ => true) (p := fun q => (b = true → q)) (chainLt_ex s t _ _) fun c hc => chainLt_iff (ub_ne h1) hc

/-- The half-reified `<=`, and the reified one when `s` is not known to be empty.  Missing: `C83_order_le_reif_fails`. -/
theorem _root_.MZ.C83_order_le_reif_partial (s t : SV) (fixed b : Bool) :
    (s.ub ≠ ∅ → (setLeReif fixed s t b ↔ (b = true ↔ SetLessEq s.val t.val))) ∧
    (setLeImp fixed s t b ↔ (b = true → SetLessEq s.val t.val)) := by
  constructor
  · intro h1
    unfold setLeReif
    rw [if_neg h1]
    split_ifs with h2
    · rw [setEqReif_iff, val_empty h2, le_empty]; rfl
    · exact chain_use (c := fun _ => true) (p := fun q => (b = true ↔ q)) (chainLe_ex s t _ _) fun c hc => chainLe_iff (ub_ne h1) hc
  · unfold setLeImp
    split_ifs with h1 h2
    · rw [val_empty h1]; simp [empty_le]
    · rw [setEqImp_iff, val_empty h2, le_empty]; rfl
    · exact chain_use (c := fun _ => true) (p := fun q => (b = true → q)) (chainLe_ex s t _ _) fun c hc => chainLe_iff (ub_ne h1) hc

/-- When `s` is known to be empty, `b <-> (s <= t)` allows `b` to be false although `{}` comes before every set. -/
theorem _root_.MZ.C83_order_le_reif_fails (s t : SV) (fixed : Bool) (h : s.ub = ∅) :
    setLeReif fixed s t false ∧ SetLessEq s.val t.val := by
  refine ⟨?_, ?_⟩
  · unfold setLeReif; rw [if_pos h]; trivial
  · rw [val_empty h]; exact empty_le

/-- The order is total and strict: of two sets exactly one of `s < t`, `s = t`, `t < s` holds. -/
theorem _root_.MZ.C83_order_total (s t : Finset Int) :
    (SetLess s t ∨ s = t ∨ SetLess t s) ∧ ¬ (SetLess s t ∧ SetLess t s) ∧ ¬ SetLess s s := by
  unfold SetLess
  rw [← sort_inj]
  exact ⟨trichotomous_of (List.Lex (· < ·)) _ _, fun h => asymm_of (List.Lex (· < ·)) h.1 h.2, irrefl_of (List.Lex (· < ·)) _⟩

/-! ## Operations -/

theorem mem_iff_bits {z : SV} {p : Int → Prop} {I : Finset Int} (hz : ∀ i ∈ z.val, i ∈ I) (hp : ∀ i, p i → i ∈ I)
    (h : ∀ i ∈ I, (i ∈ z.val ↔ p i)) (i : Int) : i ∈ z.val ↔ p i :=
  ⟨fun h1 => (h i (hz i h1)).1 h1, fun h1 => (h i (hp i h1)).2 h1⟩

/-- A new set variable with a given upper bound and value. -/
def mk (u w : Finset Int) (h : w ⊆ u) : SV := ⟨u, w, h, false, fun h => by cases h⟩

/-- Union, intersection, difference and symmetric difference: the new variable has exactly the value of the operation. -/
theorem _root_.MZ.C83_operations (x y : SV) (w : Finset Int) :
    ((∃ z, setIntersect x y z ∧ z.val = w) ↔ w = x.val ∩ y.val) ∧
    ((∃ z, setUnion x y z ∧ z.val = w) ↔ w = x.val ∪ y.val) ∧
    ((∃ z, setDiff x y z ∧ z.val = w) ↔ w = x.val \ y.val) ∧
    ((∃ z, setSymdiff x y z ∧ z.val = w) ↔ w = (x.val \ y.val) ∪ (y.val \ x.val)) := by
  have lbsub : ∀ {y : SV} {i : Int}, i ∈ y.lb → i ∈ y.val := by
    intro y i h
    unfold SV.lb at h
    split_ifs at h with hp
    · exact h
    · cases h
  refine ⟨⟨?_, ?_⟩, ⟨?_, ?_⟩, ⟨?_, ?_⟩, ⟨?_, ?_⟩⟩
  · rintro ⟨z, ⟨bx, bt, bz, h1, h2, hu, h3, h⟩, rfl⟩
    obtain rfl := isBits_iff.1 h1
    obtain rfl := isBits_iff.1 h2
    obtain rfl := isBits_iff.1 h3
    ext i
    rw [Finset.mem_inter]
    refine mem_iff_bits (I := idx z) (p := fun i => i ∈ x.val ∧ i ∈ y.val) (fun i hi => mem_idx hi)
      (fun i hi => mem_idx_of_ub ?_) (by simpa using h) i
    rw [hu]
    exact Finset.mem_inter.2 ⟨mem_idx hi.1, mem_idx hi.2⟩
  · rintro rfl
    refine ⟨mk (idx x ∩ idx y) (x.val ∩ y.val) fun i hi => ?_, ⟨_, _, _, isBits_iff.2 rfl, isBits_iff.2 rfl, rfl,
      isBits_iff.2 rfl, ?_⟩, rfl⟩
    · have := Finset.mem_inter.1 hi
      exact Finset.mem_inter.2 ⟨mem_idx this.1, mem_idx this.2⟩
    · intro i _; simp [mk]
  · rintro ⟨z, ⟨bx, bt, bz, h1, h2, hu, h3, h⟩, rfl⟩
    obtain rfl := isBits_iff.1 h1
    obtain rfl := isBits_iff.1 h2
    obtain rfl := isBits_iff.1 h3
    ext i
    rw [Finset.mem_union]
    refine mem_iff_bits (I := idx x ∪ idx y) (p := fun i => i ∈ x.val ∨ i ∈ y.val) (fun i hi => hu ▸ z.sub hi)
      (fun i hi => ?_) (fun i hi => ?_) i
    · exact Finset.mem_union.2 (hi.imp mem_idx mem_idx)
    · have := h i hi
      split_ifs at this with h1 h2
      · simpa using this
      · have hn : i ∉ y.val := fun h3 => h2 (mem_idx h3)
        simpa [hn] using this
      · have hn : i ∉ x.val := fun h3 => h1 (mem_idx h3)
        simpa [hn] using this
  · rintro rfl
    refine ⟨mk (idx x ∪ idx y) (x.val ∪ y.val) fun i hi => ?_, ⟨_, _, _, isBits_iff.2 rfl, isBits_iff.2 rfl, rfl,
      isBits_iff.2 rfl, ?_⟩, rfl⟩
    · exact Finset.mem_union.2 ((Finset.mem_union.1 hi).imp mem_idx mem_idx)
    · intro i _
      split_ifs with h1 h2
      · simp [mk]
      · have hn : i ∉ y.val := fun h3 => h2 (mem_idx h3)
        simp [mk, hn]
      · have hn : i ∉ x.val := fun h3 => h1 (mem_idx h3)
        simp [mk, hn]
  · rintro ⟨z, ⟨bx, bt, bz, h1, h2, hu, h3, h⟩, rfl⟩
    obtain rfl := isBits_iff.1 h1
    obtain rfl := isBits_iff.1 h2
    obtain rfl := isBits_iff.1 h3
    ext i
    rw [Finset.mem_sdiff]
    refine mem_iff_bits (I := z.ub) (p := fun i => i ∈ x.val ∧ i ∉ y.val) (fun i hi => z.sub hi)
      (fun i hi => ?_) (by simpa using h) i
    rw [hu]
    exact Finset.mem_sdiff.2 ⟨x.sub hi.1, fun h => hi.2 (lbsub h)⟩
  · rintro rfl
    refine ⟨mk (x.ub \ y.lb) (x.val \ y.val) fun i hi => ?_, ⟨_, _, _, isBits_iff.2 rfl, isBits_iff.2 rfl, rfl,
      isBits_iff.2 rfl, ?_⟩, rfl⟩
    · have := Finset.mem_sdiff.1 hi
      exact Finset.mem_sdiff.2 ⟨x.sub this.1, fun h => this.2 (lbsub h)⟩
    · intro i _; simp [mk]
  · rintro ⟨z, ⟨bx, bt, bz, h1, h2, hu, h3, h⟩, rfl⟩
    obtain rfl := isBits_iff.1 h1
    obtain rfl := isBits_iff.1 h2
    obtain rfl := isBits_iff.1 h3
    ext i
    rw [Finset.mem_union, Finset.mem_sdiff, Finset.mem_sdiff]
    refine mem_iff_bits (I := z.ub) (p := fun i => (i ∈ x.val ∧ i ∉ y.val) ∨ (i ∈ y.val ∧ i ∉ x.val)) (fun i hi => z.sub hi)
      (fun i hi => ?_) (fun i hi => ?_) i
    · rw [hu, Finset.mem_union, Finset.mem_sdiff, Finset.mem_sdiff]
      exact hi.imp (fun hi => ⟨x.sub hi.1, fun h => hi.2 (lbsub h)⟩) fun hi => ⟨y.sub hi.1, fun h => hi.2 (lbsub h)⟩
    · have := h i hi
      by_cases h1 : i ∈ x.val <;> by_cases h2 : i ∈ y.val <;> simpa [h1, h2] using this
  · rintro rfl
    refine ⟨mk ((x.ub \ y.lb) ∪ (y.ub \ x.lb)) ((x.val \ y.val) ∪ (y.val \ x.val)) fun i hi => ?_,
      ⟨_, _, _, isBits_iff.2 rfl, isBits_iff.2 rfl, rfl, isBits_iff.2 rfl, ?_⟩, rfl⟩
    · rw [Finset.mem_union, Finset.mem_sdiff, Finset.mem_sdiff] at hi ⊢
      exact hi.imp (fun hi => ⟨x.sub hi.1, fun h => hi.2 (lbsub h)⟩) fun hi => ⟨y.sub hi.1, fun h => hi.2 (lbsub h)⟩
    · intro i _
      by_cases h1 : i ∈ x.val <;> by_cases h2 : i ∈ y.val <;> simp [mk, h1, h2]

/-! ## Element -/

theorem lb_sub {y : SV} {i : Int} (h : i ∈ y.lb) : i ∈ y.val := by
  unfold SV.lb at h
  split_ifs at h with hp
  · exact h
  · cases h

theorem const_lb (s : Finset Int) : (SV.const s).lb = s := by unfold SV.lb SV.const; simp

/-- `y = xs[idx]` for an array of set variables. -/
theorem _root_.MZ.C83_var_element (ix : V) (xs : Arr SV) (y : SV) (uby : Finset Int) (h1 : y.val ⊆ uby) :
    arrayVarSetElement ix xs y uby ↔ ix.val ∈ xs.idx ∧ y.val = (xs ix.val).val := by
  constructor
  · rintro ⟨h, hU, hL, bt, hbt, bx, hbx, ha, hb⟩
    obtain rfl := isBits_iff.1 hbt
    have hx : bx ix.val = fun k => decide (k ∈ (xs ix.val).val) := isBits_iff.1 (hbx ix.val)
    refine ⟨(Finset.mem_filter.1 h).1, ?_⟩
    have hmem : ix.val ∈ (restrict ix _ h).dom := (restrict ix _ h).mem
    have helem : ∀ k, elemBit (xs ix.val) (bx ix.val) k = decide (k ∈ (xs ix.val).val) := by
      intro k
      unfold elemBit
      split_ifs with hk
      · rw [hx]
      · exact (decide_eq_false fun h' => hk ((xs ix.val).sub h')).symm
    have hUB : ∀ k ∈ (xs ix.val).val, k ∈ (restrict ix _ h).dom.biUnion fun i => (xs i).ub := fun k hk =>
      Finset.mem_biUnion.2 ⟨_, hmem, (xs ix.val).sub hk⟩
    have hd : (restrict ix _ h).val = ix.val := rfl
    simp only [hd, helem] at ha hb
    ext k
    by_cases hk : k ∈ uby
    · have := ha k hk
      split_ifs at this with h3 h4
      · have h5 := (Finset.mem_filter.1 h4).2 _ hmem
        exact iff_of_true (by simpa using this) (lb_sub h5)
      · simpa using this
      · exact iff_of_false (by simpa using this) fun h' => h3 (hUB k h')
    · refine iff_of_false (fun h' => hk (h1 h')) fun h' => ?_
      have := hb k (Finset.mem_sdiff.2 ⟨hUB k h', hk⟩)
      split_ifs at this with h4
      exact this (by simpa using h')
  · rintro ⟨hi, he⟩
    have h : ix.val ∈ xs.idx.filter (fun i => (xs i).lb ⊆ y.ub ∧ y.lb ⊆ (xs i).ub) := by
      refine Finset.mem_filter.2 ⟨hi, fun k hk => y.sub ?_, fun k hk => (xs ix.val).sub ?_⟩
      · rw [he]; exact lb_sub hk
      · rw [← he]; exact lb_sub hk
    have hmem : ix.val ∈ (restrict ix _ h).dom := (restrict ix _ h).mem
    have helem : ∀ k, elemBit (xs ix.val) (fun k => decide (k ∈ (xs ix.val).val)) k = decide (k ∈ (xs ix.val).val) := by
      intro k
      unfold elemBit
      split_ifs with hk
      · rfl
      · exact (decide_eq_false fun h' => hk ((xs ix.val).sub h')).symm
    have hUB : ∀ k ∈ (xs ix.val).val, k ∈ (restrict ix _ h).dom.biUnion fun i => (xs i).ub := fun k hk =>
      Finset.mem_biUnion.2 ⟨_, hmem, (xs ix.val).sub hk⟩
    refine ⟨h, fun k hk => hUB k (he ▸ hk), fun k hk => ?_, _, isBits_iff.2 rfl, fun i k => decide (k ∈ (xs i).val),
      fun i => isBits_iff.2 rfl, fun k hk => ?_, fun k hk => ?_⟩
    · rw [he]; exact lb_sub ((Finset.mem_filter.1 hk).2 _ hmem)
    · have hd : (restrict ix _ h).val = ix.val := rfl
      simp only [hd, helem]
      split_ifs with h3 h4
      · exact decide_eq_true (he ▸ lb_sub ((Finset.mem_filter.1 h4).2 _ hmem))
      · rw [he]
      · exact decide_eq_false fun h' => h3 (hUB k (he ▸ h'))
    · have hd : (restrict ix _ h).val = ix.val := rfl
      have hk' := (Finset.mem_sdiff.1 hk).2
      simp only [hd, helem]
      split_ifs with h4
      · exact hk' (h1 (he ▸ lb_sub ((Finset.mem_filter.1 h4).2 _ hmem)))
      · simp only [decide_eq_true_iff]
        exact fun h' => hk' (h1 (he ▸ h'))

/-- `y = xs[idx]` for an array of constants. -/
theorem _root_.MZ.C83_element (ix : V) (xs : Arr (Finset Int)) (y : SV) (uby : Finset Int) (h1 : y.val ⊆ uby) :
    arraySetElement ix xs y uby ↔ ix.val ∈ xs.idx ∧ y.val = xs ix.val := by
  have key : arraySetElement ix xs y uby ↔ arrayVarSetElement ix ⟨xs.lo, xs.hi, fun i => SV.const (xs i)⟩ y uby := by
    unfold arraySetElement arrayVarSetElement
    have hl : ∀ i, (SV.const (xs i)).lb = xs i := fun i => const_lb _
    show _ ↔ ∃ h : ix.val ∈ xs.idx.filter (fun i => (SV.const (xs i)).lb ⊆ y.ub ∧ y.lb ⊆ (SV.const (xs i)).ub), _
    simp only [hl]
    rfl
  rw [key, MZ.C83_var_element ix _ y uby h1]
  rfl

/-! ## Examples -/

/-- A variable with a gap in its upper bound and value `{1, 4}`. -/
def ex1 : SV := ⟨{1, 2, 4}, {1, 4}, by decide, false, fun h => by cases h⟩

/-- A constant `{1, 2}`. -/
def ex2 : SV := SV.const {1, 2}

example : setSubset ex2 ex1 ↔ False := by
  rw [(MZ.C83_subset ex2 ex1 True).1]; simp [ex1, ex2, SV.const]

example : ∃ z, setDiff ex1 ex2 z ∧ z.val = {4} := (MZ.C83_operations ex1 ex2 _).2.2.1.2 (by decide)

example : setCard ex1 2 := (MZ.C83_membership ex1 2 True).2.2.2.2.2.2 (by decide)

example : setLt ex2 ex1 := by
  rw [(MZ.C83_order ex2 ex1).2]
  show SetLess ({1, 2} : Finset Int) {1, 4}
  have h1 : ({1, 2} : Finset Int).sort (· ≤ ·) = [1, 2] := by
    have := Finset.sort_insert (r := (· ≤ ·)) (a := (1 : Int)) (s := {2}) (by simp) (by simp)
    rw [Finset.sort_singleton] at this
    exact this
  have h2 : ({1, 4} : Finset Int).sort (· ≤ ·) = [1, 4] := by
    have := Finset.sort_insert (r := (· ≤ ·)) (a := (1 : Int)) (s := {4}) (by simp) (by simp)
    rw [Finset.sort_singleton] at this
    exact this
  unfold SetLess
  rw [h1, h2]
  exact List.Lex.cons (List.Lex.rel (by decide))

example : arraySetElement ⟨{1, 2, 3}, 2, by decide⟩ ⟨1, 2, fun i => if i = 1 then {1, 2} else {1, 4}⟩ ex1 {1, 2, 4} :=
  (MZ.C83_element _ _ _ _ (by decide)).2 ⟨by decide, by decide⟩

end MZ.NoSets
