import Verif.NoSets.Model
import Verif.NoSets.Spec

/-!
# The Booleans of a set variable and the comparison chain
-/

namespace MZ.NoSets

open MZ.Globals MZ.LinLib MZ.LinArith MZ.NoSets.Spec

theorem mem_idx_of_ub {x : SV} {i : Int} (h : i ∈ x.ub) : i ∈ idx x := by
  unfold idx
  rw [if_neg (Finset.ne_empty_of_mem h)]
  exact Finset.mem_Icc.2 ⟨minOf_le (f := fun i => i) h, le_maxOf (f := fun i => i) h⟩

theorem mem_idx {x : SV} {i : Int} (h : i ∈ x.val) : i ∈ idx x := mem_idx_of_ub (x.sub h)

/-- The Booleans are determined by the value. -/
theorem isBits_iff {x : SV} {b : Int → Bool} : IsBits x b ↔ b = fun i => decide (i ∈ x.val) := by
  constructor
  · rintro ⟨h0, h1⟩
    funext i
    by_cases hi : i ∈ idx x
    · split_ifs at h1 with hp
      · exact h1 i hi
      · have : i ∈ x.val ↔ b i = true := by
          rw [h1.2]; simp [reverseMap, hi]
        rw [Bool.eq_iff_iff, decide_eq_true_iff, this]
    · rw [h0 i hi]
      exact (decide_eq_false fun h => hi (mem_idx h)).symm
  · rintro rfl
    refine ⟨fun i hi => decide_eq_false fun h => hi (mem_idx h), ?_⟩
    split_ifs with hp
    · intro i _; rfl
    · refine ⟨fun i _ => ?_, ?_⟩
      · split_ifs with hu
        exact decide_eq_false fun h => hu (x.sub h)
      · ext i
        simp only [reverseMap, Finset.mem_filter, decide_eq_true_iff]
        exact ⟨fun h => ⟨mem_idx h, h⟩, fun h => h.2⟩

/-- … and exist for every value. -/
theorem bits_ex (x : SV) : ∃ b, IsBits x b := ⟨_, isBits_iff.2 rfl⟩

theorem setInReifC_iff {x : Int} {s : SV} {b : Prop} : setInReifC x s b ↔ (b ↔ x ∈ s.val) := by
  unfold setInReifC
  split_ifs with h
  · simp [isBits_iff]
  · have : x ∉ s.val := fun h' => h (s.sub h')
    simp [this]

theorem members_iff {s : SV} {l u : Int} {xb : Int → Bool} :
    Members s l u xb ↔ ∀ i, l ≤ i → i ≤ u → (xb i = true ↔ i ∈ s.val) := by
  simp [Members, setInReifC_iff]

/-! ## Sorted sequences -/

/-- The elements of `s` from `i` on, in increasing order. -/
def from_ (s : Finset Int) (i : Int) : List Int := (s.filter (i ≤ ·)).sort (· ≤ ·)

theorem from_mem {s : Finset Int} {i : Int} (h : i ∈ s) : from_ s i = i :: from_ s (i + 1) := by
  unfold from_
  have : s.filter (i ≤ ·) = insert i (s.filter (i + 1 ≤ ·)) := by
    ext j
    simp only [Finset.mem_filter, Finset.mem_insert]
    constructor
    · rintro ⟨h1, h2⟩
      by_cases hj : j = i
      · exact Or.inl hj
      · exact Or.inr ⟨h1, by omega⟩
    · rintro (rfl | ⟨h1, h2⟩)
      · exact ⟨h, le_refl _⟩
      · exact ⟨h1, by omega⟩
  rw [this, Finset.sort_insert]
  · intro b hb; have := (Finset.mem_filter.1 hb).2; omega
  · intro hb; have := (Finset.mem_filter.1 hb).2; omega

theorem from_not_mem {s : Finset Int} {i : Int} (h : i ∉ s) : from_ s i = from_ s (i + 1) := by
  unfold from_
  congr 1
  ext j
  simp only [Finset.mem_filter]
  constructor
  · rintro ⟨h1, h2⟩
    have : j ≠ i := by rintro rfl; exact h h1
    exact ⟨h1, by omega⟩
  · rintro ⟨h1, h2⟩; exact ⟨h1, by omega⟩

theorem from_nil {s : Finset Int} {i : Int} : from_ s i = [] ↔ ∀ j ∈ s, j < i := by
  unfold from_
  rw [← List.length_eq_zero_iff, Finset.length_sort, Finset.card_eq_zero, Finset.filter_eq_empty_iff]
  constructor
  · intro h j hj; have := h hj; omega
  · intro h j hj; have := h j hj; omega

theorem mem_from {s : Finset Int} {i j : Int} : j ∈ from_ s i ↔ j ∈ s ∧ i ≤ j := by simp [from_]

theorem from_all {s : Finset Int} {i : Int} (h : ∀ j ∈ s, i ≤ j) : from_ s i = s.sort (· ≤ ·) := by
  unfold from_
  rw [Finset.filter_true_of_mem h]

theorem sort_inj {s t : Finset Int} : s.sort (· ≤ ·) = t.sort (· ≤ ·) ↔ s = t := by
  constructor
  · intro h
    rw [← Finset.sort_toFinset s (· ≤ ·), ← Finset.sort_toFinset t (· ≤ ·), h]
  · rintro rfl; rfl

theorem lex_cons_gt {i : Int} {A B : List Int} (h : ∀ j ∈ B, i < j) : List.Lex (· < ·) (i :: A) B ↔ B ≠ [] := by
  constructor
  · rintro hl rfl; cases hl
  · intro hb
    cases B with
    | nil => exact absurd rfl hb
    | cons b B => exact List.Lex.rel (h b (by simp))

theorem lex_gt_cons {i : Int} {A B : List Int} (h : ∀ j ∈ A, i < j) : List.Lex (· < ·) A (i :: B) ↔ A = [] := by
  constructor
  · intro hl
    cases A with
    | nil => rfl
    | cons a A =>
      have := h a (by simp)
      cases hl with
      | rel h' => omega
      | cons _ => omega
  · rintro rfl; exact List.Lex.nil

theorem lex_same {i : Int} {A B : List Int} : List.Lex (· < ·) (i :: A) (i :: B) ↔ List.Lex (· < ·) A B := by
  constructor
  · intro h
    cases h with
    | rel h' => exact absurd h' (lt_irrefl _)
    | cons h' => exact h'
  · exact List.Lex.cons

/-! ## The chain -/

theorem top_lt {s : SV} {l i : Int} (hl : l ≤ i) (hi : i ∉ s.val) : top s l < i ↔ ∀ j ∈ s.val, j < i + 1 := by
  unfold top
  constructor
  · intro h j hj
    have := le_maxOf (S := s.val ∪ {l - 1}) (f := fun i => i) (Finset.mem_union_left _ hj)
    omega
  · intro h
    obtain ⟨j, hj, e⟩ := maxOf_mem (S := s.val ∪ {l - 1}) (f := fun i => i) ⟨l - 1, by simp⟩
    rw [e]
    rcases Finset.mem_union.1 hj with hj | hj
    · have h1 := h j hj
      have : j ≠ i := by rintro rfl; exact hi hj
      omega
    · have := Finset.mem_singleton.1 hj
      omega

theorem top_gt {s : SV} {l i : Int} (hl : l ≤ i) : top s l > i ↔ ¬ ∀ j ∈ s.val, j < i + 1 := by
  unfold top
  constructor
  · intro h hc
    obtain ⟨j, hj, e⟩ := maxOf_mem (S := s.val ∪ {l - 1}) (f := fun i => i) ⟨l - 1, by simp⟩
    rw [e] at h
    rcases Finset.mem_union.1 hj with hj | hj
    · have h1 := hc j hj
      omega
    · have := Finset.mem_singleton.1 hj
      omega
  · intro h
    push Not at h
    obtain ⟨j, hj, h⟩ := h
    have := le_maxOf (S := s.val ∪ {l - 1}) (f := fun i => i) (Finset.mem_union_left _ hj)
    omega

/-- What a comparison of the remaining sequences should give; `e` says whether equal sequences count. -/
def Cmp (e : Prop) (A B : List Int) : Prop := List.Lex (· < ·) A B ∨ (e ∧ A = B)

theorem cmp_same {e : Prop} {i : Int} {A B : List Int} : Cmp e (i :: A) (i :: B) ↔ Cmp e A B := by
  unfold Cmp; rw [lex_same]; simp

theorem chain_iff {e : Prop} {s t : SV} {l u : Int} {chain xb yb : Int → Bool} (hx : Members s l u xb) (hy : Members t l u yb)
    (hc : ∀ i ∈ Finset.Icc l (u - 1), chain i = link xb yb (top s l) (top t l) i chain)
    (hu : chain u = true ↔ Cmp e (from_ s.val u) (from_ t.val u)) (n : Nat) :
    ∀ i, l ≤ i → i + n = u → (chain i = true ↔ Cmp e (from_ s.val i) (from_ t.val i)) := by
  rw [members_iff] at hx hy
  induction n with
  | zero => intro i _ h; obtain rfl : i = u := by simpa using h
            exact hu
  | succ n ih =>
    intro i hl hiu
    push_cast at hiu
    have hn := ih (i + 1) (by omega) (by omega)
    rw [hc i (Finset.mem_Icc.2 ⟨hl, by omega⟩)]
    have hgt : ∀ (s : Finset Int), ∀ j ∈ from_ s (i + 1), i < j := fun s j hj => by have := (mem_from.1 hj).2; omega
    by_cases h1 : i ∈ s.val <;> by_cases h2 : i ∈ t.val
    · have e1 : link xb yb (top s l) (top t l) i chain = chain (i + 1) := by
        simp [link, b2i, (hx i hl (by omega)).2 h1, (hy i hl (by omega)).2 h2]
      rw [e1, hn, from_mem h1, from_mem h2, cmp_same]
    · have hy0 : ¬ yb i = true := fun h => h2 ((hy i hl (by omega)).1 h)
      have e1 : link xb yb (top s l) (top t l) i chain = decide (top t l > i) := by
        simp [link, b2i, (hx i hl (by omega)).2 h1, hy0]
      rw [e1, decide_eq_true_iff, top_gt hl, from_mem h1, from_not_mem h2]
      unfold Cmp
      rw [lex_cons_gt (hgt t.val), Ne, from_nil]
      constructor
      · exact Or.inl
      · rintro (h | ⟨_, h⟩)
        · exact h
        · intro h0
          rw [← from_nil] at h0
          rw [h0] at h
          cases h
    · have hx0 : ¬ xb i = true := fun h => h1 ((hx i hl (by omega)).1 h)
      have e1 : link xb yb (top s l) (top t l) i chain = decide (top s l < i) := by
        simp [link, b2i, (hy i hl (by omega)).2 h2, hx0]
      rw [e1, decide_eq_true_iff, top_lt hl h1, from_mem h2, from_not_mem h1]
      unfold Cmp
      rw [lex_gt_cons (hgt s.val), from_nil]
      constructor
      · exact Or.inl
      · rintro (h | ⟨_, h⟩)
        · exact h
        · have : i ∈ from_ s.val (i + 1) := by rw [h]; simp
          have := (mem_from.1 this).2
          omega
    · have hx0 : ¬ xb i = true := fun h => h1 ((hx i hl (by omega)).1 h)
      have hy0 : ¬ yb i = true := fun h => h2 ((hy i hl (by omega)).1 h)
      have e1 : link xb yb (top s l) (top t l) i chain = chain (i + 1) := by
        simp [link, b2i, hx0, hy0]
      rw [e1, hn, from_not_mem h1, from_not_mem h2]

theorem from_last {s : Finset Int} {u : Int} (h : ∀ j ∈ s, j ≤ u) : from_ s u = if u ∈ s then [u] else [] := by
  have h0 : from_ s (u + 1) = [] := from_nil.2 fun j hj => by have := h j hj; omega
  split_ifs with hu
  · rw [from_mem hu, h0]
  · rw [from_not_mem hu, h0]

theorem last_le {s t : Finset Int} {u : Int} (hs : ∀ j ∈ s, j ≤ u) (ht : ∀ j ∈ t, j ≤ u) :
    Cmp True (from_ s u) (from_ t u) ↔ (u ∈ s → u ∈ t) := by
  rw [from_last hs, from_last ht]
  unfold Cmp
  split_ifs with h1 h2 h2 <;> simp [h1, h2]

theorem last_lt {s t : Finset Int} {u : Int} (hs : ∀ j ∈ s, j ≤ u) (ht : ∀ j ∈ t, j ≤ u) :
    Cmp False (from_ s u) (from_ t u) ↔ (u ∉ s ∧ u ∈ t) := by
  rw [from_last hs, from_last ht]
  unfold Cmp
  split_ifs with h1 h2 h2 <;> simp [h1, h2]

theorem bounds_le {s t : SV} {j : Int} (h : j ∈ s.ub ∪ t.ub) : lowest s t ≤ j ∧ j ≤ highest s t :=
  ⟨minOf_le (f := fun i => i) h, le_maxOf (f := fun i => i) h⟩

/-- A chain with a given last element exists. -/
theorem chain_ex (xb yb : Int → Bool) (a b l u : Int) (last : Bool) :
    ∃ chain : Int → Bool, (∀ i ∈ Finset.Icc l (u - 1), chain i = link xb yb a b i chain) ∧ chain u = last := by
  let f : Nat → Bool := fun n => Nat.rec last (fun n c => link xb yb a b (u - (n + 1)) (fun _ => c)) n
  refine ⟨fun i => f (u - i).toNat, ?_, ?_⟩
  · intro i hi
    have hi := Finset.mem_Icc.1 hi
    obtain ⟨n, hn⟩ : ∃ n : Nat, (u - i).toNat = n + 1 := ⟨(u - i).toNat - 1, by omega⟩
    have hn' : (u - (i + 1)).toNat = n := by omega
    have hi' : u - ((n : Int) + 1) = i := by omega
    show f (u - i).toNat = _
    rw [hn]
    show link xb yb a b (u - ((n : Int) + 1)) (fun _ => f n) = _
    rw [hi']
    unfold link
    simp only [hn']
  · show f (u - u).toNat = last
    simp [f]

theorem members_ex (s : SV) (l u : Int) : Members s l u fun i => decide (i ∈ s.val) := by
  rw [members_iff]; simp

/-- The first element of the chain of `set_le` is the comparison. -/
theorem chainLe_iff {s t : SV} (h : (s.ub ∪ t.ub).Nonempty) {chain : Int → Bool} (hc : chainLe s t chain (lowest s t) (highest s t)) :
    chain (lowest s t) = true ↔ SetLessEq s.val t.val := by
  obtain ⟨xb, yb, hx, hy, hc, hu⟩ := hc
  obtain ⟨j, hj⟩ := h
  have hb := bounds_le hj
  have hs : ∀ j ∈ s.val, lowest s t ≤ j ∧ j ≤ highest s t := fun j hj => bounds_le (Finset.mem_union_left _ (s.sub hj))
  have ht : ∀ j ∈ t.val, lowest s t ≤ j ∧ j ≤ highest s t := fun j hj => bounds_le (Finset.mem_union_right _ (t.sub hj))
  have hu' : chain (highest s t) = true ↔ Cmp True (from_ s.val (highest s t)) (from_ t.val (highest s t)) := by
    rw [hu, last_le (fun j hj => (hs j hj).2) fun j hj => (ht j hj).2, members_iff.1 hx _ (by omega) (le_refl _),
      members_iff.1 hy _ (by omega) (le_refl _)]
  rw [chain_iff hx hy hc hu' (highest s t - lowest s t).toNat _ (le_refl _) (by omega), from_all fun j hj => (hs j hj).1,
    from_all fun j hj => (ht j hj).1]
  unfold Cmp SetLessEq SetLess
  rw [sort_inj, true_and]

/-- The first element of the chain of `set_lt` is the strict comparison. -/
theorem chainLt_iff {s t : SV} (h : (s.ub ∪ t.ub).Nonempty) {chain : Int → Bool} (hc : chainLt s t chain (lowest s t) (highest s t)) :
    chain (lowest s t) = true ↔ SetLess s.val t.val := by
  obtain ⟨xb, yb, hx, hy, hc, hu⟩ := hc
  obtain ⟨j, hj⟩ := h
  have hb := bounds_le hj
  have hs : ∀ j ∈ s.val, lowest s t ≤ j ∧ j ≤ highest s t := fun j hj => bounds_le (Finset.mem_union_left _ (s.sub hj))
  have ht : ∀ j ∈ t.val, lowest s t ≤ j ∧ j ≤ highest s t := fun j hj => bounds_le (Finset.mem_union_right _ (t.sub hj))
  have hu' : chain (highest s t) = true ↔ Cmp False (from_ s.val (highest s t)) (from_ t.val (highest s t)) := by
    rw [hu, last_lt (fun j hj => (hs j hj).2) fun j hj => (ht j hj).2, members_iff.1 hx _ (by omega) (le_refl _),
      members_iff.1 hy _ (by omega) (le_refl _)]
  rw [chain_iff hx hy hc hu' (highest s t - lowest s t).toNat _ (le_refl _) (by omega), from_all fun j hj => (hs j hj).1,
    from_all fun j hj => (ht j hj).1]
  unfold Cmp SetLess
  simp

theorem chainLe_ex (s t : SV) (l u : Int) : ∃ chain, chainLe s t chain l u := by
  obtain ⟨chain, h1, h2⟩ := chain_ex (fun i => decide (i ∈ s.val)) (fun i => decide (i ∈ t.val)) (top s l) (top t l) l u
    (decide (u ∈ s.val → u ∈ t.val))
  exact ⟨chain, _, _, members_ex s l u, members_ex t l u, h1, by rw [h2]; simp only [decide_eq_true_iff]⟩

theorem chainLt_ex (s t : SV) (l u : Int) : ∃ chain, chainLt s t chain l u := by
  obtain ⟨chain, h1, h2⟩ := chain_ex (fun i => decide (i ∈ s.val)) (fun i => decide (i ∈ t.val)) (top s l) (top t l) l u
    (decide (u ∉ s.val ∧ u ∈ t.val))
  exact ⟨chain, _, _, members_ex s l u, members_ex t l u, h1, by simp [h2]⟩

end MZ.NoSets
