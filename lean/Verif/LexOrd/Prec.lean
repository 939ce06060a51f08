import Verif.LexOrd.Lex

/-! # Lemmas on the precedence constraints -/

namespace MZ.LexOrd
open MZ.Globals MZ.LexOrd.Spec

theorem precedeBools_iff {α : Type} (xs : Arr α) (xis ok : α → Prop) (late : α → Prop)
    (hok : ∀ a, ok a ↔ ¬ late a) :
    (∃ b, precedeBools xs xis ok b) ↔ Precedes xis late xs := by
  constructor
  · rintro ⟨b, hb, h0⟩ i hi hl
    rw [Arr.mem_idx] at hi
    have key : ∀ d : Nat, xs.lo + d ≤ xs.hi + 1 → b (xs.lo + d) →
        ∃ j ∈ xs.idx, j < xs.lo + d ∧ xis (xs j) := by
      intro d
      induction d with
      | zero => intro _ h; simp only [Int.natCast_zero, add_zero] at h; exact absurd h h0
      | succ d ih =>
        intro hd h
        obtain ⟨h1, h2, h3⟩ := hb (xs.lo + d) (by omega) (by omega)
        rw [show xs.lo + ((d + 1 : Nat) : Int) = xs.lo + d + 1 by omega] at h ⊢
        by_cases hx : xis (xs (xs.lo + d))
        · exact ⟨xs.lo + d, (Arr.mem_idx _ _).2 (by omega), by omega, hx⟩
        · obtain ⟨j, hj1, hj2, hj3⟩ := ih (by omega) ((h2 hx).2 h)
          exact ⟨j, hj1, by omega, hj3⟩
    have hbi : b i := by
      by_contra hbi
      exact (hok _).1 ((hb i hi.1 hi.2).2.2 hbi) hl
    have := key (i - xs.lo).toNat (by omega) (by rwa [show xs.lo + ((i - xs.lo).toNat : Int) = i by omega])
    rwa [show xs.lo + ((i - xs.lo).toNat : Int) = i by omega] at this
  · intro h
    refine ⟨fun i => ∃ j ∈ xs.idx, j < i ∧ xis (xs j), ?_, ?_⟩
    · intro i h1 h2
      have hi : i ∈ xs.idx := (Arr.mem_idx _ _).2 ⟨h1, h2⟩
      refine ⟨fun hx => ⟨i, hi, by omega, hx⟩, fun hx => ⟨?_, ?_⟩, ?_⟩
      · rintro ⟨j, hj1, hj2, hj3⟩; exact ⟨j, hj1, by omega, hj3⟩
      · rintro ⟨j, hj1, hj2, hj3⟩
        refine ⟨j, hj1, ?_, hj3⟩
        rcases lt_or_eq_of_le (show j ≤ i by omega) with h | h
        · exact h
        · subst h; exact absurd hj3 hx
      · intro hn
        rw [hok]
        intro hl
        exact hn (h i hi hl)
    · rintro ⟨j, hj1, hj2, _⟩
      rw [Arr.mem_idx] at hj1
      omega

theorem precedes_empty {α : Type} {xs : Arr α} (h : xs.len = 0) (e l : α → Prop) : Precedes e l xs := by
  intro i hi
  rw [Count.len_zero.1 h] at hi
  exact absurd hi (Finset.notMem_empty i)

theorem valuePrecede_iff (before after : Int) (xs : Arr Int) :
    valuePrecede before after xs ↔ ValuePrecede before after xs := by
  unfold valuePrecede
  split
  · rename_i h
    exact iff_of_true trivial (precedes_empty h _ _)
  · exact precedeBools_iff _ _ _ _ (fun a => Iff.rfl)

theorem valuePrecedeSet_iff (before after : Int) (xs : Arr (Finset Int)) :
    valuePrecedeSet before after xs ↔ ValuePrecedeSet before after xs := by
  unfold valuePrecedeSet
  split
  · rename_i h
    exact iff_of_true trivial (precedes_empty h _ _)
  · exact precedeBools_iff _ _ _ _ (fun a => by tauto)

theorem precedes_map {α β : Type} (xs : Arr α) (f : α → β) (e l : β → Prop) :
    Precedes e l (xs.compr f) ↔ Precedes (fun a => e (f a)) (fun a => l (f a)) xs := by
  have hl := len_eq_length xs
  have hl2 := length_elems xs
  constructor
  · intro h i hi hli
    rw [Arr.mem_idx] at hi
    obtain ⟨j, hj1, hj2, hj3⟩ := h (i - xs.lo + 1) (by rw [Arr.mem_idx]; simp only [Arr.compr]; omega)
      (by simp only [Arr.compr]; rwa [show xs.lo + (i - xs.lo + 1) - 1 = i by omega])
    rw [Arr.mem_idx] at hj1
    simp only [Arr.compr] at hj1 hj3
    exact ⟨xs.lo + j - 1, (Arr.mem_idx _ _).2 (by omega), by omega, hj3⟩
  · intro h i hi hli
    rw [Arr.mem_idx] at hi
    simp only [Arr.compr] at hi hli
    obtain ⟨j, hj1, hj2, hj3⟩ := h (xs.lo + i - 1) ((Arr.mem_idx _ _).2 (by omega)) hli
    rw [Arr.mem_idx] at hj1
    refine ⟨j - xs.lo + 1, by rw [Arr.mem_idx]; simp only [Arr.compr]; omega, by omega, ?_⟩
    simp only [Arr.compr]
    rwa [show xs.lo + (j - xs.lo + 1) - 1 = j by omega]

theorem precedes_congr {α : Type} {xs : Arr α} {e e' l l' : α → Prop}
    (he : ∀ i ∈ xs.idx, (e (xs i) ↔ e' (xs i))) (hl : ∀ i ∈ xs.idx, (l (xs i) ↔ l' (xs i))) :
    Precedes e l xs ↔ Precedes e' l' xs := by
  unfold Precedes
  constructor
  · intro h i hi hli
    obtain ⟨j, hj, h1, h2⟩ := h i hi ((hl i hi).2 hli)
    exact ⟨j, hj, h1, (he j hj).1 h2⟩
  · intro h i hi hli
    obtain ⟨j, hj, h1, h2⟩ := h i hi ((hl i hi).1 hli)
    exact ⟨j, hj, h1, (he j hj).2 h2⟩

theorem getD_eq_iff {o : Option Int} {d v : Int} (h : o = none → d ≠ v) : o.getD d = v ↔ o = some v := by
  cases o with
  | none => simp [h rfl]
  | some a => simp

/-- The running maximum of `seq_precede_chain`, for any per-position maxima `m`. -/
theorem runMax_iff {α : Type} (xs : Arr α) (mem : Int → α → Prop) (m : Int → Int) (hne : xs.lo ≤ xs.hi)
    (hm : ∀ i ∈ xs.idx, ∀ v, 1 ≤ v → mem v (xs i) → v ≤ m i)
    (hm2 : ∀ i ∈ xs.idx, 1 ≤ m i → mem (m i) (xs i)) (H : Int → Int)
    (h0 : H xs.lo = max (m xs.lo) 0)
    (hs : ∀ i ∈ xs.idx.erase xs.lo, H i = max (m i) (H (i - 1))) :
    (H xs.lo ≤ 1 ∧ ∀ i ∈ xs.idx.erase xs.lo, H i ≤ H (i - 1) + 1) ↔
      ∀ v : Int, 1 ≤ v → Precedes (mem v) (mem (v + 1)) xs := by
  have hle : ∀ d : Nat, xs.lo + d ≤ xs.hi → 0 ≤ H (xs.lo + d) ∧ (∀ e : Nat, e ≤ d → m (xs.lo + e) ≤ H (xs.lo + d)) ∧
      (∀ e : Nat, e ≤ d → H (xs.lo + e) ≤ H (xs.lo + d)) ∧
      (1 ≤ H (xs.lo + d) → ∃ e : Nat, e ≤ d ∧ m (xs.lo + e) = H (xs.lo + d)) := by
    intro d
    induction d with
    | zero =>
      intro _
      simp only [Int.natCast_zero, add_zero, Nat.le_zero_eq, forall_eq]
      refine ⟨by rw [h0]; exact le_max_right _ _, by rw [h0]; exact le_max_left _ _, le_refl _, fun h => ⟨0, rfl, ?_⟩⟩
      simp only [Int.natCast_zero, add_zero]
      rw [h0] at h ⊢; omega
    | succ d ih =>
      intro hd
      obtain ⟨i1, i2, i3, i4⟩ := ih (by omega)
      have hH := hs (xs.lo + ((d + 1 : Nat) : Int)) (by rw [Finset.mem_erase, Arr.mem_idx]; omega)
      rw [show xs.lo + ((d + 1 : Nat) : Int) - 1 = xs.lo + d by omega] at hH
      refine ⟨by omega, ?_, ?_, ?_⟩
      · intro e he
        rcases Nat.lt_or_ge d e with h | h
        · obtain rfl : e = d + 1 := by omega
          omega
        · have := i2 e h; omega
      · intro e he
        rcases Nat.lt_or_ge d e with h | h
        · obtain rfl : e = d + 1 := by omega
          omega
        · have := i3 e h; omega
      · intro h
        rcases le_total (m (xs.lo + ((d + 1 : Nat) : Int))) (H (xs.lo + d)) with hc | hc
        · rw [max_eq_right hc] at hH
          obtain ⟨e, he, hm⟩ := i4 (by omega)
          exact ⟨e, by omega, by omega⟩
        · rw [max_eq_left hc] at hH
          exact ⟨d + 1, le_refl _, hH.symm⟩
  constructor
  · rintro ⟨hf, hstep⟩ v hv i hi hmi
    rw [Arr.mem_idx] at hi
    -- every value up to the running maximum was the running maximum at some point
    have reach : ∀ d : Nat, xs.lo + d ≤ xs.hi → ∀ w, 1 ≤ w → w ≤ H (xs.lo + d) →
        ∃ e : Nat, e ≤ d ∧ mem w (xs (xs.lo + e)) := by
      intro d
      induction d with
      | zero =>
        intro hd w hw1 hw2
        simp only [Int.natCast_zero, add_zero] at hw2
        refine ⟨0, le_refl _, ?_⟩
        simp only [Int.natCast_zero, add_zero]
        have hw : w = m xs.lo := by omega
        rw [hw]
        exact hm2 _ ((Arr.mem_idx _ _).2 (by omega)) (by omega)
      | succ d ih =>
        intro hd w hw1 hw2
        have hmem : xs.lo + ((d + 1 : Nat) : Int) ∈ xs.idx.erase xs.lo := by
          rw [Finset.mem_erase, Arr.mem_idx]; omega
        have hH := hs _ hmem
        have hst := hstep _ hmem
        rw [show xs.lo + ((d + 1 : Nat) : Int) - 1 = xs.lo + d by omega] at hH hst
        by_cases hc : w ≤ H (xs.lo + d)
        · obtain ⟨e, he, hme⟩ := ih (by omega) w hw1 hc
          exact ⟨e, by omega, hme⟩
        · refine ⟨d + 1, le_refl _, ?_⟩
          have hw : w = m (xs.lo + ((d + 1 : Nat) : Int)) := by omega
          have hm1 : 1 ≤ m (xs.lo + ((d + 1 : Nat) : Int)) := by omega
          rw [hw]
          exact hm2 _ (Finset.mem_of_mem_erase hmem) hm1
    have hv1 := hm i ((Arr.mem_idx _ _).2 hi) (v + 1) (by omega) hmi
    rcases lt_or_eq_of_le hi.1 with hlt | heq
    · have hmem : i ∈ xs.idx.erase xs.lo := by rw [Finset.mem_erase, Arr.mem_idx]; omega
      have hH := hs i hmem
      have hst := hstep i hmem
      have e : i - 1 = xs.lo + ((i - 1 - xs.lo).toNat : Int) := by omega
      rw [e] at hH hst
      obtain ⟨e', he', hme'⟩ := reach (i - 1 - xs.lo).toNat (by omega) v hv (by omega)
      exact ⟨xs.lo + e', (Arr.mem_idx _ _).2 (by omega), by omega, hme'⟩
    · rw [← heq] at hv1
      omega
  · intro h
    have first : ∀ i ∈ xs.idx, 2 ≤ m i → ∃ j ∈ xs.idx, j < i ∧ m i - 1 ≤ m j := by
      intro i hi h2
      have := hm2 i hi (by omega)
      rw [show m i = m i - 1 + 1 by omega] at this
      obtain ⟨j, hj1, hj2, hj3⟩ := h (m i - 1) (by omega) i hi this
      exact ⟨j, hj1, hj2, hm j hj1 _ (by omega) hj3⟩
    constructor
    · rw [h0]
      by_contra hc
      obtain ⟨j, hj1, hj2, _⟩ := first xs.lo ((Arr.mem_idx _ _).2 (by omega)) (by omega)
      rw [Arr.mem_idx] at hj1; omega
    · intro i hi
      have hH := hs i hi
      rw [Finset.mem_erase, Arr.mem_idx] at hi
      have e : i - 1 = xs.lo + ((i - 1 - xs.lo).toNat : Int) := by omega
      obtain ⟨i1, i2, _, _⟩ := hle (i - 1 - xs.lo).toNat (by omega)
      rw [← e] at i1 i2
      by_cases hc : 2 ≤ m i
      · obtain ⟨j, hj1, hj2, hj3⟩ := first i ((Arr.mem_idx _ _).2 hi.2) hc
        rw [Arr.mem_idx] at hj1
        have := i2 (j - xs.lo).toNat (by omega)
        rw [show xs.lo + ((j - xs.lo).toNat : Int) = j by omega] at this
        omega
      · omega

/-- The running maximum exists. -/
def runMax (lo : Int) (m : Int → Int) : Nat → Int
  | 0 => max (m lo) 0
  | d + 1 => max (m (lo + (d + 1 : Nat))) (runMax lo m d)

theorem runMax_ex (lo : Int) (m : Int → Int) : ∃ H : Int → Int,
    H lo = max (m lo) 0 ∧ ∀ i, lo < i → H i = max (m i) (H (i - 1)) := by
  refine ⟨fun i => runMax lo m (i - lo).toNat, ?_, ?_⟩
  · dsimp only
    rw [show (lo - lo).toNat = 0 by omega, runMax]
  · intro i hi
    dsimp only
    have e : (i - lo).toNat = (i - 1 - lo).toNat + 1 := by omega
    rw [e, runMax, show lo + (((i - 1 - lo).toNat + 1 : Nat) : Int) = i by omega]

theorem runMax_bounds {α : Type} (xs : Arr α) (m H : Int → Int) (l u : Int)
    (h0 : H xs.lo = max (m xs.lo) 0) (hs : ∀ i ∈ xs.idx.erase xs.lo, H i = max (m i) (H (i - 1)))
    (hu0 : 0 ≤ u) (hu : ∀ i ∈ xs.idx, m i ≤ u) (hl : l ≤ max (m xs.lo) 0) :
    ∀ i ∈ xs.idx, l ≤ H i ∧ H i ≤ u := by
  have key : ∀ d : Nat, xs.lo + d ≤ xs.hi → l ≤ H (xs.lo + d) ∧ H (xs.lo + d) ≤ u := by
    intro d
    induction d with
    | zero =>
      intro hd
      have := hu xs.lo ((Arr.mem_idx _ _).2 (by omega))
      simp only [Int.natCast_zero, add_zero]
      omega
    | succ d ih =>
      intro hd
      have h1 := hs (xs.lo + ((d + 1 : Nat) : Int)) (by rw [Finset.mem_erase, Arr.mem_idx]; omega)
      rw [show xs.lo + ((d + 1 : Nat) : Int) - 1 = xs.lo + d by omega] at h1
      have h2 := hu (xs.lo + ((d + 1 : Nat) : Int)) ((Arr.mem_idx _ _).2 (by omega))
      have := ih (by omega)
      omega
  intro i hi
  rw [Arr.mem_idx] at hi
  have := key (i - xs.lo).toNat (by omega)
  rwa [show xs.lo + ((i - xs.lo).toNat : Int) = i by omega] at this

theorem nonempty_of_len {α : Type} {xs : Arr α} (h : xs.len ≠ 0) : xs.lo ≤ xs.hi := by
  have h1 := len_eq_length xs
  have h2 := length_elems xs
  omega

theorem seqPrecede_iff (xs : Arr Int) (l u : Int) (hb : ∀ i ∈ xs.idx, l ≤ xs i ∧ xs i ≤ u) (hu : xs.len = 0 ∨ 0 ≤ u) :
    seqPrecede xs l u ↔ SeqPrecede xs := by
  unfold seqPrecede
  split
  · rename_i h
    exact iff_of_true trivial (fun v _ => precedes_empty h _ _)
  · rename_i h
    have hne := nonempty_of_len h
    have hu0 := hu.resolve_left h
    have core := fun H => runMax_iff xs (fun v x => x = v) xs hne (fun i _ v _ h => le_of_eq h.symm)
      (fun i _ _ => rfl) H
    constructor
    · rintro ⟨H, _, h1, h2, h3⟩
      exact (core H h2 (fun i hi => (h3 i hi).2)).1 ⟨h1, fun i hi => (h3 i hi).1⟩
    · intro hsp
      obtain ⟨H, h0, hs⟩ := runMax_ex xs.lo xs
      have hs' : ∀ i ∈ xs.idx.erase xs.lo, H i = max (xs i) (H (i - 1)) := by
        intro i hi
        rw [Finset.mem_erase, Arr.mem_idx] at hi
        exact hs i (by omega)
      obtain ⟨h1, h2⟩ := (core H h0 hs').2 hsp
      have hlo := hb xs.lo ((Arr.mem_idx _ _).2 (by omega))
      exact ⟨H, runMax_bounds xs xs H l u h0 hs' hu0 (fun i hi => (hb i hi).2) (by omega), h1, h0,
        fun i hi => ⟨h2 i hi, hs' i hi⟩⟩

theorem exists_max (s : Finset Int) (h : s.Nonempty) : ∃ m, IsMaxOf s m := by
  refine ⟨s.max' h, Finset.max'_mem _ _, fun v hv => Finset.le_max' _ _ hv⟩

theorem isMaxOf_unique {s : Finset Int} {m m' : Int} (h : IsMaxOf s m) (h' : IsMaxOf s m') : m = m' :=
  le_antisymm (h'.2 _ h.1) (h.2 _ h'.1)

theorem seqPrecedeSet_iff (xs : Arr (Finset Int)) (l u : Int) (hb : ∀ i ∈ xs.idx, ∀ v ∈ xs i, l ≤ v ∧ v ≤ u)
    (hu : xs.len = 0 ∨ 0 ≤ u) (hl : l ≤ 0 ∨ xs.len = 0 ∨ (xs xs.lo).Nonempty)
    (hne : ∀ i ∈ xs.idx, i ≠ xs.lo → (xs i).Nonempty) :
    seqPrecedeSet xs l u ↔ SeqPrecedeSet xs := by
  unfold seqPrecedeSet
  split
  · rename_i h
    exact iff_of_true trivial (fun v _ => precedes_empty h _ _)
  · rename_i h
    have hle := nonempty_of_len h
    have hu0 := hu.resolve_left h
    have hmx : ∀ i, ∃ m, i ∈ xs.idx → if i = xs.lo then IsMaxOf (xs i ∪ {0}) m else IsMaxOf (xs i) m := by
      intro i
      by_cases hi : i ∈ xs.idx
      · by_cases h0 : i = xs.lo
        · obtain ⟨m, hm⟩ := exists_max (xs i ∪ {0}) ⟨0, by simp⟩
          exact ⟨m, fun _ => by rw [if_pos h0]; exact hm⟩
        · obtain ⟨m, hm⟩ := exists_max (xs i) (hne i hi h0)
          exact ⟨m, fun _ => by rw [if_neg h0]; exact hm⟩
      · exact ⟨0, fun h => absurd h hi⟩
    choose m hm using hmx
    have hlo : xs.lo ∈ xs.idx := (Arr.mem_idx _ _).2 ⟨le_refl _, hle⟩
    have hmlo : IsMaxOf (xs xs.lo ∪ {0}) (m xs.lo) := by have := hm xs.lo hlo; rwa [if_pos rfl] at this
    have hm0 : 0 ≤ m xs.lo := hmlo.2 0 (by simp)
    have hmi : ∀ i ∈ xs.idx.erase xs.lo, IsMaxOf (xs i) (m i) := by
      intro i hi
      have := hm i (Finset.mem_of_mem_erase hi)
      rwa [if_neg (Finset.ne_of_mem_erase hi)] at this
    have core := fun H => runMax_iff xs (fun v s => v ∈ s) m hle
      (fun i hi v _ hv => by
        by_cases e : i = xs.lo
        · subst e; exact hmlo.2 v (Finset.mem_union_left _ hv)
        · exact (hmi i (Finset.mem_erase.2 ⟨e, hi⟩)).2 v hv)
      (fun i hi h1 => by
        by_cases e : i = xs.lo
        · subst e
          rcases Finset.mem_union.1 hmlo.1 with h | h
          · exact h
          · rw [Finset.mem_singleton] at h; omega
        · exact (hmi i (Finset.mem_erase.2 ⟨e, hi⟩)).1) H
    constructor
    · rintro ⟨H, _, h1, h2, h3⟩
      refine (core H ?_ ?_).1 ⟨h1, fun i hi => (h3 i hi).1⟩
      · rw [isMaxOf_unique h2 hmlo]; omega
      · intro i hi
        obtain ⟨_, m', h4, h5⟩ := h3 i hi
        rw [h5, isMaxOf_unique h4 (hmi i hi)]
    · intro hsp
      obtain ⟨H, h0, hs⟩ := runMax_ex xs.lo m
      have hs' : ∀ i ∈ xs.idx.erase xs.lo, H i = max (m i) (H (i - 1)) := by
        intro i hi
        rw [Finset.mem_erase, Arr.mem_idx] at hi
        exact hs i (by omega)
      obtain ⟨h1, h2⟩ := (core H h0 hs').2 hsp
      refine ⟨H, runMax_bounds xs m H l u h0 hs' hu0 ?_ ?_, h1, ?_, fun i hi => ⟨h2 i hi, m i, hmi i hi, hs' i hi⟩⟩
      · intro i hi
        by_cases e : i = xs.lo
        · subst e
          rcases Finset.mem_union.1 hmlo.1 with h | h
          · exact (hb _ hi _ h).2
          · rw [Finset.mem_singleton] at h; omega
        · exact (hb i hi _ (hmi i (Finset.mem_erase.2 ⟨e, hi⟩)).1).2
      · rcases hl with hl | hl | hl
        · omega
        · exact absurd hl h
        · obtain ⟨v, hv⟩ := hl
          have h3 := (hb _ hlo v hv).1
          have h4 := hmlo.2 v (Finset.mem_union_left _ hv)
          omega
      · rw [h0, max_eq_left hm0]; exact hmlo

end MZ.LexOrd
