import Verif.Ranges.Spec
import Mathlib.Tactic.Tauto
namespace MZ
open Ranges

/-- exclusive upper end -/
def Range.u (r : Range) : Ext := r.hi.succ

theorem Range.mem_iff {x : Int} {r : Range} : r.Mem x ↔ r.lo ≤ .fin x ∧ .fin x < r.u := by
  unfold Range.Mem Range.u; rw [Ext.fin_le_iff_lt_succ]

theorem Range.valid_iff {r : Range} :
    (r.lo ≤ r.hi ∧ r.lo ≠ .posInf ∧ r.hi ≠ .negInf) ↔ r.lo < r.u := by
  unfold Range.u; cases r.lo <;> cases r.hi <;> simp; omega

/-- working form of `Normal` -/
def NF (l : List Range) : Prop := (∀ r ∈ l, r.lo < r.u) ∧ l.Pairwise (fun r s => r.u < s.lo)

theorem normal_iff {l : List Range} : Normal l ↔ NF l := by
  unfold Normal NF
  simp only [Range.valid_iff]
  rfl

theorem hi_lt_lo {r s : Range} (hr : r.lo < r.u) (hs : s.lo < s.u) : r.hi < s.lo ↔ r.u ≤ s.lo := by
  rw [← Range.valid_iff] at hr hs
  exact Ext.lt_iff_succ_le hr.2.2 hs.2.1

theorem NF_cons {r : Range} {l : List Range} :
    NF (r :: l) ↔ r.lo < r.u ∧ (∀ s ∈ l, r.u < s.lo) ∧ NF l := by
  unfold NF; simp only [List.mem_cons, List.pairwise_cons, forall_eq_or_imp]; tauto

theorem NF_nil : NF [] := by unfold NF; simp

theorem Mem_nil {x : Int} : ¬ Mem x [] := by unfold Mem; simp
theorem Mem_cons {x : Int} {r : Range} {l : List Range} :
    Mem x (r :: l) ↔ (r.lo ≤ .fin x ∧ .fin x < r.u) ∨ Mem x l := by
  unfold Mem; simp [Range.mem_iff]

theorem Mem_lower {x : Int} {l : List Range} {c : Ext} (h : ∀ s ∈ l, c < s.lo) (hx : Mem x l) :
    c < .fin x := by
  obtain ⟨r, hr, h1⟩ := hx
  exact lt_of_lt_of_le (h r hr) h1.1

theorem overlaps_iff {x y : Ext} : overlaps x y = true ↔ y ≤ x.succ := by
  unfold overlaps; simp

theorem absorb_spec (l : Ext) (ma : Ext) (i j : List Range) (hl : l < ma.succ) (hi : NF i) (hj : NF j)
    (hil : ∀ r ∈ i, l ≤ r.lo) (hjl : ∀ r ∈ j, l ≤ r.lo) :
    l < (absorb ma i j).1.succ ∧ ma ≤ (absorb ma i j).1 ∧
    NF (absorb ma i j).2.1 ∧ NF (absorb ma i j).2.2 ∧
    (∀ r ∈ (absorb ma i j).2.1, r ∈ i) ∧ (∀ r ∈ (absorb ma i j).2.2, r ∈ j) ∧
    (∀ r ∈ (absorb ma i j).2.1, (absorb ma i j).1.succ < r.lo) ∧
    (∀ r ∈ (absorb ma i j).2.2, (absorb ma i j).1.succ < r.lo) ∧
    (∀ x : Int, ((l ≤ .fin x ∧ .fin x < (absorb ma i j).1.succ) ∨ Mem x (absorb ma i j).2.1 ∨
        Mem x (absorb ma i j).2.2) ↔ ((l ≤ .fin x ∧ .fin x < ma.succ) ∨ Mem x i ∨ Mem x j)) := by
  fun_induction absorb ma i j with
  | case1 ma a i' j h ih =>
    rw [overlaps_iff] at h
    rw [NF_cons] at hi
    have e := Ext.max_succ ma a.hi
    have eu : a.hi.succ = a.u := rfl
    have := ih (by grind) hi.2.2 hj (by grind) (by grind)
    obtain ⟨h1, h2, h3, h4, h5, h6, h7, h8, h9⟩ := this
    refine ⟨h1, by grind, h3, h4, by grind, h6, h7, h8, ?_⟩
    intro x
    rw [h9, Mem_cons]
    grind
  | case2 ma a i' h b j' h2 ih =>
    rw [overlaps_iff] at h h2
    rw [NF_cons] at hj
    have e := Ext.max_succ ma b.hi
    have eu : b.hi.succ = b.u := rfl
    have := ih (by grind) hi hj.2.2 (by grind) (by grind)
    obtain ⟨h1, h2, h3, h4, h5, h6, h7, h8, h9⟩ := this
    refine ⟨h1, by grind, h3, h4, h5, by grind, h7, h8, ?_⟩
    intro x
    rw [h9, Mem_cons (l := j')]
    grind
  | case3 ma a i' h b j' h2 =>
    rw [overlaps_iff] at h h2
    rw [NF_cons] at hj hi
    refine ⟨hl, le_refl _, NF_cons.2 hi, NF_cons.2 hj, by simp, by simp, ?_, ?_, by simp⟩
    · grind
    · grind
  | case4 ma a i' h =>
    rw [overlaps_iff] at h
    rw [NF_cons] at hi
    refine ⟨hl, le_refl _, NF_cons.2 hi, hj, by simp, by simp, ?_, by simp, by simp⟩
    grind
  | case5 ma b j' h ih =>
    rw [overlaps_iff] at h
    rw [NF_cons] at hj
    have e := Ext.max_succ ma b.hi
    have eu : b.hi.succ = b.u := rfl
    have := ih (by grind) hi hj.2.2 (by grind) (by grind)
    obtain ⟨h1, h2, h3, h4, h5, h6, h7, h8, h9⟩ := this
    refine ⟨h1, by grind, h3, h4, h5, by grind, h7, h8, ?_⟩
    intro x
    rw [h9, Mem_cons (l := j')]
    grind
  | case6 ma b j' h =>
    rw [overlaps_iff] at h
    rw [NF_cons] at hj
    refine ⟨hl, le_refl _, hi, NF_cons.2 hj, by simp, by simp, by simp, ?_, by simp⟩
    grind
  | case7 ma =>
    exact ⟨hl, le_refl _, hi, hj, by simp, by simp, by simp, by simp, by simp⟩

/-- One step of `Union`: the delivered range is valid, precedes everything that remains with a
gap, and together with the rest covers the union. -/
theorem unionNext_spec {i j i' j' : List Range} {r : Range} (hi : NF i) (hj : NF j)
    (h : unionNext i j = some (r, i', j')) :
    r.lo < r.u ∧ NF i' ∧ NF j' ∧ (∀ s ∈ i', r.u < s.lo) ∧ (∀ s ∈ j', r.u < s.lo) ∧
    (∃ s ∈ i ++ j, r.lo = s.lo) ∧ (∀ s ∈ i', s ∈ i) ∧ (∀ s ∈ j', s ∈ j) ∧
    (∀ x : Int, (r.lo ≤ .fin x ∧ .fin x < r.u) ∨ Mem x i' ∨ Mem x j' ↔ Mem x i ∨ Mem x j) := by
  unfold unionNext at h
  split at h
  · simp at h
  · rename_i b j0
    simp at h; obtain ⟨rfl, rfl, rfl⟩ := h
    rw [NF_cons] at hj
    exact ⟨hj.1, NF_nil, hj.2.2, by simp, hj.2.1, by simp, by simp, by simp +contextual, by simp [Mem_cons, Mem_nil]⟩
  · rename_i a i0
    simp at h; obtain ⟨rfl, rfl, rfl⟩ := h
    rw [NF_cons] at hi
    exact ⟨hi.1, hi.2.2, NF_nil, hi.2.1, by simp, by simp, by simp +contextual, by simp, by simp [Mem_cons, Mem_nil]⟩
  · rename_i a i0 b j0
    have hi' := hi; have hj' := hj
    rw [NF_cons] at hi hj
    split at h
    · rename_i h1
      simp only [Bool.not_eq_true', ← Bool.not_eq_true, overlaps_iff] at h1
      have eu : b.hi.succ = b.u := rfl
      simp at h; obtain ⟨rfl, rfl, rfl⟩ := h
      refine ⟨hj.1, hi', hj.2.2, by grind, hj.2.1, ⟨b, by simp, rfl⟩, by simp, by simp +contextual, ?_⟩
      intro x; rw [Mem_cons (r := b)]; grind
    · rename_i h1
      split at h
      · rename_i h2
        simp only [Bool.not_eq_true', ← Bool.not_eq_true, overlaps_iff] at h2
        have eu : a.hi.succ = a.u := rfl
        simp at h; obtain ⟨rfl, rfl, rfl⟩ := h
        refine ⟨hi.1, hi.2.2, hj', hi.2.1, by grind, by simp, by simp +contextual, by simp, ?_⟩
        intro x; rw [Mem_cons (r := a)]; grind
      · rename_i h2
        simp only [Bool.not_eq_true', Bool.not_eq_false, overlaps_iff] at h1 h2
        have ea : a.hi.succ = a.u := rfl
        have eb : b.hi.succ = b.u := rfl
        have em := Ext.max_succ a.hi b.hi
        have := absorb_spec (min a.lo b.lo) (max a.hi b.hi) i0 j0 (by grind) hi.2.2 hj.2.2
          (by grind) (by grind)
        generalize absorb (max a.hi b.hi) i0 j0 = s at h this
        simp at h; obtain ⟨rfl, rfl, rfl⟩ := h
        obtain ⟨h1, h2, h3, h4, h5, h6, h7, h8, h9⟩ := this
        refine ⟨h1, h3, h4, h7, h8, ?_, fun s hs => List.mem_cons_of_mem _ (h5 s hs),
          fun s hs => List.mem_cons_of_mem _ (h6 s hs), ?_⟩
        · have hm : min a.lo b.lo = a.lo ∨ min a.lo b.lo = b.lo := by grind
          rcases hm with h | h
          · exact ⟨a, by simp, h⟩
          · exact ⟨b, by simp, h⟩
        intro x
        have := h9 x
        simp only [Range.u] at *
        rw [this, Mem_cons, Mem_cons]
        simp only [Range.u]
        grind

theorem unionNext_none {i j : List Range} (h : unionNext i j = none) : i = [] ∧ j = [] := by
  unfold unionNext at h
  split at h
  · simp
  · simp at h
  · simp at h
  · split at h
    · simp at h
    · split at h <;> simp at h

theorem union_spec (i j : List Range) (hi : NF i) (hj : NF j) :
    NF (union i j) ∧ (∀ x, Mem x (union i j) ↔ Mem x i ∨ Mem x j) ∧
    (∀ c, (∀ s ∈ i, c < s.lo) → (∀ s ∈ j, c < s.lo) → ∀ s ∈ union i j, c < s.lo) := by
  fun_induction union i j with
  | case1 i j h =>
    obtain ⟨rfl, rfl⟩ := unionNext_none h
    exact ⟨NF_nil, by simp [Mem_nil], by simp⟩
  | case2 i j r i' j' h ih =>
    obtain ⟨h1, h2, h3, h4, h5, ⟨s, hs, hlo⟩, k1, k2, h6⟩ := unionNext_spec hi hj h
    obtain ⟨g1, g2, g3⟩ := ih h2 h3
    refine ⟨NF_cons.2 ⟨h1, g3 _ h4 h5, g1⟩, ?_, ?_⟩
    · intro x; rw [Mem_cons, g2, h6]
    · intro c hc1 hc2
      have hcr : c < r.lo := by
        rw [hlo]; rcases List.mem_append.1 hs with h | h
        · exact hc1 _ h
        · exact hc2 _ h
      intro t ht
      rcases List.mem_cons.1 ht with rfl | ht
      · exact hcr
      · exact g3 c (fun s hs => hc1 s (k1 s hs)) (fun s hs => hc2 s (k2 s hs)) t ht

/-! ### Inter -/

theorem dropWhile_NF {p : Range → Bool} : ∀ {l : List Range}, NF l → NF (l.dropWhile p)
  | [], h => h
  | a :: l, h => by
    rw [List.dropWhile_cons]; split
    · exact dropWhile_NF (NF_cons.1 h).2.2
    · exact h

theorem dropWhile_mem {p : Range → Bool} : ∀ {l : List Range} {r : Range}, r ∈ l.dropWhile p → r ∈ l
  | a :: l, r, h => by
    rw [List.dropWhile_cons] at h; split at h
    · exact List.mem_cons_of_mem _ (dropWhile_mem h)
    · exact h

/-- Skipping ranges that end before `c` loses no element `≥ c`. -/
theorem dropWhile_Mem {c : Ext} {x : Int} (hx : c ≤ .fin x) : ∀ {l : List Range},
    Mem x (l.dropWhile (fun r => decide (r.hi < c))) ↔ Mem x l
  | [] => by simp
  | a :: l => by
    rw [List.dropWhile_cons]; split
    · rename_i h
      simp at h
      rw [dropWhile_Mem hx, Mem_cons, Range.u, ← Ext.fin_le_iff_lt_succ]
      grind
    · rfl

theorem dropWhile_head {c : Ext} {l l' : List Range} {a : Range}
    (h : l.dropWhile (fun r => decide (r.hi < c)) = a :: l') : c ≤ a.hi := by
  have := List.head?_dropWhile_not (fun r => decide (r.hi < c)) l
  rw [h] at this; simpa using this

theorem dropWhile_nil {c : Ext} {l : List Range}
    (h : l.dropWhile (fun r => decide (r.hi < c)) = []) {x : Int} (hx : c ≤ .fin x) : ¬ Mem x l := by
  rw [← dropWhile_Mem hx, h]; exact Mem_nil

theorem interAlign_none {i j : List Range} (hi : NF i) (hj : NF j) (h : interAlign i j = none) :
    ∀ x, ¬ (Mem x i ∧ Mem x j) := by
  fun_induction interAlign i j with
  | case1 a i0 b j0 h1 =>
    intro x ⟨hx1, hx2⟩
    rw [NF_cons] at hj
    have : b.lo ≤ .fin x := by
      rcases Mem_cons.1 hx2 with h | h
      · exact h.1
      · exact le_of_lt (lt_trans hj.1 (Mem_lower hj.2.1 h))
    exact dropWhile_nil h1 this hx1
  | case2 a i0 b j0 a' i' h1 h2 =>
    intro x ⟨hx1, hx2⟩
    rw [NF_cons] at hj
    have hb : b.lo ≤ .fin x := by
      rcases Mem_cons.1 hx2 with h | h
      · exact h.1
      · exact le_of_lt (lt_trans hj.1 (Mem_lower hj.2.1 h))
    have hx3 := (dropWhile_Mem hb).2 hx1
    have hnf := dropWhile_NF (p := fun r => decide (r.hi < b.lo)) hi
    rw [h1] at hx3 hnf
    rw [NF_cons] at hnf
    have ha : a'.lo ≤ .fin x := by
      rcases Mem_cons.1 hx3 with h | h
      · exact h.1
      · exact le_of_lt (lt_trans hnf.1 (Mem_lower hnf.2.1 h))
    exact dropWhile_nil h2 ha hx2
  | case3 a i0 b j0 a' i' h1 b' j' h2 hlt ih =>
    intro x ⟨hx1, hx2⟩
    have hnfi := dropWhile_NF (p := fun r => decide (r.hi < b.lo)) hi
    have hnfj := dropWhile_NF (p := fun r => decide (r.hi < a'.lo)) hj
    rw [NF_cons] at hj
    have hb : b.lo ≤ .fin x := by
      rcases Mem_cons.1 hx2 with h | h
      · exact h.1
      · exact le_of_lt (lt_trans hj.1 (Mem_lower hj.2.1 h))
    have hx3 := (dropWhile_Mem hb).2 hx1
    rw [h1] at hx3 hnfi
    have hnfi' := hnfi
    rw [NF_cons] at hnfi'
    have ha : a'.lo ≤ .fin x := by
      rcases Mem_cons.1 hx3 with h | h
      · exact h.1
      · exact le_of_lt (lt_trans hnfi'.1 (Mem_lower hnfi'.2.1 h))
    have hx4 := (dropWhile_Mem ha).2 hx2
    rw [h2] at hx4 hnfj
    exact ih hnfi hnfj h x ⟨hx3, hx4⟩
  | case4 a i0 b j0 a' i' h1 b' j' h2 hlt => simp at h
  | case5 i j hne =>
    intro x ⟨hx1, hx2⟩
    cases i with
    | nil => exact Mem_nil hx1
    | cons a i => cases j with
      | nil => exact Mem_nil hx2
      | cons b j => exact hne _ _ _ _ rfl rfl

theorem interAlign_some {i j i' j' : List Range} {a b : Range} (hi : NF i) (hj : NF j)
    (h : interAlign i j = some (a, i', b, j')) :
    NF (a :: i') ∧ NF (b :: j') ∧ a.lo ≤ b.hi ∧ b.lo ≤ a.hi ∧
    (∀ r ∈ a :: i', r ∈ i) ∧ (∀ r ∈ b :: j', r ∈ j) ∧
    (∀ x, Mem x i ∧ Mem x j ↔ Mem x (a :: i') ∧ Mem x (b :: j')) := by
  fun_induction interAlign i j with
  | case1 => simp at h
  | case2 => simp at h
  | case3 a0 i0 b0 j0 a1 i1 h1 b1 j1 h2 hlt ih =>
    have hnfi := dropWhile_NF (p := fun r => decide (r.hi < b0.lo)) hi
    have hnfj := dropWhile_NF (p := fun r => decide (r.hi < a1.lo)) hj
    have hmi : ∀ r ∈ a1 :: i1, r ∈ a0 :: i0 := fun r hr => dropWhile_mem (by rw [h1]; exact hr)
    have hmj : ∀ r ∈ b1 :: j1, r ∈ b0 :: j0 := fun r hr => dropWhile_mem (by rw [h2]; exact hr)
    have key : ∀ x, Mem x (a0 :: i0) ∧ Mem x (b0 :: j0) ↔ Mem x (a1 :: i1) ∧ Mem x (b1 :: j1) := by
      intro x
      constructor
      · intro ⟨hx1, hx2⟩
        rw [NF_cons] at hj
        have hb : b0.lo ≤ .fin x := by
          rcases Mem_cons.1 hx2 with h | h
          · exact h.1
          · exact le_of_lt (lt_trans hj.1 (Mem_lower hj.2.1 h))
        have hx3 := (dropWhile_Mem hb).2 hx1
        rw [h1] at hx3 hnfi
        rw [NF_cons] at hnfi
        have ha : a1.lo ≤ .fin x := by
          rcases Mem_cons.1 hx3 with h | h
          · exact h.1
          · exact le_of_lt (lt_trans hnfi.1 (Mem_lower hnfi.2.1 h))
        have hx4 := (dropWhile_Mem ha).2 hx2
        rw [h2] at hx4
        exact ⟨hx3, hx4⟩
      · rintro ⟨⟨r, hr, hx1⟩, ⟨s, hs, hx2⟩⟩
        exact ⟨⟨r, hmi r hr, hx1⟩, ⟨s, hmj s hs, hx2⟩⟩
    rw [h1] at hnfi; rw [h2] at hnfj
    obtain ⟨g1, g2, g3, g4, g5, g6, g7⟩ := ih hnfi hnfj h
    exact ⟨g1, g2, g3, g4, fun r hr => hmi r (g5 r hr), fun r hr => hmj r (g6 r hr),
      fun x => (key x).trans (g7 x)⟩
  | case4 a0 i0 b0 j0 a1 i1 h1 b1 j1 h2 hlt =>
    have hnfi := dropWhile_NF (p := fun r => decide (r.hi < b0.lo)) hi
    have hnfj := dropWhile_NF (p := fun r => decide (r.hi < a1.lo)) hj
    have hmi : ∀ r ∈ a1 :: i1, r ∈ a0 :: i0 := fun r hr => dropWhile_mem (by rw [h1]; exact hr)
    have hmj : ∀ r ∈ b1 :: j1, r ∈ b0 :: j0 := fun r hr => dropWhile_mem (by rw [h2]; exact hr)
    have hd := dropWhile_head h2
    have key : ∀ x, Mem x (a0 :: i0) ∧ Mem x (b0 :: j0) ↔ Mem x (a1 :: i1) ∧ Mem x (b1 :: j1) := by
      intro x
      constructor
      · intro ⟨hx1, hx2⟩
        rw [NF_cons] at hj
        have hb : b0.lo ≤ .fin x := by
          rcases Mem_cons.1 hx2 with h | h
          · exact h.1
          · exact le_of_lt (lt_trans hj.1 (Mem_lower hj.2.1 h))
        have hx3 := (dropWhile_Mem hb).2 hx1
        rw [h1] at hx3 hnfi
        rw [NF_cons] at hnfi
        have ha : a1.lo ≤ .fin x := by
          rcases Mem_cons.1 hx3 with h | h
          · exact h.1
          · exact le_of_lt (lt_trans hnfi.1 (Mem_lower hnfi.2.1 h))
        have hx4 := (dropWhile_Mem ha).2 hx2
        rw [h2] at hx4
        exact ⟨hx3, hx4⟩
      · rintro ⟨⟨r, hr, hx1⟩, ⟨s, hs, hx2⟩⟩
        exact ⟨⟨r, hmi r hr, hx1⟩, ⟨s, hmj s hs, hx2⟩⟩
    rw [h1] at hnfi; rw [h2] at hnfj
    simp at h
    obtain ⟨rfl, rfl, rfl, rfl⟩ := h
    exact ⟨hnfi, hnfj, hd, not_lt.1 hlt, hmi, hmj, key⟩
  | case5 => simp at h

theorem interNext_spec {i j i' j' : List Range} {r : Range} (hi : NF i) (hj : NF j)
    (h : interNext i j = some (r, i', j')) :
    r.lo < r.u ∧ NF i' ∧ NF j' ∧
    (∃ s ∈ i, s.lo ≤ r.lo) ∧ (∃ s ∈ j, s.lo ≤ r.lo) ∧
    (∀ s ∈ i', s ∈ i) ∧ (∀ s ∈ j', s ∈ j) ∧
    ((∀ s ∈ i', r.u < s.lo) ∨ (∀ s ∈ j', r.u < s.lo)) ∧
    (∀ x : Int, (r.lo ≤ .fin x ∧ .fin x < r.u) ∨ (Mem x i' ∧ Mem x j') ↔ Mem x i ∧ Mem x j) := by
  unfold interNext at h
  split at h
  · simp at h
  · rename_i a i1 b j1 heq
    obtain ⟨g1, g2, g3, g4, g5, g6, g7⟩ := interAlign_some hi hj heq
    have g1' := g1; have g2' := g2
    rw [NF_cons] at g1 g2
    simp only [Option.some.injEq, Prod.mk.injEq] at h
    obtain ⟨rfl, h⟩ := h
    have em : (min a.hi b.hi).succ = min a.u b.u := Ext.min_succ _ _
    have hv1 : a.lo < b.u := by
      have := Range.valid_iff.2 g1.1; have h2 := Range.valid_iff.2 g2.1
      unfold Range.u
      have := (Range.valid_iff (r := ⟨a.lo, b.hi⟩)).1 ⟨g3, this.2.1, h2.2.2⟩
      exact this
    have hv2 : b.lo < a.u := by
      have := Range.valid_iff.2 g1.1; have h2 := Range.valid_iff.2 g2.1
      have := (Range.valid_iff (r := ⟨b.lo, a.hi⟩)).1 ⟨g4, h2.2.1, this.2.2⟩
      exact this
    have hlt : a.hi < b.hi ↔ a.u < b.u := Ext.succ_lt_succ.symm
    split at h
    · rename_i hc
      rw [hlt] at hc
      simp only [Prod.mk.injEq] at h; obtain ⟨rfl, rfl⟩ := h
      refine ⟨?_, g1.2.2, g2', ⟨a, g5 a (by simp), by simp⟩, ⟨b, g6 b (by simp), by simp⟩, by grind, by grind, ?_, ?_⟩
      · simp only [Range.u] at *; grind
      · left; intro s hs; have := g1.2.1 s hs; simp only [Range.u] at *; grind
      · intro x
        rw [g7, Mem_cons, Mem_cons]
        have hl1 := fun h => Mem_lower (x := x) g1.2.1 h
        have hl2 := fun h => Mem_lower (x := x) g2.2.1 h
        simp only [Range.u] at *
        grind
    · rename_i hc
      rw [hlt] at hc
      simp only [Prod.mk.injEq] at h; obtain ⟨rfl, rfl⟩ := h
      refine ⟨?_, g1', g2.2.2, ⟨a, g5 a (by simp), by simp⟩, ⟨b, g6 b (by simp), by simp⟩, by grind, by grind, ?_, ?_⟩
      · simp only [Range.u] at *; grind
      · right; intro s hs; have := g2.2.1 s hs; simp only [Range.u] at *; grind
      · intro x
        rw [g7, Mem_cons, Mem_cons]
        have hl1 := fun h => Mem_lower (x := x) g1.2.1 h
        have hl2 := fun h => Mem_lower (x := x) g2.2.1 h
        simp only [Range.u] at *
        grind

theorem interNext_none {i j : List Range} (hi : NF i) (hj : NF j) (h : interNext i j = none) :
    ∀ x, ¬ (Mem x i ∧ Mem x j) := by
  unfold interNext at h
  split at h
  · exact interAlign_none hi hj (by assumption)
  · simp at h

theorem inter_spec (i j : List Range) (hi : NF i) (hj : NF j) :
    NF (inter i j) ∧ (∀ x, Mem x (inter i j) ↔ Mem x i ∧ Mem x j) ∧
    (∀ c, (∀ s ∈ i, c < s.lo) ∨ (∀ s ∈ j, c < s.lo) → ∀ s ∈ inter i j, c < s.lo) := by
  fun_induction inter i j with
  | case1 i j h =>
    exact ⟨NF_nil, fun x => by simpa [Mem_nil] using interNext_none hi hj h x, by simp⟩
  | case2 i j r i' j' h ih =>
    obtain ⟨h1, h2, h3, ⟨s1, hs1, hl1⟩, ⟨s2, hs2, hl2⟩, k1, k2, h5, h6⟩ := interNext_spec hi hj h
    obtain ⟨g1, g2, g3⟩ := ih h2 h3
    refine ⟨NF_cons.2 ⟨h1, g3 _ h5, g1⟩, ?_, ?_⟩
    · intro x; rw [Mem_cons, g2, h6]
    · intro c hc t ht
      rcases List.mem_cons.1 ht with rfl | ht
      · rcases hc with hc | hc
        · exact lt_of_lt_of_le (hc _ hs1) hl1
        · exact lt_of_lt_of_le (hc _ hs2) hl2
      · refine g3 c ?_ t ht
        rcases hc with hc | hc
        · exact Or.inl fun s hs => hc s (k1 s hs)
        · exact Or.inr fun s hs => hc s (k2 s hs)

/-! ### Diff -/

/-- Invariant of `Diff` between calls of `operator++`: `ma` lies inside the head of the first
stream or just before it. -/
structure DInv (ma : Ext) (i j : List Range) : Prop where
  nfi : NF i
  nfj : NF j
  head : ∀ a i', i = a :: i' → a.lo ≤ ma.succ ∧ ma.succ ≤ a.u

/-- … and after at least one delivery, something was consumed right at the end of it. -/
def DStrong (ma : Ext) (i j : List Range) : Prop :=
  (∃ a i', i = a :: i' ∧ ma.succ = a.u) ∨ (∃ b j', j = b :: j' ∧ b.lo = ma.succ)

theorem past_iff {ma : Ext} {a : Range} (hv : a.lo < a.u) (h2 : ma.succ ≤ a.u) :
    (ma = .posInf ∨ a.hi < ma.succ) ↔ ma.succ = a.u := by
  unfold Range.u at *
  revert hv h2
  cases ma <;> cases a.lo <;> cases a.hi <;> simp <;> omega

theorem diffCand_none {ma : Ext} {i j : List Range} (hI : DInv ma i j) (h : diffCand ma i = none) :
    ∀ x : Int, ¬ (ma.succ ≤ .fin x ∧ Mem x i) := by
  intro x ⟨hx1, hx2⟩
  unfold diffCand at h
  split at h
  · exact Mem_nil hx2
  · rename_i a i'
    have hh := hI.head a i' rfl
    have hn := NF_cons.1 hI.nfi
    rw [if_congr (past_iff hn.1 hh.2) rfl rfl] at h
    split at h
    · split at h
      · rw [Mem_cons] at hx2
        rcases hx2 with hx2 | hx2
        · grind
        · exact Mem_nil hx2
      · simp at h
    · simp at h

/-- The candidate interval of `Diff`. -/
theorem diffCand_some {ma : Ext} {i i' j : List Range} {c : Range} (hI : DInv ma i j)
    (h : diffCand ma i = some (c, i')) :
    c.lo < c.u ∧ ma.succ ≤ c.lo ∧ NF i' ∧ (∃ a i2, i' = a :: i2 ∧ a.lo ≤ c.lo ∧ c.u = a.u ∧
      (ma.succ < c.lo ∨ (c.lo = ma.succ ∧ i' = i ∧ ma.succ ≠ a.u))) ∧
    (∀ s ∈ i', s ∈ i) ∧
    ((∃ a i1, i = a :: i1 ∧ ma.succ = a.u) → i'.length < i.length) ∧ i'.length ≤ i.length ∧
    (∀ x : Int, ma.succ ≤ .fin x ∧ Mem x i ↔ c.lo ≤ .fin x ∧ Mem x i') := by
  unfold diffCand at h
  split at h
  · simp at h
  · rename_i a i1
    have hh := hI.head a i1 rfl
    have hn := NF_cons.1 hI.nfi
    rw [if_congr (past_iff hn.1 hh.2) rfl rfl] at h
    split at h
    · rename_i hp
      split at h
      · simp at h
      · rename_i a2 i2
        simp at h; obtain ⟨rfl, rfl⟩ := h
        have hn2 := NF_cons.1 hn.2.2
        have hl := hn.2.1 a2 (by simp)
        refine ⟨hn2.1, by grind, hn.2.2, ⟨a2, i2, rfl, le_refl _, rfl, Or.inl (by grind)⟩,
          by grind, by simp, by simp, ?_⟩
        intro x
        rw [Mem_cons (r := a)]
        have h3 := fun h => Mem_lower (x := x) (l := a2 :: i2) hn.2.1 h
        have h4 : Mem x (a2 :: i2) → a2.lo ≤ .fin x := by
          intro h; rcases Mem_cons.1 h with h | h
          · exact h.1
          · exact le_of_lt (lt_trans hn2.1 (Mem_lower hn2.2.1 h))
        grind
    · rename_i hp
      simp at h; obtain ⟨rfl, rfl⟩ := h
      have e : (⟨ma.succ, a.hi⟩ : Range).u = a.u := rfl
      refine ⟨by rw [e]; exact lt_of_le_of_ne hh.2 hp, le_refl _, hI.nfi,
        ⟨a, i1, rfl, hh.1, rfl, Or.inr ⟨rfl, rfl, hp⟩⟩, by simp, ?_, le_refl _, fun x => Iff.rfl⟩
      rintro ⟨a', i1', h1, h2⟩
      simp at h1; obtain ⟨rfl, rfl⟩ := h1
      exact absurd h2 hp

/-- What a delivery of `Diff` guarantees. -/
def EmitOK (ma : Ext) (i j : List Range) (r : Range) (i' j' : List Range) : Prop :=
  DInv r.hi i' j' ∧ DStrong r.hi i' j' ∧ r.lo < r.u ∧ ma.succ ≤ r.lo ∧
  (DStrong ma i j → ma.succ < r.lo) ∧
  i'.length + j'.length ≤ i.length + j.length ∧
  (DStrong ma i j → i'.length + j'.length < i.length + j.length) ∧
  (∀ x : Int, (ma.succ ≤ .fin x ∧ Mem x i ∧ ¬ Mem x j) ↔
    ((r.lo ≤ .fin x ∧ .fin x < r.u) ∨ (r.u ≤ .fin x ∧ Mem x i' ∧ ¬ Mem x j')))

/-- The situation in `Diff::operator++` after the candidate `c` was chosen and the second stream
advanced to `jd`. -/
structure CandS (ma : Ext) (i j : List Range) (c a : Range) (i2 jd : List Range) : Prop where
  c1 : c.lo < c.u
  c2 : ma.succ ≤ c.lo
  c3 : NF (a :: i2)
  c4 : a.lo ≤ c.lo
  c5 : c.u = a.u
  c9 : (a :: i2).length ≤ i.length
  nj : NF jd
  hjl : jd.length ≤ j.length
  hst : DStrong ma i j → (ma.succ < c.lo ∧ (a :: i2).length + jd.length < i.length + j.length) ∨
          (∃ b j', jd = b :: j' ∧ b.lo = c.lo)
  hT : ∀ x : Int, (ma.succ ≤ .fin x ∧ Mem x i ∧ ¬ Mem x j) ↔
          (c.lo ≤ .fin x ∧ Mem x (a :: i2) ∧ ¬ Mem x jd)

theorem CandS.emit {ma : Ext} {i j : List Range} {c a : Range} {i2 jd : List Range}
    (S : CandS ma i j c a i2 jd) {r : Range} {j'' : List Range}
    (h1 : c.lo ≤ r.lo) (h2 : r.lo < r.u) (h3 : r.u ≤ c.u) (h4 : NF j'')
    (h5 : r.u = c.u ∨ ∃ b j3, j'' = b :: j3 ∧ b.lo = r.u)
    (h6 : j''.length ≤ jd.length)
    (h7 : (c.lo < r.lo ∧ j''.length < jd.length) ∨ (∀ b j', jd = b :: j' → b.lo ≠ c.lo))
    (h8 : ∀ x : Int, c.lo ≤ .fin x → (Mem x (a :: i2) ∧ ¬ Mem x jd ↔
      (r.lo ≤ .fin x ∧ .fin x < r.u) ∨ (r.u ≤ .fin x ∧ Mem x (a :: i2) ∧ ¬ Mem x j''))) :
    EmitOK ma i j r (a :: i2) j'' := by
  obtain ⟨c1, c2, c3, c4, c5, c9, nj, hjl, hst, hT⟩ := S
  have e : r.hi.succ = r.u := rfl
  refine ⟨⟨c3, h4, ?_⟩, ?_, h2, le_trans c2 h1, ?_, by omega, ?_, ?_⟩
  · intro a' i' h; simp at h; obtain ⟨rfl, rfl⟩ := h; rw [e]; grind
  · rcases h5 with h | ⟨b, j3, h, h'⟩
    · exact Or.inl ⟨a, i2, rfl, by rw [e, h, c5]⟩
    · exact Or.inr ⟨b, j3, h, by rw [e, h']⟩
  · intro hs
    rcases hst hs with h | ⟨b, j', h, h'⟩
    · exact lt_of_lt_of_le h.1 h1
    · rcases h7 with h7 | h7
      · exact lt_of_le_of_lt c2 h7.1
      · exact absurd h' (h7 b j' h)
  · intro hs
    rcases hst hs with h | ⟨b, j', h, h'⟩
    · omega
    · rcases h7 with h7 | h7
      · omega
      · exact absurd h' (h7 b j' h)
  · intro x
    rw [hT]
    have := h8 x
    grind

theorem le_hi_iff {b c : Range} (hb : b.lo < b.u) (hc : c.lo < c.u) : b.lo ≤ c.hi ↔ b.lo < c.u := by
  have h1 := Range.valid_iff.2 hc; have h2 := Range.valid_iff.2 hb
  have := (Range.valid_iff (r := ⟨b.lo, c.hi⟩))
  simp only at this
  constructor
  · intro h; exact this.1 ⟨h, h2.2.1, h1.2.2⟩
  · intro h; exact (this.2 h).1

/-- candidate delivered unchanged -/
theorem CandS.emit_full {ma : Ext} {i j : List Range} {c a : Range} {i2 jd : List Range}
    (S : CandS ma i j c a i2 jd) (h : ∀ s ∈ jd, c.u ≤ s.lo) :
    EmitOK ma i j c (a :: i2) jd := by
  have S' := S
  obtain ⟨c1, c2, c3, c4, c5, c9, nj, hjl, hst, hT⟩ := S'
  refine S.emit (le_refl _) c1 (le_refl _) nj (Or.inl rfl) (le_refl _) (Or.inr ?_) ?_
  · intro b j' e; have := h b (by simp [e]); grind
  · intro x hx
    have hm : Mem x jd → c.u ≤ .fin x := by
      rintro ⟨s, hs, h1⟩; exact le_trans (h s hs) h1.1
    rw [Mem_cons]
    grind

/-- cut on the right: the next range to subtract starts inside the candidate -/
theorem CandS.emit_right {ma : Ext} {i j : List Range} {c a b : Range} {i2 j' : List Range}
    (S : CandS ma i j c a i2 (b :: j')) (h1 : c.lo < b.lo) (h2 : b.lo < c.u) :
    EmitOK ma i j ⟨c.lo, b.lo.pred⟩ (a :: i2) (b :: j') := by
  have S' := S
  obtain ⟨c1, c2, c3, c4, c5, c9, nj, hjl, hst, hT⟩ := S'
  have e : (⟨c.lo, b.lo.pred⟩ : Range).u = b.lo := Ext.succ_pred _
  have hn := NF_cons.1 nj
  refine S.emit (le_refl _) (by rw [e]; exact h1) (by rw [e]; exact le_of_lt h2) nj
    (Or.inr ⟨b, j', rfl, e.symm⟩) (le_refl _) (Or.inr ?_) ?_
  · intro b' j'' e; simp at e; obtain ⟨rfl, rfl⟩ := e; exact ne_of_gt h1
  · intro x hx
    rw [e]; dsimp only
    have hm : Mem x (b :: j') → b.lo ≤ .fin x := by
      intro h; rcases Mem_cons.1 h with h | h
      · exact h.1
      · exact le_of_lt (lt_trans hn.1 (Mem_lower hn.2.1 h))
    rw [Mem_cons (r := a)]
    grind

/-- cut on the left, nothing of the second stream inside the rest of the candidate -/
theorem CandS.emit_left {ma : Ext} {i j : List Range} {c a b : Range} {i2 j' : List Range}
    (S : CandS ma i j c a i2 (b :: j')) (h0 : c.lo < b.u) (h1 : b.lo ≤ c.lo) (h2 : b.u < c.u)
    (h3 : ∀ s ∈ j', c.u ≤ s.lo) :
    EmitOK ma i j ⟨b.hi.succ, c.hi⟩ (a :: i2) j' := by
  have S' := S
  obtain ⟨c1, c2, c3, c4, c5, c9, nj, hjl, hst, hT⟩ := S'
  have e : (⟨b.hi.succ, c.hi⟩ : Range).u = c.u := rfl
  have e2 : b.hi.succ = b.u := rfl
  have hn := NF_cons.1 nj
  refine S.emit (by rw [e2]; exact le_of_lt h0) (by rw [e, e2]; exact h2) (by rw [e]) hn.2.2
    (Or.inl e) (by simp) (Or.inl ⟨by rw [e2]; exact h0, by simp⟩) ?_
  intro x hx
  rw [e, e2]
  have hm : Mem x j' → c.u ≤ .fin x := by
    rintro ⟨s, hs, h1⟩; exact le_trans (h3 s hs) h1.1
  rw [Mem_cons (r := a), Mem_cons (r := b)]
  grind

/-- cut on both sides -/
theorem CandS.emit_both {ma : Ext} {i j : List Range} {c a b b2 : Range} {i2 j' : List Range}
    (S : CandS ma i j c a i2 (b :: b2 :: j')) (h0 : c.lo < b.u) (h1 : b.lo ≤ c.lo) (h2 : b.u < c.u)
    (h3 : b2.lo < c.u) :
    EmitOK ma i j ⟨b.hi.succ, b2.lo.pred⟩ (a :: i2) (b2 :: j') := by
  have S' := S
  obtain ⟨c1, c2, c3, c4, c5, c9, nj, hjl, hst, hT⟩ := S'
  have e : (⟨b.hi.succ, b2.lo.pred⟩ : Range).u = b2.lo := Ext.succ_pred _
  have e2 : b.hi.succ = b.u := rfl
  have hn := NF_cons.1 nj
  have hn2 := NF_cons.1 hn.2.2
  have hb2 := hn.2.1 b2 (by simp)
  refine S.emit (by rw [e2]; exact le_of_lt h0) (by rw [e, e2]; exact hb2) (by rw [e]; exact le_of_lt h3) hn.2.2
    (Or.inr ⟨b2, j', rfl, e.symm⟩) (by simp) (Or.inl ⟨by rw [e2]; exact h0, by simp⟩) ?_
  intro x hx
  rw [e, e2]
  have hm : Mem x (b2 :: j') → b2.lo ≤ .fin x := by
    intro h; rcases Mem_cons.1 h with h | h
    · exact h.1
    · exact le_of_lt (lt_trans hn2.1 (Mem_lower hn2.2.1 h))
  rw [Mem_cons (r := a), Mem_cons (r := b)]
  grind

theorem diffNext_spec : ∀ (n : Nat) (ma : Ext) (i j : List Range), DInv ma i j →
    i.length + 2 ≤ n ∨ (i.length + 1 ≤ n ∧ ∃ a i1, i = a :: i1 ∧ ma.succ = a.u) →
    match diffNext n ma i j with
    | .loop => False
    | .done => ∀ x : Int, ¬ (ma.succ ≤ .fin x ∧ Mem x i ∧ ¬ Mem x j)
    | .emit r i' j' => EmitOK ma i j r i' j' := by
  intro n
  induction n with
  | zero => intro ma i j _ h; omega
  | succ n ih =>
    intro ma i j hI hf
    rw [diffNext]
    cases hc : diffCand ma i with
    | none =>
      intro x ⟨h1, h2, h3⟩
      exact diffCand_none hI hc x ⟨h1, h2⟩
    | some ci =>
      obtain ⟨c, i'⟩ := ci
      obtain ⟨c1, c2, c3, ⟨a, i2, rfl, c4, c5, c6⟩, c7, c8, c9, c10⟩ := diffCand_some hI hc
      dsimp only
      have hnj := dropWhile_NF (p := fun r => decide (r.hi < c.lo)) hI.nfj
      have hjl := dropWhile_length (fun r => decide (r.hi < c.lo)) j
      have hst : DStrong ma i j → (ma.succ < c.lo ∧ (a :: i2).length +
            (j.dropWhile (fun r => decide (r.hi < c.lo))).length < i.length + j.length) ∨
          (∃ b j', j.dropWhile (fun r => decide (r.hi < c.lo)) = b :: j' ∧ b.lo = c.lo) := by
        intro hs
        rcases hs with ⟨a', i1, h1, h2⟩ | ⟨b, j', h1, h2⟩
        · left
          have := c8 ⟨a', i1, h1, h2⟩
          refine ⟨?_, by omega⟩
          rcases c6 with h | ⟨h, h3, h4⟩
          · exact h
          · rw [h1] at h3; simp at h3; obtain ⟨rfl, rfl⟩ := h3; exact absurd h2 h4
        · rcases c6 with h | ⟨h, h3, h4⟩
          · left
            refine ⟨h, ?_⟩
            by_cases hp : ∃ a i1, i = a :: i1 ∧ ma.succ = a.u
            · have := c8 hp; omega
            · exfalso
              have : diffCand ma i = some (c, a :: i2) := hc
              unfold diffCand at this
              cases i with
              | nil => simp at this
              | cons a0 i0 =>
                have hh := hI.head a0 i0 rfl
                have hn := NF_cons.1 hI.nfi
                dsimp only at this
                rw [if_congr (past_iff hn.1 hh.2) rfl rfl, if_neg (fun h => hp ⟨a0, i0, rfl, h⟩)] at this
                simp at this
                obtain ⟨rfl, rfl, rfl⟩ := this
                exact lt_irrefl _ h
          · right
            have hb := (NF_cons.1 (h1 ▸ hI.nfj)).1
            have hb2 := (Range.valid_iff.2 hb).1
            refine ⟨b, j', ?_, by rw [h2, h]⟩
            rw [h1, List.dropWhile_cons, if_neg]
            simp; grind
      have hT : ∀ x : Int, (ma.succ ≤ .fin x ∧ Mem x i ∧ ¬ Mem x j) ↔
          (c.lo ≤ .fin x ∧ Mem x (a :: i2) ∧ ¬ Mem x (j.dropWhile (fun r => decide (r.hi < c.lo)))) := by
        intro x
        have h2 : c.lo ≤ .fin x → _ := fun h => dropWhile_Mem (l := j) h
        constructor
        · rintro ⟨h3, h4, h5⟩
          have h6 := (c10 x).1 ⟨h3, h4⟩
          exact ⟨h6.1, h6.2, fun h => h5 ((h2 h6.1).1 h)⟩
        · rintro ⟨h3, h4, h5⟩
          have h6 := (c10 x).2 ⟨h3, h4⟩
          exact ⟨h6.1, h6.2, fun h => h5 ((h2 h3).2 h)⟩
      have S : CandS ma i j c a i2 (j.dropWhile (fun r => decide (r.hi < c.lo))) :=
        ⟨c1, c2, c3, c4, c5, c9, hnj, hjl, hst, hT⟩
      clear hst hT c10
      cases hd : j.dropWhile (fun r => decide (r.hi < c.lo)) with
      | nil =>
        rw [hd] at S
        exact S.emit_full (by simp)
      | cons b j' =>
        rw [hd] at S hnj
        have hnj' := NF_cons.1 hnj
        have hdh := dropWhile_head hd
        dsimp only
        have hbc : c.lo < b.u := (le_hi_iff c1 hnj'.1).1 hdh
        have hhi : c.hi ≤ b.hi ↔ c.u ≤ b.u := Ext.succ_le_succ.symm
        rw [if_congr (le_hi_iff hnj'.1 c1) rfl rfl]
        by_cases g1 : b.lo < c.u
        · rw [if_pos g1, if_congr (and_congr_right' hhi) rfl rfl]
          by_cases g2 : b.lo ≤ c.lo ∧ c.u ≤ b.u
          · -- completely consumed
            rw [if_pos g2]
            have hcu : c.hi.succ = c.u := rfl
            have hI2 : DInv c.hi (a :: i2) (b :: j') :=
              ⟨c3, hnj, fun a' i1 h => by
                simp at h; obtain ⟨rfl, rfl⟩ := h; rw [hcu]; grind⟩
            have hmeas : (a :: i2).length + 1 ≤ n := by
              rcases hf with h | ⟨h, h2⟩
              · omega
              · have := c8 h2; omega
            have := ih c.hi (a :: i2) (b :: j') hI2 (Or.inr ⟨hmeas, a, i2, rfl, c5⟩)
            have hsub : ∀ x : Int, (ma.succ ≤ .fin x ∧ Mem x i ∧ ¬ Mem x j) ↔
                (c.hi.succ ≤ .fin x ∧ Mem x (a :: i2) ∧ ¬ Mem x (b :: j')) := by
              intro x; rw [S.hT, hcu]
              have h3 : c.lo ≤ .fin x → .fin x < c.u → Mem x (b :: j') := by
                intro h1 h2; rw [Mem_cons]; left; grind
              grind
            have hs2 : DStrong c.hi (a :: i2) (b :: j') := Or.inl ⟨a, i2, rfl, c5⟩
            have hl := S.hjl
            cases hr : diffNext n c.hi (a :: i2) (b :: j') with
            | loop => rw [hr] at this; exact this
            | done =>
              rw [hr] at this; dsimp only at this ⊢
              intro x hx; exact this x ((hsub x).1 hx)
            | emit r i3 j3 =>
              rw [hr] at this; dsimp only at this ⊢
              obtain ⟨d1, d2, d3, d4, d5, d6, d7, d8⟩ := this
              have e7 := d7 hs2
              have e5 := d5 hs2
              have e6 : ma.succ < r.lo := lt_of_le_of_lt c2 (lt_trans c1 e5)
              refine ⟨d1, d2, d3, le_of_lt e6, fun _ => e6, by omega, fun _ => by omega, ?_⟩
              intro x; rw [hsub, d8]
          · rw [if_neg g2]
            by_cases g3 : b.lo ≤ c.lo
            · rw [if_pos g3]
              have hbu : b.u < c.u := by
                by_contra h; exact g2 ⟨g3, not_lt.1 h⟩
              cases j' with
              | nil => exact S.emit_left hbc g3 hbu (by simp)
              | cons b2 j2 =>
                have hn2 := NF_cons.1 hnj'.2.2
                dsimp only
                rw [if_congr (le_hi_iff hn2.1 c1) rfl rfl]
                by_cases g4 : b2.lo < c.u
                · rw [if_pos g4]
                  exact S.emit_both hbc g3 hbu g4
                · rw [if_neg g4]
                  refine S.emit_left hbc g3 hbu ?_
                  intro s hs
                  rcases List.mem_cons.1 hs with rfl | hs
                  · exact not_lt.1 g4
                  · exact le_of_lt (lt_of_le_of_lt (not_lt.1 g4) (lt_trans hn2.1 (hn2.2.1 s hs)))
            · rw [if_neg g3]
              exact S.emit_right (not_le.1 g3) g1
        · rw [if_neg g1]
          refine S.emit_full ?_
          intro s hs
          rcases List.mem_cons.1 hs with rfl | hs
          · exact not_lt.1 g1
          · exact le_of_lt (lt_of_le_of_lt (not_lt.1 g1) (lt_trans hnj'.1 (hnj'.2.1 s hs)))

theorem diffRun_spec : ∀ (n : Nat) (ma : Ext) (i j : List Range), DInv ma i j →
    i.length + j.length + 2 ≤ n ∨ (i.length + j.length + 1 ≤ n ∧ DStrong ma i j) →
    ∃ l, diffRun n ma i j = some l ∧ NF l ∧
      (∀ x : Int, Mem x l ↔ (ma.succ ≤ .fin x ∧ Mem x i ∧ ¬ Mem x j)) ∧
      (DStrong ma i j → ∀ s ∈ l, ma.succ < s.lo) := by
  intro n
  induction n with
  | zero => intro ma i j _ h; omega
  | succ n ih =>
    intro ma i j hI hf
    have := diffNext_spec (2 * i.length + 2) ma i j hI (Or.inl (by omega))
    rw [diffRun]
    cases hr : diffNext (2 * i.length + 2) ma i j with
    | loop => rw [hr] at this; exact this.elim
    | done =>
      rw [hr] at this; dsimp only at this ⊢
      exact ⟨[], rfl, NF_nil, fun x => by simpa [Mem_nil] using this x, by simp⟩
    | emit r i' j' =>
      rw [hr] at this; dsimp only at this ⊢
      obtain ⟨d1, d2, d3, d4, d5, d6, d7, d8⟩ := this
      obtain ⟨l, h1, h2, h3, h4⟩ := ih r.hi i' j' d1 (by
        right; refine ⟨?_, d2⟩
        rcases hf with h | ⟨h, h'⟩
        · omega
        · have := d7 h'; omega)
      refine ⟨r :: l, by rw [h1]; rfl, NF_cons.2 ⟨d3, h4 d2, h2⟩, ?_, ?_⟩
      · intro x; rw [Mem_cons, h3, d8]; rfl
      · intro hs s hm
        have := d5 hs
        rcases List.mem_cons.1 hm with rfl | hm
        · exact this
        · exact lt_trans (lt_trans this d3) (h4 d2 s hm)

theorem diff_spec (i j : List Range) (hi : NF i) (hj : NF j) :
    ∃ l, diff i j = some l ∧ NF l ∧ (∀ x : Int, Mem x l ↔ Mem x i ∧ ¬ Mem x j) := by
  cases i with
  | nil => exact ⟨[], rfl, NF_nil, by simp [Mem_nil]⟩
  | cons a i =>
    have hn := NF_cons.1 hi
    have hI : DInv a.lo.pred (a :: i) j := ⟨hi, hj, fun a' i' h => by
      simp at h; obtain ⟨rfl, rfl⟩ := h
      rw [Ext.succ_pred]; exact ⟨le_refl _, le_of_lt hn.1⟩⟩
    obtain ⟨l, h1, h2, h3, -⟩ := diffRun_spec ((a :: i).length + j.length + 2) a.lo.pred (a :: i) j hI (Or.inl (le_refl _))
    refine ⟨l, h1, h2, ?_⟩
    intro x
    rw [h3, Ext.succ_pred]
    constructor
    · exact fun h => h.2
    · intro h
      refine ⟨?_, h⟩
      rcases Mem_cons.1 h.1 with h | h
      · exact h.1
      · exact le_of_lt (lt_trans hn.1 (Mem_lower hn.2.1 h))

end MZ
