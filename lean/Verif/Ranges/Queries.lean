import Verif.Ranges.Lemmas
import Mathlib.Data.Set.Card
import Mathlib.Order.Interval.Finset.Basic
import Mathlib.Data.Int.Interval
import Mathlib.Data.List.Sort
import Mathlib.Data.Set.Finite.Lattice
/-!
# Lemmas about the queries on range sequences
-/
namespace MZ

theorem Ext.exists_between {c d : Ext} (h : c < d) : ∃ x : Int, c ≤ .fin x ∧ Ext.fin x < d := by
  cases c with
  | posInf => simp at h
  | fin a => exact ⟨a, le_refl _, h⟩
  | negInf =>
    cases d with
    | negInf => simp at h
    | fin b => exact ⟨b - 1, by simp, by simp⟩
    | posInf => exact ⟨0, by simp, by simp⟩

open Ranges

/-- a cut strictly below all ranges of `l` -/
def Below (c : Ext) (l : List Range) : Prop := ∀ s ∈ l, c < s.lo

theorem Below.exists_gap {c d : Ext} {l : List Range} (hl : NF l) (h : Below c l) (hd : c < d) :
    ∃ x : Int, c ≤ .fin x ∧ .fin x < d ∧ ¬ Mem x l := by
  cases l with
  | nil =>
    obtain ⟨x, h1, h2⟩ := Ext.exists_between hd
    exact ⟨x, h1, h2, Mem_nil⟩
  | cons a l =>
    have hn := NF_cons.1 hl
    have h1 : c < min d a.lo := lt_min hd (h a (by simp))
    obtain ⟨x, h2, h3⟩ := Ext.exists_between h1
    refine ⟨x, h2, lt_of_lt_of_le h3 (min_le_left _ _), ?_⟩
    have h4 := lt_of_lt_of_le h3 (min_le_right _ _)
    rw [Mem_cons]
    rintro (h5 | h5)
    · exact absurd h5.1 (not_le.2 h4)
    · exact absurd (lt_trans (lt_trans h4 hn.1) (Mem_lower hn.2.1 h5)) (lt_irrefl _)

theorem Mem_tail {x : Int} {a : Range} {l : List Range} (h : NF (a :: l)) :
    Mem x l ↔ Mem x (a :: l) ∧ a.u ≤ .fin x := by
  have hn := NF_cons.1 h
  rw [Mem_cons]
  constructor
  · intro h1; exact ⟨Or.inr h1, le_of_lt (Mem_lower hn.2.1 h1)⟩
  · rintro ⟨h1 | h1, h2⟩
    · exact absurd h1.2 (not_lt.2 h2)
    · exact h1

theorem Mem_head_lo {x : Int} {a : Range} {l : List Range} (h : NF (a :: l)) (hx : Mem x (a :: l)) :
    a.lo ≤ .fin x := by
  have hn := NF_cons.1 h
  rcases Mem_cons.1 hx with h1 | h1
  · exact h1.1
  · exact le_of_lt (lt_trans hn.1 (Mem_lower hn.2.1 h1))

theorem exists_Mem_head {a : Range} {l : List Range} (h : NF (a :: l)) {d : Ext} (hd : a.lo < d) :
    ∃ x : Int, Mem x (a :: l) ∧ a.lo ≤ .fin x ∧ .fin x < d := by
  have hn := NF_cons.1 h
  obtain ⟨x, h2, h3⟩ := Ext.exists_between (lt_min hn.1 hd)
  exact ⟨x, Mem_cons.2 (Or.inl ⟨h2, lt_of_lt_of_le h3 (min_le_left _ _)⟩), h2,
    lt_of_lt_of_le h3 (min_le_right _ _)⟩

theorem head_lo_le {a b : Range} {l m : List Range} (ha : NF (a :: l)) (hb : NF (b :: m))
    (h : ∀ x, Mem x (a :: l) → Mem x (b :: m)) : b.lo ≤ a.lo := by
  by_contra hlt
  obtain ⟨x, h1, -, h2⟩ := exists_Mem_head ha (not_le.1 hlt)
  exact absurd (Mem_head_lo hb (h x h1)) (not_le.2 h2)

theorem head_u_le {a b : Range} {l m : List Range} (ha : NF (a :: l)) (hb : NF (b :: m))
    (h : ∀ x, Mem x (a :: l) → Mem x (b :: m)) (hlo : a.lo < b.u) : a.u ≤ b.u := by
  by_contra hlt
  have hn := NF_cons.1 hb
  have ha' := NF_cons.1 ha
  obtain ⟨x, h1, h2, h3⟩ := Below.exists_gap hn.2.2 (c := b.u) (d := a.u) hn.2.1 (not_le.1 hlt)
  have := h x (Mem_cons.2 (Or.inl ⟨le_trans (le_of_lt hlo) h1, h2⟩))
  rcases Mem_cons.1 this with h4 | h4
  · exact absurd h4.2 (not_lt.2 h1)
  · exact h3 h4

theorem NF_unique : ∀ {l m : List Range}, NF l → NF m → (∀ x, Mem x l ↔ Mem x m) → l = m
  | [], [], _, _, _ => rfl
  | [], b :: m, _, hm, h => by
    obtain ⟨x, h1, -⟩ := exists_Mem_head hm (NF_cons.1 hm).1
    exact absurd ((h x).2 h1) Mem_nil
  | a :: l, [], hl, _, h => by
    obtain ⟨x, h1, -⟩ := exists_Mem_head hl (NF_cons.1 hl).1
    exact absurd ((h x).1 h1) Mem_nil
  | a :: l, b :: m, hl, hm, h => by
    have e1 : a.lo = b.lo := le_antisymm (head_lo_le hm hl fun x => (h x).2) (head_lo_le hl hm fun x => (h x).1)
    have va := (NF_cons.1 hl); have vb := NF_cons.1 hm
    have e2 : a.u = b.u := le_antisymm (head_u_le hl hm (fun x => (h x).1) (e1 ▸ vb.1))
      (head_u_le hm hl (fun x => (h x).2) (e1 ▸ va.1))
    have e3 : a.hi = b.hi := Ext.succ_inj.1 e2
    have e4 : a = b := by cases a; cases b; simp_all
    rw [NF_unique va.2.2 vb.2.2 (fun x => by rw [Mem_tail hl, Mem_tail hm, h, e2]), e4]

theorem equal_iff : ∀ {l m : List Range}, Ranges.equal l m = true ↔ l = m
  | [], [] => by simp [Ranges.equal]
  | [], b :: m => by simp [Ranges.equal]
  | a :: l, [] => by simp [Ranges.equal]
  | a :: l, b :: m => by
    have := equal_iff (l := l) (m := m)
    cases a; cases b
    simp only [Ranges.equal]
    split
    · simp_all
    · simp_all

theorem intset_equal_iff : ∀ {l m : List Range}, IntSet.equal l m = true ↔ l = m
  | [], [] => by simp [IntSet.equal]
  | [], b :: m => by simp [IntSet.equal]
  | a :: l, [] => by simp [IntSet.equal]
  | a :: l, b :: m => by
    have := intset_equal_iff (l := l) (m := m)
    unfold IntSet.equal at this ⊢
    cases a; cases b
    simp at this ⊢
    grind

theorem subset_spec (i j : List Range) (hi : NF i) (hj : NF j) :
    Ranges.subset i j = true ↔ ∀ x, Mem x i → Mem x j := by
  fun_induction Ranges.subset i j with
  | case1 a i b j h ih =>
    have hb := NF_cons.1 hj
    rw [ih hi hb.2.2]
    rw [hi_lt_lo hb.1 (NF_cons.1 hi).1] at h
    constructor
    · intro h1 x hx; exact Mem_cons.2 (Or.inr (h1 x hx))
    · intro h1 x hx
      exact (Mem_tail hj).2 ⟨h1 x hx, le_trans h (Mem_head_lo hi hx)⟩
  | case2 a i b j h h2 ih =>
    have ha := NF_cons.1 hi
    rw [ih ha.2.2 hj]
    have h3 : a.u ≤ b.u := Ext.succ_le_succ.2 h2.2
    constructor
    · intro h1 x hx
      rcases Mem_cons.1 hx with hx | hx
      · exact Mem_cons.2 (Or.inl ⟨le_trans h2.1 hx.1, lt_of_lt_of_le hx.2 h3⟩)
      · exact h1 x hx
    · intro h1 x hx; exact h1 x (Mem_cons.2 (Or.inr hx))
  | case3 a i b j h h2 =>
    have ha := NF_cons.1 hi; have hb := NF_cons.1 hj
    rw [hi_lt_lo hb.1 ha.1] at h
    constructor
    · intro h; exact absurd h (by simp)
    · intro h1
      refine absurd ⟨head_lo_le hi hj h1, ?_⟩ h2
      exact Ext.succ_le_succ.1 (head_u_le hi hj h1 (not_le.1 h))
  | case4 j => simp [Mem_nil]
  | case5 a i =>
    obtain ⟨x, h1, -⟩ := exists_Mem_head hi (NF_cons.1 hi).1
    constructor
    · intro h; exact absurd h (by simp)
    · intro h; exact absurd (h x h1) Mem_nil

theorem disjoint_spec (i j : List Range) (hi : NF i) (hj : NF j) :
    Ranges.disjoint i j = true ↔ ∀ x, ¬ (Mem x i ∧ Mem x j) := by
  fun_induction Ranges.disjoint i j with
  | case1 a i b j h ih =>
    have hb := NF_cons.1 hj
    rw [ih hi hb.2.2]
    rw [hi_lt_lo hb.1 (NF_cons.1 hi).1] at h
    constructor
    · intro h1 x hx; exact h1 x ⟨hx.1, (Mem_tail hj).2 ⟨hx.2, le_trans h (Mem_head_lo hi hx.1)⟩⟩
    · intro h1 x hx
      exact h1 x ⟨hx.1, Mem_cons.2 (Or.inr hx.2)⟩
  | case2 a i b j h h2 ih =>
    have ha := NF_cons.1 hi
    rw [ih ha.2.2 hj]
    rw [hi_lt_lo ha.1 (NF_cons.1 hj).1] at h2
    constructor
    · intro h1 x hx; exact h1 x ⟨(Mem_tail hi).2 ⟨hx.1, le_trans h2 (Mem_head_lo hj hx.2)⟩, hx.2⟩
    · intro h1 x hx
      exact h1 x ⟨Mem_cons.2 (Or.inr hx.1), hx.2⟩
  | case3 a i b j h h2 =>
    have ha := NF_cons.1 hi; have hb := NF_cons.1 hj
    rw [hi_lt_lo hb.1 ha.1] at h
    rw [hi_lt_lo ha.1 hb.1] at h2
    constructor
    · intro h; exact absurd h (by simp)
    · intro h1
      have : max a.lo b.lo < min a.u b.u := by grind
      obtain ⟨x, h3, h4⟩ := Ext.exists_between this
      exact absurd ⟨Mem_cons.2 (Or.inl (by grind)), Mem_cons.2 (Or.inl (by grind))⟩ (h1 x)
  | case4 j => simp [Mem_nil]
  | case5 a i => simp [Mem_nil]

theorem compareLoop_spec (s d : Bool) (i j : List Range) (hi : NF i) (hj : NF j) :
    ((Ranges.compareLoop s d i j).1 = true ↔ s = true ∧ ∀ x, Mem x i → Mem x j) ∧
    ((Ranges.compareLoop s d i j).2 = true ↔ d = true ∧ ∀ x, ¬ (Mem x i ∧ Mem x j)) := by
  fun_induction Ranges.compareLoop s d i j with
  | case1 s d a i b j h ih =>
    have hb := NF_cons.1 hj
    obtain ⟨i1, i2⟩ := ih hi hb.2.2
    rw [i1, i2]
    rw [hi_lt_lo hb.1 (NF_cons.1 hi).1] at h
    have key : ∀ x, Mem x (a :: i) → (Mem x j ↔ Mem x (b :: j)) := fun x hx => by
      rw [Mem_tail hj]; exact ⟨fun h => h.1, fun h1 => ⟨h1, le_trans h (Mem_head_lo hi hx)⟩⟩
    constructor
    · exact and_congr_right' (forall_congr' fun x => imp_congr_right fun hx => key x hx)
    · refine and_congr_right' (forall_congr' fun x => not_congr (and_congr_right fun hx => key x hx))
  | case2 s d a i b j h h2 ih =>
    have ha := NF_cons.1 hi; have hb := NF_cons.1 hj
    obtain ⟨i1, i2⟩ := ih ha.2.2 hj
    rw [i1, i2]
    rw [hi_lt_lo ha.1 hb.1] at h2
    have key : ∀ x, Mem x (b :: j) → (Mem x i ↔ Mem x (a :: i)) := fun x hx => by
      rw [Mem_tail hi]; exact ⟨fun h => h.1, fun h1 => ⟨h1, le_trans h2 (Mem_head_lo hj hx)⟩⟩
    constructor
    · obtain ⟨x, h3, -, h4⟩ := exists_Mem_head hi ha.1
      constructor
      · intro h; exact absurd h.1 (by simp)
      · intro h5; exact absurd (Mem_head_lo hj (h5.2 x h3)) (not_le.2 (lt_of_lt_of_le h4 h2))
    · refine and_congr_right' (forall_congr' fun x => not_congr (and_congr_left fun hx => key x hx))
  | case3 s d a i b j h h2 h3 ih =>
    have ha := NF_cons.1 hi; have hb := NF_cons.1 hj
    obtain ⟨i1, i2⟩ := ih ha.2.2 hj
    rw [i1, i2]
    have h4 : a.u ≤ b.u := Ext.succ_le_succ.2 h3.2
    have key : ∀ x, a.lo ≤ .fin x ∧ .fin x < a.u → Mem x (b :: j) := fun x hx =>
      Mem_cons.2 (Or.inl ⟨le_trans h3.1 hx.1, lt_of_lt_of_le hx.2 h4⟩)
    constructor
    · refine and_congr_right' (forall_congr' fun x => ?_)
      rw [Mem_cons (r := a)]
      have := key x
      constructor
      · rintro h (h5 | h5)
        · exact this h5
        · exact h h5
      · intro h h5; exact h (Or.inr h5)
    · obtain ⟨x, h5, h6⟩ := Ext.exists_between ha.1
      constructor
      · intro h; exact absurd h.1 (by simp)
      · intro h; exact absurd ⟨Mem_cons.2 (Or.inl ⟨h5, h6⟩), key x ⟨h5, h6⟩⟩ (h.2 x)
  | case4 s d a i b j h h2 h3 h4 ih =>
    have ha := NF_cons.1 hi; have hb := NF_cons.1 hj
    obtain ⟨i1, i2⟩ := ih ha.2.2 hj
    rw [i1, i2]
    rw [hi_lt_lo hb.1 ha.1] at h
    rw [hi_lt_lo ha.1 hb.1] at h2
    constructor
    · constructor
      · intro h; exact absurd h.1 (by simp)
      · intro h5; exact absurd ⟨head_lo_le hi hj h5.2, h4⟩ h3
    · have : max a.lo b.lo < min a.u b.u := by grind
      obtain ⟨x, h3, h4⟩ := Ext.exists_between this
      constructor
      · intro h; exact absurd h.1 (by simp)
      · intro h1; exact absurd ⟨Mem_cons.2 (Or.inl (by grind)), Mem_cons.2 (Or.inl (by grind))⟩ (h1.2 x)
  | case5 s d a i b j h h2 h3 h4 ih =>
    have ha := NF_cons.1 hi; have hb := NF_cons.1 hj
    obtain ⟨i1, i2⟩ := ih hi hb.2.2
    rw [i1, i2]
    rw [hi_lt_lo hb.1 ha.1] at h
    rw [hi_lt_lo ha.1 hb.1] at h2
    constructor
    · constructor
      · intro h; exact absurd h.1 (by simp)
      · intro h5
        refine absurd (Ext.succ_le_succ.1 (head_u_le hi hj h5.2 (not_le.1 h))) h4
    · have : max a.lo b.lo < min a.u b.u := by grind
      obtain ⟨x, h3, h4⟩ := Ext.exists_between this
      constructor
      · intro h; exact absurd h.1 (by simp)
      · intro h1; exact absurd ⟨Mem_cons.2 (Or.inl (by grind)), Mem_cons.2 (Or.inl (by grind))⟩ (h1.2 x)
  | case6 s d a i =>
    obtain ⟨x, h1, -⟩ := exists_Mem_head hi (NF_cons.1 hi).1
    constructor
    · constructor
      · intro h; exact absurd h (by simp)
      · intro h; exact absurd (h.2 x h1) Mem_nil
    · simp [Mem_nil]
  | case7 s d j => simp [Mem_nil]

/-! ### lexicographic order -/

theorem SetLex.irrefl (A : Int → Prop) : ¬ SetLex A A := by
  rintro ⟨d, -, h | h⟩
  · exact h.2.1 h.1
  · exact h.1 h.2.1

theorem SetLex.asymm {A B : Int → Prop} (h1 : SetLex A B) : ¬ SetLex B A := by
  rintro ⟨e, he, h2⟩
  obtain ⟨d, hd, h1⟩ := h1
  rcases lt_trichotomy d e with h | h | h
  · have := he d h
    rcases h1 with h1 | h1
    · exact h1.2.1 (this.2 h1.1)
    · exact h1.1 (this.1 h1.2.1)
  · subst h
    rcases h1 with ⟨a1, a2, z, a3, a4⟩ | ⟨a1, a2, a3⟩
    · rcases h2 with ⟨b1, b2, b3⟩ | ⟨b1, b2, b3⟩
      · exact a2 b1
      · exact b3 z a3 a4
    · rcases h2 with ⟨b1, b2, z, b3, b4⟩ | ⟨b1, b2, b3⟩
      · exact a3 z b3 b4
      · exact a1 b2
  · have := hd e h
    rcases h2 with h1 | h1
    · exact h1.2.1 (this.2 h1.1)
    · exact h1.1 (this.1 h1.2.1)

theorem SetLex.cons {a : Range} {l m : List Range} (hl : NF (a :: l)) (hm : NF (a :: m))
    (h : SetLex (Mem · l) (Mem · m)) : SetLex (Mem · (a :: l)) (Mem · (a :: m)) := by
  obtain ⟨d, h1, h2⟩ := h
  have n1 := NF_cons.1 hl; have n2 := NF_cons.1 hm
  have hd : a.u < .fin d := by
    rcases h2 with h2 | h2
    · exact Mem_lower n1.2.1 h2.1
    · exact Mem_lower n2.2.1 h2.2.1
  have hz : ∀ z, d < z → ¬ (a.lo ≤ .fin z ∧ .fin z < a.u) := by
    rintro z hz ⟨-, h⟩
    have : Ext.fin d < .fin z := Ext.fin_lt_fin.2 hz
    exact absurd (lt_trans (lt_trans hd this) h) (lt_irrefl _)
  have hd' : ¬ (a.lo ≤ .fin d ∧ .fin d < a.u) := fun h => absurd h.2 (not_lt.2 (le_of_lt hd))
  refine ⟨d, fun y hy => ?_, ?_⟩
  · dsimp only; rw [Mem_cons, Mem_cons]; exact or_congr_right (h1 y hy)
  · dsimp only
    simp only [Mem_cons]
    rcases h2 with ⟨b1, b2, z, b3, b4⟩ | ⟨b1, b2, b3⟩
    · exact Or.inl ⟨Or.inr b1, by tauto, z, b3, Or.inr b4⟩
    · exact Or.inr ⟨by tauto, Or.inr b2, fun z h => by have := hz z h; have := b3 z h; tauto⟩

theorem lo_fin {a : Range} {l : List Range} (h : NF (a :: l)) (hb : a.lo ≠ .negInf) :
    ∃ m : Int, a.lo = .fin m := by
  have := (NF_cons.1 h).1
  cases e : a.lo with
  | negInf => exact absurd e hb
  | fin m => exact ⟨m, rfl⟩
  | posInf => rw [e] at this; simp at this

theorem less_lex : ∀ {i j : List Range}, NF i → NF j → (∀ a ∈ i, a.lo ≠ .negInf) →
    (∀ b ∈ j, b.lo ≠ .negInf) → Ranges.less i j = true → SetLex (Mem · i) (Mem · j)
  | [], [], _, _, _, _, h => by simp [Ranges.less] at h
  | [], b :: j, _, hj, _, hb, _ => by
    obtain ⟨m, hm⟩ := lo_fin hj (hb b (by simp))
    have n := NF_cons.1 hj
    refine ⟨m, fun y hy => ⟨fun h => absurd h Mem_nil, fun h => ?_⟩, Or.inr ⟨Mem_nil, ?_, fun _ _ => Mem_nil⟩⟩
    · have := Mem_head_lo hj h; rw [hm] at this; simp at this; omega
    · exact Mem_cons.2 (Or.inl ⟨le_of_eq hm, hm ▸ n.1⟩)
  | _ :: _, [], _, _, _, _, h => by simp [Ranges.less] at h
  | a :: i, b :: j, hi, hj, ha, hb, h => by
    have n := NF_cons.1 hi; have n' := NF_cons.1 hj
    obtain ⟨ma, hma⟩ := lo_fin hi (ha a (by simp))
    obtain ⟨mb, hmb⟩ := lo_fin hj (hb b (by simp))
    have inA : Mem ma (a :: i) := Mem_cons.2 (Or.inl ⟨le_of_eq hma, hma ▸ n.1⟩)
    have inB : Mem mb (b :: j) := Mem_cons.2 (Or.inl ⟨le_of_eq hmb, hmb ▸ n'.1⟩)
    rw [Ranges.less] at h
    by_cases c1 : a.lo < b.lo
    · rw [hma, hmb] at c1
      have c1' := Ext.fin_lt_fin.1 c1
      have lowA : ∀ y, Mem y (a :: i) → ma ≤ y := fun y h => by
        have := Mem_head_lo hi h; rw [hma] at this; simpa using this
      have lowB : ∀ y, Mem y (b :: j) → mb ≤ y := fun y h => by
        have := Mem_head_lo hj h; rw [hmb] at this; simpa using this
      refine ⟨ma, fun y hy => ⟨fun h => ?_, fun h => ?_⟩, Or.inl ⟨inA, fun h => ?_, mb, c1', inB⟩⟩
      · have := lowA y h; omega
      · have := lowB y h; omega
      · have := lowB _ h; omega
    rw [if_neg c1] at h
    by_cases c2 : b.lo < a.lo
    · rw [if_pos c2] at h; simp at h
    rw [if_neg c2] at h
    have elo : a.lo = b.lo := le_antisymm (not_lt.1 c2) (not_lt.1 c1)
    by_cases c3 : a.hi < b.hi
    · rw [if_pos c3] at h
      have : i = [] := by cases i <;> simp_all
      subst this
      have c3' : a.u < b.u := Ext.succ_lt_succ.2 c3
      have : ∃ d, a.u = .fin d := by
        cases e : a.u with
        | negInf => have := n.1; rw [e] at this; simp at this
        | fin d => exact ⟨d, rfl⟩
        | posInf => rw [e] at c3'; simp at c3'
      obtain ⟨d, hd⟩ := this
      refine ⟨d, fun y hy => ?_, Or.inr ⟨?_, ?_, ?_⟩⟩
      · have hy' : Ext.fin y < a.u := by rw [hd]; simpa using hy
        dsimp only
        rw [Mem_cons, Mem_cons]
        have e1 : ¬ Mem y j := fun h => absurd (lt_trans (lt_trans hy' c3') (Mem_lower n'.2.1 h)) (lt_irrefl _)
        have e2 := Mem_nil (x := y)
        have e3 := lt_trans hy' c3'
        rw [elo]; tauto
      · dsimp only; rw [Mem_cons]; have := Mem_nil (x := d); rw [hd]; simp [this]
      · dsimp only; rw [Mem_cons]; left; rw [← hd]; exact ⟨elo ▸ le_of_lt n.1, c3'⟩
      · intro z hz; dsimp only; rw [Mem_cons]; have := Mem_nil (x := z); rw [hd]; simp [this]; omega
    rw [if_neg c3] at h
    by_cases c4 : b.hi < a.hi
    · rw [if_pos c4] at h
      have c4' : b.u < a.u := Ext.succ_lt_succ.2 c4
      have : ∃ d, b.u = .fin d := by
        cases e : b.u with
        | negInf => have := n'.1; rw [e] at this; simp at this
        | fin d => exact ⟨d, rfl⟩
        | posInf => rw [e] at c4'; simp at c4'
      obtain ⟨d, hd⟩ := this
      cases j with
      | nil => simp at h
      | cons b2 j2 =>
        obtain ⟨z, hz, -⟩ := exists_Mem_head n'.2.2 (NF_cons.1 n'.2.2).1
        have hz' := Mem_lower n'.2.1 hz
        refine ⟨d, fun y hy => ?_, Or.inl ⟨?_, ?_, z, ?_, ?_⟩⟩
        · have hy' : Ext.fin y < b.u := by rw [hd]; simpa using hy
          dsimp only
          rw [Mem_cons, Mem_cons]
          have e1 : ¬ Mem y i := fun h => absurd (lt_trans (lt_trans hy' c4') (Mem_lower n.2.1 h)) (lt_irrefl _)
          have e2 : ¬ Mem y (b2 :: j2) := fun h => absurd (lt_trans hy' (Mem_lower n'.2.1 h)) (lt_irrefl _)
          have e3 := lt_trans hy' c4'
          rw [elo]; tauto
        · dsimp only; rw [Mem_cons]; left; rw [← hd]; exact ⟨elo ▸ le_of_lt n'.1, c4'⟩
        · dsimp only; rw [Mem_cons]; rintro (h5 | h5)
          · rw [hd] at h5; exact lt_irrefl _ h5.2
          · have := Mem_lower n'.2.1 h5; rw [hd] at this; exact lt_irrefl _ this
        · rw [hd] at hz'; simpa using hz'
        · exact Mem_cons.2 (Or.inr hz)
    rw [if_neg c4] at h
    have ehi : a.hi = b.hi := le_antisymm (not_lt.1 c4) (not_lt.1 c3)
    have e : a = b := by cases a; cases b; simp_all
    subst e
    exact SetLex.cons hi hj (less_lex n.2.2 n'.2.2 (fun x hx => ha x (by simp [hx]))
      (fun x hx => hb x (by simp [hx])) h)

theorem less_total : ∀ {i j : List Range}, Ranges.less i j = false → i = j ∨ Ranges.less j i = true
  | [], [], _ => Or.inl rfl
  | [], b :: j, h => by simp [Ranges.less] at h
  | a :: i, [], _ => by simp [Ranges.less]
  | a :: i, b :: j, h => by
    rw [Ranges.less] at h ⊢
    by_cases c1 : a.lo < b.lo
    · simp [c1] at h
    by_cases c2 : b.lo < a.lo
    · simp [c2]
    rw [if_neg c1, if_neg c2] at h
    rw [if_neg c2, if_neg c1]
    by_cases c3 : a.hi < b.hi
    · rw [if_pos c3] at h
      rw [if_neg (not_lt.2 (le_of_lt c3)), if_pos c3]
      right; simpa using h
    by_cases c4 : b.hi < a.hi
    · rw [if_pos c4]
      rw [if_neg c3, if_pos c4] at h
      right; simpa using h
    rw [if_neg c3, if_neg c4] at h
    rw [if_neg c4, if_neg c3]
    rcases less_total h with h5 | h5
    · left
      have elo : a.lo = b.lo := le_antisymm (not_lt.1 c2) (not_lt.1 c1)
      have ehi : a.hi = b.hi := le_antisymm (not_lt.1 c4) (not_lt.1 c3)
      cases a; cases b; simp_all
    · exact Or.inr h5

theorem less_cons {a b : Range} {i j : List Range} : Ranges.less (a :: i) (b :: j) = true ↔
    a.lo < b.lo ∨ (a.lo = b.lo ∧ ((a.hi < b.hi ∧ i = []) ∨ (b.hi < a.hi ∧ j ≠ []) ∨
      (a.hi = b.hi ∧ Ranges.less i j = true))) := by
  rw [Ranges.less]
  rcases lt_trichotomy a.lo b.lo with h | h | h
  · simp [h]
  · rcases lt_trichotomy a.hi b.hi with h2 | h2 | h2
    · simp [h, h2, not_lt.2 (le_of_lt h2), ne_of_lt h2]
    · simp [h, h2]
    · simp [h, h2, not_lt.2 (le_of_lt h2), ne_of_gt h2]
  · simp [h, not_lt.2 (le_of_lt h), ne_of_gt h]

theorem lessEq_iff : ∀ {i j : List Range}, Ranges.lessEq i j = true ↔ (Ranges.less i j = true ∨ i = j)
  | [], [] => by simp [Ranges.lessEq]
  | [], b :: j => by simp [Ranges.lessEq, Ranges.less]
  | a :: i, [] => by simp [Ranges.less, Ranges.lessEq]
  | a :: i, b :: j => by
    have ih := lessEq_iff (i := i) (j := j)
    rw [Ranges.less, Ranges.lessEq]
    by_cases c1 : a.lo < b.lo
    · simp [c1]
    by_cases c2 : b.lo < a.lo
    · simp only [if_neg c1, if_pos c2]
      constructor
      · simp
      · rintro (h | h)
        · simp at h
        · simp at h; rw [h.1] at c2; exact absurd c2 (lt_irrefl _)
    by_cases c3 : a.hi < b.hi
    · simp only [if_neg c1, if_neg c2, if_pos c3]
      constructor
      · exact Or.inl
      · rintro (h | h)
        · exact h
        · simp at h; rw [h.1] at c3; exact absurd c3 (lt_irrefl _)
    by_cases c4 : b.hi < a.hi
    · simp only [if_neg c1, if_neg c2, if_neg c3, if_pos c4]
      constructor
      · exact Or.inl
      · rintro (h | h)
        · exact h
        · simp at h; rw [h.1] at c4; exact absurd c4 (lt_irrefl _)
    have elo : a.lo = b.lo := le_antisymm (not_lt.1 c2) (not_lt.1 c1)
    have ehi : a.hi = b.hi := le_antisymm (not_lt.1 c4) (not_lt.1 c3)
    have e : a = b := by cases a; cases b; simp_all
    simp only [if_neg c1, if_neg c2, if_neg c3, if_neg c4, e]
    simpa using ih

/-! ### membership, bounds, cardinality, constructors -/

theorem contains_spec {v : Int} : ∀ {l : List Range}, NF l → (IntSet.contains (.fin v) l = true ↔ Mem v l)
  | [], _ => by simp [IntSet.contains, Mem_nil]
  | a :: l, h => by
    have n := NF_cons.1 h
    rw [IntSet.contains]
    by_cases c1 : Ext.fin v < a.lo
    · rw [if_pos c1]
      constructor
      · simp
      · intro hx; exact absurd (Mem_head_lo h hx) (not_le.2 c1)
    rw [if_neg c1]
    by_cases c2 : Ext.fin v ≤ a.hi
    · rw [if_pos c2]
      simp only [true_iff]
      exact Mem_cons.2 (Or.inl ⟨not_lt.1 c1, Ext.fin_le_iff_lt_succ.1 c2⟩)
    · rw [if_neg c2, contains_spec n.2.2, Mem_tail h]
      have : a.u ≤ .fin v := by
        rw [Ext.fin_le_iff_lt_succ] at c2; exact not_lt.1 c2
      exact ⟨fun h => h.1, fun h => ⟨h, this⟩⟩

theorem isSubset_spec {r : Range} {l : List Range} (hr : r.lo < r.u) (hl : NF l) :
    IntSet.isSubset r l = true ↔ ∀ x, r.Mem x → Mem x l := by
  have hr1 : NF [r] := NF_cons.2 ⟨hr, by simp, NF_nil⟩
  have e : ∀ x, r.Mem x ↔ Mem x [r] := fun x => by rw [Mem_cons, Range.mem_iff]; simp [Mem_nil]
  induction l with
  | nil =>
    simp [IntSet.isSubset]
    obtain ⟨x, h1, h2⟩ := Ext.exists_between hr
    exact ⟨x, Range.mem_iff.2 ⟨h1, h2⟩, Mem_nil⟩
  | cons q l ih =>
    have n := NF_cons.1 hl
    have ih' := ih n.2.2
    have : IntSet.isSubset r (q :: l) = true ↔ (q.lo ≤ r.lo ∧ r.hi ≤ q.hi) ∨ IntSet.isSubset r l = true := by
      simp [IntSet.isSubset]
    rw [this, or_congr_right ih']
    have hu : r.hi ≤ q.hi ↔ r.u ≤ q.u := Ext.succ_le_succ.symm
    rw [hu]
    constructor
    · rintro (h | h) x hx
      · rw [Range.mem_iff] at hx
        exact Mem_cons.2 (Or.inl ⟨le_trans h.1 hx.1, lt_of_lt_of_le hx.2 h.2⟩)
      · exact Mem_cons.2 (Or.inr (h x hx))
    · intro h
      by_cases c : q.u ≤ r.lo
      · right; intro x hx
        rw [Mem_tail hl]
        exact ⟨h x hx, le_trans c hx.1⟩
      · left
        have h' : ∀ x, Mem x [r] → Mem x (q :: l) := fun x hx => h x ((e x).2 hx)
        exact ⟨head_lo_le hr1 hl h', head_u_le hr1 hl h' (not_le.1 c)⟩

/-- lower cut of `Bounded` -/
def lowCut : Option Ext → Ext
  | none => .negInf
  | some m => m
/-- upper cut (exclusive) of `Bounded` -/
def highCut : Option Ext → Ext
  | none => .posInf
  | some m => m.succ

theorem bounded_cons (mn mx : Option Ext) (a : Range) (l : List Range) (hv : a.lo < a.u)
    (hmn : ∀ m ∈ mn, m ≠ .posInf) (hmx : ∀ m ∈ mx, m ≠ .negInf) :
    Ranges.bounded mn mx (a :: l) =
      if a.u ≤ lowCut mn ∧ mn ≠ none then Ranges.bounded mn mx l
      else if a.lo < highCut mx then
        ⟨max (lowCut mn) a.lo, (min (highCut mx) a.u).pred⟩ :: Ranges.bounded mn mx l
      else [] := by
  have v := Range.valid_iff.2 hv
  have hu : a.u.pred = a.hi := Ext.pred_succ _
  have pm : ∀ x y : Ext, (min x.succ y.succ).pred = min x y := fun x y => by
    rw [← Ext.min_succ, Ext.pred_succ]
  have h1 : Ranges.skipBelow mn a = true ↔
      (a.u ≤ lowCut mn ∧ mn ≠ none) := by
    cases mn with
    | none => simp [Ranges.skipBelow]
    | some m =>
      simp only [lowCut, Ranges.skipBelow, Option.elim_some, decide_eq_true_eq]
      rw [Ext.lt_iff_succ_le v.2.2 (hmn m (by simp))]; simp [Range.u]
  have h2 : Ranges.startsBelow mx a = true ↔ a.lo < highCut mx := by
    cases mx with
    | none =>
      simp only [highCut, Ranges.startsBelow, Option.elim_none, true_iff]
      exact lt_of_le_of_ne (Ext.le_posInf _) v.2.1
    | some m =>
      simp only [highCut, Ranges.startsBelow, Option.elim_some, decide_eq_true_eq]
      have := hmx m (by simp)
      have v2 := v.2.1
      cases h : a.lo <;> cases m <;> simp_all; omega
  have h3 : Ranges.clipLo mn a = max (lowCut mn) a.lo := by
    cases mn <;> simp [lowCut, Ranges.clipLo]
  have h4 : Ranges.clipHi mx a = (min (highCut mx) a.u).pred := by
    cases mx with
    | none => simp [highCut, hu, Ranges.clipHi]
    | some m => simp only [highCut]; exact (pm m a.hi).symm
  rw [Ranges.bounded, if_congr h1 rfl rfl, if_congr h2 rfl rfl, h3, h4]

theorem bounded_spec (mn mx : Option Ext) (l : List Range) (hl : NF l)
    (hmn : ∀ m ∈ mn, m ≠ .posInf) (hmx : ∀ m ∈ mx, m ≠ .negInf)
    (hle : ∀ m ∈ mn, ∀ M ∈ mx, m ≤ M) :
    NF (Ranges.bounded mn mx l) ∧
    (∀ c : Ext, (∀ s ∈ l, c < s.lo) → ∀ s ∈ Ranges.bounded mn mx l, c < s.lo) ∧
    ∀ x : Int, Mem x (Ranges.bounded mn mx l) ↔
      Mem x l ∧ lowCut mn ≤ .fin x ∧ .fin x < highCut mx := by
  have hcut : mn ≠ none → lowCut mn < highCut mx := by
    intro h
    cases mn with
    | none => exact absurd rfl h
    | some m =>
      have h1 := hmn m (by simp)
      cases mx with
      | none => simp only [lowCut, highCut]; exact lt_of_le_of_ne (Ext.le_posInf _) h1
      | some M =>
        have h2 := hmx M (by simp)
        have h3 := hle m (by simp) M (by simp)
        simp only [lowCut, highCut]
        cases m <;> cases M <;> simp_all; omega
  have hmn0 : mn = none → lowCut mn = .negInf := by rintro rfl; rfl
  induction l with
  | nil => exact ⟨NF_nil, by simp [Ranges.bounded], by simp [Ranges.bounded, Mem_nil]⟩
  | cons a l ih =>
    have n := NF_cons.1 hl
    obtain ⟨i1, i2, i3⟩ := ih n.2.2
    have low : ∀ x, Mem x l → a.u < .fin x := fun x h => Mem_lower n.2.1 h
    rw [bounded_cons mn mx a l n.1 hmn hmx]
    by_cases c1 : a.u ≤ lowCut mn ∧ mn ≠ none
    · rw [if_pos c1]
      refine ⟨i1, fun c h => i2 c (fun s hs => h s (by simp [hs])), fun x => ?_⟩
      rw [i3, Mem_cons]
      have := low x
      grind
    rw [if_neg c1]
    by_cases c2 : a.lo < highCut mx
    · rw [if_pos c2]
      have eu : (⟨max (lowCut mn) a.lo, (min (highCut mx) a.u).pred⟩ : Range).u = min (highCut mx) a.u :=
        Ext.succ_pred _
      have b1 := i2 a.u n.2.1
      refine ⟨NF_cons.2 ⟨?_, ?_, i1⟩, ?_, ?_⟩
      · rw [eu]; dsimp only
        have hneg : a.lo ≤ a.u := le_of_lt n.1
        by_cases e : mn = none
        · rw [hmn0 e]
          rw [max_eq_right (Ext.negInf_le _)]
          exact lt_min c2 n.1
        · have := hcut e
          have : ¬ a.u ≤ lowCut mn := fun h => c1 ⟨h, e⟩
          have := n.1
          grind
      · intro s hs; rw [eu]; exact lt_of_le_of_lt (min_le_right _ _) (b1 s hs)
      · intro c h s hs
        rcases List.mem_cons.1 hs with rfl | hs
        · exact lt_of_lt_of_le (h a (by simp)) (le_max_right _ _)
        · exact i2 c (fun s hs => h s (by simp [hs])) s hs
      · intro x
        rw [Mem_cons, Mem_cons, i3, eu]; dsimp only
        grind
    · rw [if_neg c2]
      refine ⟨NF_nil, by simp, fun x => ?_⟩
      have := Mem_nil (x := x)
      rw [Mem_cons]
      have := low x
      grind

theorem min_spec {l : List Range} (hl : NF l) {m : Int} :
    IntSet.min? l = some (.fin m) ↔ (Mem m l ∧ ∀ y, Mem y l → m ≤ y) := by
  cases l with
  | nil => simp [IntSet.min?, Mem_nil]
  | cons a l =>
    have n := NF_cons.1 hl
    simp only [IntSet.min?, List.head?_cons, Option.map_some, Option.some.injEq]
    constructor
    · intro h
      refine ⟨Mem_cons.2 (Or.inl ⟨le_of_eq h, h ▸ n.1⟩), fun y hy => ?_⟩
      have := Mem_head_lo hl hy
      rw [h] at this; simpa using this
    · rintro ⟨h1, h2⟩
      apply le_antisymm (Mem_head_lo hl h1)
      by_contra h3
      obtain ⟨x, h4, -, h5⟩ := exists_Mem_head hl (not_le.1 h3)
      have := h2 x h4
      simp at h5; omega

theorem last_split {l : List Range} (h : l ≠ []) : ∃ m r, l = m ++ [r] := by
  exact ⟨l.dropLast, l.getLast h, (List.dropLast_append_getLast h).symm⟩

theorem max_spec {l : List Range} (hl : NF l) {m : Int} :
    IntSet.max? l = some (.fin m) ↔ (Mem m l ∧ ∀ y, Mem y l → y ≤ m) := by
  by_cases hne : l = []
  · subst hne; simp [IntSet.max?, Mem_nil]
  obtain ⟨k, r, rfl⟩ := last_split hne
  have v : r.lo < r.u := hl.1 r (by simp)
  have pw : ∀ s ∈ k, s.u < r.lo := by
    have := hl.2
    rw [List.pairwise_append] at this
    exact fun s hs => this.2.2 s hs r (by simp)
  have up : ∀ y, Mem y (k ++ [r]) → .fin y < r.u := by
    rintro y ⟨s, hs, h⟩
    rw [Range.mem_iff] at h
    rcases List.mem_append.1 hs with h1 | h1
    · exact lt_trans h.2 (lt_trans (pw s h1) v)
    · simp at h1; subst h1; exact h.2
  have hmem : ∀ y : Int, r.lo ≤ .fin y → .fin y < r.u → Mem y (k ++ [r]) := fun y h1 h2 =>
    ⟨r, by simp, Range.mem_iff.2 ⟨h1, h2⟩⟩
  have vv := Range.valid_iff.2 v
  simp only [IntSet.max?, List.getLast?_append, List.getLast?_singleton, Option.or_some,
    Option.some_or, Option.map_some, Option.some.injEq]
  constructor
  · intro h
    have hu : r.u = .fin (m + 1) := by unfold Range.u; rw [h]; rfl
    refine ⟨hmem m ?_ (by rw [hu]; simp), fun y hy => ?_⟩
    · rw [← h]; exact vv.1
    · have := up y hy; rw [hu] at this; simp at this; omega
  · rintro ⟨h1, h2⟩
    have h3 := up m h1
    cases e : r.hi with
    | negInf => exact absurd e vv.2.2
    | fin b =>
      have hu : r.u = .fin (b + 1) := by unfold Range.u; rw [e]; rfl
      have := h2 b (hmem b (by rw [← e]; exact vv.1) (by rw [hu]; simp))
      rw [hu] at h3; simp at h3
      simp; omega
    | posInf =>
      exfalso
      have hu : r.u = .posInf := by unfold Range.u; rw [e]; rfl
      have hlo : r.lo ≤ .fin (m + 1) ∨ .fin (m + 1) < r.lo := le_or_gt _ _
      rcases hlo with h | h
      · have := h2 (m + 1) (hmem _ h (by rw [hu]; simp)); omega
      · cases e2 : r.lo with
        | negInf => rw [e2] at h; simp at h
        | fin c =>
          rw [e2] at h; simp at h
          have := h2 c (hmem c (by rw [e2]) (by rw [hu]; simp)); omega
        | posInf => exact vv.2.1 e2

/-! ### cardinality -/

theorem range_finite {r : Range} {a b : Int} (h1 : r.lo = .fin a) (h2 : r.hi = .fin b) :
    {x | r.Mem x} = ((Finset.Icc a b : Finset Int) : Set Int) := by
  ext x; simp [Range.Mem, h1, h2]

theorem card_spec : ∀ {l : List Range}, NF l →
    match Ranges.cardinality l with
    | .fin n => {x | Mem x l}.Finite ∧ ({x | Mem x l}.ncard : Int) = n
    | .negInf => False
    | .posInf => {x | Mem x l}.Infinite
  | [], _ => by simp [Ranges.cardinality, Mem_nil]
  | r :: l, h => by
    have n := NF_cons.1 h
    have v := Range.valid_iff.2 n.1
    have ih := card_spec n.2.2
    have split : {x | Mem x (r :: l)} = {x | r.Mem x} ∪ {x | Mem x l} := by
      ext x; simp [Mem_cons, Range.mem_iff]
    have disj : Disjoint {x | r.Mem x} {x | Mem x l} := by
      rw [Set.disjoint_left]
      intro x hx hy
      rw [Set.mem_setOf_eq, Range.mem_iff] at hx
      exact absurd (lt_trans hx.2 (Mem_lower n.2.1 hy)) (lt_irrefl _)
    rw [Ranges.cardinality]
    cases e1 : r.lo with
    | posInf => exact absurd e1 v.2.1
    | negInf =>
      simp only [Ranges.width, e1]
      rw [split]
      refine Set.Infinite.mono Set.subset_union_left ?_
      cases e2 : r.hi with
      | negInf => exact absurd e2 v.2.2
      | fin b =>
        refine Set.infinite_of_not_bddBelow ?_
        rintro ⟨m, hm⟩
        have := hm (a := min (m - 1) b) (by simp [Range.Mem, e1, e2])
        omega
      | posInf =>
        have : {x | r.Mem x} = Set.univ := by ext x; simp [Range.Mem, e1, e2]
        rw [this]; exact Set.infinite_univ
    | fin a =>
      cases e2 : r.hi with
      | negInf => exact absurd e2 v.2.2
      | posInf =>
        simp only [Ranges.width, e1, e2]
        rw [split]
        refine Set.Infinite.mono Set.subset_union_left ?_
        refine Set.infinite_of_not_bddAbove ?_
        rintro ⟨m, hm⟩
        have := hm (a := max (m + 1) a) (by simp [Range.Mem, e1, e2])
        omega
      | fin b =>
        simp only [Ranges.width, e1, e2]
        have hf := range_finite e1 e2
        have hfin : {x | r.Mem x}.Finite := by rw [hf]; exact Finset.finite_toSet _
        have hab : a ≤ b := by have := v.1; rw [e1, e2] at this; simpa using this
        have hc : ({x | r.Mem x}.ncard : Int) = b - a + 1 := by
          rw [hf, Set.ncard_coe_finset, Int.card_Icc]; omega
        cases hc2 : Ranges.cardinality l with
        | negInf => rw [hc2] at ih; exact ih.elim
        | posInf =>
          rw [hc2] at ih; dsimp only at ih ⊢
          rw [split]; exact Set.Infinite.mono Set.subset_union_right ih
        | fin k =>
          rw [hc2] at ih; dsimp only at ih ⊢
          rw [split]
          refine ⟨hfin.union ih.1, ?_⟩
          rw [Set.ncard_union_eq disj hfin ih.1]
          push_cast; rw [hc, ih.2]

/-! ### constructors -/

theorem ofBounds_spec (m n : Ext) (hm : m ≠ .posInf) (hn : n ≠ .negInf) :
    NF (IntSet.ofBounds m n) ∧ ∀ x, Mem x (IntSet.ofBounds m n) ↔ (m ≤ .fin x ∧ .fin x ≤ n) := by
  unfold IntSet.ofBounds
  by_cases h : n < m
  · rw [if_pos h]
    refine ⟨NF_nil, fun x => ?_⟩
    constructor
    · intro h; exact absurd h Mem_nil
    · rintro ⟨h1, h2⟩; exact absurd (le_trans h1 h2) (not_le.2 h)
  · rw [if_neg h]
    have hv : (⟨m, n⟩ : Range).lo < (⟨m, n⟩ : Range).u := Range.valid_iff.1 ⟨not_lt.1 h, hm, hn⟩
    refine ⟨NF_cons.2 ⟨hv, by simp, NF_nil⟩, fun x => ?_⟩
    unfold Mem Range.Mem; simp

theorem const_eq (m n : Ext) : Ranges.const m n = IntSet.ofBounds m n := rfl

theorem mergeSorted_spec : ∀ (s : List Int) (mn mx : Int), mn ≤ mx → s.Pairwise (· ≤ ·) →
    (∀ v ∈ s, mx ≤ v) →
    NF (IntSet.mergeSorted mn mx s) ∧ (∀ r ∈ IntSet.mergeSorted mn mx s, .fin mn ≤ r.lo) ∧
    ∀ x, Mem x (IntSet.mergeSorted mn mx s) ↔ ((mn ≤ x ∧ x ≤ mx) ∨ x ∈ s)
  | [], mn, mx, h, _, _ => by
    rw [IntSet.mergeSorted]
    refine ⟨NF_cons.2 ⟨?_, by simp, NF_nil⟩, by simp, fun x => ?_⟩
    · simp [Range.u]; omega
    · simp [Mem, Range.Mem]
  | v :: s, mn, mx, h, hp, hb => by
    have hp' := List.pairwise_cons.1 hp
    have hv := hb v (by simp)
    rw [IntSet.mergeSorted]
    by_cases c : v > mx + 1
    · rw [if_pos c]
      obtain ⟨i1, i2, i3⟩ := mergeSorted_spec s v v (le_refl _) hp'.2 hp'.1
      refine ⟨NF_cons.2 ⟨by simp [Range.u]; omega, ?_, i1⟩, ?_, ?_⟩
      · intro r hr
        refine lt_of_lt_of_le ?_ (i2 r hr)
        simp [Range.u]; omega
      · intro r hr
        rcases List.mem_cons.1 hr with rfl | hr
        · exact le_refl _
        · refine le_trans ?_ (i2 r hr); simp; omega
      · intro x
        rw [Mem_cons, i3]
        simp only [Range.u, Ext.succ_fin, Ext.fin_le_fin, Ext.fin_lt_fin, List.mem_cons]
        constructor
        · rintro (h | h | h)
          · left; omega
          · right; left; omega
          · right; right; exact h
        · rintro (h | h | h)
          · left; omega
          · right; left; omega
          · right; right; exact h
    · rw [if_neg c]
      obtain ⟨i1, i2, i3⟩ := mergeSorted_spec s mn v (by omega) hp'.2 hp'.1
      refine ⟨i1, i2, fun x => ?_⟩
      rw [i3]
      simp only [List.mem_cons]
      constructor
      · rintro (h | h)
        · by_cases e : x = v
          · right; left; exact e
          · left; omega
        · right; right; exact h
      · rintro (h | h | h)
        · left; omega
        · left; omega
        · right; exact h

theorem ofValues_spec (s : List Int) :
    NF (IntSet.ofValues s) ∧ ∀ x, Mem x (IntSet.ofValues s) ↔ x ∈ s := by
  unfold IntSet.ofValues
  have hs : (s.mergeSort (fun a b => decide (a ≤ b))).Pairwise (· ≤ ·) := by
    have := List.pairwise_mergeSort (le := fun a b : Int => decide (a ≤ b))
      (by intro a b c; simp; omega) (by intro a b; simp; omega) s
    simpa using this
  have hm : ∀ x, x ∈ s.mergeSort (fun a b => decide (a ≤ b)) ↔ x ∈ s := fun x => List.mem_mergeSort
  cases e : s.mergeSort (fun a b => decide (a ≤ b)) with
  | nil =>
    rw [e] at hm
    exact ⟨NF_nil, fun x => by rw [← hm]; simp [Mem_nil]⟩
  | cons v t =>
    rw [e] at hm hs
    have hp := List.pairwise_cons.1 hs
    obtain ⟨i1, -, i3⟩ := mergeSorted_spec t v v (le_refl _) hp.2 hp.1
    refine ⟨i1, fun x => ?_⟩
    dsimp only
    rw [i3, ← hm]
    simp only [List.mem_cons]
    constructor
    · rintro (h | h)
      · left; omega
      · right; exact h
    · rintro (h | h)
      · left; omega
      · right; exact h

end MZ
