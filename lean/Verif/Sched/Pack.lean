import Verif.Sched.Opt

/-! # `diffn` and bin packing -/

namespace MZ.Sched
open MZ.Globals MZ.Sched.Spec

theorem meets_iff (p1 w1 p2 w2 : Int) (h1 : 0 ≤ w1) (h2 : 0 ≤ w2) :
    Meets p1 w1 p2 w2 ↔ ¬(p1 + w1 ≤ p2 ∨ p2 + w2 ≤ p1) := by
  unfold Meets
  constructor
  · rintro (⟨c, h⟩ | h | h) <;> omega
  · intro h
    by_cases e1 : w1 = 0
    · exact Or.inr (Or.inl ⟨e1, by omega⟩)
    · by_cases e2 : w2 = 0
      · exact Or.inr (Or.inr ⟨e2, by omega⟩)
      · exact Or.inl ⟨max p1 p2, by omega⟩

theorem diffnK_iff (B D : Finset Int) (p w : Int → Int → Int) (hw : ∀ b ∈ B, ∀ j ∈ D, 0 ≤ w b j) :
    fznDiffnK B D p w ↔ NoOverlapStrict B D p w := by
  unfold fznDiffnK NoOverlapStrict
  constructor
  · intro h b1 hb1 b2 hb2 hne hall
    rcases lt_or_gt_of_ne hne with hlt | hlt
    · obtain ⟨j, hj, hc⟩ := h b1 hb1 b2 hb2 hlt
      exact (meets_iff _ _ _ _ (hw b1 hb1 j hj) (hw b2 hb2 j hj)).1 (hall j hj) hc
    · obtain ⟨j, hj, hc⟩ := h b2 hb2 b1 hb1 hlt
      exact (meets_iff _ _ _ _ (hw b1 hb1 j hj) (hw b2 hb2 j hj)).1 (hall j hj) hc.symm
  · intro h b1 hb1 b2 hb2 hlt
    by_contra hc
    apply h b1 hb1 b2 hb2 (by omega)
    intro j hj
    rw [meets_iff _ _ _ _ (hw b1 hb1 j hj) (hw b2 hb2 j hj)]
    intro hd
    exact hc ⟨j, hj, hd⟩

theorem diffnNonstrictK_iff (B D : Finset Int) (p w : Int → Int → Int) (hw : ∀ b ∈ B, ∀ j ∈ D, 0 ≤ w b j) :
    fznDiffnNonstrictK B D p w ↔ NoOverlap B D p w := by
  unfold fznDiffnNonstrictK NoOverlap Covers
  constructor
  · intro h c b1 hb1 b2 hb2 h1 h2
    by_contra hne
    rcases lt_or_gt_of_ne hne with hlt | hlt
    · obtain ⟨j, hj, hc⟩ := h b1 hb1 b2 hb2 hlt
      have := h1 j hj
      have := h2 j hj
      omega
    · obtain ⟨j, hj, hc⟩ := h b2 hb2 b1 hb1 hlt
      have := h1 j hj
      have := h2 j hj
      omega
  · intro h b1 hb1 b2 hb2 hlt
    by_contra hc
    push Not at hc
    have := h (fun j => max (p b1 j) (p b2 j)) b1 hb1 b2 hb2
      (fun j hj => by have := hc j hj; have := hw b1 hb1 j hj; have := hw b2 hb2 j hj; omega)
      (fun j hj => by have := hc j hj; have := hw b1 hb1 j hj; have := hw b2 hb2 j hj; omega)
    omega

/-- The two dimensions of `diffn` as a family. -/
def two (x y : Int → Int) : Int → Int → Int := fun b j => if j = 1 then x b else y b

theorem diffn_eq (x y dx dy : Arr Int) : fznDiffn x y dx dy ↔ fznDiffnK x.idx {1, 2} (two x y) (two dx dy) := by
  unfold fznDiffn fznDiffnK two
  simp only [Finset.mem_insert, Finset.mem_singleton, exists_eq_or_imp, exists_eq_left]
  norm_num
  constructor
  · intro h b1 h1 b2 h2 hlt
    have := h b1 h1 b2 h2 hlt
    tauto
  · intro h b1 h1 b2 h2 hlt
    have := h b1 h1 b2 h2 hlt
    tauto

theorem diffnNonstrict_eq (x y dx dy : Arr Int) :
    fznDiffnNonstrict x y dx dy ↔ fznDiffnNonstrictK x.idx {1, 2} (two x y) (two dx dy) := by
  unfold fznDiffnNonstrict fznDiffnNonstrictK two
  simp only [Finset.mem_insert, Finset.mem_singleton, exists_eq_or_imp, exists_eq_left]
  norm_num
  constructor
  · intro h b1 h1 b2 h2 hlt
    have := h b1 h1 b2 h2 hlt
    tauto
  · intro h b1 h1 b2 h2 hlt
    have := h b1 h1 b2 h2 hlt
    tauto

/-! ## bin packing -/

theorem binLoad_eq (I : Finset Int) (bin weight : Int → Int) (b : Int) :
    (∑ i ∈ I, weight i * b2i (bin i = b)) = BinLoad I (fun i => some (bin i)) weight b := by
  rw [sum_filter_mul']
  unfold BinLoad
  congr 1
  ext i
  simp

theorem binLoad_compl (I : Finset Int) (bin weight : Int → Int) (b : Int) :
    (∑ i ∈ I, weight i * b2i (bin i ≠ b)) = (∑ i ∈ I, weight i) - BinLoad I (fun i => some (bin i)) weight b := by
  rw [← binLoad_eq, ← Finset.sum_sub_distrib]
  apply Finset.sum_congr rfl
  intro i _
  unfold b2i
  by_cases h : bin i = b <;> simp [h]

theorem binLoad_zero (I : Finset Int) (bin : Int → Option Int) (weight : Int → Int) (b : Int)
    (h : ∀ i ∈ I, bin i ≠ some b) : BinLoad I bin weight b = 0 := by
  unfold BinLoad
  apply Finset.sum_eq_zero
  intro i hi
  rw [Finset.mem_filter] at hi
  exact absurd hi.2 (h i hi.1)

theorem fznBinPacking_iff (capacity : Int) (bin weight : Arr Int) (lbB ubB : Int) (hidx : weight.idx = bin.idx)
    (hc : 0 ≤ capacity) (hb : ∀ i ∈ bin.idx, lbB ≤ bin i ∧ bin i ≤ ubB) :
    fznBinPacking capacity bin weight lbB ubB ↔
      ∀ b, BinLoad bin.idx (fun i => some (bin i)) weight b ≤ capacity := by
  unfold fznBinPacking
  simp only [binLoad_compl, hidx, Finset.mem_Icc]
  constructor
  · intro h b
    by_cases hin : lbB ≤ b ∧ b ≤ ubB
    · by_cases hcard : bin.idx.card > 0
      · have := h hcard b hin; omega
      · have he : bin.idx = ∅ := Finset.card_eq_zero.1 (by omega)
        rw [binLoad_zero _ _ _ _ (by rw [he]; simp)]
        exact hc
    · rw [binLoad_zero]
      · exact hc
      · intro i hi he
        have := hb i hi
        simp only [Option.some.injEq] at he
        omega
  · intro h _ b _
    have := h b
    omega

theorem fznBinPackingReif_iff (capacity : Int) (bin weight : Arr Int) (lbB ubB : Int) (q : Prop)
    (hc : 0 ≤ capacity) (hb : ∀ i ∈ bin.idx, lbB ≤ bin i ∧ bin i ≤ ubB) :
    fznBinPackingReif capacity bin weight lbB ubB q ↔
      (q ↔ ∀ b, BinLoad bin.idx (fun i => some (bin i)) weight b ≤ capacity) := by
  unfold fznBinPackingReif
  have : (bin.idx.card > 0 → ∀ b ∈ Finset.Icc lbB ubB, ∑ i ∈ bin.idx, weight i * b2i (bin i = b) ≤ capacity) ↔
      ∀ b, BinLoad bin.idx (fun i => some (bin i)) weight b ≤ capacity := by
    simp only [binLoad_eq, Finset.mem_Icc]
    constructor
    · intro h b
      by_cases hin : (lbB ≤ b ∧ b ≤ ubB) ∧ bin.idx.card > 0
      · exact h hin.2 b hin.1
      · rw [binLoad_zero]
        · exact hc
        · intro i hi he
          have := hb i hi
          have hp := Finset.card_pos.2 ⟨i, hi⟩
          simp only [Option.some.injEq] at he
          exact hin ⟨by omega, hp⟩
    · intro h _ b _
      exact h b
  rw [this]

theorem fznBinPackingCapa_iff (capacity bin weight : Arr Int) :
    fznBinPackingCapa capacity bin weight ↔
      (∀ i ∈ bin.idx, bin i ∈ capacity.idx) ∧
      ∀ b ∈ capacity.idx, BinLoad bin.idx (fun i => some (bin i)) weight b ≤ capacity b := by
  unfold fznBinPackingCapa
  simp only [binLoad_eq, Arr.mem_idx, ge_iff_le]

theorem sum_loads (B I : Finset Int) (bin weight : Int → Int) (h : ∀ i ∈ I, bin i ∈ B) :
    (∑ b ∈ B, BinLoad I (fun i => some (bin i)) weight b) = ∑ i ∈ I, weight i := by
  rw [← Finset.sum_fiberwise_of_maps_to h]
  apply Finset.sum_congr rfl
  intro b _
  unfold BinLoad
  congr 1
  ext i
  simp

theorem fznBinPackingLoad_iff (load bin weight : Arr Int) (hidx : weight.idx = bin.idx) :
    fznBinPackingLoad load bin weight ↔
      (∀ i ∈ bin.idx, bin i ∈ load.idx) ∧
      ∀ b ∈ load.idx, load b = BinLoad bin.idx (fun i => some (bin i)) weight b := by
  unfold fznBinPackingLoad
  simp only [binLoad_eq, Arr.mem_idx]
  constructor
  · rintro ⟨_, h1, h2⟩
    exact ⟨h1, h2⟩
  · rintro ⟨h1, h2⟩
    refine ⟨?_, h1, h2⟩
    rw [hidx, ← sum_loads load.idx bin.idx bin weight (fun i hi => (Arr.mem_idx _ _).2 (h1 i ((Arr.mem_idx _ _).1 hi)))]
    exact Finset.sum_congr rfl (fun b hb => h2 b ((Arr.mem_idx _ _).1 hb))

/-! ### optional items -/

theorem compr_one {α β : Type} (a : Arr α) (f : α → β) (h1 : a.lo = 1) (h2 : 0 ≤ a.hi) :
    (a.compr f).lo = 1 ∧ (a.compr f).hi = a.hi ∧ ∀ k, (a.compr f).val k = f (a.val k) := by
  refine ⟨rfl, ?_, fun k => ?_⟩
  · show a.len = a.hi
    rw [len_eq a (by omega)]; omega
  · show f (a.val (a.lo + k - 1)) = _
    congr 2; omega

theorem binLoad_getD (I : Finset Int) (bin : Int → Option Int) (weight : Int → Int) (dummy b : Int)
    (h : b ≠ dummy) :
    BinLoad I (fun i => some ((bin i).getD dummy)) weight b = BinLoad I bin weight b := by
  unfold BinLoad
  congr 1
  ext i
  simp only [Finset.mem_filter, Option.some.injEq]
  constructor
  · rintro ⟨h1, h2⟩
    refine ⟨h1, ?_⟩
    cases hb : bin i with
    | none => rw [hb] at h2; simp at h2; omega
    | some c => rw [hb] at h2; simp at h2; rw [h2]
  · rintro ⟨h1, h2⟩
    exact ⟨h1, by rw [h2]; rfl⟩

theorem binLoad_le (I : Finset Int) (bin : Int → Option Int) (weight : Int → Int) (b : Int)
    (hw : ∀ i ∈ I, 0 ≤ weight i) : BinLoad I bin weight b ≤ ∑ i ∈ I, weight i :=
  sum_mono' _ _ (Finset.filter_subset _ _) _ hw

theorem binLoad_nonneg (I : Finset Int) (bin : Int → Option Int) (weight : Int → Int) (b : Int)
    (hw : ∀ i ∈ I, 0 ≤ weight i) : 0 ≤ BinLoad I bin weight b :=
  sum_nonneg' _ _ (fun i hi => hw i (Finset.mem_filter.1 hi).1)

theorem binLoad_congr (I : Finset Int) (bin bin' : Int → Option Int) (weight : Int → Int) (b : Int)
    (h : ∀ i ∈ I, bin i = bin' i) : BinLoad I bin weight b = BinLoad I bin' weight b := by
  unfold BinLoad
  congr 1
  apply Finset.filter_congr
  intro i hi
  rw [h i hi]

end MZ.Sched
