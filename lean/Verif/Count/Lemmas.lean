import Verif.Count.Model
import Verif.Count.Spec

/-! # Lemmas on the counting constraints -/

namespace MZ.Count
open MZ.Globals MZ.Count.Spec

theorem sum_occ (xs : Arr Int) (v : Int) : (∑ i ∈ xs.idx, b2i (xs i = v)) = (occ xs v : Int) := by
  rw [sum_b2i]; rfl

theorem countEq_iff (xs : Arr Int) (v n : Int) : countEq xs v n ↔ n = occ xs v := by
  unfold countEq; rw [sum_occ]

theorem occ_le (xs : Arr Int) (v : Int) : (occ xs v : Int) ≤ xs.len := by
  unfold occ Arr.len
  exact_mod_cast Finset.card_filter_le _ _

theorem withCount_iff (xs : Arr Int) (v : Int) (body : Int → Prop) : withCount xs v body ↔ body (occ xs v) := by
  unfold withCount
  simp only [countEq_iff]
  constructor
  · rintro ⟨n, _, _, rfl, h⟩; exact h
  · intro h; exact ⟨_, Int.natCast_nonneg _, occ_le xs v, rfl, h⟩

theorem len_zero {α : Type} {xs : Arr α} : xs.len = 0 ↔ xs.idx = ∅ := by
  unfold Arr.len
  rw [Int.natCast_eq_zero, Finset.card_eq_zero]

theorem occ_empty {xs : Arr Int} (h : xs.len = 0) (v : Int) : occ xs v = 0 := by
  unfold occ; rw [len_zero.1 h]; rfl

theorem occOpt_empty {xs : Arr (Option Int)} (h : xs.len = 0) (v : Int) : occOpt xs v = 0 := by
  unfold occOpt; rw [len_zero.1 h]; rfl

/-- Counting over distinct cover values does not exceed the length. -/
theorem sum_cover_le (xs cover : Arr Int) (hinj : AllDifferent cover) :
    (∑ i ∈ cover.idx, (occ xs (cover i) : Int)) ≤ xs.len := by
  have h1 : (∑ i ∈ cover.idx, occ xs (cover i)) = (cover.idx.biUnion (fun k => xs.idx.filter (fun i => xs i = cover k))).card := by
    rw [Finset.card_biUnion]
    · rfl
    · intro a ha b hb hab
      rw [Function.onFun, Finset.disjoint_left]
      intro i hi hj
      rw [Finset.mem_filter] at hi hj
      exact hab (hinj a ha b hb (hi.2.symm.trans hj.2))
  have h2 : (cover.idx.biUnion (fun k => xs.idx.filter (fun i => xs i = cover k))).card ≤ xs.idx.card := by
    apply Finset.card_le_card
    intro i hi
    rw [Finset.mem_biUnion] at hi
    obtain ⟨k, _, hk⟩ := hi
    exact (Finset.mem_filter.1 hk).1
  unfold Arr.len
  rw [← Nat.cast_sum, h1]
  exact_mod_cast h2

theorem sum_cover_eq (xs cover : Arr Int) (hinj : AllDifferent cover) (hcl : Closed xs cover) :
    (∑ i ∈ cover.idx, (occ xs (cover i) : Int)) = xs.len := by
  have h1 : (∑ i ∈ cover.idx, occ xs (cover i)) = (cover.idx.biUnion (fun k => xs.idx.filter (fun i => xs i = cover k))).card := by
    rw [Finset.card_biUnion]
    · rfl
    · intro a ha b hb hab
      rw [Function.onFun, Finset.disjoint_left]
      intro i hi hj
      rw [Finset.mem_filter] at hi hj
      exact hab (hinj a ha b hb (hi.2.symm.trans hj.2))
  have h2 : cover.idx.biUnion (fun k => xs.idx.filter (fun i => xs i = cover k)) = xs.idx := by
    ext i
    rw [Finset.mem_biUnion]
    constructor
    · rintro ⟨k, _, hk⟩
      exact (Finset.mem_filter.1 hk).1
    · intro hi
      obtain ⟨k, hk, he⟩ := hcl i hi
      exact ⟨k, hk, Finset.mem_filter.2 ⟨hi, he.symm⟩⟩
  unfold Arr.len
  rw [← Nat.cast_sum, h1, h2]

theorem inCover_iff (cover : Arr Int) (v : Int) : inCover cover v ↔ ∃ k ∈ cover.idx, cover k = v := by
  unfold inCover; rw [Finset.mem_image]

theorem closedOpt_iff (os : Arr (Option Int)) (cover : Arr Int) :
    (∀ i ∈ os.idx, os i = none ∨ ∃ v, os i = some v ∧ inCover cover v) ↔ ClosedOpt os cover := by
  unfold ClosedOpt
  apply forall_congr'; intro i
  apply imp_congr_right; intro _
  cases os i with
  | none => simp
  | some w => simp [← inCover_iff]

/-- The two arrays have the same index set. -/
def Same {α β : Type} (a : Arr α) (b : Arr β) : Prop := a.lo = b.lo ∧ a.hi = b.hi

theorem Same.idx {α β : Type} {a : Arr α} {b : Arr β} (h : Same a b) : a.idx = b.idx := by
  unfold Arr.idx; rw [h.1, h.2]

theorem fznGccLowUp_iff (xs cover lower upper : Arr Int) :
    fznGccLowUp xs cover lower upper ↔ GccLowUp (occ xs) cover lower upper := by
  unfold fznGccLowUp GccLowUp
  apply forall_congr'; intro i
  apply imp_congr_right; intro _
  rw [sum_occ]
  have := occ_le xs (cover i)
  split
  · constructor <;> intro h <;> omega
  · split
    · constructor <;> intro h <;> omega
    · rfl

theorem low_up_empty {α : Type} (xs : Arr α) (cover lower upper : Arr Int) (f : Int → Nat) (hf : ∀ v, f v = 0)
    (hl : Same lower cover) (hu : Same upper cover) :
    (((∀ i ∈ lower.idx, lower i ≤ 0) ∧ (∀ i ∈ upper.idx, upper i ≥ 0)) ∨ cover.len = 0) ↔
      GccLowUp f cover lower upper := by
  unfold GccLowUp
  rw [hl.idx, hu.idx]
  simp only [hf]
  constructor
  · rintro (h | h) i hi
    · exact ⟨by have := h.1 i hi; simpa using this, by have := h.2 i hi; simpa using this⟩
    · rw [len_zero.1 h] at hi
      simp at hi
  · intro h
    exact Or.inl ⟨fun i hi => by simpa using (h i hi).1, fun i hi => by simpa using (h i hi).2⟩

/-! ### arrays with defaults -/

theorem compr_idx_len {α β : Type} (xs : Arr α) (f : α → β) : (xs.compr f).len = xs.len := by
  show ((Finset.Icc (1 : Int) (xs.idx.card : Int)).card : Int) = _
  rw [Int.card_Icc]
  unfold Arr.len
  simp

/-- An array and its copy that is indexed from 1 correspond. -/
theorem compr_map {α β : Type} (xs : Arr α) (f : α → β) (hlo : xs.lo ≤ xs.hi + 1) :
    (xs.compr f).idx.map ⟨fun k => xs.lo + k - 1, fun a b h => by dsimp only at h; omega⟩ = xs.idx := by
  ext i
  have hlen := len_eq xs hlo
  simp only [Finset.mem_map, Function.Embedding.coeFn_mk, Arr.mem_idx]
  constructor
  · rintro ⟨k, hk, rfl⟩
    have h1 : (1 : Int) ≤ k ∧ k ≤ xs.len := hk
    show xs.lo ≤ xs.lo + k - 1 ∧ xs.lo + k - 1 ≤ xs.hi
    omega
  · intro h
    refine ⟨i - xs.lo + 1, ?_, by show xs.lo + (i - xs.lo + 1) - 1 = i; omega⟩
    show (1 : Int) ≤ i - xs.lo + 1 ∧ i - xs.lo + 1 ≤ xs.len
    omega

theorem compr_filter_card {α β : Type} (xs : Arr α) (f : α → β) (hlo : xs.lo ≤ xs.hi + 1) (p : α → Prop) (q : β → Prop)
    [DecidablePred p] [DecidablePred q] (h : ∀ i ∈ xs.idx, q (f (xs i)) ↔ p (xs i)) :
    ((xs.compr f).idx.filter (fun k => q ((xs.compr f) k))).card = (xs.idx.filter (fun i => p (xs i))).card := by
  rw [← Finset.card_map ⟨fun k => xs.lo + k - 1, fun a b h => by dsimp only at h; omega⟩]
  congr 1
  ext i
  rw [Finset.mem_map, Finset.mem_filter]
  constructor
  · rintro ⟨k, hk, rfl⟩
    rw [Finset.mem_filter] at hk
    have hm : xs.lo + k - 1 ∈ xs.idx := by
      rw [← compr_map xs f hlo, Finset.mem_map]
      exact ⟨k, hk.1, rfl⟩
    exact ⟨hm, (h _ hm).1 hk.2⟩
  · rintro ⟨hi, hp⟩
    have hi' := hi
    rw [← compr_map xs f hlo, Finset.mem_map] at hi'
    obtain ⟨k, hk, rfl⟩ := hi'
    exact ⟨k, Finset.mem_filter.2 ⟨hk, (h _ hi).2 hp⟩, rfl⟩

theorem occ_default (xs : Arr (Option Int)) (hlo : xs.lo ≤ xs.hi + 1) (d v : Int) (h : v ≠ d) :
    occ (xs.compr (fun x => x.getD d)) v = occOpt xs v := by
  unfold occ occOpt
  apply compr_filter_card xs (fun x => x.getD d) hlo (fun x => x = some v) (fun y => y = v)
  intro i _
  cases hx : xs i with
  | none => simp; omega
  | some w => simp

theorem coverDef_not_mem (cover : Arr Int) {k : Int} (hk : k ∈ cover.idx) : cover k ≠ coverDef cover := by
  unfold coverDef
  split
  · have := minOf_le (f := cover.val) hk
    omega
  · intro h
    rename_i h0
    exact h0 (Finset.mem_image.2 ⟨k, hk, h⟩)

theorem gccf_congr (f g : Int → Nat) (cover count : Arr Int) (h : ∀ k ∈ cover.idx, f (cover k) = g (cover k)) :
    Gcc f cover count ↔ Gcc g cover count := by
  unfold Gcc
  apply forall_congr'; intro i
  apply imp_congr_right; intro hi
  rw [h i hi]

theorem gccLowUpf_congr (f g : Int → Nat) (cover lower upper : Arr Int) (h : ∀ k ∈ cover.idx, f (cover k) = g (cover k)) :
    GccLowUp f cover lower upper ↔ GccLowUp g cover lower upper := by
  unfold GccLowUp
  apply forall_congr'; intro i
  apply imp_congr_right; intro hi
  rw [h i hi]

theorem gcc_iff (xs cover count : Arr Int) (hc : Same count cover) (hinj : AllDifferent cover) :
    gcc xs cover count ↔ Gcc (occ xs) cover count := by
  unfold gcc fznGcc Gcc
  simp only [countEq_iff]
  split
  · rename_i h0
    rw [hc.idx]
    simp only [occ_empty h0, Nat.cast_zero]
  · constructor
    · exact fun h => h.1
    · intro h
      refine ⟨h, ?_⟩
      rw [hc.idx, Finset.sum_congr rfl h]
      exact sum_cover_le xs cover hinj

theorem gccLowUp_right (xs cover lower upper : Arr Int) (hl : Same lower cover) (hu : Same upper cover) :
    Right (gccLowUp xs cover lower upper) (GccLowUp (occ xs) cover lower upper) := by
  unfold gccLowUp Right
  by_cases h0 : xs.len = 0
  · rw [if_pos h0]
    have := low_up_empty xs cover lower upper (occ xs) (occ_empty h0) hl hu
    by_cases h1 : GccLowUp (occ xs) cover lower upper
    · rw [if_pos (this.2 h1)]
      exact Or.inl ⟨True, rfl, by simp [h1]⟩
    · rw [if_neg (fun h => h1 (this.1 h))]
      exact Or.inr ⟨rfl, h1⟩
  · rw [if_neg h0]
    exact Or.inl ⟨_, rfl, fznGccLowUp_iff xs cover lower upper⟩

/-! ### all_different -/

theorem pair_iff (I : Finset Int) (P : Int → Int → Prop) (hsymm : ∀ i j, P i j → P j i) :
    (∀ i ∈ I, ∀ j ∈ I, i < j → P i j) ↔ ∀ i ∈ I, ∀ j ∈ I, i ≠ j → P i j := by
  constructor
  · intro h i hi j hj hne
    rcases lt_or_gt_of_ne hne with hlt | hlt
    · exact h i hi j hj hlt
    · exact hsymm _ _ (h j hj i hi hlt)
  · intro h i hi j hj hlt
    exact h i hi j hj (by omega)

theorem allDiff_iff {α : Type} (xs : Arr α) :
    (∀ i ∈ xs.idx, ∀ j ∈ xs.idx, i < j → xs i ≠ xs j) ↔ AllDifferent xs := by
  rw [pair_iff xs.idx (fun i j => xs i ≠ xs j) (fun _ _ h e => h e.symm)]
  unfold AllDifferent
  constructor
  · intro h i hi j hj he
    by_contra hne
    exact h i hi j hj hne he
  · intro h i hi j hj hne he
    exact hne (h i hi j hj he)

theorem except_iff (xs : Arr Int) (except : Finset Int) :
    (∀ i ∈ xs.idx, ∀ j ∈ xs.idx, i < j → (xs i ∈ except ∧ xs j ∈ except) ∨ xs i ≠ xs j) ↔
      AllDifferentExcept xs except := by
  rw [pair_iff xs.idx (fun i j => (xs i ∈ except ∧ xs j ∈ except) ∨ xs i ≠ xs j)]
  · unfold AllDifferentExcept
    constructor
    · intro h i hi j hj he hne
      by_contra hij
      rcases h i hi j hj hij with h' | h'
      · exact hne h'.1
      · exact h' he
    · intro h i hi j hj hij
      by_cases he : xs i = xs j
      · left
        have : xs i ∈ except := by
          by_contra hc
          exact hij (h i hi j hj he hc)
        exact ⟨this, he ▸ this⟩
      · exact Or.inr he
  · rintro i j (⟨h1, h2⟩ | h)
    · exact Or.inl ⟨h2, h1⟩
    · exact Or.inr (fun e => h e.symm)

/-- At most one occurrence of each value outside `except`. -/
theorem except_occ (xs : Arr Int) (except : Finset Int) :
    AllDifferentExcept xs except ↔ ∀ v, v ∉ except → occ xs v ≤ 1 := by
  unfold AllDifferentExcept occ
  constructor
  · intro h v hv
    rw [Finset.card_le_one]
    intro i hi j hj
    rw [Finset.mem_filter] at hi hj
    exact h i hi.1 j hj.1 (hi.2.trans hj.2.symm) (by rw [hi.2]; exact hv)
  · intro h i hi j hj he hne
    exact Finset.card_le_one.1 (h (xs i) hne) i (Finset.mem_filter.2 ⟨hi, rfl⟩) j (Finset.mem_filter.2 ⟨hj, he.symm⟩)

theorem getD_get (l : List Int) (n : Nat) (h : n < l.length) : l.getD n 0 = l[n] := by
  simp [List.getD, h]

theorem alldifferentExcept_right (xs : Arr Int) (except : Finset Int) (dom : Option (Finset Int))
    (hdom : ∀ D, dom = some D → ∀ i ∈ xs.idx, xs i ∈ D) :
    ∃ P, alldifferentExcept xs except dom = some P ∧ (P ↔ AllDifferentExcept xs except) := by
  unfold alldifferentExcept
  cases dom with
  | none => exact ⟨_, rfl, except_iff xs except⟩
  | some D =>
    dsimp only
    have hD := hdom D rfl
    generalize hA : (D \ except).sort (· ≤ ·) = A
    have hmem : ∀ v, v ∈ A ↔ v ∈ D ∧ v ∉ except := fun v => by
      rw [← hA, Finset.mem_sort, Finset.mem_sdiff]
    have hspec : GccLowUp (occ xs) ⟨1, A.length, fun k => A.getD (k - 1).toNat 0⟩ ⟨1, A.length, fun _ => 0⟩
        ⟨1, A.length, fun _ => 1⟩ ↔ AllDifferentExcept xs except := by
      rw [except_occ]
      unfold GccLowUp
      constructor
      · intro h v hv
        by_cases hvD : v ∈ D
        · have hvA := (hmem v).2 ⟨hvD, hv⟩
          obtain ⟨n, hn, he⟩ := List.getElem_of_mem hvA
          have := (h (n + 1) ((Arr.mem_idx _ _).2 ⟨by dsimp only; omega, by dsimp only; omega⟩)).2
          have e : A.getD ((n : Int) + 1 - 1).toNat 0 = v := by
            have : ((n : Int) + 1 - 1).toNat = n := by omega
            rw [this, getD_get _ _ hn, he]
          dsimp only at this
          rw [e] at this
          exact_mod_cast this
        · have : occ xs v = 0 := by
            unfold occ
            rw [Finset.card_eq_zero, Finset.filter_eq_empty_iff]
            intro i hi he
            exact hvD (he ▸ hD i hi)
          omega
      · intro h k hk
        rw [Arr.mem_idx] at hk
        dsimp only at hk
        have hlt : (k - 1).toNat < A.length := by omega
        have hv : A.getD (k - 1).toNat 0 ∈ A := by
          rw [getD_get _ _ hlt]; exact List.getElem_mem hlt
        refine ⟨Int.natCast_nonneg _, ?_⟩
        have := h _ ((hmem _).1 hv).2
        show (occ xs (A.getD (k - 1).toNat 0) : Int) ≤ 1
        exact_mod_cast this
    rcases gccLowUp_right xs ⟨1, A.length, fun k => A.getD (k - 1).toNat 0⟩ ⟨1, A.length, fun _ => 0⟩
      ⟨1, A.length, fun _ => 1⟩ ⟨rfl, rfl⟩ ⟨rfl, rfl⟩ with ⟨P, hP, hiff⟩ | ⟨hn, hno⟩
    · exact ⟨P, hP, hiff.trans hspec⟩
    · exfalso
      unfold gccLowUp at hn
      by_cases h0 : xs.len = 0
      · rw [if_pos h0, if_pos (Or.inl ⟨fun _ _ => le_refl _, fun _ _ => by simp⟩)] at hn
        cases hn
      · rw [if_neg h0] at hn
        cases hn

/-- Replacing absent elements by a value that no present element has. -/
theorem except_default (xs : Arr (Option Int)) (hlo : xs.lo ≤ xs.hi + 1) (d : Int)
    (hd : ∀ i ∈ xs.idx, xs i ≠ some d) :
    AllDifferentExcept (xs.compr (fun x => x.getD d)) {d} ↔ AllDifferentPresent xs := by
  rw [except_occ]
  unfold AllDifferentPresent
  constructor
  · intro h i hi j hj he hne
    cases hv : xs i with
    | none => exact absurd hv hne
    | some v =>
      have hvd : v ≠ d := fun e => hd i hi (e ▸ hv)
      have := h v (by simpa using hvd)
      rw [occ_default xs hlo d v hvd] at this
      exact Finset.card_le_one.1 this i (Finset.mem_filter.2 ⟨hi, hv⟩) j (Finset.mem_filter.2 ⟨hj, he ▸ hv⟩)
  · intro h v hv
    rw [occ_default xs hlo d v (by simpa using hv)]
    unfold occOpt
    rw [Finset.card_le_one]
    intro i hi j hj
    rw [Finset.mem_filter] at hi hj
    exact h i hi.1 j hj.1 (hi.2.trans hj.2.symm) (by rw [hi.2]; simp)

end MZ.Count
