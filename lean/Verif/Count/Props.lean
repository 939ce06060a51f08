import Verif.Count.Lemmas

/-!
# C74: the counting constraints mean what their documentation says
-/

namespace MZ.Count
open MZ.Globals MZ.Count.Spec

/-- `all_different` (of integers, also with exceptions, and of sets) holds exactly if the elements are pairwise
different, whether or not the elements have bounds. -/
theorem _root_.MZ.C74_all_different (xs : Arr Int) (ss : Arr (Finset Int)) (except : Finset Int) (dom : Option (Finset Int))
    (hdom : ∀ D, dom = some D → ∀ i ∈ xs.idx, xs i ∈ D) :
    (∃ P, allDifferent xs except dom = some P ∧ (P ↔ AllDifferentExcept xs except)) ∧
    (fznAllDifferentInt xs ↔ AllDifferent xs) ∧ (fznAllDifferentSet ss ↔ AllDifferent ss) := by
  refine ⟨?_, allDiff_iff xs, allDiff_iff ss⟩
  unfold allDifferent
  split
  · rename_i he
    refine ⟨_, rfl, ?_⟩
    have := allDiff_iff xs
    unfold fznAllDifferentInt
    rw [this, he]
    unfold AllDifferent AllDifferentExcept
    simp
  · exact alldifferentExcept_right xs except dom hdom

/-- `all_different` of optional elements holds exactly if the present elements are pairwise different. -/
theorem _root_.MZ.C74_all_different_opt (xs : Arr (Option Int)) (had0 : Bool) (lb : Int) (dom : Option (Finset Int))
    (hlo : xs.lo ≤ xs.hi + 1)
    (hlb : ∀ i ∈ xs.idx, ∀ v, xs i = some v → lb ≤ v)
    (h0 : had0 = false → ∀ i ∈ xs.idx, xs i ≠ some 0)
    (hdom : ∀ D, dom = some D → ∀ i ∈ xs.idx, (xs i).getD (if had0 then lb - 1 else 0) ∈ D) :
    ∃ P, allDifferentOpt xs had0 lb dom = some P ∧ (P ↔ AllDifferentPresent xs) := by
  have key : ∀ d, (∀ i ∈ xs.idx, xs i ≠ some d) → (∀ D, dom = some D → ∀ i ∈ xs.idx, (xs i).getD d ∈ D) →
      ∃ P, alldifferentExcept (xs.compr (fun x => x.getD d)) {d} dom = some P ∧ (P ↔ AllDifferentPresent xs) := by
    intro d hd hD
    obtain ⟨P, hP, hiff⟩ := alldifferentExcept_right (xs.compr (fun x => x.getD d)) {d} dom (fun D hDD k hk => by
      have hm : xs.lo + k - 1 ∈ xs.idx := by
        rw [← compr_map xs (fun x => x.getD d) hlo, Finset.mem_map]
        exact ⟨k, hk, rfl⟩
      exact hD D hDD _ hm)
    exact ⟨P, hP, hiff.trans (except_default xs hlo d hd)⟩
  unfold allDifferentOpt
  cases had0 with
  | true =>
    refine key (lb - 1) (fun i hi he => ?_) hdom
    have := hlb i hi _ he
    omega
  | false => exact key 0 (h0 rfl) hdom

/-- `all_equal` holds exactly if all elements are the same. -/
theorem _root_.MZ.C74_all_equal (xs : Arr Int) : allEqual xs ↔ ∀ i ∈ xs.idx, ∀ j ∈ xs.idx, xs i = xs j := by
  unfold allEqual
  split
  · rename_i h
    have hc : xs.idx.card ≤ 1 := by unfold Arr.len at h; omega
    exact ⟨fun _ i hi j hj => by rw [Finset.card_le_one.1 hc i hi j hj], fun _ => trivial⟩
  · rw [pair_iff xs.idx (fun i j => xs i = xs j) (fun _ _ h => h.symm)]
    constructor
    · intro h i hi j hj
      by_cases hij : i = j
      · rw [hij]
      · exact h i hi j hj hij
    · exact fun h i hi j hj _ => h i hi j hj

/-- The constraints `count_eq`, `count_geq`, `count_gt`, `count_leq`, `count_lt`, `count_neq`, `at_least`, `at_most`,
`exactly`, `among` and `distribute` compare the number of occurrences as documented (`count_geq(xs, v, n)` says that `n`
is greater than or equal to the number of occurrences). -/
theorem _root_.MZ.C74_count (xs : Arr Int) (v n : Int) (values : Finset Int) (count cover : Arr Int) :
    (countEq xs v n ↔ n = occ xs v) ∧ (countGeq xs v n ↔ n ≥ occ xs v) ∧ (countGt xs v n ↔ n > occ xs v) ∧
    (countLeq xs v n ↔ n ≤ occ xs v) ∧ (countLt xs v n ↔ n < occ xs v) ∧ (countNeq xs v n ↔ n ≠ occ xs v) ∧
    (atLeast n xs v ↔ n ≤ occ xs v) ∧ (atMost n xs v ↔ occ xs v ≤ n) ∧ (exactly n xs v ↔ occ xs v = n) ∧
    (among n xs values ↔ n = (xs.idx.filter (fun i => xs i ∈ values)).card) ∧
    (distribute count cover xs ↔ ∀ i ∈ count.idx, count i = occ xs (cover i)) := by
  unfold countGeq countGt countLeq countLt countNeq atLeast atMost exactly among distribute
  simp only [withCount_iff, countEq_iff]
  refine ⟨trivial, trivial, trivial, trivial, trivial, ⟨fun h e => h e.symm, fun h e => h e.symm⟩, trivial, trivial,
    ⟨fun h => h.symm, fun h => h.symm⟩, ?_, trivial⟩
  rw [sum_b2i]

/-- `count_eq` of optional elements counts the present occurrences. -/
theorem _root_.MZ.C74_count_opt (xs : Arr (Option Int)) (v n : Int) (domV : Finset Int) (lbV : Int)
    (hlo : xs.lo ≤ xs.hi + 1) (hv : v ∈ domV) (hlb : lbV ≤ v) :
    countEqOpt xs v n domV lbV ↔ n = occOpt xs v := by
  unfold countEqOpt
  rw [countEq_iff, occ_default xs hlo]
  split
  · omega
  · rename_i h0
    intro e
    exact h0 (e ▸ hv)

/-- `global_cardinality` (also closed, reified and with optional elements): the number of occurrences of `cover[i]` is
`count[i]`, for pairwise different cover values. -/
theorem _root_.MZ.C74_gcc_partial (xs cover count : Arr Int) (os : Arr (Option Int)) (b : Prop) (hc : Same count cover)
    (hlo : os.lo ≤ os.hi + 1) (hinj : AllDifferent cover) :
    (gcc xs cover count ↔ Gcc (occ xs) cover count) ∧
    (fznGccReif xs cover count b ↔ (b ↔ Gcc (occ xs) cover count)) ∧
    (gccClosed xs cover count ↔ Gcc (occ xs) cover count ∧ Closed xs cover) ∧
    (gccOpt os cover count ↔ Gcc (occOpt os) cover count) ∧
    (gccClosedOpt os cover count ↔ Gcc (occOpt os) cover count ∧ ClosedOpt os cover) := by
  have hopt : gccOpt os cover count ↔ Gcc (occOpt os) cover count := by
    unfold gccOpt
    split
    · rename_i h0
      unfold Gcc
      rw [hc.idx]
      simp only [occOpt_empty h0, Nat.cast_zero]
    · rw [gcc_iff _ cover count hc hinj]
      apply gccf_congr
      intro k hk
      exact occ_default os hlo _ _ (coverDef_not_mem cover hk)
  refine ⟨gcc_iff xs cover count hc hinj, ?_, ?_, hopt, ?_⟩
  · unfold fznGccReif Gcc
    simp only [countEq_iff]
    have : ((∀ i ∈ cover.idx, count i = occ xs (cover i)) ∧ xs.len ≥ ∑ i ∈ count.idx, count i) ↔
        ∀ i ∈ cover.idx, count i = occ xs (cover i) := by
      refine ⟨fun h => h.1, fun h => ⟨h, ?_⟩⟩
      rw [hc.idx, Finset.sum_congr rfl h]
      exact sum_cover_le xs cover hinj
    rw [this]
  · unfold gccClosed
    split
    · rename_i h0
      have := gcc_iff xs cover count hc hinj
      unfold gcc at this
      rw [if_pos h0] at this
      rw [this]
      refine ⟨fun h => ⟨h, ?_⟩, fun h => h.1⟩
      unfold Closed
      rw [len_zero.1 h0]
      simp
    · unfold fznGccClosed Closed
      simp only [inCover_iff]
      rw [gcc_iff xs cover count hc hinj]
      exact and_comm
  · have hcl := closedOpt_iff os cover
    unfold gccClosedOpt
    split
    · rename_i h0
      have h1 := hopt
      unfold gccOpt at h1
      rw [if_pos h0] at h1
      rw [h1]
      refine ⟨fun h => ⟨h, ?_⟩, fun h => h.1⟩
      unfold ClosedOpt
      rw [len_zero.1 h0]
      simp
    · rw [hcl, hopt]
      exact and_comm

/-- A cover with a repeated value: the documented condition holds and `global_cardinality`, its reified form and its
closed form reject it, because of the implied constraint on the sum of the counts. -/
theorem _root_.MZ.C74_gcc_fails :
    ∃ xs cover count : Arr Int, Same count cover ∧ Gcc (occ xs) cover count ∧ Closed xs cover ∧
      ¬gcc xs cover count ∧ ¬gccClosed xs cover count ∧ fznGccReif xs cover count False := by
  have hG : ¬fznGcc ⟨1, 1, fun _ => 7⟩ ⟨1, 2, fun _ => 7⟩ ⟨1, 2, fun _ => 1⟩ := by
    intro h
    have := h.2
    revert this
    decide
  refine ⟨⟨1, 1, fun _ => 7⟩, ⟨1, 2, fun _ => 7⟩, ⟨1, 2, fun _ => 1⟩, ⟨rfl, rfl⟩, ?_, ?_, ?_, ?_, ?_⟩
  · unfold Gcc; decide
  · unfold Closed; decide
  · unfold gcc
    rw [if_neg (by decide)]
    exact hG
  · unfold gccClosed
    rw [if_neg (by decide)]
    rintro ⟨_, h⟩
    unfold gcc at h
    rw [if_neg (by decide)] at h
    exact hG h
  · unfold fznGccReif
    exact ⟨False.elim, hG⟩

/-- `global_cardinality` with bounds, also with optional elements: it gives the documented truth value for every cover, and
stops with an error only where it is unsatisfiable. -/
theorem _root_.MZ.C74_gcc_low_up (xs cover lower upper : Arr Int) (os : Arr (Option Int)) (b : Prop)
    (hl : Same lower cover) (hu : Same upper cover) (hlo : os.lo ≤ os.hi + 1) :
    Right (gccLowUp xs cover lower upper) (GccLowUp (occ xs) cover lower upper) ∧
    (fznGccLowUpReif xs cover lower upper b ↔ (b ↔ GccLowUp (occ xs) cover lower upper)) ∧
    Right (gccLowUpOpt os cover lower upper) (GccLowUp (occOpt os) cover lower upper) := by
  refine ⟨gccLowUp_right xs cover lower upper hl hu, ?_, ?_⟩
  · unfold fznGccLowUpReif GccLowUp
    simp only [sum_occ]
  · unfold gccLowUpOpt
    by_cases h0 : os.len = 0
    · rw [if_pos h0]
      have := low_up_empty os cover lower upper (occOpt os) (occOpt_empty h0) hl hu
      by_cases h1 : GccLowUp (occOpt os) cover lower upper
      · rw [if_pos (this.2 h1)]
        exact Or.inl ⟨True, rfl, by simp [h1]⟩
      · rw [if_neg (fun h => h1 (this.1 h))]
        exact Or.inr ⟨rfl, h1⟩
    · rw [if_neg h0]
      have := gccLowUp_right (os.compr (fun x => x.getD (coverDef cover))) cover lower upper hl hu
      unfold Right at this ⊢
      rw [gccLowUpf_congr (occ (os.compr (fun x => x.getD (coverDef cover)))) (occOpt os) cover lower upper
        (fun k hk => occ_default os hlo _ _ (coverDef_not_mem cover hk))] at this
      exact this

/-- `global_cardinality_closed` with bounds, for pairwise different cover values; the optional form for every non-empty
cover. -/
theorem _root_.MZ.C74_gcc_low_up_closed_partial (xs cover lower upper : Arr Int) (os : Arr (Option Int))
    (hl : Same lower cover) (hu : Same upper cover) (hlo : os.lo ≤ os.hi + 1) :
    (AllDifferent cover →
      Right (gccLowUpClosed xs cover lower upper) (GccLowUp (occ xs) cover lower upper ∧ Closed xs cover)) ∧
    (cover.len ≠ 0 →
      Right (gccLowUpClosedOpt os cover lower upper) (GccLowUp (occOpt os) cover lower upper ∧ ClosedOpt os cover)) := by
  constructor
  · intro hinj
    unfold gccLowUpClosed
    by_cases h0 : xs.len = 0
    · rw [if_pos h0]
      have := low_up_empty xs cover lower upper (occ xs) (occ_empty h0) hl hu
      have hc : Closed xs cover := by unfold Closed; rw [len_zero.1 h0]; simp
      by_cases h1 : GccLowUp (occ xs) cover lower upper
      · rw [if_pos (this.2 h1)]
        exact Or.inl ⟨True, rfl, by simp [h1, hc]⟩
      · rw [if_neg (fun h => h1 (this.1 h))]
        exact Or.inr ⟨rfl, fun h => h1 h.1⟩
    · rw [if_neg h0]
      by_cases h1 : cover.len = 0
      · rw [if_pos h1]
        refine Or.inr ⟨rfl, fun h => ?_⟩
        have hne : xs.idx.Nonempty := by
          rw [Finset.nonempty_iff_ne_empty]
          exact fun e => h0 (len_zero.2 e)
        obtain ⟨i, hi⟩ := hne
        obtain ⟨k, hk, _⟩ := h.2 i hi
        rw [len_zero.1 h1] at hk
        simp at hk
      · rw [if_neg h1]
        refine Or.inl ⟨_, rfl, ?_⟩
        unfold fznGccLowUpClosed
        rw [fznGccLowUp_iff]
        have hcl : (∀ i ∈ xs.idx, inCover cover (xs i)) ↔ Closed xs cover := by
          unfold Closed
          simp only [inCover_iff]
        rw [hcl, hl.idx, hu.idx]
        constructor
        · exact fun h => ⟨h.2.1, h.1⟩
        · rintro ⟨h2, h3⟩
          refine ⟨h3, h2, ?_, ?_⟩
          · rw [← sum_cover_eq xs cover hinj h3]
            exact Finset.sum_le_sum (fun i hi => (h2 i hi).1)
          · rw [← sum_cover_eq xs cover hinj h3]
            exact Finset.sum_le_sum (fun i hi => (h2 i hi).2)
  · intro hne
    have hopt := (C74_gcc_low_up xs cover lower upper os True hl hu hlo).2.2
    unfold gccLowUpClosedOpt
    by_cases h0 : os.len = 0
    · rw [if_pos h0]
      have := low_up_empty os cover lower upper (occOpt os) (occOpt_empty h0) hl hu
      have hc : ClosedOpt os cover := by unfold ClosedOpt; rw [len_zero.1 h0]; simp
      by_cases h1 : GccLowUp (occOpt os) cover lower upper
      · rw [if_pos (this.2 h1)]
        exact Or.inl ⟨True, rfl, by simp [h1, hc]⟩
      · rw [if_neg (fun h => h1 (this.1 h))]
        exact Or.inr ⟨rfl, fun h => h1 h.1⟩
    · rw [if_neg h0, if_neg hne]
      rcases hopt with ⟨P, hP, hiff⟩ | ⟨hn, hno⟩
      · refine Or.inl ⟨_, by rw [hP]; rfl, ?_⟩
        rw [closedOpt_iff, hiff]
        exact and_comm
      · exact Or.inr ⟨by rw [hn]; rfl, fun h => hno h.1⟩

/-- A cover with a repeated value makes `global_cardinality_closed` with bounds false although the documented condition
holds; an empty cover makes the optional form abort although all elements may be absent. -/
theorem _root_.MZ.C74_gcc_low_up_closed_fails :
    (∃ xs cover lower upper : Arr Int, Same lower cover ∧ Same upper cover ∧
      GccLowUp (occ xs) cover lower upper ∧ Closed xs cover ∧
      ∃ P, gccLowUpClosed xs cover lower upper = some P ∧ ¬P) ∧
    (∃ (os : Arr (Option Int)) (cover lower upper : Arr Int), Same lower cover ∧ Same upper cover ∧
      GccLowUp (occOpt os) cover lower upper ∧ ClosedOpt os cover ∧ gccLowUpClosedOpt os cover lower upper = none) := by
  constructor
  · refine ⟨⟨1, 1, fun _ => 7⟩, ⟨1, 2, fun _ => 7⟩, ⟨1, 2, fun _ => 1⟩, ⟨1, 2, fun _ => 1⟩, ⟨rfl, rfl⟩, ⟨rfl, rfl⟩, ?_, ?_, ?_⟩
    · unfold GccLowUp; decide
    · unfold Closed; decide
    · refine ⟨fznGccLowUpClosed _ _ _ _, by unfold gccLowUpClosed; rw [if_neg (by decide), if_neg (by decide)], ?_⟩
      rintro ⟨_, _, h⟩
      revert h
      decide
  · refine ⟨⟨1, 1, fun _ => none⟩, ⟨1, 0, fun _ => 0⟩, ⟨1, 0, fun _ => 0⟩, ⟨1, 0, fun _ => 0⟩, ⟨rfl, rfl⟩, ⟨rfl, rfl⟩, ?_, ?_, ?_⟩
    · unfold GccLowUp; decide
    · intro i _ v hv; simp at hv
    · unfold gccLowUpClosedOpt
      rw [if_neg (by decide), if_pos (by decide)]

/-- `global_cardinality` of sets counts the sets that contain each cover value. -/
theorem _root_.MZ.C74_gcc_set (xs : Arr (Finset Int)) (cover count : Arr Int) (hc : Same count cover) :
    gccSet xs cover count ↔ Gcc (occSet xs) cover count := by
  unfold gccSet Gcc
  split
  · rename_i h0
    rw [hc.idx]
    have : ∀ v, occSet xs v = 0 := fun v => by unfold occSet; rw [len_zero.1 h0]; rfl
    simp only [this, Nat.cast_zero]
  · unfold occSet
    simp only [sum_b2i]

/-- The number of values that occur, counted over an interval that contains them. -/
theorem sum_exists {n : Int} (xs : Arr Int) (lx ux : Int) (h : ∀ i ∈ xs.idx, lx ≤ xs i ∧ xs i ≤ ux) :
    nvalue n xs lx ux ↔ n = (xs.idx.image xs).card := by
  unfold nvalue
  split
  · rename_i h0
    rw [len_zero.1 h0]
    simp
  · rw [sum_b2i]
    have : (Finset.Icc lx ux).filter (fun j => ∃ i ∈ xs.idx, xs i = j) = xs.idx.image xs := by
      ext j
      rw [Finset.mem_filter, Finset.mem_image, Finset.mem_Icc]
      constructor
      · exact fun h => h.2
      · rintro ⟨i, hi, rfl⟩
        exact ⟨h i hi, i, hi, rfl⟩
    rw [this]

/-- `nvalue` is the number of distinct values; with optional elements, of distinct present values. -/
theorem _root_.MZ.C74_nvalue (n : Int) (xs : Arr Int) (os : Arr (Option Int)) (lx ux : Int) (dom : Finset Int) (lo uo : Int)
    (h : ∀ i ∈ xs.idx, lx ≤ xs i ∧ xs i ≤ ux)
    (hlo : os.lo ≤ os.hi + 1) (hdom : ∀ i ∈ os.idx, ∀ v, os i = some v → v ∈ dom)
    (hb : ∀ i ∈ os.idx, lo ≤ (os i).getD (if 0 ∈ dom then minOf dom id - 1 else 0) ∧
      (os i).getD (if 0 ∈ dom then minOf dom id - 1 else 0) ≤ uo)
    (hd : lo ≤ (if 0 ∈ dom then minOf dom id - 1 else 0) ∧ (if 0 ∈ dom then minOf dom id - 1 else 0) ≤ uo) :
    (nvalue n xs lx ux ↔ n = (xs.idx.image xs).card) ∧
    (nvalueOpt n os dom lo uo ↔ n = (dom.filter (fun v => ∃ i ∈ os.idx, os i = some v)).card) := by
  refine ⟨sum_exists xs lx ux h, ?_⟩
  unfold nvalueOpt
  split
  · rename_i h0
    have : dom.filter (fun v => ∃ i ∈ os.idx, os i = some v) = ∅ := by
      rw [Finset.filter_eq_empty_iff]
      rintro v _ ⟨i, hi, _⟩
      rw [len_zero.1 h0] at hi
      simp at hi
    rw [this]
    simp
  · dsimp only
    generalize hdef : (if 0 ∈ dom then minOf dom id - 1 else 0) = d at *
    have hdn : d ∉ dom := by
      intro hm
      rw [← hdef] at hm
      split at hm
      · have := minOf_le (f := id) hm
        simp at this
      · rename_i h0; exact h0 hm
    have hlen := len_eq os hlo
    have hval : ∀ k, 1 ≤ k → k ≤ os.len → os.lo + k - 1 ∈ os.idx := by
      intro k h1 h2; rw [Arr.mem_idx]; omega
    rw [sum_exists]
    · have himg : ((⟨1, os.len + 1, fun k => if k ≤ os.len then (os.compr (fun x => x.getD d)) k else d⟩ : Arr Int).idx.image
          (⟨1, os.len + 1, fun k => if k ≤ os.len then (os.compr (fun x => x.getD d)) k else d⟩ : Arr Int)) =
          insert d (dom.filter (fun v => ∃ i ∈ os.idx, os i = some v)) := by
        ext v
        simp only [Finset.mem_image, Arr.mem_idx, Finset.mem_insert, Finset.mem_filter]
        constructor
        · rintro ⟨k, ⟨h1, h2⟩, h3⟩
          split at h3
          · rename_i hk
            have hm := hval k h1 hk
            have h3' : (os (os.lo + k - 1)).getD d = v := h3
            cases hx : os (os.lo + k - 1) with
            | none => rw [hx] at h3'; exact Or.inl h3'.symm
            | some w =>
              rw [hx] at h3'
              have : w = v := h3'
              subst this
              exact Or.inr ⟨hdom _ hm w hx, _, (Arr.mem_idx _ _).1 hm, hx⟩
          · exact Or.inl h3.symm
        · rintro (rfl | ⟨_, i, hi, hx⟩)
          · refine ⟨os.len + 1, ⟨?_, le_refl _⟩, if_neg (by omega)⟩
            have : 0 ≤ os.len := by unfold Arr.len; omega
            omega
          · refine ⟨i - os.lo + 1, ⟨by omega, by omega⟩, ?_⟩
            rw [if_pos (by omega)]
            show (os (os.lo + (i - os.lo + 1) - 1)).getD d = v
            have : os.lo + (i - os.lo + 1) - 1 = i := by omega
            rw [this, hx]
            rfl
      rw [himg, Finset.card_insert_of_notMem]
      · push_cast
        omega
      · rw [Finset.mem_filter]
        exact fun h => hdn h.1
    · intro k hk
      rw [Arr.mem_idx] at hk
      dsimp only at hk ⊢
      split
      · exact hb _ (hval k hk.1 (by assumption))
      · exact hd

/-- The set constraints: pairwise at most one common element, pairwise disjoint, partition of the universe, sum of the
weights of selected values, and channelling between integers and sets. -/
theorem _root_.MZ.C74_sets (xs : Arr (Finset Int)) (univ : Finset Int) (values weights : Arr Int) (sel : Finset Int) (total : Int)
    (ints : Arr Int) :
    (atMost1 xs ↔ ∀ i ∈ xs.idx, ∀ j ∈ xs.idx, i ≠ j → ∀ a b, a ∈ xs i → a ∈ xs j → b ∈ xs i → b ∈ xs j → a = b) ∧
    (allDisjoint xs ↔ ∀ v, ∀ i ∈ xs.idx, ∀ j ∈ xs.idx, v ∈ xs i → v ∈ xs j → i = j) ∧
    (partitionSet xs univ ↔ (∀ v ∈ univ, ∃! i, i ∈ xs.idx ∧ v ∈ xs i) ∧ ∀ i ∈ xs.idx, xs i ⊆ univ) ∧
    (sumSet values weights sel total ↔ total = ∑ j ∈ values.idx.filter (fun j => values j ∈ sel), weights j) ∧
    (intSetChannel ints xs ↔ (∀ i ∈ ints.idx, ints i ∈ xs.idx) ∧
      ∀ j ∈ xs.idx, xs j = ints.idx.filter (fun i => ints i = j)) := by
  have hdis : allDisjoint xs ↔ ∀ v, ∀ i ∈ xs.idx, ∀ j ∈ xs.idx, v ∈ xs i → v ∈ xs j → i = j := by
    unfold allDisjoint
    rw [pair_iff xs.idx (fun i j => xs i ∩ xs j = ∅) (fun i j h => by rw [Finset.inter_comm]; exact h)]
    constructor
    · intro h v i hi j hj h1 h2
      by_contra hne
      have := h i hi j hj hne
      have hm : v ∈ xs i ∩ xs j := Finset.mem_inter.2 ⟨h1, h2⟩
      rw [this] at hm
      simp at hm
    · intro h i hi j hj hne
      rw [Finset.eq_empty_iff_forall_notMem]
      intro v hv
      rw [Finset.mem_inter] at hv
      exact hne (h v i hi j hj hv.1 hv.2)
  refine ⟨?_, hdis, ?_, ?_, ?_⟩
  · unfold atMost1
    rw [pair_iff xs.idx (fun i j => (xs i ∩ xs j).card ≤ 1) (fun i j h => by rw [Finset.inter_comm]; exact h)]
    simp only [Finset.card_le_one, Finset.mem_inter]
    constructor
    · intro h i hi j hj hne a b h1 h2 h3 h4
      exact h i hi j hj hne a ⟨h1, h2⟩ b ⟨h3, h4⟩
    · intro h i hi j hj hne a ha b hb
      exact h i hi j hj hne a b ha.1 ha.2 hb.1 hb.2
  · unfold partitionSet
    rw [hdis]
    constructor
    · rintro ⟨h1, rfl⟩
      constructor
      · intro v hv
        rw [Finset.mem_biUnion] at hv
        obtain ⟨i, hi, hvi⟩ := hv
        exact ⟨i, ⟨hi, hvi⟩, fun j hj => h1 v j hj.1 i hi hj.2 hvi⟩
      · intro i hi v hv
        exact Finset.mem_biUnion.2 ⟨i, hi, hv⟩
    · rintro ⟨h1, h2⟩
      constructor
      · intro v i hi j hj hvi hvj
        obtain ⟨k, _, hk⟩ := h1 v (h2 i hi hvi)
        rw [hk i ⟨hi, hvi⟩, hk j ⟨hj, hvj⟩]
      · ext v
        rw [Finset.mem_biUnion]
        constructor
        · intro hv
          obtain ⟨k, hk, _⟩ := h1 v hv
          exact ⟨k, hk.1, hk.2⟩
        · rintro ⟨i, hi, hv⟩
          exact h2 i hi hv
  · unfold sumSet
    simp only [b2i_mul]
    rw [Finset.sum_filter]
  · unfold intSetChannel
    constructor
    · rintro ⟨h1, h2, h3⟩
      refine ⟨h1, fun j hj => ?_⟩
      ext i
      rw [Finset.mem_filter]
      constructor
      · intro hi
        have hi' := h2 j hj hi
        exact ⟨hi', (h3 i hi' j hj).2 hi⟩
      · rintro ⟨hi, he⟩
        exact (h3 i hi j hj).1 he
    · rintro ⟨h1, h2⟩
      refine ⟨h1, fun j hj i hi => ?_, fun i hi j hj => ?_⟩
      · rw [h2 j hj] at hi
        exact (Finset.mem_filter.1 hi).1
      · rw [h2 j hj, Finset.mem_filter]
        exact ⟨fun h => ⟨hi, h⟩, fun h => h.2⟩

/-! ## The hypotheses are satisfiable by non-trivial cases -/

/-- A cover of two values; two elements are equal and one is outside the cover. -/
example : ∃ xs cover count : Arr Int, Same count cover ∧ AllDifferent cover ∧ gcc xs cover count ∧
    ¬Closed xs cover ∧ ¬AllDifferent xs := by
  have hinj : AllDifferent (⟨0, 1, fun i => i + 3⟩ : Arr Int) := by
    intro i _ j _ h; simp at h; exact h
  refine ⟨⟨1, 3, fun i => if i = 1 then 9 else 4⟩, ⟨0, 1, fun i => i + 3⟩, ⟨0, 1, fun i => 2 * i⟩, ⟨rfl, rfl⟩, hinj, ?_, ?_, ?_⟩
  · have hs : Same (⟨0, 1, fun i => 2 * i⟩ : Arr Int) (⟨0, 1, fun i => i + 3⟩ : Arr Int) := ⟨rfl, rfl⟩
    rw [gcc_iff _ _ _ hs hinj]
    unfold Gcc
    decide
  · unfold Closed; decide
  · unfold AllDifferent; decide

/-- Optional elements: two absent ones, and the exception value differs from the present one. -/
example : ∃ xs : Arr (Option Int), (∀ i ∈ xs.idx, ∀ v, xs i = some v → (0 : Int) ≤ v) ∧ xs.lo ≤ xs.hi + 1 ∧
    AllDifferentPresent xs ∧ (∃ i ∈ xs.idx, xs i = some 0) ∧ occOpt xs 0 = 1 := by
  refine ⟨⟨1, 3, fun i => if i = 2 then some 0 else none⟩, ?_, by decide, ?_, ⟨2, by decide, rfl⟩, by decide⟩
  · intro i _ v hv
    simp at hv
    omega
  · unfold AllDifferentPresent; decide

/-- An array with two values, and bounds that enclose them. -/
example : ∃ xs : Arr Int, (∀ i ∈ xs.idx, (0 : Int) ≤ xs i ∧ xs i ≤ 5) ∧ nvalue 2 xs 0 5 := by
  have hb : ∀ i ∈ (⟨1, 3, fun i => if i = 1 then 2 else 5⟩ : Arr Int).idx,
      (0 : Int) ≤ (⟨1, 3, fun i => if i = 1 then 2 else 5⟩ : Arr Int) i ∧ (⟨1, 3, fun i => if i = 1 then 2 else 5⟩ : Arr Int) i ≤ 5 := by
    decide
  exact ⟨_, hb, (sum_exists _ 0 5 hb).2 (by decide)⟩

end MZ.Count
