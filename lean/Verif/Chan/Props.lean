import Verif.Chan.Sums

/-!
# C78: channelling, sorting, array and arithmetic constraints mean what their documentation says

`Verif.Chan.Spec` says what each constraint means; `Verif.Chan.Model` is the decomposition in the standard library.
-/

namespace MZ.Chan
open MZ.Globals MZ.Chan.Spec

/-! ## Channelling -/

/-- `inverse`. -/
theorem _root_.MZ.C78_inverse (f g : Arr Int) : fznInverse f g ↔ Inverse f g := inverse_iff f g

/-- `inverse_in_range`: the additional cardinality constraints exclude nothing.  `domf` and `domg` are the domains of the
variables. -/
theorem _root_.MZ.C78_inverse_in_range (f g : Arr Int) (domf domg : Int → Finset Int) (hf : ∀ i ∈ f.idx, f i ∈ domf i)
    (hg : ∀ j ∈ g.idx, g j ∈ domg j) : fznInverseInRange f g domf domg ↔ InverseInRange f g :=
  inverseInRange_iff f g domf domg hf hg

/-- The reified `inverse_in_range`. -/
theorem _root_.MZ.C78_inverse_in_range_reif (f g : Arr Int) (b : Prop) :
    fznInverseInRangeReif f g b ↔ (b ↔ InverseInRange f g) := by
  unfold fznInverseInRangeReif; rw [inRangeCore_iff]

/-- `inverse` of arrays with absent elements. -/
theorem _root_.MZ.C78_inverse_opt (f g : Arr (Option Int)) : fznInverseOpt f g ↔ InverseOpt f g := inverseOpt_iff f g

/-- `inverse_set`. -/
theorem _root_.MZ.C78_inverse_set (f g : Arr (Finset Int)) : fznInverseSet f g ↔ InverseSet f g := inverseSet_iff f g

/-- `link_set_to_booleans`: `s` is the set of indices of true elements; without the assumption it aborts. -/
theorem _root_.MZ.C78_link_set_to_booleans (s ub : Finset Int) (bs : Arr Bool) (hs : s ⊆ ub) :
    (ub ⊆ bs.idx → ∃ P, linkSetToBooleans s ub bs = some P ∧ (P ↔ s = bs.idx.filter (fun i => bs i = true))) ∧
      (¬ ub ⊆ bs.idx → linkSetToBooleans s ub bs = none) :=
  ⟨linkSet_iff s ub bs hs, fun h => if_neg h⟩

/-- `int_set_channel`. -/
theorem _root_.MZ.C78_int_set_channel (ints : Arr Int) (sets : Arr (Finset Int)) :
    fznIntSetChannel ints sets ↔ IntSetChannel ints sets := intSetChannel_iff ints sets

/-- `symmetric_all_different`. -/
theorem _root_.MZ.C78_symmetric_all_different (xs : Arr Int) : fznSymmetricAllDifferent xs ↔ Involution xs := symmetric_iff xs

/-- `range`. -/
theorem _root_.MZ.C78_range (xs : Arr Int) (dom image ubd ubi : Finset Int) (hd : dom ⊆ ubd) (hi : image ⊆ ubi)
    (hub : ubd ⊆ xs.idx) : ∃ P, range xs dom image ubd ubi = some P ∧ (P ↔ Range xs dom image) :=
  range_iff xs dom image ubd ubi hd hi hub

/-- `roots`. -/
theorem _root_.MZ.C78_roots (xs : Arr Int) (pre image ubp ubi : Finset Int) (hp : pre ⊆ ubp) (hi : image ⊆ ubi)
    (hub : ubp ⊆ xs.idx) : ∃ P, roots xs pre image ubp ubi = some P ∧ (P ↔ Roots xs pre image) :=
  roots_iff xs pre image ubp ubi hp hi hub

/-- The function `2, 3, 1` and its inverse `3, 1, 2`. -/
example : fznInverse ⟨1, 3, fun i => if i = 3 then 1 else i + 1⟩ ⟨1, 3, fun i => if i = 1 then 3 else i - 1⟩ := by
  refine ⟨?_, ?_⟩ <;> decide

example : ¬ fznInverse ⟨1, 2, fun _ => 1⟩ ⟨1, 2, fun _ => 1⟩ := by
  intro h; exact absurd (h.1 2 (by decide)).2.2 (by decide)

/-- Values out of range are free. -/
example : fznInverseInRange ⟨1, 2, fun i => if i = 1 then 1 else 7⟩ ⟨1, 1, fun _ => 1⟩ (fun _ => {1, 7}) (fun _ => {1}) := by
  refine (C78_inverse_in_range _ _ _ _ ?_ ?_).mpr ?_
  · decide
  · decide
  · unfold InverseInRange; decide

/-- The index 2 has no image. -/
example : fznInverseOpt ⟨1, 2, fun i => if i = 1 then some 2 else none⟩ ⟨1, 2, fun i => if i = 2 then some 1 else none⟩ := by
  refine (C78_inverse_opt _ _).mpr ⟨?_, ?_, by decide⟩
  · intro i hi v hv
    rw [Arr.mem_idx] at hi
    dsimp only at hi hv
    split at hv
    · cases hv; decide
    · exact absurd hv (by simp)
  · intro i hi v hv
    rw [Arr.mem_idx] at hi
    dsimp only at hi hv
    split at hv
    · cases hv; decide
    · exact absurd hv (by simp)

/-- A symmetric arrangement: 1 and 2 are swapped, 3 is fixed. -/
example : fznSymmetricAllDifferent ⟨1, 3, fun i => if i = 3 then 3 else 3 - i⟩ := by
  refine (C78_symmetric_all_different _).mpr ?_
  unfold Involution; decide

/-! ## Sorting -/

/-- `sort` for arrays of the same length; others abort. -/
theorem _root_.MZ.C78_sort (xs ys : Arr Int) :
    (xs.len = ys.len → ∃ P, sort xs ys = some P ∧ (P ↔ Sorted xs ys)) ∧ (xs.len ≠ ys.len → sort xs ys = none) :=
  ⟨sort_iff xs ys, fun h => if_neg h⟩

/-- The function `sort` is total, as it promises. -/
theorem _root_.MZ.C78_sort_total (xs : Arr Int) :
    ∃ ys : Arr Int, ys.lo = xs.lo ∧ ys.hi = xs.hi ∧ ∃ P, sort xs ys = some P ∧ P := by
  obtain ⟨ys, h1, h2, hs⟩ := sort_exists xs
  obtain ⟨P, e, hP⟩ := sort_iff xs ys (by unfold Arr.len Arr.idx; rw [h1, h2])
  exact ⟨ys, h1, h2, P, e, hP.mpr hs⟩

section
variable {α : Type} [LinearOrder α]

/-- The function `arg_sort` returns the stable sorting permutation, … -/
theorem _root_.MZ.C78_arg_sort (xs : Arr α) (p : Arr Int) :
    argSortFn xs p ↔ p.lo = 1 ∧ p.hi = xs.len ∧ ArgSort xs p := argSortFn_iff xs p

/-- … and there is exactly one, as `promise_total` says. -/
theorem _root_.MZ.C78_arg_sort_total (xs : Arr α) :
    (∃ p, argSortFn xs p) ∧ ∀ p q, argSortFn xs p → argSortFn xs q → ∀ j ∈ p.idx, p j = q j :=
  ⟨argSort_exists xs, argSort_unique xs⟩

/-- The predicate `arg_sort`, for at least two elements and a `permutation` indexed from 1 to their number.  Missing: the other
arrays, see `C78_arg_sort_predicate_fails`. -/
theorem _root_.MZ.C78_arg_sort_predicate_partial (xs : Arr α) (p : Arr Int) (h2 : 2 ≤ xs.len) (hlo : p.lo = 1)
    (hhi : p.hi = xs.len) : fznArgSort xs p ↔ ArgSort xs p := argSort_pred xs p h2 hlo hhi

end

/-- The predicate `arg_sort` accepts any "permutation" of a single element, and more entries than elements. -/
theorem _root_.MZ.C78_arg_sort_predicate_fails :
    (∃ (xs : Arr Int) (p : Arr Int), p.idx = xs.idx ∧ fznArgSort xs p ∧ ¬ ArgSort xs p) ∧
      ∃ (xs : Arr Int) (p : Arr Int), 2 ≤ xs.len ∧ fznArgSort xs p ∧ ¬ ArgSort xs p := by
  refine ⟨⟨⟨1, 1, fun _ => 5⟩, ⟨1, 1, fun _ => 7⟩, rfl, ⟨?_, ?_⟩, ?_⟩, ⟨1, 2, fun i => i⟩, ⟨1, 3, fun i => i⟩, by decide, ⟨?_, ?_⟩, ?_⟩
  · unfold Count.fznAllDifferentInt; decide
  · decide
  · intro h; exact absurd (h.1 1 (by decide)) (by decide)
  · unfold Count.fznAllDifferentInt; decide
  · decide
  · intro h; exact absurd (h.1 3 (by decide)) (by decide)

/-- `[3, 1, 3]` is sorted to `[1, 3, 3]`. -/
example : Sorted ⟨1, 3, fun i => if i = 2 then 1 else 3⟩ ⟨0, 2, fun i => if i = 0 then 1 else 3⟩ := by
  refine ⟨?_, by decide⟩
  intro v
  unfold times Arr.idx
  by_cases h1 : v = 1
  · subst h1; decide
  · by_cases h3 : v = 3
    · subst h3; decide
    · rw [Finset.filter_false_of_mem, Finset.filter_false_of_mem]
      · intro i _; dsimp only; split <;> omega
      · intro i _; dsimp only; split <;> omega

/-- The stable order of `[3, 1, 3]` is `2, 1, 3`. -/
example : argSortFn (⟨1, 3, fun i => if i = 2 then 1 else 3⟩ : Arr Int) ⟨1, 3, fun j => if j = 1 then 2 else if j = 2 then 1 else 3⟩ := by
  refine (C78_arg_sort _ _).mpr ⟨rfl, by decide, by decide, by decide, by decide⟩

/-! ## Index of an element -/

/-- `arg_max` of integers and Booleans, … -/
theorem _root_.MZ.C78_arg_max (xs : Arr Int) (m : Int) : argMax xs m ↔ FirstMax xs m := argMax_iff xs m

/-- … which has exactly one value for a non-empty array. -/
theorem _root_.MZ.C78_arg_max_total (xs : Arr Int) (hne : xs.idx.Nonempty) :
    (∃ m, argMax xs m) ∧ ∀ a b, argMax xs a → argMax xs b → a = b := by
  refine ⟨?_, fun a b ha hb => firstMax_unique ((argMax_iff xs a).mp ha) ((argMax_iff xs b).mp hb)⟩
  obtain ⟨m, h⟩ := firstMax_exists xs hne
  exact ⟨m, (argMax_iff xs m).mpr h⟩

/-- `arg_min` of integers and Booleans, … -/
theorem _root_.MZ.C78_arg_min (xs : Arr Int) (m : Int) : argMin xs m ↔ FirstMin xs m := argMin_iff xs m

/-- … which has exactly one value for a non-empty array. -/
theorem _root_.MZ.C78_arg_min_total (xs : Arr Int) (hne : xs.idx.Nonempty) :
    (∃ m, argMin xs m) ∧ ∀ a b, argMin xs a → argMin xs b → a = b := by
  refine ⟨?_, fun a b ha hb => firstMin_unique ((argMin_iff xs a).mp ha) ((argMin_iff xs b).mp hb)⟩
  obtain ⟨m, h⟩ := firstMin_exists xs hne
  exact ⟨m, (argMin_iff xs m).mpr h⟩

/-- `arg_max` of floats, taken as a linear order; the bounds are sound. -/
theorem _root_.MZ.C78_arg_max_float {α : Type} [LinearOrder α] (xs : Arr α) (lb : Int → α) (ly uy : α) (m : Int)
    (hlb : ∀ j ∈ xs.idx, lb j ≤ xs j) (hb : ∀ j ∈ xs.idx, ly ≤ xs j ∧ xs j ≤ uy) :
    fznMaximumArgFloat xs lb ly uy m ↔ FirstMax xs m := maximumArgFloat_iff xs lb ly uy m hlb hb

/-- `arg_max_weak` of optional integers, where `lb_array` has a value `l` below the present elements and `known` is only set if an
element is present.  Missing: `lb_array` may abort, see `C78_arg_max_weak_fails`. -/
theorem _root_.MZ.C78_arg_max_weak_partial (xs : Arr (Option Int)) (known had0 : Bool) (l : Int) (r : Option Int)
    (hl : ∀ i ∈ xs.idx, ∀ v, xs i = some v → l ≤ v) (hk : known = true → ∃ i ∈ xs.idx, xs i ≠ none) :
    ∃ P, argMaxWeak xs known had0 (some l) r = some P ∧ (P ↔ ArgMaxWeak xs r) := argMaxWeak_iff xs known had0 l r hl hk

/-- `arg_min_weak` of optional integers. -/
theorem _root_.MZ.C78_arg_min_weak_partial (xs : Arr (Option Int)) (known had0 : Bool) (u : Int) (r : Option Int)
    (hu : ∀ i ∈ xs.idx, ∀ v, xs i = some v → v ≤ u) (hk : known = true → ∃ i ∈ xs.idx, xs i ≠ none) :
    ∃ P, argMinWeak xs known had0 (some u) r = some P ∧ (P ↔ ArgMinWeak xs r) := argMinWeak_iff xs known had0 u r hu hk

/-- `arg_max_weak` of an array of absent elements is not the absent index: the bound of such an array is an error. -/
theorem _root_.MZ.C78_arg_max_weak_fails :
    ∃ xs : Arr (Option Int), ArgMaxWeak xs none ∧ ∀ known had0 r, argMaxWeak xs known had0 none r = none := by
  refine ⟨⟨1, 2, fun _ => none⟩, .inl ⟨fun _ _ => rfl, rfl⟩, ?_⟩
  intro known had0 r
  unfold argMaxWeak
  rw [if_neg (by decide)]
  rfl

/-- `arg_max_weak` of optional Booleans. -/
theorem _root_.MZ.C78_arg_max_weak_bool (xs : Arr (Option Bool)) (known : Bool) (r : Option Int)
    (hk : known = true → ∃ i ∈ xs.idx, xs i ≠ none) : argMaxWeakBool xs known r ↔ ArgMaxWeak xs r :=
  argMaxWeakBool_iff xs known r hk

/-- `arg_min_weak` of optional Booleans. -/
theorem _root_.MZ.C78_arg_min_weak_bool (xs : Arr (Option Bool)) (known : Bool) (r : Option Int)
    (hk : known = true → ∃ i ∈ xs.idx, xs i ≠ none) : argMinWeakBool xs known r ↔ ArgMinWeak xs r :=
  argMinWeakBool_iff xs known r hk

/-- `arg_max` of optional integers: the index of the greatest present element, and where all are absent the first index, which
is then not "the index of the maximum non-absent value". -/
theorem _root_.MZ.C78_arg_max_opt_partial (xs : Arr (Option Int)) (known had0 : Bool) (l : Int) (r : Int) (hne : xs.idx.Nonempty)
    (hl : ∀ i ∈ xs.idx, ∀ v, xs i = some v → l ≤ v) (hk : known = true → ∃ i ∈ xs.idx, xs i ≠ none) :
    ∃ P, argMaxOpt xs known had0 (some l) r = some P ∧
      (P ↔ FirstMaxPresent xs r ∨ ((∀ i ∈ xs.idx, xs i = none) ∧ r = xs.lo)) := argMaxOpt_iff xs known had0 l r hne hl hk

/-- `arg_val` of integers. -/
theorem _root_.MZ.C78_arg_val (xs : Arr Int) (value m : Int) : argVal xs value m ↔ FirstVal xs value m := argVal_iff xs value m

/-- `arg_val` of Booleans. -/
theorem _root_.MZ.C78_arg_val_bool (xs : Arr Bool) (value : Bool) (m : Int) : argValBool xs value m ↔ FirstVal xs value m :=
  argValBool_iff xs value m

/-- `arg_val_weak` of integers. -/
theorem _root_.MZ.C78_arg_val_weak (xs : Arr Int) (value : Int) (r : Option Int) :
    argValWeak xs value r ↔ ArgValWeak xs value r := argValWeak_iff xs value r

/-- `arg_val` of optional integers, for an array indexed from 1.  Missing: other index sets, see `C78_arg_val_opt_fails`. -/
theorem _root_.MZ.C78_arg_val_opt_partial (xs : Arr (Option Int)) (value : Option Int) (had0 : Bool) (lb : Int) (m : Int)
    (h1 : xs.lo = 1) (hl : ∀ i ∈ xs.idx, ∀ v, xs i = some v → lb ≤ v) (hv : ∀ v, value = some v → lb ≤ v) :
    argValOpt xs value had0 lb m ↔ FirstVal xs value m := by
  unfold argValOpt
  constructor
  · rintro ⟨-, hm, h⟩
    rw [Arr.mem_idx] at hm
    have := (argValOptCore_iff xs value had0 lb m (by omega) hl hv).mp h
    rwa [show m + xs.lo - 1 = m by omega] at this
  · intro h
    have hm := (Arr.mem_idx _ _).mp h.1
    refine ⟨len_pos h.1, h.1, (argValOptCore_iff xs value had0 lb m (by omega) hl hv).mpr ?_⟩
    rwa [show m + xs.lo - 1 = m by omega]

/-- `arg_val` of optional integers in an array indexed from 0: for the array `[0: 5, 1: 7]` and the value 5 the answer is 1. -/
theorem _root_.MZ.C78_arg_val_opt_fails :
    ∃ (xs : Arr (Option Int)) (value : Option Int) (m : Int), (∀ had0, argValOpt xs value had0 5 m) ∧ ¬ FirstVal xs value m ∧
      ∃ m', FirstVal xs value m' ∧ ∀ had0, ¬ argValOpt xs value had0 5 m' := by
  have hl : ∀ i ∈ (⟨0, 1, fun i => if i = 0 then some 5 else some 7⟩ : Arr (Option Int)).idx, ∀ v,
      (⟨0, 1, fun i => if i = 0 then some 5 else some 7⟩ : Arr (Option Int)) i = some v → 5 ≤ v := by
    intro i _ v hv
    dsimp only at hv
    split at hv
    · have := Option.some.inj hv; omega
    · have := Option.some.inj hv; omega
  have hv : ∀ v, some (5 : Int) = some v → 5 ≤ v := by intro v e; have := Option.some.inj e; omega
  have hfv : FirstVal (⟨0, 1, fun i => if i = 0 then some 5 else some 7⟩ : Arr (Option Int)) (some 5) 0 :=
    ⟨by decide, by decide, by decide⟩
  refine ⟨⟨0, 1, fun i => if i = 0 then some 5 else some 7⟩, some 5, 1, ?_, ?_, 0, hfv, ?_⟩
  · intro had0
    exact ⟨by decide, by decide, (argValOptCore_iff _ _ had0 5 1 (by decide) hl hv).mpr hfv⟩
  · intro h; exact absurd h.2.1 (by decide)
  · intro had0 h
    have := (argValOptCore_iff _ _ had0 5 0 (by decide) hl hv).mp h.2.2
    exact absurd this.1 (by decide)

/-- The first of two greatest elements. -/
example : argMax ⟨0, 3, fun i => if i = 1 ∨ i = 3 then 9 else 2⟩ 1 :=
  (C78_arg_max _ _).mpr ⟨by decide, by decide, by decide⟩

example : argMin ⟨0, 3, fun i => if i = 1 ∨ i = 3 then 9 else 2⟩ 0 :=
  (C78_arg_min _ _).mpr ⟨by decide, by decide, by decide⟩

/-- A bound that is reached for sure, and one that is not. -/
example : fznMaximumArgFloat (⟨0, 3, fun i => if i = 1 ∨ i = 3 then 9 else 2⟩ : Arr Int) (fun i => if i = 3 then 9 else 0) 0 9 1 :=
  (C78_arg_max_float _ _ _ _ _ (by decide) (by decide)).mpr ⟨by decide, by decide, by decide⟩

example : fznMaximumArgFloat (⟨0, 3, fun i => if i = 1 ∨ i = 3 then 8 else 2⟩ : Arr Int) (fun _ => 0) 0 9 1 :=
  (C78_arg_max_float _ _ _ _ _ (by decide) (by decide)).mpr ⟨by decide, by decide, by decide⟩

/-- All absent: the weak version answers with the absent index. -/
example : argMaxWeakBool ⟨1, 2, fun _ => none⟩ false none :=
  (C78_arg_max_weak_bool _ _ _ (by simp)).mpr (.inl ⟨fun _ _ => rfl, rfl⟩)

/-- Only `false` is present, with the value of the additional element. -/
example : argMaxWeakBool ⟨1, 2, fun i => if i = 2 then some false else none⟩ false (some 2) := by
  refine (C78_arg_max_weak_bool _ _ _ (by simp)).mpr (.inr ⟨2, rfl, by decide, false, by decide, ?_, by decide⟩)
  intro j _ u _
  dsimp only at *
  split at *
  · simp_all
  · simp_all

example : argValWeak ⟨1, 3, fun i => i * i⟩ 4 (some 2) := (C78_arg_val_weak _ _ _).mpr (.inr ⟨2, rfl, by decide, by decide, by decide⟩)
example : argValWeak ⟨1, 3, fun i => i * i⟩ 5 none := (C78_arg_val_weak _ _ _).mpr (.inl ⟨by decide, rfl⟩)

/-! ## Writing into arrays -/

/-- `write`. -/
theorem _root_.MZ.C78_write (I : Arr Int) (i v : Int) (O : Arr Int) : fznWrite I i v O ↔ Write I i v O := write_iff I i v O

/-- `writes_seq`: the last write to an element counts. -/
theorem _root_.MZ.C78_writes_seq (I P V O : Arr Int) (hlo : P.lo = V.lo) (hhi : P.hi = V.hi) (hv : V.lo ≤ V.hi + 1) :
    fznWritesSeq I P V O ↔ WritesSeq I P V O := writesSeq_iff I P V O hlo hhi hv

/-- `writes`: where no two writes are to the same element it is `writes_seq`. -/
theorem _root_.MZ.C78_writes_partial (I P V O : Arr Int) (hO : O.idx = I.idx) (hP : ∀ j ∈ P.idx, P j ∈ I.idx)
    (hd : ∀ i ∈ P.idx, ∀ j ∈ P.idx, P i = P j → i = j) : fznWrites I P V O ↔ WritesSeq I P V O := by
  rw [writes_iff I P V O hO]
  constructor
  · rintro ⟨h1, h2⟩ i hi
    exact ⟨fun j hj e _ => e ▸ (h1 j hj).2, h2 i hi⟩
  · intro h
    refine ⟨fun j hj => ⟨hP j hj, (h (P j) (hP j hj)).1 j hj rfl ?_⟩, fun i hi => (h i hi).2⟩
    intro k hk hlt e
    have := hd k hk j hj e
    omega

/-- The function `writes` promises to be total, but two different values for the same element have no result. -/
theorem _root_.MZ.C78_writes_fails : ∃ I P V : Arr Int, P.idx = V.idx ∧ (∀ j ∈ P.idx, P j ∈ I.idx) ∧
    ∀ O : Arr Int, ¬ fznWrites I P V O := by
  refine ⟨⟨1, 1, fun _ => 0⟩, ⟨1, 2, fun _ => 1⟩, ⟨1, 2, fun j => j⟩, rfl, by decide, ?_⟩
  rintro O ⟨h, -⟩
  have h1 := (h 1 (by decide)).2
  have h2 := (h 2 (by decide)).2
  dsimp only at h1 h2
  omega

/-- Two writes to the first element. -/
example : fznWritesSeq ⟨1, 2, fun _ => 0⟩ ⟨1, 2, fun _ => 1⟩ ⟨1, 2, fun j => j + 4⟩ ⟨1, 2, fun i => if i = 1 then 6 else 0⟩ := by
  refine (C78_writes_seq _ ⟨1, 2, fun _ => 1⟩ ⟨1, 2, fun j => j + 4⟩ _ rfl rfl (by decide)).mpr ?_
  unfold WritesSeq; decide

/-! ## Sums, flows and packing -/

/-- `sliding_sum` of a non-empty array.  Missing: the empty one, see `C78_sliding_sum_fails`, and negative sizes. -/
theorem _root_.MZ.C78_sliding_sum_partial (low up w : Int) (xs : Arr Int) (hne : xs.idx.Nonempty) (hw : 0 ≤ w) :
    fznSlidingSum low up w xs ↔ SlidingSum low up w xs := slidingSum_iff low up w xs hne hw

/-- `sliding_sum` of an empty array is false, although there is no subsequence. -/
theorem _root_.MZ.C78_sliding_sum_fails (low up w : Int) (hw : 0 < w) :
    ¬ fznSlidingSum low up w ⟨1, 0, fun _ => 0⟩ ∧ SlidingSum low up w ⟨1, 0, fun _ => 0⟩ := by
  refine ⟨fun h => ?_, ?_⟩
  · obtain ⟨i, hi⟩ := h.1
    rw [Arr.mem_idx] at hi
    dsimp only at hi
    omega
  · intro i h1 h2
    dsimp only at h1 h2
    omega

/-- `sum_pred` for an array of sets indexed from 1. -/
theorem _root_.MZ.C78_sum_pred_partial (m : Int) (sets : Arr (Finset Int)) (coef : Arr Int) (total : Int) (h1 : sets.lo = 1)
    (hs : ∀ j ∈ sets.idx, sets j ⊆ coef.idx) :
    ∃ P, fznSumPred m sets coef total = some P ∧ (P ↔ m ∈ sets.idx ∧ total = ∑ k ∈ sets m, coef k) := by
  have he : sets.idx = Finset.Icc 1 sets.len := by
    by_cases h : sets.lo ≤ sets.hi + 1
    · rw [len_eq sets h]; unfold Arr.idx; rw [h1]; congr 1; omega
    · have : sets.idx = ∅ := by unfold Arr.idx; exact Finset.Icc_eq_empty (by omega)
      rw [Count.len_zero.mpr this, this]; rfl
  refine ⟨_, if_pos he, ?_⟩
  constructor
  · rintro ⟨-, hm, e⟩; exact ⟨hm, e.symm⟩
  · rintro ⟨hm, e⟩; exact ⟨hs, hm, e.symm⟩

/-- `sum_pred` for an array of sets that is indexed from 0 is an error. -/
theorem _root_.MZ.C78_sum_pred_fails : ∃ (sets : Arr (Finset Int)) (coef : Arr Int),
    (∀ j ∈ sets.idx, sets j ⊆ coef.idx) ∧ 0 ∈ sets.idx ∧ ∀ total, fznSumPred 0 sets coef total = none := by
  refine ⟨⟨0, 1, fun _ => {1}⟩, ⟨1, 1, fun _ => 5⟩, by decide, by decide, fun total => if_neg (by decide)⟩

/-- `network_flow`; the test on the sum of the balances excludes nothing. -/
theorem _root_.MZ.C78_network_flow (a : Arcs) (balance flow : Arr Int) (ha : a.idx = flow.idx)
    (hn : ∀ e ∈ a.idx, a.src e ∈ balance.idx ∧ a.dst e ∈ balance.idx) :
    ∃ P, networkFlow a balance flow = some P ∧ (P ↔ Flow a balance flow) := networkFlow_iff a balance flow ha hn

/-- `network_flow_cost`. -/
theorem _root_.MZ.C78_network_flow_cost (a : Arcs) (balance weight flow : Arr Int) (cost : Int) (ha : a.idx = flow.idx)
    (hw : a.idx = weight.idx) (hn : ∀ e ∈ a.idx, a.src e ∈ balance.idx ∧ a.dst e ∈ balance.idx) :
    ∃ P, networkFlowCost a balance weight flow cost = some P ∧
      (P ↔ Flow a balance flow ∧ cost = ∑ e ∈ a.idx, weight e * flow e) :=
  networkFlowCost_iff a balance weight flow cost ha hw hn

/-- `knapsack` for at least one kind of item. -/
theorem _root_.MZ.C78_knapsack_partial (weight profit xs : Arr Int) (tw tp : Int) (hp : weight.idx = profit.idx)
    (hx : weight.idx = xs.idx) (hne : xs.idx.Nonempty) (hw0 : ∀ i ∈ xs.idx, 0 ≤ weight i) (hp0 : ∀ i ∈ xs.idx, 0 ≤ profit i) :
    ∃ P, knapsack weight profit xs tw tp = some P ∧ (P ↔ Knapsack weight profit xs tw tp) :=
  knapsack_iff weight profit xs tw tp hp hx hne hw0 hp0

/-- `knapsack` without items aborts, although nothing is packed then. -/
theorem _root_.MZ.C78_knapsack_fails : ∃ e : Arr Int, knapsack e e e 0 0 = none ∧ Knapsack e e e 0 0 := by
  refine ⟨⟨1, 0, fun _ => 0⟩, ?_, by decide, by decide, by decide⟩
  unfold knapsack
  rw [if_pos ⟨rfl, rfl⟩, if_neg (by decide)]

/-- One unit from node 1 through node 2 to node 3. -/
example : Flow ⟨1, 2, fun e => e, fun e => e + 1⟩ ⟨1, 3, fun n => if n = 1 then 1 else if n = 3 then -1 else 0⟩ ⟨1, 2, fun _ => 1⟩ := by
  unfold Flow; decide

example : fznSlidingSum 1 2 2 ⟨1, 3, fun i => if i = 2 then 1 else 0⟩ := by
  refine (C78_sliding_sum_partial _ _ _ _ ⟨1, by decide⟩ (by decide)).mpr ?_
  intro i h1 h2
  dsimp only at h1 h2
  have : i = 1 ∨ i = 2 := by omega
  rcases this with rfl | rfl <;> decide

/-! ## Piecewise linear functions -/

/-- `piecewise_linear` through at least two points, over the rational numbers: the points of the polyline. -/
theorem _root_.MZ.C78_piecewise_linear_partial (x y : Rat) (xk yk : Arr Rat) (hidx : xk.idx = yk.idx) (hlt : xk.lo < xk.hi) :
    ∃ P, fznPiecewiseLinear x y xk yk = some P ∧ (P ↔ OnPolyline x y xk yk) := piecewise_iff x y xk yk hidx hlt

/-- `piecewise_linear` through a single point has no solution. -/
theorem _root_.MZ.C78_piecewise_linear_fails : ∃ (x y : Rat) (xk yk : Arr Rat), OnPolyline x y xk yk ∧
    ∃ P, fznPiecewiseLinear x y xk yk = some P ∧ ¬ P := by
  refine ⟨1, 2, ⟨1, 1, fun _ => 1⟩, ⟨1, 1, fun _ => 2⟩, .inr ⟨rfl, rfl, rfl⟩, _, if_pos ⟨rfl, by decide⟩, ?_⟩
  rintro ⟨s, f, -, -, h, -⟩
  have : (⟨1, 1, fun _ => 1⟩ : Arr Rat).idx.erase 1 = ∅ := by decide
  rw [this] at h
  simp at h

/-- `piecewise_linear_non_continuous`, over the rational numbers. -/
theorem _root_.MZ.C78_piecewise_linear_non_continuous (x y : Rat) (xs xe ys ye : Arr Rat) (h1 : xs.idx = ys.idx)
    (h2 : xs.idx = ye.idx) (h3 : xs.idx = xe.idx) (hne : xs.idx.Nonempty) (hle : ∀ i ∈ xs.idx, xs i ≤ xe i) :
    ∃ P, fznPiecewiseLinearNonContinuous x y xs xe ys ye = some P ∧
      (P ↔ ∃ i ∈ xs.idx, (xs i < xe i ∧ OnSegment x y (xs i) (ys i) (xe i) (ye i)) ∨ (xs i = xe i ∧ x = xs i ∧ y = ys i)) :=
  nonContinuous_iff x y xs xe ys ye h1 h2 h3 hne hle

end MZ.Chan
