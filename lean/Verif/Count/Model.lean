import Verif.Globals.Base
import Mathlib.Data.Finset.Sort

/-!
# Counting constraints: the decompositions of the standard library

Files are under `share/minizinc/std`.  See `Verif/Globals/Base.lean` for the conventions.
-/

namespace MZ.Count
open MZ.Globals

/-! ## all_different and all_equal -/

/-- `fzn_all_different_int`: `fzn_all_different_int.mzn` 5–6. -/
def fznAllDifferentInt (xs : Arr Int) : Prop := ∀ i ∈ xs.idx, ∀ j ∈ xs.idx, i < j → xs i ≠ xs j

/-- `fzn_all_different_set`: `fzn_all_different_set.mzn` 5–6. -/
def fznAllDifferentSet (xs : Arr (Finset Int)) : Prop := ∀ i ∈ xs.idx, ∀ j ∈ xs.idx, i < j → xs i ≠ xs j

/-- `fzn_all_equal_int`: `fzn_all_equal_int.mzn` 5–6, and its wrapper `all_equal.mzn` 12–13. -/
def allEqual (xs : Arr Int) : Prop :=
  if xs.len ≤ 1 then True else ∀ i ∈ xs.idx, ∀ j ∈ xs.idx, i < j → xs i = xs j

/-! ## count -/

/-- `fzn_count_eq`: `fzn_count_eq.mzn` 1–2. -/
def countEq (xs : Arr Int) (value n : Int) : Prop := n = ∑ i ∈ xs.idx, b2i (xs i = value)

/-- The function `count(xs, value)` (`count_fn.mzn` 6, `count_eq.mzn` 100–104): a new variable `0..length(xs)`; `body` is
the constraint in which it is used. -/
def withCount (xs : Arr Int) (value : Int) (body : Int → Prop) : Prop :=
  ∃ n, 0 ≤ n ∧ n ≤ xs.len ∧ countEq xs value n ∧ body n

/-- `fzn_count_geq`: `fzn_count_geq.mzn` 3–4. -/
def countGeq (xs : Arr Int) (value n : Int) : Prop := withCount xs value (fun z => z ≤ n)
/-- `fzn_count_gt`: `fzn_count_gt.mzn` 3–4. -/
def countGt (xs : Arr Int) (value n : Int) : Prop := withCount xs value (fun z => z < n)
/-- `fzn_count_leq`: `fzn_count_leq.mzn` 3–4. -/
def countLeq (xs : Arr Int) (value n : Int) : Prop := withCount xs value (fun z => z ≥ n)
/-- `fzn_count_lt`: `fzn_count_lt.mzn` 3–4. -/
def countLt (xs : Arr Int) (value n : Int) : Prop := withCount xs value (fun z => z > n)
/-- `fzn_count_neq`: `fzn_count_neq.mzn` 3–4. -/
def countNeq (xs : Arr Int) (value n : Int) : Prop := withCount xs value (fun z => z ≠ n)

/-- `count_eq` with optional elements: `count_eq.mzn` 54–63; `domV` is `dom(value)` and `lbV` its minimum. -/
def countEqOpt (xs : Arr (Option Int)) (value n : Int) (domV : Finset Int) (lbV : Int) : Prop :=
  countEq (xs.compr (fun x => x.getD (if 0 ∈ domV then lbV - 1 else 0))) value n

/-- `fzn_at_least_int`: `fzn_at_least_int.mzn` 7. -/
def atLeast (n : Int) (xs : Arr Int) (value : Int) : Prop := withCount xs value (fun c => c ≥ n)
/-- `fzn_at_most_int`: `fzn_at_most_int.mzn` 7. -/
def atMost (n : Int) (xs : Arr Int) (value : Int) : Prop := withCount xs value (fun c => c ≤ n)
/-- `fzn_exactly_int`: `fzn_exactly_int.mzn` 7. -/
def exactly (n : Int) (xs : Arr Int) (value : Int) : Prop := withCount xs value (fun c => n = c)

/-- `fzn_among`: `fzn_among.mzn` 1–2. -/
def among (n : Int) (xs : Arr Int) (values : Finset Int) : Prop := n = ∑ i ∈ xs.idx, b2i (xs i ∈ values)

/-- `fzn_distribute`: `fzn_distribute.mzn` 3–7. -/
def distribute (count cover xs : Arr Int) : Prop := ∀ i ∈ count.idx, countEq xs (cover i) (count i)

/-! ## global_cardinality -/

/-- `fzn_global_cardinality`: `fzn_global_cardinality.mzn` 3–10. -/
def fznGcc (xs cover count : Arr Int) : Prop :=
  (∀ i ∈ cover.idx, countEq xs (cover i) (count i)) ∧ xs.len ≥ ∑ i ∈ count.idx, count i

/-- `fzn_global_cardinality_reif`: `fzn_global_cardinality_reif.mzn` 3–14. -/
def fznGccReif (xs cover count : Arr Int) (b : Prop) : Prop :=
  b ↔ ((∀ i ∈ cover.idx, countEq xs (cover i) (count i)) ∧ xs.len ≥ ∑ i ∈ count.idx, count i)

/-- `global_cardinality`: `global_cardinality.mzn` 48–66; the index sets agree. -/
def gcc (xs cover count : Arr Int) : Prop :=
  if xs.len = 0 then ∀ i ∈ count.idx, count i = 0 else fznGcc xs cover count

/-- `x in {d | d in cover}`. -/
def inCover (cover : Arr Int) (v : Int) : Prop := v ∈ cover.idx.image cover

/-- `fzn_global_cardinality_closed`: `fzn_global_cardinality_closed.mzn` 3–7. -/
def fznGccClosed (xs cover count : Arr Int) : Prop := (∀ i ∈ xs.idx, inCover cover (xs i)) ∧ gcc xs cover count

/-- `global_cardinality_closed`: `global_cardinality_closed.mzn` 50–72. -/
def gccClosed (xs cover count : Arr Int) : Prop :=
  if xs.len = 0 then ∀ i ∈ count.idx, count i = 0 else fznGccClosed xs cover count

/-- `fzn_global_cardinality_low_up`: `fzn_global_cardinality_low_up.mzn` 3–17; `count (xi in xs) (xi = c)` is a sum. -/
def fznGccLowUp (xs cover lower upper : Arr Int) : Prop :=
  ∀ i ∈ cover.idx,
    if upper i ≥ xs.len then ∑ k ∈ xs.idx, b2i (xs k = cover i) ≥ lower i
    else if lower i ≤ 0 then ∑ k ∈ xs.idx, b2i (xs k = cover i) ≤ upper i
    else lower i ≤ ∑ k ∈ xs.idx, b2i (xs k = cover i) ∧ ∑ k ∈ xs.idx, b2i (xs k = cover i) ≤ upper i

/-- `fzn_global_cardinality_low_up_reif`: `fzn_global_cardinality_low_up_reif.mzn` 3–9 (the counts are total). -/
def fznGccLowUpReif (xs cover lower upper : Arr Int) (b : Prop) : Prop :=
  b ↔ ∀ i ∈ cover.idx, lower i ≤ ∑ k ∈ xs.idx, b2i (xs k = cover i) ∧ ∑ k ∈ xs.idx, b2i (xs k = cover i) ≤ upper i

open Classical in
/-- `global_cardinality` with bounds: `global_cardinality.mzn` 95–127; the index sets agree. -/
noncomputable def gccLowUp (xs cover lower upper : Arr Int) : Option Prop :=
  if xs.len = 0 then
    if ((∀ i ∈ lower.idx, lower i ≤ 0) ∧ (∀ i ∈ upper.idx, upper i ≥ 0)) ∨ cover.len = 0 then some True else none
  else some (fznGccLowUp xs cover lower upper)

/-- `fzn_global_cardinality_low_up_closed`: `fzn_global_cardinality_low_up_closed.mzn` 1–10.  The inner call has a
non-empty `xs`, so it does not abort. -/
def fznGccLowUpClosed (xs cover lower upper : Arr Int) : Prop :=
  (∀ i ∈ xs.idx, inCover cover (xs i)) ∧ fznGccLowUp xs cover lower upper ∧
    (∑ i ∈ lower.idx, lower i ≤ xs.len ∧ xs.len ≤ ∑ i ∈ upper.idx, upper i)

open Classical in
/-- `global_cardinality_closed` with bounds: `global_cardinality_closed.mzn` 104–142. -/
noncomputable def gccLowUpClosed (xs cover lower upper : Arr Int) : Option Prop :=
  if xs.len = 0 then
    if ((∀ i ∈ lower.idx, lower i ≤ 0) ∧ (∀ i ∈ upper.idx, upper i ≥ 0)) ∨ cover.len = 0 then some True else none
  else if cover.len = 0 then none
  else some (fznGccLowUpClosed xs cover lower upper)

/-- The value that stands for absent elements: `fzn_global_cardinality_opt.mzn` 10, `fzn_global_cardinality_low_up_opt.mzn`
11. -/
def coverDef (cover : Arr Int) : Int := if 0 ∈ cover.idx.image cover then minOf cover.idx cover - 1 else 0

/-- `global_cardinality` with optional elements: `global_cardinality.mzn` 71–89, `fzn_global_cardinality_opt.mzn` 3–11. -/
def gccOpt (xs : Arr (Option Int)) (cover count : Arr Int) : Prop :=
  if xs.len = 0 then ∀ i ∈ count.idx, count i = 0
  else gcc (xs.compr (fun x => x.getD (coverDef cover))) cover count

open Classical in
/-- `global_cardinality` with bounds and optional elements: `global_cardinality.mzn` 133–165,
`fzn_global_cardinality_low_up_opt.mzn` 3–12. -/
noncomputable def gccLowUpOpt (xs : Arr (Option Int)) (cover lower upper : Arr Int) : Option Prop :=
  if xs.len = 0 then
    if ((∀ i ∈ lower.idx, lower i ≤ 0) ∧ (∀ i ∈ upper.idx, upper i ≥ 0)) ∨ cover.len = 0 then some True else none
  else gccLowUp (xs.compr (fun x => x.getD (coverDef cover))) cover lower upper

/-- `global_cardinality_closed` with optional elements: `global_cardinality_closed.mzn` 79–96,
`fzn_global_cardinality_closed_opt.mzn` 3–9. -/
def gccClosedOpt (xs : Arr (Option Int)) (cover count : Arr Int) : Prop :=
  if xs.len = 0 then ∀ i ∈ count.idx, count i = 0
  else (∀ i ∈ xs.idx, xs i = none ∨ ∃ v, xs i = some v ∧ inCover cover v) ∧ gccOpt xs cover count

open Classical in
/-- `global_cardinality_closed` with bounds and optional elements: `global_cardinality_closed.mzn` 150–188,
`fzn_global_cardinality_low_up_closed_opt.mzn` 3–10. -/
noncomputable def gccLowUpClosedOpt (xs : Arr (Option Int)) (cover lower upper : Arr Int) : Option Prop :=
  if xs.len = 0 then
    if ((∀ i ∈ lower.idx, lower i ≤ 0) ∧ (∀ i ∈ upper.idx, upper i ≥ 0)) ∨ cover.len = 0 then some True else none
  else if cover.len = 0 then none
  else (gccLowUpOpt xs cover lower upper).map
    (fun p => (∀ i ∈ xs.idx, xs i = none ∨ ∃ v, xs i = some v ∧ inCover cover v) ∧ p)

/-- `fzn_global_cardinality_set`: `fzn_global_cardinality_set.mzn` 1–5, with its wrapper `global_cardinality.mzn` 170–188. -/
def gccSet (xs : Arr (Finset Int)) (cover count : Arr Int) : Prop :=
  if xs.len = 0 then ∀ i ∈ count.idx, count i = 0
  else ∀ i ∈ cover.idx, count i = ∑ k ∈ xs.idx, b2i (cover i ∈ xs k)

/-! ## all_different with exceptions -/

/-- `fzn_alldifferent_except`: `fzn_alldifferent_except.mzn` 2–11.  `dom` is `dom_array(xs)`, or `none` if some element has
no bounds.  The cover `set2array(A)` is indexed from 1 in increasing order. -/
noncomputable def alldifferentExcept (xs : Arr Int) (except : Finset Int) (dom : Option (Finset Int)) : Option Prop :=
  match dom with
  | some D =>
    let A := (D \ except).sort (· ≤ ·)
    gccLowUp xs ⟨1, A.length, fun k => A.getD (k - 1).toNat 0⟩ ⟨1, A.length, fun _ => 0⟩ ⟨1, A.length, fun _ => 1⟩
  | none => some (∀ i ∈ xs.idx, ∀ j ∈ xs.idx, i < j → (xs i ∈ except ∧ xs j ∈ except) ∨ xs i ≠ xs j)

/-- `all_different` with a set of exceptions: `all_different.mzn` 20–25. -/
noncomputable def allDifferent (xs : Arr Int) (except : Finset Int) (dom : Option (Finset Int)) : Option Prop :=
  if except = ∅ then some (fznAllDifferentInt xs) else alldifferentExcept xs except dom

/-- `fzn_all_different_int_opt`: `fzn_all_different_int_opt.mzn` 8–18, with `fzn_alldifferent_except_0.mzn` 3.  `had0` is
`had_zero(xs)`, `lb` is `lb_array(xs)` and `dom` is `dom_array` of the new array. -/
noncomputable def allDifferentOpt (xs : Arr (Option Int)) (had0 : Bool) (lb : Int) (dom : Option (Finset Int)) : Option Prop :=
  if had0 then alldifferentExcept (xs.compr (fun x => x.getD (lb - 1))) {lb - 1} dom
  else alldifferentExcept (xs.compr (fun x => x.getD 0)) {0} dom

/-! ## nvalue -/

open Classical in
/-- `fzn_nvalue` and its wrapper: `fzn_nvalue.mzn` 1–10, `nvalue.mzn` 9–10; `lx..ux` is `lb_array(xs)..ub_array(xs)`. -/
def nvalue (n : Int) (xs : Arr Int) (lx ux : Int) : Prop :=
  if xs.len = 0 then n = 0
  else n = ∑ j ∈ Finset.Icc lx ux, b2i (∃ i ∈ xs.idx, xs i = j)

/-- `nvalue` with optional elements: `nvalue.mzn` 15–21; `dom` is `dom_array(xs)`, `lx..ux` the bounds of the new array.  The
comprehension has the indices `1..length(xs)`, and `def` is appended. -/
def nvalueOpt (n : Int) (xs : Arr (Option Int)) (dom : Finset Int) (lx ux : Int) : Prop :=
  if xs.len = 0 then n = 0
  else
    let d := if 0 ∈ dom then minOf dom id - 1 else 0
    nvalue (n + 1)
      ⟨1, xs.len + 1, fun k => if k ≤ xs.len then (xs.compr (fun x => x.getD d)) k else d⟩ lx ux

/-! ## sets -/

/-- `fzn_at_most1`: `fzn_at_most1.mzn` 1–2. -/
def atMost1 (xs : Arr (Finset Int)) : Prop := ∀ i ∈ xs.idx, ∀ j ∈ xs.idx, i < j → (xs i ∩ xs j).card ≤ 1

/-- `fzn_all_disjoint` and `fzn_disjoint`: `fzn_all_disjoint.mzn` 3–4, `fzn_disjoint.mzn` 1. -/
def allDisjoint (xs : Arr (Finset Int)) : Prop := ∀ i ∈ xs.idx, ∀ j ∈ xs.idx, i < j → xs i ∩ xs j = ∅

/-- `fzn_partition_set`: `fzn_partition_set.mzn` 3–4. -/
def partitionSet (xs : Arr (Finset Int)) (univ : Finset Int) : Prop :=
  allDisjoint xs ∧ univ = xs.idx.biUnion xs

/-- `fzn_sum_set`: `fzn_sum_set.mzn` 1–6. -/
def sumSet (values weights : Arr Int) (selected : Finset Int) (total : Int) : Prop :=
  total = ∑ j ∈ values.idx, b2i (values j ∈ selected) * weights j

/-- `fzn_int_set_channel`: `fzn_int_set_channel.mzn` 1–4. -/
def intSetChannel (ints : Arr Int) (sets : Arr (Finset Int)) : Prop :=
  (∀ i ∈ ints.idx, ints i ∈ sets.idx) ∧ (∀ j ∈ sets.idx, sets j ⊆ ints.idx) ∧
    ∀ i ∈ ints.idx, ∀ j ∈ sets.idx, (ints i = j ↔ i ∈ sets j)

end MZ.Count
