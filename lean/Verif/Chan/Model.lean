import Verif.Count.Model
import Verif.LexOrd.Model
import Verif.Chan.Spec
import Mathlib.Data.Finset.Sort

/-! # The channelling, sorting, array and arithmetic constraints of the standard library

The files cited are in `share/minizinc/std`.  The model is the relation that a predicate puts on the values of its arguments; see
`Verif.Globals.Base`. -/

namespace MZ.Chan
open MZ.Globals MZ.Chan.Spec

/-! ## Channelling -/

/-- `fzn_inverse` (`fzn_inverse.mzn` 1–3). -/
def fznInverse (f invf : Arr Int) : Prop :=
  (∀ i ∈ f.idx, f i ∈ invf.idx ∧ (f i ∈ invf.idx ∧ invf (f i) = i)) ∧
    ∀ j ∈ invf.idx, invf j ∈ f.idx ∧ (invf j ∈ f.idx ∧ f (invf j) = j)

/-- The two implications of `fzn_inverse_in_range` (`fzn_inverse_in_range.mzn` 4–5), which is all that the reified version has
(`fzn_inverse_in_range_reif.mzn` 6–10). -/
def inRangeCore (xs ys : Arr Int) : Prop :=
  (∀ i ∈ xs.idx, xs i ∈ ys.idx → (xs i ∈ ys.idx ∧ ys (xs i) = i)) ∧
    ∀ j ∈ ys.idx, ys j ∈ xs.idx → (ys j ∈ xs.idx ∧ xs (ys j) = j)

/-- The array `[i | i in S]` of a set. -/
def ofSet (S : Finset Int) : Arr Int where
  lo := 1
  hi := S.card
  val := fun k => (S.sort (· ≤ ·)).getD (k - 1).toNat 0

/-- `strengthen_injection_for_inverse_in_range` (`fzn_inverse_in_range.mzn` 9–15): `dom j` is `dom(invf[j])`. -/
def strengthen (f invf : Arr Int) (dom : Int → Finset Int) : Prop :=
  let s := invf.idx.filter (fun j => dom j ⊆ f.idx)
  Count.gcc f (ofSet s) ⟨1, s.card, fun _ => 1⟩

/-- `fzn_inverse_in_range` (`fzn_inverse_in_range.mzn` 3–7). -/
def fznInverseInRange (xs ys : Arr Int) (domx domy : Int → Finset Int) : Prop :=
  inRangeCore xs ys ∧ strengthen xs ys domy ∧ strengthen ys xs domx

/-- `fzn_inverse_in_range_reif` (`fzn_inverse_in_range_reif.mzn` 1–10). -/
def fznInverseInRangeReif (xs ys : Arr Int) (b : Prop) : Prop := b ↔ inRangeCore xs ys

/-- The constraint `a[x] = i` for an optional index and optional elements: an absent index gives an absent result, an index out
of range makes the constraint false, and an absent value is not equal to `i` (`stdlib/stdlib_opt.mzn`; see `Verif.Access`). -/
def accessEq (a : Arr (Option Int)) (x : Option Int) (i : Int) : Prop := ∃ v, x = some v ∧ v ∈ a.idx ∧ a v = some i

/-- `fzn_inverse_opt` (`fzn_inverse_opt.mzn` 3–7).  `all_different` of optional variables is taken by its meaning, see `C74`. -/
def fznInverseOpt (f invf : Arr (Option Int)) : Prop :=
  (∀ i ∈ f.idx, ∀ j ∈ f.idx, i < j → f i = f j → f i = none) ∧
  (∀ i ∈ invf.idx, ∀ j ∈ invf.idx, i < j → invf i = invf j → invf i = none) ∧
  (∀ i ∈ f.idx, (f i).isSome = true ↔ accessEq invf (f i) i) ∧
  ∀ j ∈ invf.idx, (invf j).isSome = true ↔ accessEq f (invf j) j

/-- `fzn_inverse_set` (`fzn_inverse_set.mzn` 1–4). -/
def fznInverseSet (f invf : Arr (Finset Int)) : Prop :=
  (∀ i ∈ f.idx, f i ⊆ invf.idx) ∧ (∀ j ∈ invf.idx, invf j ⊆ f.idx) ∧
    ∀ i ∈ f.idx, ∀ j ∈ invf.idx, j ∈ f i ↔ i ∈ invf j

/-- `fzn_link_set_to_booleans` (`fzn_link_set_to_booleans.mzn` 1–2) with the assertion of `link_set_to_booleans.mzn` 12–17:
`ub` is `ub(s)`. -/
def linkSetToBooleans (s ub : Finset Int) (bs : Arr Bool) : Option Prop :=
  if ub ⊆ bs.idx then some (∀ i ∈ bs.idx, bs i = true ↔ i ∈ s) else none

/-- `fzn_int_set_channel` (`fzn_int_set_channel.mzn` 1–4). -/
def fznIntSetChannel (ints : Arr Int) (sets : Arr (Finset Int)) : Prop :=
  (∀ i ∈ ints.idx, ints i ∈ sets.idx) ∧ (∀ j ∈ sets.idx, sets j ⊆ ints.idx) ∧
    ∀ i ∈ ints.idx, ∀ j ∈ sets.idx, ints i = j ↔ i ∈ sets j

/-- `fzn_symmetric_all_different` (`fzn_symmetric_all_different.mzn` 4–5). -/
def fznSymmetricAllDifferent (xs : Arr Int) : Prop := Count.fznAllDifferentInt xs ∧ fznInverse xs xs

/-! ## Sorting -/

/-- `fzn_sort` (`fzn_sort.mzn` 4–7) with the assertion of `sort.mzn` 10–15. -/
def sort (xs ys : Arr Int) : Option Prop :=
  if xs.len = ys.len then
    some (∃ p : Arr Int, p.lo = xs.lo ∧ p.hi = xs.hi ∧ (∀ i ∈ p.idx, p i ∈ ys.idx) ∧
      (∀ i ∈ xs.idx, ys (p i) = xs i) ∧ Count.fznAllDifferentInt p ∧ LexOrd.increasing ys)
  else none

section
variable {α : Type} [LinearOrder α]

/-- `fzn_arg_sort_int` and `fzn_arg_sort_float` (`fzn_arg_sort_int.mzn` 3–7): every access has to be in range. -/
def fznArgSort (xs : Arr α) (p : Arr Int) : Prop :=
  Count.fznAllDifferentInt p ∧
    ∀ j ∈ Finset.Icc 1 (xs.len - 1),
      (j ∈ p.idx ∧ j + 1 ∈ p.idx ∧ p j ∈ xs.idx ∧ p (j + 1) ∈ xs.idx) ∧
        xs (p j) ≤ xs (p (j + 1)) ∧ (xs (p j) = xs (p (j + 1)) → p j < p (j + 1))

/-- The function `arg_sort` (`arg_sort.mzn` 32–43, 51–62): `p` is its result. -/
def argSortFn (xs : Arr α) (p : Arr Int) : Prop :=
  p.lo = 1 ∧ p.hi = xs.len ∧ (xs.len = 0 ∨ (∀ j ∈ p.idx, p j ∈ xs.idx) ∧ fznArgSort xs p)

end

/-! ## Index of the greatest, the least, or a given element -/

/-- `fzn_maximum_arg_int` and `fzn_maximum_arg_bool` (`fzn_arg_max_int.mzn` 1–9, `fzn_arg_max_bool.mzn` 1–9; Booleans are 0
and 1).  The minimum of an empty index set is undefined. -/
def fznMaximumArg (xs : Arr Int) (m : Int) : Prop :=
  xs.idx.Nonempty ∧
    let l := xs.lo; let u := xs.hi; let n := u - l + 1
    let w := fun j => n * xs j + (u - j)
    ∀ j ∈ Finset.Icc l u, (m ≠ j) ↔ (maxOf (Finset.Icc l u) w > w j)

/-- `fzn_minimum_arg_int` and `fzn_minimum_arg_bool` (`fzn_arg_min_int.mzn` 1–9, `fzn_arg_min_bool.mzn` 1–9). -/
def fznMinimumArg (xs : Arr Int) (m : Int) : Prop :=
  xs.idx.Nonempty ∧
    let l := xs.lo; let u := xs.hi; let n := u - l + 1
    let w := fun j => n * xs j + j
    ∀ j ∈ Finset.Icc l u, (m ≠ j) ↔ (minOf (Finset.Icc l u) w < w j)

/-- `arg_max` and `maximum_arg` of integers or Booleans (`arg_max.mzn` 19–31, 144–162, 234–244). -/
def argMax (xs : Arr Int) (m : Int) : Prop :=
  0 < xs.len ∧ (if xs.len = 0 then m = 0 else m ∈ Finset.Icc xs.lo xs.hi ∧ fznMaximumArg xs m)

/-- `arg_min` and `minimum_arg` of integers or Booleans (`arg_min.mzn` 19–31, 144–162, 234–244). -/
def argMin (xs : Arr Int) (m : Int) : Prop :=
  0 < xs.len ∧ (if xs.len = 0 then m = 0 else m ∈ Finset.Icc xs.lo xs.hi ∧ fznMinimumArg xs m)

/-- The array `xs ++ [v]` with the index set `min(index_set(xs))..max(index_set(xs)) + 1` (`arg_max.mzn` 68–69). -/
def extend {β : Type} (xs : Arr β) (v : β) : Arr β := ⟨xs.lo, xs.hi + 1, fun i => if i ≤ xs.hi then xs i else v⟩

/-- The value that stands for an absent element in `fzn_arg_max_int_opt.mzn` 5: `had0` is `had_zero(xs)` and `lb` is
`lb_array(xs)`. -/
def defMax (had0 : Bool) (lb : Int) : Int := if !had0 && decide (lb > 0) then 0 else lb - 1

/-- The value that stands for an absent element in `fzn_arg_min_int_opt.mzn` 5. -/
def defMin (had0 : Bool) (ub : Int) : Int := if !had0 && decide (ub < 0) then 0 else ub + 1

/-- Optional elements with a default value, with the index set of `xs` (`fzn_arg_max_int_opt.mzn` 6). -/
def withDefault {β : Type} (xs : Arr (Option β)) (d : β) : Arr β := ⟨xs.lo, xs.hi, fun i => (xs i).getD d⟩

/-- `fzn_maximum_arg_int_opt` (`fzn_arg_max_int_opt.mzn` 3–6). -/
def fznMaximumArgOpt (xs : Arr (Option Int)) (had0 : Bool) (lb : Int) (m : Int) : Prop :=
  argMax (withDefault xs (defMax had0 lb)) m

/-- `fzn_minimum_arg_int_opt` (`fzn_arg_min_int_opt.mzn` 3–6). -/
def fznMinimumArgOpt (xs : Arr (Option Int)) (had0 : Bool) (ub : Int) (m : Int) : Prop :=
  argMin (withDefault xs (defMin had0 ub)) m

/-- `fzn_maximum_arg_bool_opt` (`fzn_arg_max_bool_opt.mzn` 3–6): `(xi + 1) default 0`. -/
def fznMaximumArgBoolOpt (xs : Arr (Option Bool)) (m : Int) : Prop :=
  argMax ⟨xs.lo, xs.hi, fun i => ((xs i).map (fun b : Bool => b2i (b = true) + 1)).getD 0⟩ m

/-- `fzn_minimum_arg_bool_opt` (`fzn_arg_min_bool_opt.mzn` 3–6): `xi default 2`. -/
def fznMinimumArgBoolOpt (xs : Arr (Option Bool)) (m : Int) : Prop :=
  argMin ⟨xs.lo, xs.hi, fun i => ((xs i).map (fun b : Bool => b2i (b = true))).getD 2⟩ m

/-- `arg_max_weak` of optional integers (`arg_max.mzn` 56–74).  `known` says that the test at line 61 finds an element that is
present for sure; `lb` is `lb_array(xs)`, `none` where that aborts, as it does when all elements are the absent literal
(`lib/builtins.cpp` 394–407). -/
def argMaxWeak (xs : Arr (Option Int)) (known had0 : Bool) (lb : Option Int) (r : Option Int) : Option Prop :=
  if xs.len = 0 then some (r = none)
  else lb.bind fun l =>
    some (if known then ∃ i ∈ xs.idx, fznMaximumArgOpt xs had0 l i ∧ r = some i
    else ∃ i ∈ Finset.Icc xs.lo (xs.hi + 1), fznMaximumArgOpt (extend xs (some l)) had0 l i ∧
      r = if i ∈ xs.idx then some i else none)

/-- `arg_min_weak` of optional integers (`arg_min.mzn` 56–74). -/
def argMinWeak (xs : Arr (Option Int)) (known had0 : Bool) (ub : Option Int) (r : Option Int) : Option Prop :=
  if xs.len = 0 then some (r = none)
  else ub.bind fun l =>
    some (if known then ∃ i ∈ xs.idx, fznMinimumArgOpt xs had0 l i ∧ r = some i
    else ∃ i ∈ Finset.Icc xs.lo (xs.hi + 1), fznMinimumArgOpt (extend xs (some l)) had0 l i ∧
      r = if i ∈ xs.idx then some i else none)

/-- `arg_max_weak` of optional Booleans (`arg_max.mzn` 90–108). -/
def argMaxWeakBool (xs : Arr (Option Bool)) (known : Bool) (r : Option Int) : Prop :=
  if xs.len = 0 then r = none
  else if known then ∃ i ∈ xs.idx, fznMaximumArgBoolOpt xs i ∧ r = some i
  else ∃ i ∈ Finset.Icc xs.lo (xs.hi + 1), fznMaximumArgBoolOpt (extend xs (some false)) i ∧
    r = if i ∈ xs.idx then some i else none

/-- `arg_min_weak` of optional Booleans (`arg_min.mzn` 90–108). -/
def argMinWeakBool (xs : Arr (Option Bool)) (known : Bool) (r : Option Int) : Prop :=
  if xs.len = 0 then r = none
  else if known then ∃ i ∈ xs.idx, fznMinimumArgBoolOpt xs i ∧ r = some i
  else ∃ i ∈ Finset.Icc xs.lo (xs.hi + 1), fznMinimumArgBoolOpt (extend xs (some true)) i ∧
    r = if i ∈ xs.idx then some i else none

/-- `arg_max` of optional integers (`arg_max.mzn` 46–49, 174–190). -/
def argMaxOpt (xs : Arr (Option Int)) (known had0 : Bool) (lb : Option Int) (r : Int) : Option Prop :=
  if xs.len = 0 then some False
  else lb.bind fun l =>
    some (if known then ∃ i ∈ xs.idx, fznMaximumArgOpt xs had0 l i ∧ r = i
    else ∃ i ∈ Finset.Icc xs.lo (xs.hi + 1), fznMaximumArgOpt (extend xs (some l)) had0 l i ∧
      r = if i ∈ xs.idx then i else xs.lo)

section
variable {α : Type} [LinearOrder α]

/-- `fzn_maximum_arg_float` (`fzn_arg_max_float.mzn` 1–26).  `lb j` is `lb(xs[j])`, `ly` is `lb_array(xs)` and `uy` is
`ub_array(xs)`.  Floats are modelled by a linear order. -/
def fznMaximumArgFloat (xs : Arr α) (lb : Int → α) (ly uy : α) (m : Int) : Prop :=
  xs.idx.Nonempty ∧
    let l := xs.lo; let u := xs.hi
    if (∃ j ∈ Finset.Icc l u, lb j = uy) then
      ∃ d : Int → Prop,
        (m ∈ xs.idx ∧ xs m = uy) ∧
        (∀ j ∈ Finset.Icc l u, xs j = uy → m ≤ j) ∧
        (d l ↔ xs l = uy) ∧
        (∀ j ∈ Finset.Icc (l + 1) u, d j ↔ (d (j - 1) ∨ xs j = uy)) ∧
        ∀ j ∈ Finset.Icc l u, ¬ d j → m ≥ j + 1
    else
      ∃ (y : Int → α) (mi : Int → Int),
        (∀ j ∈ Finset.Icc l u, ly ≤ y j ∧ y j ≤ uy) ∧ (∀ j ∈ Finset.Icc l u, mi j ∈ Finset.Icc l u) ∧
        y l = xs l ∧ mi l = l ∧ m = mi u ∧
        ∀ j ∈ Finset.Icc (l + 1) u, y j = max (xs j) (y (j - 1)) ∧
          mi j = if y (j - 1) ≥ xs j then mi (j - 1) else j

end

/-- `fzn_arg_val_int` (`fzn_arg_val_int.mzn` 3–4). -/
def fznArgVal (xs : Arr Int) (value : Int) (m : Int) : Prop :=
  fznMaximumArg (Arr.ofFn xs.lo xs.hi (fun j => b2i (xs j = value))) m ∧ (m ∈ xs.idx ∧ xs m = value)

/-- `fzn_arg_val_bool` (`fzn_arg_val_bool.mzn` 4–5). -/
def fznArgValBool (xs : Arr Bool) (value : Bool) (m : Int) : Prop :=
  (if value then fznMaximumArg (Arr.ofFn xs.lo xs.hi (fun j => b2i (xs j = true))) m
    else fznMinimumArg (Arr.ofFn xs.lo xs.hi (fun j => b2i (xs j = true))) m) ∧ (m ∈ xs.idx ∧ xs m = value)

/-- `arg_val` of integers (`arg_val.mzn` 202–215). -/
def argVal (xs : Arr Int) (value : Int) (m : Int) : Prop := 0 < xs.len ∧ m ∈ xs.idx ∧ fznArgVal xs value m

/-- `arg_val` of Booleans (`arg_val.mzn` 38–51). -/
def argValBool (xs : Arr Bool) (value : Bool) (m : Int) : Prop := 0 < xs.len ∧ m ∈ xs.idx ∧ fznArgValBool xs value m

/-- `arg_val_weak` of integers (`arg_val.mzn` 222–235). -/
def argValWeak (xs : Arr Int) (value : Int) (r : Option Int) : Prop :=
  if xs.len = 0 then r = none
  else ∃ i ∈ Finset.Icc xs.lo (xs.hi + 1), fznArgVal (extend xs value) value i ∧ r = if i ∈ xs.idx then some i else none

/-- `fzn_arg_val_int_opt` (`fzn_arg_val_int_opt.mzn` 3–8): the comprehension `[xi default def | xi in xs]` is indexed from 1.
`had0` and `lb` are `had_zero` and `lb_array` of `xs ++ [value]`. -/
def fznArgValOpt (xs : Arr (Option Int)) (value : Option Int) (had0 : Bool) (lb : Int) (m : Int) : Prop :=
  fznArgVal (xs.compr (fun x => x.getD (defMax had0 lb))) (value.getD (defMax had0 lb)) m

/-- `arg_val` of optional integers (`arg_val.mzn` 242–255). -/
def argValOpt (xs : Arr (Option Int)) (value : Option Int) (had0 : Bool) (lb : Int) (m : Int) : Prop :=
  0 < xs.len ∧ m ∈ xs.idx ∧ fznArgValOpt xs value had0 lb m

/-! ## Images of functions -/

/-- `fzn_range` (`fzn_range.mzn` 1–7) with the assertion of `range.mzn` 11–16: `ubd` is `ub(domain)`, `ubi` is `ub(image)`. -/
def range (xs : Arr Int) (dom image ubd ubi : Finset Int) : Option Prop :=
  if ubd ⊆ xs.idx then
    some ((∀ i ∈ ubd, i ∈ dom → xs i ∈ image) ∧ ∀ i ∈ ubi, i ∈ image → ∃ j ∈ ubd, j ∈ dom ∧ xs j = i)
  else none

/-- `fzn_roots` (`fzn_roots.mzn` 1–4) with the assertion of `roots.mzn` 10–15. -/
def roots (xs : Arr Int) (pre image ubp ubi : Finset Int) : Option Prop :=
  if ubp ⊆ xs.idx then
    some ((∀ i ∈ ubp, i ∈ pre → xs i ∈ image) ∧ ∀ i ∈ ubi, i ∈ image → ∀ j ∈ xs.idx, xs j = i → j ∈ pre)
  else none

/-! ## Writing into arrays -/

/-- `fzn_write` (`fzn_write.mzn` 1–2). -/
def fznWrite (I : Arr Int) (i v : Int) (O : Arr Int) : Prop := ∀ j ∈ I.idx, O j = if j = i then v else I j

/-- `fzn_writes` (`fzn_writes.mzn` 1–10). -/
def fznWrites (I P V O : Arr Int) : Prop :=
  (∀ j ∈ P.idx, P j ∈ O.idx ∧ O (P j) = V j) ∧ ∀ i ∈ I.idx, if ∀ j ∈ P.idx, P j ≠ i then O i = I i else True

/-- `fzn_writes_seq` (`fzn_writes_seq.mzn` 3–15): the `k`-th element of `reverse(V) ++ [I[i]]`, and of
`reverse([P[j] == i | j in index_set(V)]) ++ [true]`. -/
def fznWritesSeq (I P V O : Arr Int) : Prop :=
  ∀ i ∈ I.idx,
    let n := V.len
    let Vi : Arr Int := ⟨1, n + 1, fun k => if k ≤ n then V (V.hi - (k - 1)) else I i⟩
    let Pi : Arr Int := ⟨1, n + 1, fun k => if k ≤ n then b2i (P (V.hi - (k - 1)) = i) else 1⟩
    ∃ m, argMax Pi m ∧ m ∈ Vi.idx ∧ O i = Vi m

/-! ## Sums -/

/-- `fzn_sliding_sum` (`fzn_sliding_sum.mzn` 1–10): the minimum of an empty index set is undefined. -/
def fznSlidingSum (low up w : Int) (xs : Arr Int) : Prop :=
  xs.idx.Nonempty ∧
    let lx := xs.lo; let ux := xs.hi
    ∃ S : Arr Int, S.lo = lx - 1 ∧ S.hi = ux ∧ S (lx - 1) = 0 ∧
      (∀ i ∈ Finset.Icc lx ux, S i = xs i + S (i - 1)) ∧
      ∀ i ∈ Finset.Icc (lx - 1) (ux - w),
        (i ∈ S.idx ∧ i + w ∈ S.idx) ∧ S i ≤ S (i + w) - low ∧ S (i + w) ≤ S i + up

/-- `fzn_sum_pred` (`fzn_sum_pred.mzn` 1–9): `sums` is declared with the index set of `sets`, and its value, a comprehension,
is indexed from 1, so that another index set is a mismatch (`lib/flatten.cpp` 2395–2425). -/
def fznSumPred (m : Int) (sets : Arr (Finset Int)) (coef : Arr Int) (total : Int) : Option Prop :=
  if sets.idx = Finset.Icc 1 sets.len then
    some ((∀ j ∈ sets.idx, sets j ⊆ coef.idx) ∧ m ∈ sets.idx ∧ (∑ k ∈ sets m, coef k) = total)
  else none

/-- `fzn_network_flow` (`fzn_network_flow.mzn` 1–15). -/
def fznNetworkFlow (a : Arcs) (balance flow : Arr Int) : Prop :=
  ∀ i ∈ balance.idx, ∑ j ∈ a.idx.filter (fun j => i = a.src j), flow j -
    ∑ j ∈ a.idx.filter (fun j => i = a.dst j), flow j = balance i

/-- `network_flow` (`network_flow.mzn` 26–50). -/
def networkFlow (a : Arcs) (balance flow : Arr Int) : Option Prop :=
  if a.idx = flow.idx then
    if ∀ e ∈ a.idx, a.src e ∈ balance.idx ∧ a.dst e ∈ balance.idx then
      some (if ∑ n ∈ balance.idx, balance n ≠ 0 then False else fznNetworkFlow a balance flow)
    else none
  else none

/-- `network_flow_cost` (`network_flow.mzn` 61–99, `fzn_network_flow_cost.mzn` 1–18). -/
def networkFlowCost (a : Arcs) (balance weight flow : Arr Int) (cost : Int) : Option Prop :=
  if a.idx = flow.idx then
    if a.idx = weight.idx then
      if ∀ e ∈ a.idx, a.src e ∈ balance.idx ∧ a.dst e ∈ balance.idx then
        some (if ∑ n ∈ balance.idx, balance n ≠ 0 then False
          else cost = ∑ i ∈ a.idx, flow i * weight i ∧ fznNetworkFlow a balance flow)
      else none
    else none
  else none

/-- `fzn_knapsack` (`fzn_knapsack.mzn` 1–12) with the assertions of `knapsack.mzn` 26–45; `lb_array` of an empty array aborts
(`lib/builtins.cpp` 405–407). -/
def knapsack (weight profit xs : Arr Int) (tw tp : Int) : Option Prop :=
  if weight.idx = profit.idx ∧ weight.idx = xs.idx then
    if weight.idx.Nonempty ∧ minOf weight.idx weight ≥ 0 then
      if minOf profit.idx profit ≥ 0 then
        some ((∀ i ∈ xs.idx, xs i ≥ 0) ∧ tw ≥ 0 ∧ tp ≥ 0 ∧
          tp = ∑ i ∈ profit.idx, xs i * profit i ∧ tw = ∑ i ∈ weight.idx, xs i * weight i)
      else none
    else none
  else none

/-- `fzn_piecewise_linear` and `fzn_piecewise_linear_base` (`fzn_piecewise_linear.mzn` 8–36).  Floats are modelled by rational
numbers. -/
def fznPiecewiseLinear (x y : Rat) (xk yk : Arr Rat) : Option Prop :=
  if xk.idx = yk.idx ∧ 0 < xk.idx.card then
    some (∃ (s : Int → Rat) (f : Int → Int),
      let is1 := xk.idx.erase xk.hi
      (∀ i ∈ is1, 0 ≤ s i ∧ s i ≤ 1) ∧ (∀ i ∈ is1, 0 ≤ f i ∧ f i ≤ 1) ∧ 1 = ∑ i ∈ is1, f i ∧
      (∀ i ∈ is1, (f i : Rat) ≥ s i) ∧
      x = ∑ i ∈ is1, (xk i * (f i : Rat) + (xk (i + 1) - xk i) * s i) ∧
      y = ∑ i ∈ is1, (yk i * (f i : Rat) + (yk (i + 1) - yk i) * s i))
  else none

/-- `fzn_piecewise_linear_non_continuous` (`fzn_piecewise_linear_non_continuous.mzn` 8–51). -/
def fznPiecewiseLinearNonContinuous (x y : Rat) (xs xe ys ye : Arr Rat) : Option Prop :=
  if xs.idx = ys.idx ∧ xs.idx = ye.idx ∧ xs.idx = xe.idx ∧ 0 < xs.idx.card then
    if ∀ i ∈ xs.idx, xs i ≤ xe i then
      some (∃ (s : Int → Rat) (f : Int → Int),
        (∀ i ∈ xs.idx, 0 ≤ s i ∧ s i ≤ 1) ∧ (∀ i ∈ xs.idx, 0 ≤ f i ∧ f i ≤ 1) ∧ 1 = ∑ i ∈ xs.idx, f i ∧
        (∀ i ∈ xs.idx, if xs i < xe i then (f i : Rat) ≥ s i else s i = 0) ∧
        x = ∑ i ∈ xs.idx, (xs i * (f i : Rat) + (xe i - xs i) * s i) ∧
        y = ∑ i ∈ xs.idx, (ys i * (f i : Rat) + (ye i - ys i) * s i))
    else none
  else none

end MZ.Chan
