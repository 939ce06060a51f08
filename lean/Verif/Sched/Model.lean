import Verif.Globals.Base

/-!
# Scheduling and packing constraints: the decompositions of the standard library

Files are under `share/minizinc/std`.  Each definition is the relation the MiniZinc predicate puts on the values
of its arguments.  `lbS`, `ubS`, `ubD`, … stand for the `lb(·)` and `ub(·)` the flattener computes from the domains;
the theorems assume only that they enclose the values.  A predicate whose `assert` can fail, or that raises an
evaluation error, returns `Option Prop`, with `none` for the abort.
-/

namespace MZ.Sched
open MZ.Globals

/-! ## cumulative -/

/-- The tasks that can use the resource: `fzn_cumulative.mzn` 8, 32, 44 and `fzn_cumulative_reif.mzn` 9–11, 35, 50. -/
def tasks (s : Arr Int) (ubD ubR : Int → Int) : Finset Int :=
  s.idx.filter (fun i => ubR i > 0 ∧ ubD i > 0)

/-- `early`: `fzn_cumulative.mzn` 14, 33. -/
def early (s : Arr Int) (lbS ubD ubR : Int → Int) : Int := minOf (tasks s ubD ubR) lbS

/-- `late`: `fzn_cumulative.mzn` 15, 34. -/
def late (s : Arr Int) (ubS ubD ubR : Int → Int) : Int := maxOf (tasks s ubD ubR) (fun i => ubS i + ubD i)

/-- `fzn_cumulative_time`: `fzn_cumulative.mzn` 25–35. -/
def cumTime (s d r : Arr Int) (b : Int) (lbS ubS ubD ubR : Int → Int) : Prop :=
  ∀ t ∈ Finset.Icc (early s lbS ubD ubR) (late s ubS ubD ubR),
    b ≥ ∑ i ∈ tasks s ubD ubR, b2i (s i ≤ t ∧ t < s i + d i) * r i

/-- `fzn_cumulative_task`: `fzn_cumulative.mzn` 37–50. -/
def cumTask (s d r : Arr Int) (b : Int) (ubD ubR : Int → Int) : Prop :=
  ∀ j ∈ tasks s ubD ubR, b ≥ ∑ i ∈ tasks s ubD ubR, b2i (s i ≤ s j ∧ s j < s i + d i) * r i

/-- `fzn_cumulative`: `fzn_cumulative.mzn` 1–23. -/
def fznCumulative (s d r : Arr Int) (b : Int) (lbS ubS ubD ubR : Int → Int) : Prop :=
  if 0 = (tasks s ubD ubR).card then 0 = s.idx.card ∨ b ≥ 0
  else if late s ubS ubD ubR - early s lbS ubD ubR > 5000 then cumTask s d r b ubD ubR
  else cumTime s d r b lbS ubS ubD ubR

/-- `fzn_cumulative_task_reif`: `fzn_cumulative_reif.mzn` 42–56. -/
def cumTaskReif (s d r : Arr Int) (b : Int) (bb : Prop) (ubD ubR : Int → Int) : Prop :=
  bb ↔ ∀ j ∈ tasks s ubD ubR,
    b ≥ r j + ∑ i ∈ (tasks s ubD ubR).filter (fun i => i ≠ j), b2i (s i ≤ s j ∧ s j < s i + d i) * r i

/-- `fzn_cumulative_time_reif`: `fzn_cumulative_reif.mzn` 27–40. -/
def cumTimeReif (s d r : Arr Int) (b : Int) (bb : Prop) (lbS ubS ubD ubR : Int → Int) : Prop :=
  bb ↔ ∀ t ∈ Finset.Icc (early s lbS ubD ubR) (late s ubS ubD ubR),
    b ≥ ∑ i ∈ tasks s ubD ubR, b2i (s i ≤ t ∧ t < s i + d i) * r i

/-- `fzn_cumulative_reif`: `fzn_cumulative_reif.mzn` 1–25. -/
def fznCumulativeReif (s d r : Arr Int) (b : Int) (bb : Prop) (lbS ubS ubD ubR : Int → Int) : Prop :=
  if 0 = (tasks s ubD ubR).card then (bb ↔ (0 = s.idx.card ∨ b ≥ 0))
  else if late s ubS ubD ubR - early s lbS ubD ubR > 5000 then cumTaskReif s d r b bb ubD ubR
  else cumTimeReif s d r b bb lbS ubS ubD ubR

/-! ## disjunctive -/

/-- `fzn_disjunctive`: `fzn_disjunctive.mzn` 1–5. -/
def fznDisjunctive (s d : Arr Int) : Prop :=
  (∀ i ∈ d.idx, d i ≥ 0) ∧
  ∀ i ∈ d.idx, ∀ j ∈ d.idx, i < j →
    d i = 0 ∨ d j = 0 ∨ s i + d i ≤ s j ∨ s j + d j ≤ s i

/-- `fzn_disjunctive_strict`: `fzn_disjunctive_strict.mzn` 1–9. -/
def fznDisjunctiveStrict (s d : Arr Int) : Prop :=
  (∀ i ∈ d.idx, d i ≥ 0) ∧
  ∀ i ∈ d.idx, ∀ j ∈ d.idx, i < j → s i + d i ≤ s j ∨ s j + d j ≤ s i

/-- `disjunctive`: `disjunctive.mzn` 16–25.  The index sets are assumed to agree (17–19).  `lb_array` of an empty array
is an evaluation error (`lib/builtins.cpp` 405–407). -/
def disjunctive (s d : Arr Int) (lbD : Int → Int) : Option Prop :=
  if d.idx.card = 0 then none
  else if minOf d.idx lbD > 0 then some (fznDisjunctiveStrict s d) else some (fznDisjunctive s d)

/-- `fzn_all_different_int`: `fzn_all_different_int.mzn` 1–4 (used by `cumulative`). -/
def fznAllDifferent (x : Arr Int) : Prop := ∀ i ∈ x.idx, ∀ j ∈ x.idx, i < j → x i ≠ x j

/-- `cumulative`: `cumulative.mzn` 22–52, with the index sets equal (28–31) and the lower bounds of the durations and
resources non-negative (33–36).  `is_fixed(x)` is `lb(x) = ub(x)` and `fix(x)` that value; `mri` is any index of the
least lower bound of the resources (39); `ubB` is `ub(capacity)`. -/
def cumulative (s d r : Arr Int) (b : Int) (lbS ubS lbD ubD lbR ubR : Int → Int) (ubB : Int) (mri : Int) :
    Option Prop :=
  if s.idx.card ≥ 1 then
    if ∀ i ∈ r.idx, lbR i = ubR i ∧ (lbR i + minOf r.idx lbR > ubB ∨ i = mri) then
      let fits : Prop := ∀ i ∈ r.idx, d i = 0 ∨ lbR i ≤ b
      if s.idx.card = 1 then some fits
      else if ∀ i ∈ d.idx, lbD i = ubD i ∧ lbD i = 1 then some (fits ∧ fznAllDifferent s)
      else (disjunctive s d lbD).map (fun p => fits ∧ p)
    else some (fznCumulative s d r b lbS ubS ubD ubR)
  else some True

/-! ## cumulative and disjunctive with optional tasks -/

/-- The tasks that can use the resource: `fzn_cumulative_opt_decomp.mzn` 8–11, 35–38, 58–61; `ubO i` is
`ub(occurs(s[i])) > 0`. -/
def tasksOpt (s : Arr (Option Int)) (ubO : Int → Bool) (ubD ubR : Int → Int) : Finset Int :=
  s.idx.filter (fun i => ubO i = true ∧ ubR i > 0 ∧ ubD i > 0)

/-- `deopt(x)` (`stdlib/stdlib_opt.mzn`); the value of an absent variable is never used by a satisfied constraint. -/
def deopt (x : Option Int) : Int := x.getD 0

/-- `fzn_cumulative_opt_task`: `fzn_cumulative_opt_decomp.mzn` 28–49. -/
def cumOptTask (s : Arr (Option Int)) (d r : Arr Int) (b : Int) (ubO : Int → Bool) (ubD ubR : Int → Int) : Prop :=
  ∀ j ∈ tasksOpt s ubO ubD ubR, (s j).isSome = true →
    b ≥ r j + ∑ i ∈ (tasksOpt s ubO ubD ubR).filter (fun i => i ≠ j),
      b2i ((s i).isSome = true ∧ deopt (s i) ≤ deopt (s j) ∧ deopt (s j) < deopt (s i) + d i) * r i

/-- `fzn_cumulative_opt_time`: `fzn_cumulative_opt_decomp.mzn` 51–68. -/
def cumOptTime (s : Arr (Option Int)) (d r : Arr Int) (b : Int) (ubO : Int → Bool) (lbS ubS ubD ubR : Int → Int) : Prop :=
  ∀ t ∈ Finset.Icc (minOf (tasksOpt s ubO ubD ubR) lbS) (maxOf (tasksOpt s ubO ubD ubR) (fun i => ubS i + ubD i)),
    b ≥ ∑ i ∈ tasksOpt s ubO ubD ubR,
      b2i ((s i).isSome = true ∧ deopt (s i) ≤ t ∧ t < deopt (s i) + d i) * r i

/-- `fzn_cumulative_opt_decomp`: `fzn_cumulative_opt_decomp.mzn` 1–26. -/
def fznCumulativeOpt (s : Arr (Option Int)) (d r : Arr Int) (b : Int) (ubO : Int → Bool) (lbS ubS ubD ubR : Int → Int) :
    Prop :=
  if 0 = (tasksOpt s ubO ubD ubR).card then 0 = s.idx.card ∨ b ≥ 0
  else if maxOf (tasksOpt s ubO ubD ubR) (fun i => ubS i + ubD i) - minOf (tasksOpt s ubO ubD ubR) lbS > 5000 then
    cumOptTask s d r b ubO ubD ubR
  else cumOptTime s d r b ubO lbS ubS ubD ubR

/-- `fzn_disjunctive_opt`: `fzn_disjunctive_opt.mzn` 1–9. -/
def fznDisjunctiveOpt (s : Arr (Option Int)) (d : Arr Int) : Prop :=
  ∀ i ∈ d.idx, ∀ j ∈ d.idx, i < j →
    s i = none ∨ s j = none ∨ d i = 0 ∨ d j = 0 ∨
      deopt (s i) + d i ≤ deopt (s j) ∨ deopt (s j) + d j ≤ deopt (s i)

/-- `fzn_disjunctive_strict_opt_decomp`: `fzn_disjunctive_strict_opt_decomp.mzn` 1–11. -/
def fznDisjunctiveStrictOpt (s : Arr (Option Int)) (d : Arr Int) : Prop :=
  (∀ i ∈ d.idx, d i ≥ 0) ∧
  ∀ i ∈ d.idx, ∀ j ∈ d.idx, i < j →
    s i = none ∨ s j = none ∨ deopt (s i) + d i ≤ deopt (s j) ∨ deopt (s j) + d j ≤ deopt (s i)

/-- `disjunctive` with optional start times: `disjunctive_opt.mzn` 17–27. -/
def disjunctiveOpt (s : Arr (Option Int)) (d : Arr Int) (lbD : Int → Int) : Option Prop :=
  if d.idx.card = 0 then none
  else if minOf d.idx lbD > 0 then some ((∀ i ∈ d.idx, d i ≥ 0) ∧ fznDisjunctiveStrictOpt s d)
  else some ((∀ i ∈ d.idx, d i ≥ 0) ∧ fznDisjunctiveOpt s d)

/-! ## cumulatives -/

/-- `fzn_cumulatives_task_at`: `fzn_cumulatives_decomp.mzn` 50–56. -/
def taskAt (si di mi at' mach : Int) : Prop := si ≤ at' ∧ si + di > at' ∧ mi = mach

instance (si di mi a m : Int) : Decidable (taskAt si di mi a m) := by unfold taskAt; infer_instance

/-- `load1` and `load2`: `fzn_cumulatives_decomp.mzn` 28–43. -/
def load (s d r m : Arr Int) (at' mach : Int) : Int :=
  ∑ i ∈ s.idx, r i * b2i (taskAt (s i) (d i) (m i) at' mach)

/-- `cov1` and `cov2`: `fzn_cumulatives_decomp.mzn` 14–27. -/
def cov (s d m : Arr Int) (at' mach : Int) : Prop :=
  ∃ i ∈ s.idx, taskAt (s i) (d i) (m i) at' mach

/-- `fzn_cumulatives_decomp`: `fzn_cumulatives_decomp.mzn` 2–48. -/
def fznCumulatives (s d r m bound : Arr Int) (upper : Bool) : Prop :=
  ∀ j ∈ s.idx,
    (upper = true ∧ cov s d m (s j) (m j) → m j ∈ bound.idx ∧ load s d r m (s j) (m j) ≤ bound (m j)) ∧
    (upper = true ∧ cov s d m (s j + d j) (m j) → m j ∈ bound.idx ∧ load s d r m (s j + d j) (m j) ≤ bound (m j)) ∧
    (upper = false ∧ cov s d m (s j) (m j) → m j ∈ bound.idx ∧ load s d r m (s j) (m j) ≥ bound (m j)) ∧
    (upper = false ∧ cov s d m (s j + d j) (m j) → m j ∈ bound.idx ∧ load s d r m (s j + d j) (m j) ≥ bound (m j))

/-- `cumulatives_helper`: `cumulatives.mzn` 16–45, with non-negative durations (29).  `lbM`, `ubM` are the bounds of the
machine variables. -/
def cumulativesHelper (s d r m bound : Arr Int) (upper : Bool) (lbM ubM : Int → Int) : Option Prop :=
  if s.lo = d.lo ∧ s.hi = d.hi ∧ s.lo = r.lo ∧ s.hi = r.hi ∧ s.lo = m.lo ∧ s.hi = m.hi then
    if s.idx.card ≥ 1 then
      if minOf m.idx lbM ≥ bound.lo ∧ maxOf m.idx ubM ≤ bound.hi then some (fznCumulatives s d r m bound upper)
      else none
    else some True
  else none

/-- `fzn_cumulatives_opt`: `fzn_cumulatives_opt.mzn` 3–14.  Both comprehensions are indexed from 1. -/
def fznCumulativesOpt (s : Arr (Option Int)) (d r m bound : Arr Int) (upper : Bool) (lbM ubM : Int → Int) : Option Prop :=
  cumulativesHelper
    (s.compr (fun si => si.getD 0))
    ⟨1, s.len, fun k => if (s (s.lo + k - 1)).isSome then d (s.lo + k - 1) else 0⟩
    r m bound upper lbM ubM

/-! ## diffn -/

/-- `fzn_diffn`: `fzn_diffn.mzn` 1–9. -/
def fznDiffn (x y dx dy : Arr Int) : Prop :=
  ∀ i ∈ x.idx, ∀ j ∈ x.idx, i < j →
    x i + dx i ≤ x j ∨ y i + dy i ≤ y j ∨ x j + dx j ≤ x i ∨ y j + dy j ≤ y i

/-- `fzn_diffn_nonstrict`: `fzn_diffn_nonstrict.mzn` 1–16. -/
def fznDiffnNonstrict (x y dx dy : Arr Int) : Prop :=
  ∀ i ∈ x.idx, ∀ j ∈ x.idx, i < j →
    dx i = 0 ∨ dx j = 0 ∨ dy i = 0 ∨ dy j = 0 ∨
      x i + dx i ≤ x j ∨ y i + dy i ≤ y j ∨ x j + dx j ≤ x i ∨ y j + dy j ≤ y i

/-- `fzn_diffn_k` and `fzn_diffn_nonoverlap_k`: `fzn_diffn_k.mzn` 1–21; `boxes` and `dims` are the two index sets and
`p b j`, `w b j` the origin and the size of box `b` in dimension `j`. -/
def fznDiffnK (boxes dims : Finset Int) (p w : Int → Int → Int) : Prop :=
  ∀ b1 ∈ boxes, ∀ b2 ∈ boxes, b1 < b2 →
    ∃ j ∈ dims, p b1 j + w b1 j ≤ p b2 j ∨ p b2 j + w b2 j ≤ p b1 j

/-- `fzn_diffn_nonstrict_k` and `fzn_diffn_nonstrict_nonoverlap_k`: `fzn_diffn_nonstrict_k.mzn` 1–24. -/
def fznDiffnNonstrictK (boxes dims : Finset Int) (p w : Int → Int → Int) : Prop :=
  ∀ b1 ∈ boxes, ∀ b2 ∈ boxes, b1 < b2 →
    ∃ j ∈ dims, w b1 j = 0 ∨ w b2 j = 0 ∨ p b1 j + w b1 j ≤ p b2 j ∨ p b2 j + w b2 j ≤ p b1 j

/-! ## bin packing -/

/-- `fzn_bin_packing`: `fzn_bin_packing.mzn` 1–8; `lbB..ubB` is `lb_array(bin)..ub_array(bin)`. -/
def fznBinPacking (capacity : Int) (bin weight : Arr Int) (lbB ubB : Int) : Prop :=
  bin.idx.card > 0 →
    ∀ b ∈ Finset.Icc lbB ubB,
      ∑ i ∈ bin.idx, weight i * b2i (bin i ≠ b) ≥ (∑ i ∈ weight.idx, weight i) - capacity

/-- The condition of `fzn_bin_packing_reif`: `fzn_bin_packing_reif.mzn` 7–12. -/
def fznBinPackingReif (capacity : Int) (bin weight : Arr Int) (lbB ubB : Int) (b' : Prop) : Prop :=
  b' ↔ (bin.idx.card > 0 →
    ∀ b ∈ Finset.Icc lbB ubB, ∑ i ∈ bin.idx, weight i * b2i (bin i = b) ≤ capacity)

/-- `fzn_bin_packing_capa`: `fzn_bin_packing_capa.mzn` 1–11. -/
def fznBinPackingCapa (capacity bin weight : Arr Int) : Prop :=
  (∀ i ∈ bin.idx, capacity.lo ≤ bin i ∧ bin i ≤ capacity.hi) ∧
  ∀ b ∈ capacity.idx, capacity b ≥ ∑ i ∈ bin.idx, weight i * b2i (bin i = b)

/-- `bin_packing_capa`: `bin_packing_capa.mzn` 28–45, with non-negative weights. -/
def binPackingCapa (capacity bin weight : Arr Int) : Option Prop :=
  if bin.lo = weight.lo ∧ bin.hi = weight.hi then
    if ∀ b ∈ capacity.idx, capacity b ≥ 0 then some (fznBinPackingCapa capacity bin weight) else none
  else none

/-- `fzn_bin_packing_load`: `fzn_bin_packing_load.mzn` 1–10. -/
def fznBinPackingLoad (load bin weight : Arr Int) : Prop :=
  (∑ b ∈ load.idx, load b) = (∑ i ∈ weight.idx, weight i) ∧
  (∀ i ∈ bin.idx, load.lo ≤ bin i ∧ bin i ≤ load.hi) ∧
  ∀ b ∈ load.idx, load b = ∑ i ∈ bin.idx, weight i * b2i (bin i = b)

/-- `bin_packing_load`: `bin_packing_load.mzn` 26–39, with non-negative weights. -/
def binPackingLoad (load bin weight : Arr Int) : Option Prop :=
  if bin.lo = weight.lo ∧ bin.hi = weight.hi then some (fznBinPackingLoad load bin weight) else none

/-- `fzn_bin_packing_opt`: `fzn_bin_packing_opt.mzn` 3–19.  The comprehension over `bin` is indexed from 1. -/
def fznBinPackingOpt (capacity : Int) (bin : Arr (Option Int)) (weight : Arr Int) (lbB ubB : Int) : Option Prop :=
  if bin.idx.card > 0 then
    binPackingCapa
      (Arr.ofFn lbB (ubB + 1) (fun b => if b < ubB + 1 then capacity else ∑ i ∈ weight.idx, weight i))
      (bin.compr (fun b => b.getD (ubB + 1)))
      weight
  else some True

/-- `fzn_bin_packing_capa_opt`: `fzn_bin_packing_capa_opt.mzn` 3–15. -/
def fznBinPackingCapaOpt (capacity : Arr Int) (bin : Arr (Option Int)) (weight : Arr Int) : Option Prop :=
  if bin.idx.card > 0 then
    binPackingCapa
      (Arr.ofFn capacity.lo (capacity.hi + 1)
        (fun b => if b < capacity.hi + 1 then capacity b else ∑ i ∈ weight.idx, weight i))
      (bin.compr (fun b => b.getD (capacity.hi + 1)))
      weight
  else some True

/-- `fzn_bin_packing_load_opt`: `fzn_bin_packing_load_opt.mzn` 3–14; the local variable `dummy_load` is existential.  The
`assert` of `bin_packing_load` does not depend on it. -/
def fznBinPackingLoadOpt (load : Arr Int) (bin : Arr (Option Int)) (weight : Arr Int) : Option Prop :=
  if (bin.compr (fun b => b.getD (load.hi + 1))).lo = weight.lo ∧ (bin.compr (fun b => b.getD (load.hi + 1))).hi = weight.hi
  then some (∃ dummy : Int, 0 ≤ dummy ∧ dummy ≤ ∑ i ∈ weight.idx, weight i ∧
    fznBinPackingLoad (Arr.ofFn load.lo (load.hi + 1) (fun b => if b < load.hi + 1 then load b else dummy))
      (bin.compr (fun b => b.getD (load.hi + 1))) weight)
  else none

end MZ.Sched
