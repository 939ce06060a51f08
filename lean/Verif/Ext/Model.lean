import Verif.Ext.Spec

/-!
# The extensional constraints of the library

`share/minizinc/std`: `regular`, `regular_nfa`, `cost_regular`, `mdd`, `mdd_nondet`, `cost_mdd`, `table` and the
reified versions that exist.
-/

namespace MZ.Ext
open MZ.Globals
open MZ.LexOrd.Spec (Mat)
open MZ.Ext.Spec (Diagram)

/-- `v = d[i, x]`: false where an index is outside its index set (relational semantics). -/
def Entry {α : Type} (d : Mat α) (i x : Int) (v : α) : Prop :=
  d.lo1 ≤ i ∧ i ≤ d.hi1 ∧ d.lo2 ≤ x ∧ x ≤ d.hi2 ∧ v = d.val i x

/-- The states `a[m..n]` of the automaton constraints (`fzn_regular.mzn` 16–30): domain, first state, steps, final
state. -/
def hasRun {σ : Type} (xs : Arr Int) (dom : σ → Prop) (first : σ) (next : σ → Int → σ → Prop) (final : σ → Prop) : Prop :=
  ∃ a : Int → σ, (∀ i, xs.lo ≤ i → i ≤ xs.hi + 1 → dom (a i)) ∧ a xs.lo = first ∧
    (∀ i ∈ xs.idx, next (a i) (xs i) (a (i + 1))) ∧ final (a (xs.hi + 1))

/-- `fzn_regular` (`fzn_regular.mzn` 5–31). -/
def fznRegular (xs : Arr Int) (Q S : Int) (d : Mat Int) (q0 : Int) (F : Finset Int) : Prop :=
  if xs.len = 0 then q0 ∈ F
  else hasRun xs (fun s => 1 ≤ s ∧ s ≤ Q) q0 (fun s x s' => (1 ≤ x ∧ x ≤ S) ∧ Entry d s x s') (· ∈ F)

/-- `fzn_regular_set` (`fzn_regular_set.mzn` 5–27): no case for the empty array, where `min(index_set(xs))` is
undefined. The set of symbols is the range `sl..su`, the second index set of `d`. -/
def fznRegularSet (xs : Arr Int) (Q sl su : Int) (d : Mat Int) (q0 : Int) (F : Finset Int) : Prop :=
  xs.idx.Nonempty ∧
  hasRun xs (fun s => 1 ≤ s ∧ s ≤ Q) q0 (fun s x s' => (sl ≤ x ∧ x ≤ su) ∧ Entry d s x s') (· ∈ F)

/-- The assertions of `regular` (`regular.mzn` 77–95 and 113–131). -/
def regularOk (Q sl su : Int) (d : Mat Int) (q0 : Int) (F : Finset Int) : Prop :=
  0 < Q ∧ sl ≤ su ∧ (d.lo1 = 1 ∧ d.hi1 = Q ∧ d.lo2 = sl ∧ d.hi2 = su) ∧
  (∀ i j, 1 ≤ i → i ≤ Q → sl ≤ j → j ≤ su → 0 ≤ d.val i j ∧ d.val i j ≤ Q) ∧
  (1 ≤ q0 ∧ q0 ≤ Q) ∧ (∀ q ∈ F, 1 ≤ q ∧ q ≤ Q)

/-- `regular(xs, Q, S, d, q0, F)` with an integer `S` (`regular.mzn` 69–96); `none` is a failed assertion. -/
noncomputable def regular (xs : Arr Int) (Q S : Int) (d : Mat Int) (q0 : Int) (F : Finset Int) : Option Prop :=
  open Classical in
  if regularOk Q 1 S d q0 F then some (fznRegular xs Q S d q0 F) else none

/-- `regular(xs, Q, S, d, q0, F)` with a set `S` (`regular.mzn` 105–133), which is the second index set of `d` and
hence a range. -/
noncomputable def regularSet (xs : Arr Int) (Q sl su : Int) (d : Mat Int) (q0 : Int) (F : Finset Int) : Option Prop :=
  open Classical in
  if regularOk Q sl su d q0 F then
    some (if sl = 1 then fznRegular xs Q su d q0 F else fznRegularSet xs Q sl su d q0 F)
  else none

/-- `regular(xs, d, q0, F)` (`regular.mzn` 40–60): states and symbols are the index sets of `d`; states are
renumbered from 1, but the renumbered matrix keeps the index set of `d`. -/
def regularEnum (xs : Arr Int) (d : Mat (Option Int)) (q0 : Int) (F : Finset Int) : Prop :=
  let off := d.lo1 - 1
  let dd : Mat Int := ⟨d.lo1, d.hi1, d.lo2, d.hi2, fun s v => match d.val s v with | some t => t - off | none => 0⟩
  if d.lo2 = 1 then fznRegular xs (d.hi1 - d.lo1 + 1) d.hi2 dd (q0 - off) (F.image (· - off))
  else fznRegularSet xs (d.hi1 - d.lo1 + 1) d.lo2 d.hi2 dd (q0 - off) (F.image (· - off))

/-- `fzn_regular_reif` and `fzn_regular_set_reif`, the direct decompositions (`fzn_regular_reif.mzn` 12–31,
`fzn_regular_set_reif.mzn` 13–31). -/
def regularReif (xs : Arr Int) (Q sl su : Int) (d : Mat Int) (q0 : Int) (F : Finset Int) (b : Prop) : Prop :=
  if xs.len = 0 then (b ↔ q0 ∈ F)
  else
    let dd : Mat Int := ⟨0, Q, sl, su, fun r c => if r = 0 then 0 else d.val r c⟩
    hasRun xs (fun s => 0 ≤ s ∧ s ≤ Q) q0
      (fun s x s' => if sl ≤ x ∧ x ≤ su then Entry dd s x s' else s' = 0) (fun s => b ↔ s ∈ F)

/-- The matrix of the augmented automaton (`fzn_regular_reif.mzn` 44–56, `fzn_regular_set_reif.mzn` 45–57). -/
def augmented (Q sl su : Int) (d : Mat Int) (F : Finset Int) : Mat Int :=
  ⟨1, Q + 2, sl, su + 2, fun r c =>
    if r ≤ Q then
      if c ≤ su then (if d.val r c = 0 then Q + 2 else d.val r c)
      else if c = su + 1 then (if r ∈ F then 0 else Q + 1)
      else (if r ∈ F then Q + 1 else 0)
    else if r = Q + 2 then (if c ≤ su then Q + 2 else if c = su + 1 then Q + 1 else 0)
    else 0⟩

/-- `xs ++ [z]` (`lib/eval_par.cpp` 1679–1722, concatenation is indexed from 1). -/
def snoc {α : Type} (xs : Arr α) (z : α) : Arr α :=
  ⟨1, xs.len + 1, fun k => if k ≤ xs.len then xs (xs.lo + k - 1) else z⟩

/-- `fzn_regular_reif`, the construction for solvers with their own `fzn_regular` (`fzn_regular_reif.mzn` 32–60). -/
def regularReifNative (xs : Arr Int) (Q S : Int) (d : Mat Int) (q0 : Int) (F : Finset Int) (b : Prop) [Decidable b] :
    Prop :=
  fznRegular (snoc xs (S + 1 + b2i b)) (Q + 2) (S + 2) (augmented Q 1 S d F) q0 {Q + 1}

/-- `fzn_regular_set_reif`, the construction for solvers with their own `fzn_regular_set`
(`fzn_regular_set_reif.mzn` 32–61). -/
def regularSetReifNative (xs : Arr Int) (Q sl su : Int) (d : Mat Int) (q0 : Int) (F : Finset Int) (b : Prop)
    [Decidable b] : Prop :=
  fznRegularSet (snoc xs (su + 1 + b2i b)) (Q + 2) sl (su + 2) (augmented Q sl su d F) q0 {Q + 1}

/-- `fzn_regular_nfa` (`fzn_regular_nfa.mzn` 1–27, `fzn_regular_nfa_set.mzn` 1–27). -/
def fznRegularNfa (xs : Arr Int) (Q sl su : Int) (d : Mat (Finset Int)) (q0 : Int) (F : Finset Int) : Prop :=
  if xs.len = 0 then q0 ∈ F
  else hasRun xs (fun s => 1 ≤ s ∧ s ≤ Q) q0
    (fun s x s' => (sl ≤ x ∧ x ≤ su) ∧ ∃ t, Entry d s x t ∧ s' ∈ t) (· ∈ F)

/-- `fzn_cost_regular` (`fzn_cost_regular.mzn` 1–34): a state is the pair of `a[i]` and `cc[i]`. -/
def fznCostRegular (xs : Arr Int) (Q S : Int) (d : Mat Int) (q0 : Int) (F : Finset Int) (cost : Mat Int) (total : Int) :
    Prop :=
  if xs.len = 0 then total = 0 ∧ q0 ∈ F
  else hasRun xs (fun s : Int × Int => 1 ≤ s.1 ∧ s.1 ≤ Q) (q0, 0)
    (fun s x s' => (1 ≤ x ∧ x ≤ S) ∧ Entry d s.1 x s'.1 ∧ ∃ c, Entry cost s.1 x c ∧ s'.2 = c + s.2)
    (fun s => s.1 ∈ F ∧ total = s.2)

/-- The assertions of `regular_nfa` (`regular_nfa.mzn` 52–71 and 89–109). -/
def regularNfaOk (Q sl su : Int) (d : Mat (Finset Int)) (q0 : Int) (F : Finset Int) : Prop :=
  0 < Q ∧ sl ≤ su ∧ (d.lo1 = 1 ∧ d.hi1 = Q ∧ d.lo2 = sl ∧ d.hi2 = su) ∧
  (∀ i j, 1 ≤ i → i ≤ Q → sl ≤ j → j ≤ su → ∀ s ∈ d.val i j, 1 ≤ s ∧ s ≤ Q) ∧
  (1 ≤ q0 ∧ q0 ≤ Q) ∧ (∀ q ∈ F, 1 ≤ q ∧ q ≤ Q)

/-- `regular_nfa` with a range of symbols, `1..S` in the version with an integer `S` (`regular_nfa.mzn` 44–110). -/
noncomputable def regularNfa (xs : Arr Int) (Q sl su : Int) (d : Mat (Finset Int)) (q0 : Int) (F : Finset Int) :
    Option Prop :=
  open Classical in
  if regularNfaOk Q sl su d q0 F then some (fznRegularNfa xs Q sl su d q0 F) else none

/-- `regular_nfa(xs, d, q0, F)` (`regular_nfa.mzn` 22–35). -/
def regularNfaEnum (xs : Arr Int) (d : Mat (Finset Int)) (q0 : Int) (F : Finset Int) : Prop :=
  let off := d.lo1 - 1
  fznRegularNfa xs (d.hi1 - d.lo1 + 1) d.lo2 d.hi2
    ⟨d.lo1, d.hi1, d.lo2, d.hi2, fun s v => (d.val s v).image (· - off)⟩ (q0 - off) (F.image (· - off))

/-- `cost_regular` (`cost_regular.mzn` 22–63): the assertions are those of `regular` and the one on the index sets of
`cost`. -/
noncomputable def costRegular (xs : Arr Int) (Q S : Int) (d : Mat Int) (q0 : Int) (F : Finset Int) (cost : Mat Int)
    (total : Int) : Option Prop :=
  open Classical in
  if regularOk Q 1 S d q0 F ∧ (cost.lo1 = 1 ∧ cost.hi1 = Q ∧ cost.lo2 = 1 ∧ cost.hi2 = S) then
    some (fznCostRegular xs Q S d q0 F cost total)
  else none

/-! ## Decision diagrams -/

section
variable (m : Diagram) (xs : Arr Int) (bn be : Int → Prop)

/-- `xs[level[from[e]]] in label[e]`. -/
def inLabel (e : Int) : Prop := m.level (m.src e) ∈ xs.idx ∧ xs (m.level (m.src e)) ∈ m.label e

/-- T1: each node enforces an outgoing edge (`fzn_mdd.mzn` 20). -/
def mddOut : Prop := ∀ n, 1 ≤ n → n ≤ m.N → bn n → ∃ e, 1 ≤ e ∧ e ≤ m.E ∧ m.src e = n ∧ be e

/-- T23: each edge enforces its endpoints (`fzn_mdd.mzn` 22). -/
def mddEnds : Prop := ∀ e, 1 ≤ e → e ≤ m.E → (be e → bn (m.src e)) ∧ (be e → bn (m.dst e))

/-- T4: each edge enforces its label (`fzn_mdd.mzn` 24). -/
def mddLabel : Prop := ∀ e, 1 ≤ e → e ≤ m.E → be e → inLabel m xs e

/-- P1: each node enforces its outgoing edges (`fzn_mdd.mzn` 26). -/
def mddTaken : Prop := ∀ e, 1 ≤ e → e ≤ m.E → bn (m.src e) ∧ inLabel m xs e → be e

/-- P2 for the true node (`fzn_mdd.mzn` 28). -/
def mddInTrue : Prop := ∃ e, 1 ≤ e ∧ e ≤ m.E ∧ m.dst e = 0 ∧ be e

/-- P2: each node except the root enforces an incoming edge (`fzn_mdd.mzn` 29). -/
def mddIn : Prop := ∀ n, 2 ≤ n → n ≤ m.N → bn n → ∃ e, 1 ≤ e ∧ e ≤ m.E ∧ m.dst e = n ∧ be e

/-- P3: each label has a support (`fzn_mdd.mzn` 31–33); `D` is `dom_array(xs)`. -/
def mddSupport (D : Finset Int) : Prop := ∀ i, 1 ≤ i → i ≤ xs.len → ∀ d ∈ D, (i ∈ xs.idx ∧ xs i = d) →
  ∃ e, 1 ≤ e ∧ e ≤ m.E ∧ (m.level (m.src e) = i ∧ d ∈ m.label e) ∧ be e

/-- The number of true nodes at a level, `sum (n in NODE where level[n] = i) (bn[n])` (`fzn_mdd.mzn` 35). -/
noncomputable def atLevel (i : Int) : Int :=
  open Classical in ∑ n ∈ (Finset.Icc 1 m.N).filter (fun n => m.level n = i), b2i (bn n)

end

/-- `fzn_mdd` (`fzn_mdd.mzn` 1–35). -/
def fznMdd (m : Diagram) (xs : Arr Int) (D : Finset Int) : Prop :=
  ∃ bn be : Int → Prop, bn 0 ∧ bn 1 ∧ mddOut m bn be ∧ mddEnds m bn be ∧ mddLabel m xs be ∧ mddTaken m xs bn be ∧
    mddInTrue m be ∧ mddIn m bn be ∧ mddSupport m xs be D ∧ ∀ i, 1 ≤ i → i ≤ xs.len → atLevel m bn i = 1

/-- `fzn_mdd_nondet` (`fzn_mdd_nondet.mzn` 1–31). -/
def fznMddNondet (m : Diagram) (xs : Arr Int) (D : Finset Int) : Prop :=
  ∃ bn be : Int → Prop, bn 0 ∧ bn 1 ∧ mddOut m bn be ∧ mddEnds m bn be ∧ mddLabel m xs be ∧
    mddInTrue m be ∧ mddIn m bn be ∧ mddSupport m xs be D

/-- `fzn_mdd_reif` (`fzn_mdd_reif.mzn` 1–47). -/
def fznMddReif (m : Diagram) (xs : Arr Int) (D : Finset Int) (b : Prop) : Prop :=
  ∃ bn be : Int → Prop, (b ↔ bn 0) ∧ bn 1 ∧
    (∀ n, 1 ≤ n → n ≤ m.N → bn n → (∃ e, 1 ≤ e ∧ e ≤ m.E ∧ m.src e = n ∧ be e) ∨ ¬ b) ∧
    mddEnds m bn be ∧ mddLabel m xs be ∧ mddTaken m xs bn be ∧ (bn 0 → mddInTrue m be) ∧ mddIn m bn be ∧
    (∀ i, 1 ≤ i → i ≤ xs.len → ∀ d ∈ D, (i ∈ xs.idx ∧ xs i = d) →
      (∀ n, 1 ≤ n → n ≤ m.N → m.level n = i → ∀ e, 1 ≤ e → e ≤ m.E → m.src e = n ∧ d ∈ m.label e → bn n → be e) ∧
      (∀ n, 1 ≤ n → n ≤ m.N → (m.level n = i ∧ ¬ ∃ e, 1 ≤ e ∧ e ≤ m.E ∧ m.src e = n ∧ d ∈ m.label e) → bn n → ¬ b)) ∧
    ∀ i, 1 ≤ i → i ≤ xs.len → atLevel m bn i ≤ 1

/-- The edges with a given property. -/
def edges (m : Diagram) (p : Int → Prop) [DecidablePred p] : Finset Int := (Finset.Icc 1 m.E).filter p

/-- `v = min (e in S) (f e)`: undefined, hence false, for an empty `S`. -/
def IsMin (S : Finset Int) (f : Int → Int) (v : Int) : Prop := (∃ e ∈ S, v = f e) ∧ ∀ e ∈ S, v ≤ f e

/-- `maxlevelcost` (`fzn_cost_mdd.mzn` 16–19). -/
def maxLevelCost (m : Diagram) (cost : Int → Int) (l : Int) : Int := maxOf (edges m (fun e => m.level (m.src e) = l)) cost

/-- `minlevelcost` (`fzn_cost_mdd.mzn` 20–23). -/
def minLevelCost (m : Diagram) (cost : Int → Int) (l : Int) : Int :=
  min 0 (minOf (edges m (fun e => m.level (m.src e) = l ∧ cost e < 0)) cost)

/-- `maxcost` (`fzn_cost_mdd.mzn` 24). -/
def maxCost (m : Diagram) (cost : Int → Int) (L : Int) : Int := ∑ l ∈ Finset.Icc 1 L, maxLevelCost m cost l

/-- `COST` (`fzn_cost_mdd.mzn` 25). -/
def inCost (m : Diagram) (cost : Int → Int) (L v : Int) : Prop :=
  (∑ l ∈ Finset.Icc 1 L, minLevelCost m cost l) ≤ v ∧ v ≤ L * (maxCost m cost L + 1)

/-- The weight of an edge in the distances, `cost[e] + (not be[e]) * (maxcost + 1 - cost[e])`
(`fzn_cost_mdd.mzn` 54, 60). -/
noncomputable def weight (m : Diagram) (cost : Int → Int) (L : Int) (be : Int → Prop) (e : Int) : Int :=
  open Classical in cost e + b2i (¬ be e) * (maxCost m cost L + 1 - cost e)

/-- `fzn_cost_mdd` (`fzn_cost_mdd.mzn` 1–64): T23 mentions `to[e]` twice. -/
def fznCostMdd (m : Diagram) (xs : Arr Int) (cost : Int → Int) (total : Int) (dom : Int → Finset Int) : Prop :=
  ∃ (bn be : Int → Prop) (ln un : Int → Int),
    (∀ n, 0 ≤ n → n ≤ m.N → inCost m cost xs.len (ln n) ∧ inCost m cost xs.len (un n)) ∧
    bn 0 ∧ bn 1 ∧ mddOut m bn be ∧ (∀ e, 1 ≤ e → e ≤ m.E → (be e → bn (m.dst e)) ∧ (be e → bn (m.dst e))) ∧
    mddLabel m xs be ∧ mddTaken m xs bn be ∧ mddInTrue m be ∧ mddIn m bn be ∧
    (∀ i, 1 ≤ i → i ≤ xs.len → ∀ d ∈ dom i, (i ∈ xs.idx ∧ xs i = d) →
      ∃ e, 1 ≤ e ∧ e ≤ m.E ∧ (m.level (m.src e) = i ∧ d ∈ m.label e) ∧ be e) ∧
    (∀ i, 1 ≤ i → i ≤ xs.len → atLevel m bn i = 1) ∧
    ln 0 = 0 ∧ un 1 = 0 ∧
    (∀ n, 1 ≤ n → n ≤ m.N →
      IsMin (edges m (fun e => m.src e = n)) (fun e => ln (m.dst e) + weight m cost xs.len be e) (ln n)) ∧
    (∀ n, 2 ≤ n → n ≤ m.N →
      IsMin (edges m (fun e => m.dst e = n)) (fun e => un (m.src e) + weight m cost xs.len be e) (un n)) ∧
    (∀ e, 1 ≤ e → e ≤ m.E → be e → un (m.src e) + cost e + ln (m.dst e) ≤ maxCost m cost xs.len) ∧
    total = ln 1

/-! ## Tables -/

/-- `fzn_table_int` and `fzn_table_bool` (`fzn_table_int.mzn` 6–24): for an empty array or table the bounds of the index
sets are undefined. -/
def fznTable {α : Type} (xs : Arr α) (t : Mat α) : Prop :=
  xs.lo ≤ xs.hi ∧ t.lo1 ≤ t.hi1 ∧
  ∃ i, (t.lo1 ≤ i ∧ i ≤ t.hi1) ∧ ∀ j, xs.lo ≤ j → j ≤ xs.hi → t.val i j = xs j

/-- `fzn_table_int_opt` (`fzn_table_int_opt.mzn` 1–16); `~=` holds if a side is absent. -/
def fznTableOpt {α : Type} (xs : Arr (Option α)) (t : Mat (Option α)) : Prop :=
  xs.lo ≤ xs.hi ∧ t.lo1 ≤ t.hi1 ∧
  ∃ i, (t.lo1 ≤ i ∧ i ≤ t.hi1) ∧ ∀ j, xs.lo ≤ j → j ≤ xs.hi →
    (t.val i j = none ∨ xs j = none ∨ t.val i j = xs j)

/-- `table` (`table.mzn` 15–22, 28–35 and 42–49): the assertion on the index sets. -/
def table {α : Type} (post : Arr α → Mat α → Prop) (xs : Arr α) (t : Mat α) : Option Prop :=
  if Finset.Icc t.lo2 t.hi2 = xs.idx then some (post xs t) else none

/-- The tuples of the domains in the order of the generators (`fzn_table_int_reif.mzn` 57–103, one copy for each
number of variables). -/
def combos : List (List Int) → List (List Int)
  | [] => [[]]
  | d :: ds => d.flatMap (fun v => (combos ds).map (v :: ·))

/-- `aux_is_in_table` (`fzn_table_int_reif.mzn` 109–110), for a tuple given as a list with indices `1..n`. -/
def auxIsInTable (e : List Int) (t : Mat Int) : Bool :=
  decide (∃ i ∈ Finset.Icc t.lo1 t.hi1, ∀ j ∈ Finset.Icc (1 : Int) e.length, t.val i j = e.getD (j - 1).toNat 0)

/-- `fzn_table_int_reif` (`fzn_table_int_reif.mzn` 36–107) for an array with index set `1..n`; `doms` are the domains
of its elements.  `none` is the failed assertion on the number of variables. -/
def fznTableReif (xs : Arr Int) (t : Mat Int) (doms : List (List Int)) (b : Prop) [Decidable b] : Option Prop :=
  if ¬ (1 ≤ xs.len ∧ xs.len ≤ 5) then none
  else if xs.len = 1 then some ((xs 1 ∈ (Finset.Icc t.lo1 t.hi1).image (fun it => t.val it 1)) ↔ b)
  else
    let rows := (combos doms).map (fun tpl => tpl ++ [b2i (auxIsInTable tpl t = true)])
    some (fznTable (snoc xs (b2i b))
      ⟨1, rows.length, 1, xs.len + 1, fun i j => (rows.getD (i - 1).toNat []).getD (j - 1).toNat 0⟩)

end MZ.Ext
