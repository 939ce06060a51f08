import Verif.LinArith.Model
import Verif.LexOrd.Spec

/-!
# The global constraints of the linear library

`share/minizinc/linear/fzn_*.mzn`.  Variables are those of `Verif.LinLib.Base`: a finite domain and a value in it.  As in the
standard library, a constraint is the relation it puts on the values of its arguments: new variables are `∃`, an access outside
the index set makes the enclosing constraint false.  The comparisons, reifications and products inside the predicates mean what
they say (C80, C81); the equality encodings are those of `Verif.LinArith`.
-/

namespace MZ.LinGlob

open MZ.Globals MZ.LinLib MZ.LinArith MZ.LexOrd.Spec

/-- The values of the variables of an array. -/
def vals (xs : Arr V) : Arr Int := ⟨xs.lo, xs.hi, fun i => (xs i).val⟩

/-- The values of the variables of an array of floats. -/
def fvals (xs : Arr F) : Arr ℚ := ⟨xs.lo, xs.hi, fun i => (xs i).val⟩

/-- `index_set_2of2(eq_encode(xs))`: `lb_array(xs)..ub_array(xs)` (`domain_encodings.mzn` 85–99). -/
def encRange (xs : Arr V) : Finset Int :=
  Finset.Icc (minOf xs.idx fun i => (xs i).lb) (maxOf xs.idx fun i => (xs i).ub)

/-! ## All different -/

/-- `fzn_all_different_int` (`fzn_all_different_int.mzn` 11–21). -/
def allDifferent (o : Opts) (xs : Arr V) : Prop :=
  if xs.len ≤ 1 then True
  else ∃ p, EqEncodeArr o xs.val p ∧ ∀ d ∈ encRange xs, ∑ i ∈ xs.idx, p i d ≤ 1

/-- `fzn_alldifferent_except_0` (`fzn_alldifferent_except_0.mzn` 5–20). -/
def allDifferentExcept0 (o : Opts) (xs : Arr V) : Prop :=
  if xs.len ≤ 1 then True
  else ∃ p, EqEncodeArr o xs.val p ∧ ∀ d ∈ encRange xs \ {0}, ∑ i ∈ xs.idx, p i d ≤ 1

/-! ## Inverse -/

/-- `fzn_inverse_in_range` (`fzn_inverse_in_range.mzn` 1–2). -/
def inverseInRange (f g : Arr Int) : Prop := ∀ i ∈ f.idx, ∀ j ∈ g.idx, (j = f i ↔ i = g j)

/-- `fzn_inverse_in_range_reif` (`fzn_inverse_in_range_reif.mzn` 1–5). -/
def inverseInRangeReif (f g : Arr Int) (b : Prop) : Prop := b ↔ ∀ i ∈ f.idx, ∀ j ∈ g.idx, (j = f i ↔ i = g j)

/-- `fzn_inverse` (`fzn_inverse.mzn` 10–13). -/
def inverse (f g : Arr Int) : Prop :=
  (∀ i ∈ f.idx, f i ∈ g.idx) ∧ (∀ j ∈ g.idx, g j ∈ f.idx) ∧ inverseInRange f g

/-- `fzn_inverse_reif` (`fzn_inverse_reif.mzn` 1–5). -/
def inverseReif (f g : Arr Int) (b : Prop) : Prop :=
  b ↔ ∀ i ∈ f.idx, ∀ j ∈ g.idx, f i ∈ g.idx ∧ g j ∈ f.idx ∧ (j = f i ↔ i = g j)

/-! ## Circuits -/

/-- The constraint `xs[i] in S diff {i}` narrows the domains (`fzn_circuit.mzn` 13). -/
def selfMapped (xs : Arr V) (h : ∀ i ∈ xs.idx, (xs i).val ∈ xs.idx \ {i}) : Arr V :=
  ⟨xs.lo, xs.hi, fun i => if hi : i ∈ xs.idx then restrict (xs i) (xs.idx \ {i}) (h i hi) else xs i⟩

/-- `fzn_circuit` (`fzn_circuit.mzn` 4–43).  `sec` is `nMZN__fSECcuts`; `seccuts` is what the solver makes of
`circuit__SECcuts`.  The failed assertions admit no solution. -/
def circuit (o : Opts) (sec : Int) (seccuts : Arr Int → Prop) (xs : Arr V) : Prop :=
  if xs.len = 0 then True
  else
    let l := xs.lo
    let u := xs.hi
    let n := xs.len
    ∃ h : ∀ i ∈ xs.idx, (xs i).val ∈ xs.idx \ {i},
      let ys := selfMapped xs h
      allDifferent o ys ∧
      (if sec > 0 then
        l = (minOf ys.idx fun i => (ys i).lb) ∧ u = (maxOf ys.idx fun i => (ys i).ub) ∧ seccuts (vals ys)
      else True) ∧
      (if sec < 2 then
        ∃ order : Int → Int, (∀ i ∈ Finset.Icc (l + 1) (l + n - 1), order i ∈ Finset.Icc 2 n) ∧
          ∀ i ∈ Finset.Icc (l + 1) (l + n - 1), ∀ j ∈ Finset.Icc (l + 1) (l + n - 1), i ≠ j → j ∈ (ys i).dom →
            order i - order j + (n - 1) * b2i ((ys i).val = j) + (n - 3) * b2i ((ys j).val = i) ≤ n - 2
      else True) ∧
      (if n > 2 then ∀ i ∈ ys.idx, ∀ j ∈ ys.idx, i < j → (ys i).val ≠ j ∨ (ys j).val ≠ i else True)

/-- `fzn_subcircuit` (`fzn_subcircuit.mzn` 4–60). -/
def subcircuit (o : Opts) (xs : Arr V) : Prop :=
  if xs.len = 0 then True
  else
    let l := xs.lo
    let u := xs.hi
    let n := xs.len
    let x := vals xs
    let firstin := minOf xs.idx fun i => u + 1 + b2i (x i ≠ i) * (i - u - 1)
    ∃ order : Int → Int, ∃ lastin : Int,
      (∀ i ∈ xs.idx, 1 ≤ order i ∧ order i ≤ n) ∧
      (l ≤ firstin ∧ firstin ≤ u + 1) ∧
      lastin ∈ xs.idx ∧
      allDifferent o xs ∧
      (firstin = u + 1 ↔ ∀ i ∈ xs.idx, ¬ (x i ≠ i)) ∧
      (¬ (firstin = u + 1) ↔
        (firstin ∈ xs.idx ∧ order firstin = 1) ∧
        lastin > firstin ∧
        x lastin = firstin ∧
        x lastin ≠ lastin ∧
        (firstin ∈ xs.idx ∧ x firstin ≠ firstin) ∧
        ∀ i ∈ xs.idx, ∀ j ∈ xs.idx, i ≠ j → order i - order j + n * b2i (x i = j ∧ i ≠ lastin) ≤ n - 1)

/-! ## Cumulative -/

/-- `tasks` (`fzn_cumulative.mzn` 22–24, 72, 97). -/
def tasks (s d r : Arr V) : Finset Int := s.idx.filter fun i => (r i).ub > 0 ∧ (d i).ub > 0

/-- `dom_array([start[i] | i in tasks])` (`fzn_cumulative.mzn` 25). -/
def taskTimes (s d r : Arr V) : Finset Int := (tasks s d r).biUnion fun i => (s i).dom

/-- `cumulative_time_decomp` (`fzn_cumulative.mzn` 64–88). -/
def cumTimeDecomp (s d r : Arr V) (b : V) (TIMES01 : Finset Int) : Prop :=
  let T := tasks s d r
  let times := (Finset.Icc (minOf T fun i => (s i).lb) (maxOf T fun i => (s i).ub + (d i).ub)).filter (· ∈ TIMES01)
  ∀ t ∈ times, b.val ≥ ∑ i ∈ T,
    (if (d i).fixed then b2i ((s i).val ∈ Finset.Icc (t - (d i).fix + 1) t)
      else b2i ((s i).val ≤ t ∧ t < (s i).val + (d i).val)) * (r i).val

/-- `cumulative_task_decomp` (`fzn_cumulative.mzn` 90–106). -/
def cumTaskDecomp (s d r : Arr V) (b : V) : Prop :=
  let T := tasks s d r
  ∀ j ∈ T, b.val - (r j).val ≥
    ∑ i ∈ T.filter (fun i => i ≠ j ∧ (s i).lb ≤ (s j).ub ∧ (s j).lb < (s i).ub + (d i).ub),
      (r i).val * b2i ((s i).val ≤ (s j).val ∧ (s j).val < (s i).val + (d i).val)

/-- `fzn_cumulative` (`fzn_cumulative.mzn` 12–37).  `solver` tells that the solver has the constraint for fixed durations and
requirements and `fixedDR` is what it makes of it; `limit` is `nMZN__UnarySizeMax_cumul`.  The option to ignore redundant
constraints is off. -/
def cumulative (solver : Bool) (fixedDR : Prop) (limit : Nat) (s d r : Arr V) (b : V) : Prop :=
  if 0 = (tasks s d r).card then 0 = s.idx.card ∨ b.val ≥ 0
  else if solver = true ∧ (∀ i ∈ d.idx, (d i).fixed) ∧ (∀ i ∈ r.idx, (r i).fixed) ∧ b.fixed then fixedDR
  else if limit ≥ (taskTimes s d r).card * (tasks s d r).card then cumTimeDecomp s d r b (taskTimes s d r)
  else cumTaskDecomp s d r b

/-! ## Conditional expressions -/

/-- `fzn_if_then_else_int` (`fzn_if_then_else_int.mzn` 1–6) with conditions `1..n`. -/
def ifThenElseInt (n : Int) (c : Int → V) (x : Int → Int) (y : V) : Prop :=
  ∃ d : Int → Bool,
    (∀ i ∈ Finset.Icc 1 n, ∑ j ∈ Finset.Icc 1 (i - 1), (c j).val + (V.bit (d i)).val ≥ (c i).val) ∧
    ∑ i ∈ Finset.Icc 1 n, (V.bit (d i)).val = 1 ∧
    y.val = ∑ i ∈ Finset.Icc 1 n, (V.bit (d i)).val * x i

/-- `fzn_if_then_else_float` (`fzn_if_then_else_float.mzn` 1–10). -/
def ifThenElseFloat (n : Int) (c : Int → V) (x : Int → ℚ) (y : F) : Prop :=
  ∃ d : Int → Bool,
    (∀ i ∈ Finset.Icc 1 n, ∑ j ∈ Finset.Icc 1 (i - 1), (c j).val + (V.bit (d i)).val ≥ (c i).val) ∧
    ∑ i ∈ Finset.Icc 1 n, (V.bit (d i)).val = 1 ∧
    y.val = ∑ i ∈ Finset.Icc 1 n, ((V.bit (d i)).val : ℚ) * x i

/-! ## Lexicographic order -/

/-- The flags shared by the lexicographic constraints (`fzn_lex_less_int.mzn` 18–26, `fzn_lex_lesseq_int.mzn` 44–52). -/
def lexFlags (size : Int) (fEQ fLT : Int → Bool) : Prop :=
  (V.bit (fEQ 0)).val + (V.bit (fLT 0)).val = 1 ∧
  ∀ i ∈ Finset.Icc 1 size, (V.bit (fEQ (i - 1))).val = (V.bit (fEQ i)).val + (V.bit (fLT i)).val

/-- `fzn_lex_less_int` (`fzn_lex_less_int.mzn` 6–27); `fzn_lex_less_bool` is the same (`fzn_lex_less_bool.mzn` 8–9). -/
def lexLessInt (o : Opts) (xs ys : Arr V) : Prop :=
  if ys.len = 0 then False
  else if xs.len = 0 then True
  else
    let size := min (xs.hi - xs.lo) (ys.hi - ys.lo)
    ∃ fEQ fLT : Int → Bool, ∑ i ∈ Finset.Icc 0 size, (V.bit (fLT i)).val = 1 ∧ lexFlags size fEQ fLT ∧
      ∀ i ∈ Finset.Icc 0 size, auxIntEqIf1 o (xs (xs.lo + i)) (ys (ys.lo + i)) (V.bit (fEQ i)) ∧
        auxIntLtIf1 o (xs (xs.lo + i)) (ys (ys.lo + i)) (V.bit (fLT i))

/-- `fzn_lex_lesseq_int__MIP` (`fzn_lex_lesseq_int.mzn` 31–54). -/
def lexLessEqIntMip (o : Opts) (xs ys : Arr V) : Prop :=
  if xs.len = 0 then True
  else if ys.len = 0 then xs.len = 0
  else
    let size := min (xs.hi - xs.lo) (ys.hi - ys.lo)
    ∃ fEQ fLT : Int → Bool, ∑ i ∈ Finset.Icc 0 size, (V.bit (fLT i)).val ≤ 1 ∧ lexFlags size fEQ fLT ∧
      ∀ i ∈ Finset.Icc 0 size, auxIntEqIf1 o (xs (xs.lo + i)) (ys (ys.lo + i)) (V.bit (fEQ i)) ∧
        auxIntLtIf1 o (xs (xs.lo + i)) (ys (ys.lo + i)) (V.bit (fLT i))

/-- `fzn_lex_lesseq_int` (`fzn_lex_lesseq_int.mzn` 9–29) when the solver has no orbisack constraint and the decomposition of the
standard library is not asked for; `none` is the failed assertion. -/
def lexLessEqInt (o : Opts) (xs ys : Arr V) : Option Prop :=
  if xs.len = ys.len then some (lexLessEqIntMip o xs ys) else none

/-- `fzn_lex_less_float__MIP` (`fzn_lex_less_float.mzn` 10–31). -/
def lexLessFloat (o : Opts) (xs ys : Arr F) : Prop :=
  if ys.len = 0 then False
  else if xs.len = 0 then True
  else
    let size := min (xs.hi - xs.lo) (ys.hi - ys.lo)
    ∃ fEQ fLT : Int → Bool, ∑ i ∈ Finset.Icc 0 size, (V.bit (fLT i)).val = 1 ∧ lexFlags size fEQ fLT ∧
      ∀ i ∈ Finset.Icc 0 size, auxFloatEqIf1 o (xs (xs.lo + i)) (ys (ys.lo + i)) (V.bit (fEQ i)) ∧
        auxFloatLtIf1 o (xs (xs.lo + i)) (ys (ys.lo + i)) (V.bit (fLT i))

/-- `fzn_lex_chain_lesseq_int__CP` (`fzn_lex_chain_lesseq_int.mzn` 17–20). -/
def lexChain (o : Opts) (a : Mat V) : Prop :=
  ∀ j, a.lo2 ≤ j → j ≤ a.hi2 → a.lo2 ≤ j + 1 → j + 1 ≤ a.hi2 →
    ∃ c, lexLessEqInt o (column a j) (column a (j + 1)) = some c ∧ c

/-- `fzn_lex_chain_lesseq_orbitope__CP` (`fzn_lex_chain_lesseq_orbitope.mzn` 24–37). -/
def lexChainOrbitope (o : Opts) (a : Mat V) (kind : Int) : Prop :=
  lexChain o a ∧
  if 1 = kind then ∀ i ∈ Finset.Icc a.lo1 a.hi1, 1 = ∑ j ∈ Finset.Icc a.lo2 a.hi2, (a.val i j).val
  else if 2 = kind then ∀ i ∈ Finset.Icc a.lo1 a.hi1, 1 ≥ ∑ j ∈ Finset.Icc a.lo2 a.hi2, (a.val i j).val
  else True

/-! ## Table, sliding sum, clause -/

/-- `fzn_table_int` (`fzn_table_int.mzn` 10–15). -/
def tableInt (xs : Arr V) (t : Mat Int) : Prop :=
  ∃ lmda : Int → Bool, ∑ i ∈ Finset.Icc t.lo1 t.hi1, (V.bit (lmda i)).val = 1 ∧
    ∀ j ∈ xs.idx, ∑ i ∈ Finset.Icc t.lo1 t.hi1, t.val i j * (V.bit (lmda i)).val = (xs j).val

/-- `fzn_sliding_sum` (`fzn_sliding_sum.mzn` 1–9) of an array that is not empty. -/
def slidingSum (low up window : Int) (xs : Arr V) : Prop :=
  ∀ i ∈ Finset.Icc xs.lo (xs.hi - window + 1),
    low ≤ ∑ j ∈ Finset.Icc i (i + window - 1), (xs j).val ∧ ∑ j ∈ Finset.Icc i (i + window - 1), (xs j).val ≤ up

/-- `bool_clause_reif` (`redefinitions-2.0.mzn` 1–8). -/
def boolClauseReif (xs ys : List V) (b : V) : Prop :=
  b.val = 1 ↔ (xs.map V.val).sum - (ys.map V.val).sum + ys.length ≥ 1

/-! ## Regular -/

section
variable (Q S : Int) (d : Int → Int → Int) (q0 : Int) (Fin : Finset Int) (N : Nat) (X : Nat → Finset Int)

/-- `va_R`: the states that can follow (`fzn_regular.mzn` 41, 55). -/
def nextStates (A B : Finset Int) : Finset Int := (A.biUnion fun va => B.image fun vx => d va vx) \ {0}

/-- The states from which a symbol leads to one of the given states (`fzn_regular.mzn` 48–49). -/
def backStates (A B C : Finset Int) : Finset Int := A.filter fun va => ∃ vx ∈ B, d va vx ∈ C

/-- The domains of the symbols: `xs[i] in 1..S` (`fzn_regular.mzn` 37). -/
def symDom (k : Nat) : Finset Int := X k ∩ Finset.Icc 1 S

/-- The domains of the states after the first pass (`fzn_regular.mzn` 29–44). -/
def dom1 : Nat → Finset Int
  | 0 => Finset.Icc 1 Q ∩ {q0}
  | k + 1 => (Finset.Icc 1 Q ∩ nextStates d (dom1 k) (symDom S X k)) ∩ (if k + 1 = N then Fin else Finset.Icc 1 Q)

/-- The domains of the states after the backward pass (`fzn_regular.mzn` 46–52); `j` counts from the end. -/
def dom2r : Nat → Finset Int
  | 0 => dom1 Q S d q0 Fin N X N
  | j + 1 => backStates d (dom1 Q S d q0 Fin N X (N - (j + 1))) (symDom S X (N - (j + 1))) (dom2r j)

/-- The domain of state `k` after the backward pass. -/
def dom2 (k : Nat) : Finset Int := dom2r Q S d q0 Fin N X (N - k)

/-- The domains of the symbols after the backward pass (`fzn_regular.mzn` 50–51). -/
def symDom2 (k : Nat) : Finset Int :=
  (symDom S X k).filter fun vx => ∃ va ∈ dom2 Q S d q0 Fin N X k, d va vx ∈ dom2 Q S d q0 Fin N X (k + 1)

/-- The domains of the states after the last pass (`fzn_regular.mzn` 53–64). -/
def dom3 : Nat → Finset Int
  | 0 => dom2 Q S d q0 Fin N X 0
  | k + 1 => dom2 Q S d q0 Fin N X (k + 1) ∩ nextStates d (dom3 k) (symDom2 Q S d q0 Fin N X k)

end

/-- One step of the automaton (`fzn_regular.mzn` 76–100): state `a` and symbol `x` lead to state `b`; `limit` is
`nMZN__UnarySizeMax_1step_regular`. -/
def regularStep (o : Opts) (limit : Nat) (d : Int → Int → Int) (a x b : V) (ea ex eb : Int → Int) : Prop :=
  if a.dom.card * x.dom.card > limit then
    ∀ va ∈ a.dom, ∀ vx ∈ x.dom,
      if d va vx ∈ b.dom then eb (d va vx) ≥ ea va + ex vx - 1 else 1 ≥ ea va + ex vx
  else ∃ pp, EqEncode2 o a x pp ∧
    (∀ va2 ∈ b.dom, eb va2 = ∑ va1 ∈ a.dom, ∑ vx ∈ x.dom.filter (fun vx => d va1 vx = va2), pp va1 vx) ∧
    ∀ va1 ∈ a.dom, ∀ vx ∈ x.dom, if ¬ d va1 vx ∈ b.dom then pp va1 vx = 0 else True

/-- `fzn_regular` (`fzn_regular.mzn` 9–103).  The position of an element is counted from 0.  The three passes narrow the domains
one after the other, each as far as written. -/
def regular (o : Opts) (limit : Nat) (xs : Arr V) (Q S : Int) (d : Int → Int → Int) (q0 : Int) (Fin : Finset Int) : Prop :=
  if xs.len = 0 then q0 ∈ Fin
  else
    let N := xs.len.toNat
    let X := fun k : Nat => (xs (xs.lo + k)).dom
    ∃ (a : Nat → Int) (ha : ∀ k ≤ N, a k ∈ dom3 Q S d q0 Fin N X k)
      (hx : ∀ k < N, (xs (xs.lo + k)).val ∈ symDom2 Q S d q0 Fin N X k),
      let A := fun k : Nat => if h : k ≤ N then V.mk (dom3 Q S d q0 Fin N X k) (a k) (ha k h) else V.const 0
      let Y := fun k : Nat => if h : k < N then restrict (xs (xs.lo + k)) (symDom2 Q S d q0 Fin N X k) (hx k h) else V.const 0
      ∃ ea ex, EqEncodeArr o A ea ∧ EqEncodeArr o Y ex ∧
        ∀ k < N, regularStep o limit d (A k) (Y k) (A (k + 1)) (ea k) (ex k) (ea (k + 1))

end MZ.LinGlob
