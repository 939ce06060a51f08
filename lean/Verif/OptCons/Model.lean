import Verif.Linear.Model
/-!
# Model: the constraint optimisers (lib/optimize_constraints.cpp)

Each function looks at one FlatZinc constraint and answers that it is violated, that it always holds,
that it should be replaced, or that nothing is known. Arguments are literals or identifiers
(`Linear.Atom`, where every atom that is not a literal is an identifier; fixed identifiers are replaced
by their value). Domains are range sequences; Boolean domains are a fixed value or absent.
-/
namespace MZ
namespace OptCons
open Linear (Atom LinOp)

/-- Boolean operands: a fixed value, an identifier (numbered by the address of its declaration), or
another non-fixed expression. -/
inductive BAtom
  | lit (b : Bool)
  | var (n : Nat)
  | other (n : Nat)
deriving DecidableEq, Repr

/-- The FlatZinc constraints that are inspected or produced. -/
inductive Con
  | lin (op : LinOp) (ts : List (Int × Atom)) (k : Int)
  | intEq (a b : Atom)
  | intLe (a b : Atom)
  | intNe (a b : Atom)
  | intDiv (a b c : Atom)
  | intTimes (a b c : Atom)
  | element (i : Atom) (xs : List Atom) (r : Atom)
  | setIn (x : Atom) (S : List Range)
  | clause (pos neg : List BAtom)
  | conj (xs : List BAtom)
  | disj (xs : List BAtom)
  | boolNot (a b : BAtom)
  | boolEq (a b : BAtom)
deriving DecidableEq, Repr

/-- Integer-valued calls: `lin_exp(cs,xs,d)`, `int_times(a,b)`, or a plain operand. -/
inductive IExp
  | atom (a : Atom)
  | lin (ts : List (Int × Atom)) (d : Int)
  | times (a b : Atom)
deriving DecidableEq, Repr

/-- optimize_constraints.hh `ConstraintStatus` with the rewritten expression (`CS_NONE` is not needed:
it is returned for constraints without an optimiser). -/
inductive Status (α : Type)
  | ok
  | failed
  | entailed
  | rewrite (c : α)
deriving DecidableEq, Repr

/-- What the optimisers can see: the declared domains, and whether the constraint is asserted (a
constraint item, or the definition of a variable fixed to true; 66–67). -/
structure Env where
  dom : Atom → Option (List Range)
  bdom : Nat → Option Bool
  root : Bool

/-- A reference to an element of a set whose existence is only asserted. -/
def orUB {α : Type} : Option α → Res α
  | some a => .ok a
  | none => .ub

/-- `failed ? CS_FAILED : CS_ENTAILED` -/
def verdict {α : Type} (failed : Bool) : Status α := if failed then .failed else .entailed

/-- 53–64: a linear constraint without variables. -/
def linEmpty (op : LinOp) (d k : Int) : Status Con :=
  match op with
  | .le => verdict (decide (d > k))
  | .eq => verdict (decide (d ≠ k))
  | .ne => verdict (decide (d = k))

/-- values.hh `abs(IntVal)`. -/
def absV (x : Int) : Res Int := if x < 0 then safeMinus 0 x else .ok x

/-- 90–107: the bound for a single variable with coefficient `c` and right-hand side `rd`.
`ad % ac == 0` is tested by the caller's `if`; the quotient of doubles is that of
`Verif/Dbl/Model.lean`. The negations 101 and 103 are of plain `long long`. -/
def linBound (c rd : Int) : Res Int := do
  let ac ← absV c
  let ad ← absV rd
  let m ← safeMod ad ac
  if m = 0 then safeDiv rd c
  else if c ≥ 0 ∧ rd ≥ 0 then Dbl.floorDiv ad ac
  else if rd ≥ 0 then do
    let q ← Dbl.floorDiv ad ac
    ll (-q)
  else if c ≥ 0 then do
    let q ← Dbl.ceilDiv ad ac
    ll (-q)
  else Dbl.ceilDiv ad ac

/-- 108–135: comparison of the bound `nd` with a domain. -/
def linLeDom (c nd : Int) (a : Atom) (D : List Range) : Res (Status Con) := do
  let mx ← orUB (IntSet.max? D)
  let mn ← orUB (IntSet.min? D)
  if c < 0 then
    if mx < .fin nd then .ok .failed
    else if .fin nd ≤ mn then .ok .entailed
    else .ok (.rewrite (.intLe (.lit nd) a))
  else
    if .fin nd < mn then .ok .failed
    else if mx ≤ .fin nd then .ok .entailed
    else .ok (.rewrite (.intLe a (.lit nd)))

/-- 147–172: the constraint with fewer terms, if terms disappeared. -/
def linRest (op : LinOp) (n : Nat) (ts : List (Int × Atom)) (d k : Int) : Res (Status Con) :=
  if ts.length < n then do
    let k' ← safeMinus k d
    .ok (.rewrite (.lin op ts k'))
  else .ok .ok

/-- 72–88 a single variable, `int_lin_eq`. The debug-only `assert(!domain->empty())` of 71, which
dereferences a null pointer when there is no domain, is left out. -/
def linEq1 (E : Env) (c : Int) (a : Atom) (d k : Int) : Res (Status Con) := do
  let rd ← safeMinus k d
  let m ← safeMod rd c
  if m = 0 then do
    let nd ← safeDiv rd c
    match E.dom a with
    | some D => if IntSet.contains (.fin nd) D then .ok (.rewrite (.intEq a (.lit nd))) else .ok .failed
    | none => .ok (.rewrite (.intEq a (.lit nd)))
  else .ok .failed

/-- 89–136 a single variable, `int_lin_le`; without a domain the bound is computed and then not used. -/
def linLe1 (E : Env) (n : Nat) (c : Int) (a : Atom) (d k : Int) : Res (Status Con) := do
  let rd ← safeMinus k d
  let nd ← linBound c rd
  match E.dom a with
  | some D => linLeDom c nd a D
  | none => linRest .le n [(c, a)] d k

/-- 137–146: `x - y = 0`. -/
def isDiff (c0 c1 : Int) : Bool := (c0 = 1 && c1 = -1) || (c1 = 1 && c0 = -1)

/-- 39–173 `o_linear`, after `simplify_lin` (51) has turned the `n` terms into `ts` and the constant
`d`. -/
def linSimplified (E : Env) (op : LinOp) (n : Nat) (ts : List (Int × Atom)) (d k : Int) :
    Res (Status Con) :=
  match ts with
  | [] => .ok (linEmpty op d k)
  | [(c, a)] =>
    if E.root then
      match op with
      | .eq => linEq1 E c a d k
      | .le => linLe1 E n c a d k
      | .ne => linRest .ne n [(c, a)] d k
    else linRest op n [(c, a)] d k
  | [(c0, a0), (c1, a1)] =>
    if op = .eq ∧ isDiff c0 c1 = true then do
      let rd ← safeMinus k d
      if rd = 0 then .ok (.rewrite (.intEq a0 a1)) else linRest op n ts d k
    else linRest op n ts d k
  | _ => linRest op n ts d k

/-- 39–173 `o_linear`; `idx` is the order in which `std::sort` in `simplify_lin` leaves the terms. -/
def oLinear (E : Env) (idx : List Nat) (op : LinOp) (ts : List (Int × Atom)) (k : Int) :
    Res (Status Con) := do
  let (ts', d) ← Linear.simplifyLinIdx idx ts 0
  linSimplified E op ts.length ts' d k

/-- 193–222, after `simplify_lin`. -/
def linExpSimplified (n : Nat) (ts : List (Int × Atom)) (d : Int) : Status IExp :=
  match ts with
  | [] => .rewrite (.atom (.lit d))
  | _ =>
    if ts.length < n then
      match ts with
      | [(c, a)] => if c = 1 ∧ d = 0 then .rewrite (.atom a) else .rewrite (.lin ts d)
      | _ => .rewrite (.lin ts d)
    else .ok

/-- 175–225 `o_lin_exp` of an integer-valued call. -/
def oLinExp (idx : List Nat) (ts : List (Int × Atom)) (d0 : Int) : Res (Status IExp) := do
  let (ts', d) ← Linear.simplifyLinIdx idx ts d0
  .ok (linExpSimplified ts.length ts' d)

/-- 227–243 `o_element`. The cast of the index to `int` (234) is exact for arrays of fewer than
`2^31` elements. -/
def oElement (i : Atom) (xs : List Atom) (r : Atom) : Status Con :=
  match i with
  | .lit v =>
    if v < 1 ∨ v > xs.length then .failed
    else
      match xs[v.toNat - 1]? with
      | some e => .rewrite (.intEq e r)
      | none => .failed
  | _ => .ok

/-- 249–254, 257–262: the identifiers without a domain. -/
def freeVars (E : Env) : List BAtom → List Nat
  | [] => []
  | .var n :: l => if (E.bdom n).isNone then n :: freeVars E l else freeVars E l
  | _ :: l => freeVars E l

/-- 268–283: simultaneous scan of the two sorted vectors. -/
def clauseScan : List Nat → List Nat → Bool
  | [], _ => false
  | _, [] => false
  | p :: ps, q :: qs =>
    if p = q then true
    else if p < q then clauseScan ps (q :: qs)
    else clauseScan (p :: ps) qs
termination_by ps qs => ps.length + qs.length

/-- 245–289 `o_clause`; `std::sort` is `List.mergeSort`. -/
def oClause (E : Env) (pos neg : List BAtom) : Status Con :=
  if clauseScan ((freeVars E pos).mergeSort (fun a b => decide (a ≤ b)))
      ((freeVars E neg).mergeSort (fun a b => decide (a ≤ b))) then .entailed
  else .ok

/-- 291–315 `o_forall`: the loop with the flag `subsumed`. -/
def oForall (E : Env) : List BAtom → Bool → Status Con
  | [], sub => if sub then .entailed else .ok
  | .lit b :: l, sub => if !b then .failed else oForall E l sub
  | .var n :: l, sub =>
    match E.bdom n with
    | some b => if b = false then .failed else oForall E l sub
    | none => oForall E l false
  | .other _ :: l, _ => oForall E l false

/-- 317–341 `o_exists`: the loop with the flag `failed`. -/
def oExists (E : Env) : List BAtom → Bool → Status Con
  | [], failed => if failed then .failed else .ok
  | .lit b :: l, failed => if b then .entailed else oExists E l failed
  | .var n :: l, failed =>
    match E.bdom n with
    | some b => if b = true then .entailed else oExists E l failed
    | none => oExists E l false
  | .other _ :: l, _ => oExists E l false

/-- 343–362 `o_not` with two arguments. -/
def oNot : BAtom → BAtom → Status Con
  | .lit x, .lit y => if x = y then .failed else .entailed
  | e0, .lit y => .rewrite (.boolEq e0 (.lit !y))
  | .lit x, e1 => .rewrite (.boolEq e1 (.lit !x))
  | _, _ => .ok

/-- 364–375 `o_div`. -/
def oDiv (a b c : Atom) : Res (Status Con) :=
  match b, a, c with
  | .lit y, .lit x, .lit z => do
    let q ← safeDiv x y
    .ok (if q = z then .entailed else .failed)
  | _, _, _ => .ok .ok

/-- 378–400: the result of a product, if known. -/
def timesResult (a b : Atom) : Res (Option Atom) :=
  match a, b with
  | .lit x, .lit y => do
    let p ← safeMult x y
    .ok (some (.lit p))
  | .lit x, b => .ok (if x = 0 then some (.lit 0) else if x = 1 then some b else none)
  | a, .lit y => .ok (if y = 1 then some a else if y = 0 then some (.lit 0) else none)
  | _, _ => .ok none

/-- 402–412 `o_times`, relational version. -/
def oTimes (a b c : Atom) : Res (Status Con) := do
  match ← timesResult a b with
  | some r => .ok (.rewrite (.intEq c r))
  | none => .ok .ok

/-- 402–407 `o_times`, functional version. -/
def oTimesFun (a b : Atom) : Res (Status IExp) := do
  match ← timesResult a b with
  | some r => .ok (.rewrite (.atom r))
  | none => .ok .ok

/-- 415–452 `o_set_in` with a fixed set. A literal of the new equation is a finite integer: `min` is
infinite on both ends only for the empty set, whose `min()` must not be taken. -/
def oSetIn (E : Env) (x : Atom) (S : List Range) : Res (Status Con) :=
  match x with
  | .lit v => .ok (if IntSet.contains (.fin v) S then .entailed else .failed)
  | a =>
    match E.dom a with
    | some D =>
      .ok (if Ranges.subset D S then .entailed else if Ranges.disjoint D S then .failed else .ok)
    | none => do
      let mn ← orUB (IntSet.min? S)
      let mx ← orUB (IntSet.max? S)
      match mn with
      | .fin v => .ok (if Ext.fin v = mx then .rewrite (.intEq a (.lit v)) else .ok)
      | _ => .ok .ok

def isId : Atom → Bool
  | .lit _ => false
  | _ => true

/-- 464–477: identifier `a` against the constant `v`. -/
def neDom (E : Env) (a : Atom) (v : Int) : Res (Status Con) :=
  match E.dom a with
  | none => .ok .ok
  | some D =>
    if !IntSet.contains (.fin v) D then .ok .entailed
    else do
      let mn ← orUB (IntSet.min? D)
      let mx ← orUB (IntSet.max? D)
      .ok (if Ext.fin v = mn ∧ Ext.fin v = mx then .failed else .ok)

/-- 461–463, 489–493: `if (isa<Id>(e1)) swap`. -/
def order (e0 e1 : Atom) : Atom × Atom × Bool := if isId e1 then (e1, e0, true) else (e0, e1, false)

/-- 454–480 `o_int_ne`. -/
def oIntNe (E : Env) (e0 e1 : Atom) : Res (Status Con) :=
  match e0, e1 with
  | .lit x, .lit y => .ok (if x ≠ y then .entailed else .failed)
  | e0, e1 =>
    match order e0 e1 with
    | (a, .lit v, _) => neDom E a v
    | _ => .ok .ok

/-- 496–514: identifier `a` against the constant `v`. -/
def leDom (E : Env) (a : Atom) (v : Int) (swapped : Bool) : Res (Status Con) :=
  match E.dom a with
  | none => .ok .ok
  | some D => do
    let mn ← orUB (IntSet.min? D)
    let mx ← orUB (IntSet.max? D)
    if !swapped then
      .ok (if mx ≤ .fin v then .entailed else if .fin v < mn then .failed else .ok)
    else
      .ok (if .fin v ≤ mn then .entailed else if mx < .fin v then .failed else .ok)

/-- 482–519 `o_int_le`. -/
def oIntLe (E : Env) (e0 e1 : Atom) : Res (Status Con) :=
  match e0, e1 with
  | .lit x, .lit y => .ok (if x ≤ y then .entailed else .failed)
  | e0, e1 =>
    match order e0 e1 with
    | (a, .lit v, sw) => leDom E a v sw
    | _ => .ok .ok

/-- 22–30 `process` with the registrations 535–550, for the constraints other than linear ones. -/
def process (E : Env) : Con → Res (Status Con)
  | .intDiv a b c => oDiv a b c
  | .intTimes a b c => oTimes a b c
  | .element i xs r => .ok (oElement i xs r)
  | .setIn x S => oSetIn E x S
  | .clause pos neg => .ok (oClause E pos neg)
  | .conj xs => .ok (oForall E xs true)
  | .disj xs => .ok (oExists E xs true)
  | .boolNot a b => .ok (oNot a b)
  | .intNe a b => oIntNe E a b
  | .intLe a b => oIntLe E a b
  | _ => .ok .ok

end OptCons
end MZ
