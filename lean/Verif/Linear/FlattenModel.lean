import Verif.Linear.Model
/-!
# Model: `flatten_linexp_binop<IntLit>` (lib/flatten/flatten_binop.cpp 468–870)

The function turns the comparison of two linear expressions into one posted constraint, a constant,
a domain change or the unification of two variables. Left out: the common-subexpression table
(744–768) and the creation of AST nodes and types.
-/
namespace MZ
namespace Linear
open Domain (Cmp)

/-- A side of the comparison as produced by `get_linexp` (flatten_binop.cpp 442–466): a literal, an
identifier, or a `lin_exp` call. -/
inductive Side
  | const (v : IntVal)
  | atom (a : Atom)
  | lin (ts : List (Int × Atom)) (k : Int)
deriving DecidableEq, Repr

/-- What the flattener knows about operands, and the context of the comparison. -/
structure Env where
  /-- `computeBounds` (`ib.valid`, `ib.l`, `ib.u`) -/
  bounds : Atom → Option (Ext × Ext)
  /-- the declared domain `vd->ti()->domain()` -/
  dom : Atom → Option (List Range)
  /-- `Expression::isa<Id>` -/
  isId : Atom → Bool
  /-- `env.hasReverseMapper` -/
  rev : Atom → Bool
  /-- the declaration has a right-hand side -/
  hasRhs : Atom → Bool
  /-- `ctx.b == C_ROOT` -/
  root : Bool
  /-- `r == env.constants.varTrue` -/
  rTrue : Bool
  /-- the operator was complemented because of a negated context -/
  doubleNeg : Bool

/-- The outcome of flattening the comparison. -/
inductive Post
  /-- the comparison is this Boolean constant (already complemented if `doubleNeg`) -/
  | const (b : Bool)
  /-- nothing to post -/
  | nothing
  /-- the domain of the variable is replaced -/
  | newDomain (a : Atom) (d : List Range)
  /-- the two variables are made equal -/
  | unify (a b : Atom)
  /-- a call to the builtin of a binary comparison -/
  | cmp (bot : Cmp) (e0 e1 : Atom)
  /-- a call to a linear builtin; besides, the domain of a variable may be replaced, or failure
  detected -/
  | lin (op : LinOp) (ts : List (Int × Atom)) (k : Int) (nd : Option (Atom × List Range)) (failed : Bool)
deriving DecidableEq, Repr

/-- flatten_binop.cpp 488–514: result for an infinite left side. -/
def infLeft (bot : Cmp) (v : IntVal) : Bool :=
  match bot with
  | .nq => true
  | .le | .lq => v.isMinusInfinity
  | .gr | .gq => v.isPlusInfinity
  | .eq => false

/-- flatten_binop.cpp 515–545: result for an infinite right side. -/
def infRight (bot : Cmp) (v : IntVal) : Bool :=
  match bot with
  | .nq => true
  | .le | .lq => v.isPlusInfinity
  | .gr | .gq => v.isMinusInfinity
  | .eq => false

/-- flatten_binop.cpp 477–545 the check for infinite parameters (not made for `=` in root
context). -/
def infCheck (E : Env) (bot : Cmp) (le0 le1 : Side) : Option Bool :=
  if bot = .eq ∧ E.root then none
  else match le0, le1 with
    | .const v, _ => if v.isFinite then none else some (infLeft bot v)
    | _, .const v => if v.isFinite then none else some (infRight bot v)
    | _, _ => none

/-- flatten_binop.cpp 547–576: terms of a `lin_exp` multiplied by the sign. -/
def collect (sign : Int) (s : Side) (ts : List (Int × Atom)) (d : Int) :
    Res (List (Int × Atom) × Int) :=
  match s with
  | .const v => do
    let t ← IntVal.mul (.fin sign) v
    let d' ← IntVal.add (.fin d) t
    .ok (ts, d'.v)
  | .atom a => .ok (ts ++ [(sign, a)], d)
  | .lin us k => do
    let t ← safeMult sign k
    let d' ← safePlus d t
    let us' ← scale sign us
    .ok (ts ++ us', d')

/-- flatten_binop.cpp 578–609: the comparison of constants. -/
def cmpZero (bot : Cmp) (m : Int) : Bool :=
  match bot with
  | .le => decide (0 < m)
  | .lq => decide (0 ≤ m)
  | .gr => decide (0 > m)
  | .gq => decide (0 ≥ m)
  | .eq => decide (0 = m)
  | .nq => decide (0 ≠ m)

/-- flatten_binop.cpp 611–630: multiplying an inequality by -1. -/
def flip : Cmp → Cmp
  | .le => .gr
  | .lq => .gq
  | .gr => .le
  | .gq => .lq
  | .eq => .eq
  | .nq => .nq

/-- flatten_binop.cpp 632–665: is the comparison with `d` implied by the bounds? -/
def subsumed (bot : Cmp) (l u d : Ext) : Bool :=
  match bot with
  | .le => decide (u < d)
  | .lq => decide (u ≤ d)
  | .gr => decide (d < l)
  | .gq => decide (d ≤ l)
  | .eq => decide (l = d) && decide (u = d)
  | .nq => decide (u < d) || decide (d < l)

/-- flatten_binop.cpp 632–665: is it contradicted by the bounds? -/
def failed (bot : Cmp) (l u d : Ext) : Bool :=
  match bot with
  | .le => decide (d ≤ l)
  | .lq => decide (d < l)
  | .gr => decide (u ≤ d)
  | .gq => decide (u < d)
  | .eq => decide (u < d) || decide (d < l)
  | .nq => decide (l = d) && decide (u = d)

/-- flatten_binop.cpp 678–695: `x = d` in root context becomes a domain. -/
def assign (E : Env) (a : Atom) (d : Int) : Post :=
  match E.dom a with
  | some D =>
    if IntSet.contains (.fin d) D then
      if Ranges.equal D [⟨.fin d, .fin d⟩] then .nothing else .newDomain a [⟨.fin d, .fin d⟩]
    else .const false
  | none => .newDomain a [⟨.fin d, .fin d⟩]

/-- flatten_binop.cpp 696–729: the operands of the binary comparison (integer case). -/
def normCmp (bot : Cmp) (a : Atom) (d : Int) : Res (Cmp × Atom × Atom) :=
  match bot with
  | .le => do let d' ← safeMinus d 1; .ok (.lq, a, .lit d')
  | .gr => do let d' ← safePlus d 1; .ok (.lq, .lit d', a)
  | .gq => .ok (.lq, .lit d, a)
  | b => .ok (b, a, .lit d)

/-- flatten_binop.cpp 678–774: `a bot d` for a single variable with coefficient 1, not decided by
its bounds. -/
def postSingle (E : Env) (bot : Cmp) (a : Atom) (d : Int) : Res Post :=
  if E.root ∧ E.isId a ∧ bot = .eq then .ok (assign E a d)
  else do
    let (b', e0, e1) ← normCmp bot a d
    if E.root ∧ E.isId a ∧ ¬ E.rev a then
      match E.dom a with
      | some D => do
        let nd ← Domain.limitDomain bot D (.fin d)
        .ok (if nd = [] then .const false
          else if Ranges.equal D nd then .nothing else .newDomain a nd)
      | none => .ok (.cmp b' e0 e1)
    else .ok (.cmp b' e0 e1)

/-- flatten_binop.cpp 610–631: operator and constant such that `c·x + d bot 0` is `x bot' d'`. -/
def unitForm (bot : Cmp) (c d : Int) : Res (Cmp × Int) :=
  if c = -1 then .ok (flip bot, d) else do
    let m ← safeMinus 0 d
    .ok (bot, m)

/-- flatten_binop.cpp 610–774: one variable with coefficient `c = ±1`. -/
def single (E : Env) (bot : Cmp) (c : Int) (a : Atom) (d : Int) : Res Post := do
  let bd ← unitForm bot c d
  match E.bounds a with
  | some (l, u) =>
    let s := subsumed bd.1 l u (.fin bd.2)
    let f := failed bd.1 l u (.fin bd.2)
    if (if E.doubleNeg then f else s) then .ok (.const true)
    else if (if E.doubleNeg then s else f) then .ok (.const false)
    else postSingle E bd.1 a bd.2
  | none => postSingle E bd.1 a bd.2

/-- flatten_binop.cpp 793–814: bounds of the other terms, and the coefficient of the assigned
variable; the terms are visited from the last to the first. `none`: some bound is unknown. -/
def sumBounds (E : Env) (tgt : Atom) : List (Int × Atom) → Int → Int → Int → Res (Option (Int × Int × Int))
  | [], l, u, rc => .ok (some (l, u, rc))
  | (c, a) :: ts, l, u, rc =>
    if a = tgt then sumBounds E tgt ts l u c
    else match E.bounds a with
      | some (.fin bl, .fin bu) =>
        if c > 0 then do
          let l' ← addMul l c bl
          let u' ← addMul u c bu
          sumBounds E tgt ts l' u' rc
        else do
          let l' ← addMul l c bu
          let u' ← addMul u c bl
          sumBounds E tgt ts l' u' rc
      | _ => .ok none

/-- flatten_binop.cpp 815–823: the interval for the assigned variable. -/
def divBounds (l u rc : Int) : Res (Int × Int) := do
  let m ← safeMinus 0 rc
  if rc < 0 then do
    let l' ← Dbl.floorDiv l m
    let u' ← Dbl.ceilDiv u m
    .ok (l', u')
  else do
    let l' ← Dbl.ceilDiv u m
    let u' ← Dbl.floorDiv l m
    .ok (l', u')

/-- flatten_binop.cpp 824–844: change of the domain of the assigned variable; the Boolean is the
detected failure. -/
def assignDomain (E : Env) (tgt : Atom) (l u : Int) : Option (Atom × List Range) × Bool :=
  match E.dom tgt with
  | some D =>
    if Domain.domainIntersects D (.fin l) (.fin u) then
      let nd := Domain.intersectInterval D (.fin l) (.fin u)
      if Ranges.equal D nd then (none, false) else (some (tgt, nd), false)
    else (none, true)
  | none => (some (tgt, Ranges.const (.fin l) (.fin u)), false)

/-- flatten_binop.cpp 792–845. -/
def tighten (E : Env) (tgt : Option Atom) (ts : List (Int × Atom)) (d : Int) :
    Res (Option (Atom × List Range) × Bool) :=
  match tgt with
  | none => .ok (none, false)
  | some t => do
    let r ← sumBounds E t ts.reverse d d 0
    match r with
    | none => .ok (none, false)
    | some (l, u, rc) =>
      if rc = 0 then .ok (none, false)
      else do
        let (l', u') ← divBounds l u rc
        .ok (assignDomain E t l' u')

/-- flatten_binop.cpp 477–485 `assignTo`. The later pointer comparison with it (796) is modelled
as equality of identifiers. -/
def assignTo (E : Env) (bot : Cmp) (le0 le1 : Side) : Option Atom :=
  if bot = .eq ∧ E.root then
    match le0, le1 with
    | .atom a, .atom b => if E.isId a then some a else if E.isId b then some b else none
    | .atom a, _ => if E.isId a then some a else none
    | _, .atom b => if E.isId b then some b else none
    | _, _ => none
  else none

/-- flatten_binop.cpp 790–868: the general case. -/
def general (E : Env) (bot : Cmp) (tgt : Option Atom) (ts : List (Int × Atom)) (d : Int) : Res Post := do
  let (nd, failed) ← tighten E tgt ts d
  let (op, ts', k) ← buildLin bot ts d
  .ok (.lin op ts' k nd failed)

/-- values.hh 302–307 `abs`. -/
def absV (c : Int) : Res Int := if c < 0 then safeMinus 0 c else .ok c

/-- flatten_binop.cpp 578–870, after simplification. -/
def dispatch (E : Env) (bot : Cmp) (tgt : Option Atom) (ts : List (Int × Atom)) (d : Int) : Res Post :=
  match ts with
  | [] => do
    let m ← safeMinus 0 d
    .ok (.const (if E.doubleNeg then !cmpZero bot m else cmpZero bot m))
  | [(c, a)] => do
    let ac ← absV c
    if ac = 1 then single E bot c a d else general E bot tgt [(c, a)] d
  | [(c0, a0), (c1, a1)] =>
    if bot = .eq then do
      let n ← safeMinus 0 c1
      if c0 = n ∧ d = 0 then
        if E.isId a0 ∧ E.isId a1 then
          .ok (if E.root ∧ E.rTrue ∧ (¬ E.hasRhs a0 ∨ ¬ E.hasRhs a1) then .unify a0 a1
            else .cmp .eq a0 a1)
        else .ub
      else general E bot tgt [(c0, a0), (c1, a1)] d
    else general E bot tgt [(c0, a0), (c1, a1)] d
  | ts => general E bot tgt ts d

/-- flatten_binop.cpp 468–870 `flatten_linexp_binop<IntLit>`. The sort inside `simplify_lin` is a
parameter: any function returning a sorted index vector. -/
def flattenLin (E : Env) (sorter : List (Int × Atom) → List Nat) (bot : Cmp) (le0 le1 : Side) : Res Post :=
  match infCheck E bot le0 le1 with
  | some b => .ok (.const (if E.doubleNeg then !b else b))
  | none => do
    let s0 ← collect 1 le0 [] 0
    let s1 ← collect (-1) le1 s0.1 s0.2
    let s ← simplifyLinIdx (sorter s1.1) s1.1 s1.2
    dispatch E bot (assignTo E bot le0 le1) s.1 s.2

end Linear
end MZ
