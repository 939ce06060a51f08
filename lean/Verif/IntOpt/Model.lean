import Verif.Domain.Props

/-!
# Simplification of equalities, inequalities and `bool2int` in the optimiser

Model of `simplify_constraint`, `lib/optimize.cpp:1310-1787`, on a flat model with integer and Boolean variables.  The
constraints `int_eq`, `bool_eq`, `int_le` and `bool2int` are modelled in full; a constraint handled by
`OptimizeRegistry` is opaque, with the status the registry returns as a parameter (the functions behind it are
modelled in `Verif/OptCons`).  Float and set variables, annotations, the queues and the removal of
unused declarations are left out.
-/

namespace MZ
namespace IntOpt

/-- An integer argument: an identifier or a literal. -/
inductive IArg where
  | var (x : Nat)
  | lit (k : Int)
  deriving DecidableEq

/-- A Boolean argument. -/
inductive BArg where
  | var (v : Nat)
  | lit (b : Bool)
  deriving DecidableEq

/-- The constraints. -/
inductive Con where
  | intEq (a b : IArg)
  | boolEq (a b : BArg)
  | intLe (a b : IArg)
  /-- `bool2int(b, x)` -/
  | b2i (b : BArg) (x : IArg)
  /-- any other call -/
  | other (n : Nat)
  deriving DecidableEq

/-- The right hand side of the declaration of an integer variable. -/
inductive IRhs where
  | lit (k : Int)
  /-- `bool2int(b)` -/
  | b2i (b : BArg)
  /-- any other call -/
  | other (n : Nat)
  deriving DecidableEq

/-- The right hand side of the declaration of a Boolean variable: a literal, or a reified constraint. -/
inductive BRhs where
  | lit (b : Bool)
  | con (c : Con)
  deriving DecidableEq

/-- The declarations of the flat model. -/
structure Decls where
  idom : Nat → Option (List Range)
  bdom : Nat → Option Bool
  irhs : Nat → Option IRhs
  brhs : Nat → Option BRhs

/-- The item that is simplified: a constraint, or the declaration of a variable. -/
inductive Item where
  | con (c : Con)
  | bdecl (v : Nat)
  | idecl (x : Nat)
  deriving DecidableEq

/-- The effect: new declarations, whether a constraint item stays (and as what), failure, variables to unify. -/
structure Out where
  st : Decls
  keep : Option Con := none
  fail : Bool := false
  iunify : Option (Nat × Nat) := none
  bunify : Option (Nat × Nat) := none

/-- Assignment to a field of a declaration. -/
def upd {α : Type} (f : Nat → Option α) (x : Nat) (a : α) : Nat → Option α := fun y => if y = x then some a else f y

/-- The expression of a constraint item. -/
def Item.kept : Item → Option Con
  | .con c => some c
  | _ => none

/-- Nothing changes. -/
def same (st : Decls) (it : Item) : Out := { st := st, keep := it.kept }

/-- `EnvI::fail`, `lib/flatten.cpp:1222-1241`. -/
def failed (st : Decls) (it : Item) : Out := { st := st, keep := it.kept, fail := true }

/-- `lib/optimize.cpp:1316-1326` -/
def isTrue (st : Decls) : Item → Bool
  | .con _ => true
  | .bdecl v => decide (st.bdom v = some true)
  | .idecl _ => false

/-- `lib/optimize.cpp:1319`, `:1324-1325` -/
def isFalse (st : Decls) : Item → Bool
  | .bdecl v => decide (st.bdom v = some false)
  | _ => false

/-- The item is not needed any more: a constraint is removed, a declaration gets the literal as its right hand
side.  (A declaration without other occurrences is removed instead, `lib/optimize.cpp:1494-1503`, `:1539-1547`;
here it stays.)  `lib/optimize.cpp:1350-1355`, `:1494-1508`, `:1536-1550`. -/
def close (st : Decls) (it : Item) (b : Bool) : Decls :=
  match it with
  | .bdecl v => { st with brhs := upd st.brhs v (.lit b) }
  | _ => st

/-- `int_eq(x, d)` for a variable and a constant, `lib/optimize.cpp:1379-1386`, `:1441-1459`, `:1481-1509`. -/
def eqIntPar (st : Decls) (it : Item) (x : Nat) (d : Int) : Out :=
  let ok : Out :=
    let st1 := { st with idom := upd st.idom x [⟨.fin d, .fin d⟩] }
    let st2 := if st1.irhs x = none then { st1 with irhs := upd st1.irhs x (.lit d) } else st1
    { st := close st2 it true }
  match st.idom x with
  | none => ok
  | some D => if IntSet.contains (.fin d) D then ok else failed st it

/-- `bool_eq(v, b)` for a variable and a constant, `lib/optimize.cpp:1379-1401`, `:1481-1509`. -/
def eqBoolPar (st : Decls) (it : Item) (v : Nat) (b : Bool) : Out :=
  let ok : Out :=
    let st1 := { st with bdom := upd st.bdom v b }
    let st2 := if st1.brhs v = none then { st1 with brhs := upd st1.brhs v (.lit b) } else st1
    { st := close st2 it true }
  match st.bdom v with
  | none => ok
  | some c => if c = b then ok else failed st it

/-- Both arguments are constants, `lib/optimize.cpp:1356-1378`. -/
def eqPar (st : Decls) (it : Item) (equal : Bool) : Out :=
  if (isTrue st it && equal) || (isFalse st it && !equal) then
    match it with
    | .con _ => { st := st }
    | _ => same st it
  else if (isTrue st it && !equal) || (isFalse st it && equal) then failed st it
  else
    match it with
    | .bdecl v => { st := { st with brhs := upd st.brhs v (.lit equal), bdom := upd st.bdom v equal } }
    | _ => same st it

/-- `int_eq`, `lib/optimize.cpp:1330-1510`. -/
def simplifyIntEq (st : Decls) (it : Item) (a b : IArg) : Out :=
  match a, b with
  | .var x, .var y =>
    if isTrue st it && (decide (st.irhs x = none) || decide (st.irhs y = none)) then
      { st := close st it true, iunify := some (x, y) }
    else same st it
  | .lit j, .lit k => eqPar st it (decide (j = k))
  | .var x, .lit k => if isTrue st it then eqIntPar st it x k else same st it
  | .lit k, .var x => if isTrue st it then eqIntPar st it x k else same st it

/-- `bool_eq`, `lib/optimize.cpp:1330-1510`. -/
def simplifyBoolEq (st : Decls) (it : Item) (a b : BArg) : Out :=
  match a, b with
  | .var x, .var y =>
    if isTrue st it && (decide (st.brhs x = none) || decide (st.brhs y = none)) then
      { st := close st it true, bunify := some (x, y) }
    else same st it
  | .lit j, .lit k => eqPar st it (decide (j = k))
  | .var x, .lit k => if isTrue st it then eqBoolPar st it x k else same st it
  | .lit k, .var x => if isTrue st it then eqBoolPar st it x k else same st it

/-- `int_le` between a variable and a constant, `lib/optimize.cpp:1514-1552`; `left`: the variable is the first
argument. -/
def lePar (st : Decls) (it : Item) (x : Nat) (d : Int) (left : Bool) : Res Out :=
  match st.idom x with
  | none => .ok (same st it)
  | some D =>
    let bot : Domain.Cmp :=
      if left then (if isTrue st it then .lq else .gr) else (if isTrue st it then .gq else .le)
    match Domain.limitDomain bot D (.fin d) with
    | .ok nd => if nd = [] then .ok (failed st it) else .ok { st := close { st with idom := upd st.idom x nd } it (isTrue st it) }
    | .err => .err
    | .ub => .ub

/-- `int_le`, `lib/optimize.cpp:1511-1552`. -/
def simplifyIntLe (st : Decls) (it : Item) (a b : IArg) : Res Out :=
  if isTrue st it || isFalse st it then
    match a, b with
    | .var x, .lit k => lePar st it x k true
    | .lit k, .var x => lePar st it x k false
    | _, _ => .ok (same st it)
  else .ok (same st it)

/-- The integer side of a `bool2int`, `lib/optimize.cpp:1558-1580`: what is known about its value.  `target` is the
variable, or else the constant. -/
inductive Side where
  | fail
  | fixed (b : Bool)
  | unknown

def b2iSide (st : Decls) : IArg → Res Side
  | .lit k => .ok (.fixed (decide (k = 1)))
  | .var x =>
    match st.idom x with
    | none => .ok .unknown
    | some D =>
      match IntSet.min? D, IntSet.max? D with
      | some l, some u =>
        if u < .fin 0 || .fin 1 < l then .ok .fail
        else if l = u then .ok (.fixed (decide (l = .fin 1))) else .ok .unknown
      | _, _ => .ub

/-- The value of a Boolean argument, `lib/optimize.cpp:1631-1638`. -/
def bknown (st : Decls) : BArg → Option Bool
  | .lit b => some b
  | .var v => st.bdom v

/-- A declaration gets a literal as its right hand side; with no target there is nothing to do,
`lib/optimize.cpp:1617-1620`. -/
def setRhs (st : Decls) : IArg → Int → Decls
  | .var x, k => { st with irhs := upd st.irhs x (.lit k) }
  | .lit _, _ => st

/-- `bool2int`, `lib/optimize.cpp:1553-1652`.  For a declaration `x = bool2int(b)` the target is `x`; for a constraint
it is the second argument.  Note that the right hand side of the target is replaced in any case. -/
def simplifyB2i (st : Decls) (it : Item) (b : BArg) (target : IArg) : Res Out :=
  match b2iSide st target with
  | .err => .err
  | .ub => .ub
  | .ok .fail => .ok (failed st it)
  | .ok (.fixed bv) =>
    match b with
    | .lit c =>
      if c ≠ bv then .ok (failed st it)
      else
        match it with
        | .idecl x => .ok { st := { st with irhs := upd st.irhs x (.lit (if c then 1 else 0)) } }
        | _ => .ok { st := st }
    | .var v =>
      match st.bdom v with
      | none => .ok { st := setRhs { st with bdom := upd st.bdom v bv } target (if bv then 1 else 0) }
      | some c => if c ≠ bv then .ok (failed st it) else .ok { st := setRhs st target (if bv then 1 else 0) }
  | .ok .unknown =>
    match bknown st b, target with
    | some c, .var x =>
      let k : Int := if c then 1 else 0
      let ok := { st with irhs := upd st.irhs x (.lit k), idom := upd st.idom x [⟨.fin k, .fin k⟩] }
      match st.idom x with
      | none => .ok { st := ok, keep := it.kept }
      | some D => if IntSet.contains (.fin k) D then .ok { st := ok, keep := it.kept } else .ok (failed st it)
    | _, _ => .ok (same st it)

/-- What `OptimizeRegistry::process` answers, `lib/optimize.cpp:1658-1707`. -/
inductive Status where
  | ok
  | failed
  | entailed
  | rewrite (c : Con)

/-- The answer is put into effect, `lib/optimize.cpp:1658-1727`, for a constraint or the declaration of a Boolean
variable. -/
def process (st : Decls) (it : Item) : Status → Out
  | .ok => same st it
  | .failed =>
    if isTrue st it then failed st it
    else if isFalse st it then same st it
    else
      match it with
      | .bdecl v => { st := { st with bdom := upd st.bdom v false, brhs := upd st.brhs v (.lit false) } }
      | _ => same st it
  | .entailed =>
    if isTrue st it then
      match it with
      | .con _ => { st := st }
      | _ => same st it
    else if isFalse st it then failed st it
    else
      match it with
      | .bdecl v => { st := { st with bdom := upd st.bdom v true, brhs := upd st.brhs v (.lit true) } }
      | _ => same st it
  | .rewrite c =>
    match it with
    | .con _ => { st := st, keep := some c }
    | .bdecl v => { st := { st with brhs := upd st.brhs v (.con c) } }
    | .idecl _ => same st it

/-- The constraint of an item, `lib/optimize.cpp:1316-1322`. -/
def Item.call (st : Decls) : Item → Option Con
  | .con c => some c
  | .bdecl v =>
    match st.brhs v with
    | some (.con c) => some c
    | _ => none
  | .idecl _ => none

/-- `simplify_constraint`, `lib/optimize.cpp:1310-1787`.  `registry` is `OptimizeRegistry::process`. -/
def simplify (registry : Decls → Con → Status) (st : Decls) (it : Item) : Res Out :=
  match it with
  | .idecl x =>
    match st.irhs x with
    | some (.b2i b) => simplifyB2i st it b (.var x)
    | _ => .ok (same st it)
  | _ =>
    match it.call st with
    | none => .ok (same st it)
    | some (.intEq a b) => .ok (simplifyIntEq st it a b)
    | some (.boolEq a b) => .ok (simplifyBoolEq st it a b)
    | some (.intLe a b) => simplifyIntLe st it a b
    | some (.b2i b x) =>
      match it with
      | .con _ => simplifyB2i st it b x
      | _ => .ok (same st it)
    | some (.other n) => .ok (process st it (registry st (.other n)))

/-- `SubstitutionVisitor::subst`, `lib/optimize.cpp:1209-1226`, for integers: a variable with a literal as its right hand
side or a domain of one element is replaced. -/
def substI (st : Decls) : IArg → IArg
  | .lit k => .lit k
  | .var x =>
    match st.irhs x with
    | some (.lit k) => .lit k
    | _ =>
      match st.idom x with
      | some [⟨.fin l, .fin u⟩] => if l = u then .lit l else .var x
      | _ => .var x

/-- The same for Booleans, `lib/optimize.cpp:1209-1219`. -/
def substB (st : Decls) : BArg → BArg
  | .lit b => .lit b
  | .var v =>
    match st.brhs v with
    | some (.lit b) => .lit b
    | _ =>
      match st.bdom v with
      | some b => .lit b
      | none => .var v

/-- `substitute_fixed_vars` on a constraint, `lib/optimize.cpp:1244-1249`, `:1283-1308`. -/
def substC (st : Decls) : Con → Con
  | .intEq a b => .intEq (substI st a) (substI st b)
  | .boolEq a b => .boolEq (substB st a) (substB st b)
  | .intLe a b => .intLe (substI st a) (substI st b)
  | .b2i b x => .b2i (substB st b) (substI st x)
  | .other n => .other n

end IntOpt
end MZ
