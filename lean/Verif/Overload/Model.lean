import Verif.Types.SubProps
/-!
# Overload resolution (lib/model.cpp, lib/flatten.cpp)

The table of the overloads of one name: registration of declarations, the order of the table, and the search for the overload of a
call. Functions without type-inst variables are registered (`addPolymorphicInstances` adds one entry for them); tuples and records
are not modelled.
-/
namespace MZ
namespace Overload
open Types

/-- A parameter of a function (`FunctionI::param`): its name (`none`: an identifier without a string, as in copies made by the type
checker; the empty string: an anonymous parameter), its type, and whether it has a default (`param(j)->e() != nullptr`). -/
structure Param where
  name : Option String
  ty : Ty
  dflt : Bool
  deriving DecidableEq, Repr

/-- A function item: its identity (the pointer), parameters, whether it has a body (`e() != nullptr`), and the return type. -/
structure Fn where
  id : Nat
  params : List Param
  body : Bool
  ret : Ty
  deriving DecidableEq, Repr

/-- The parameter types. -/
def Fn.tys (f : Fn) : List Ty := f.params.map (·.ty)

/-- model.hh 62–80 `FnEntry`, without the flags for polymorphic functions. -/
structure Entry where
  t : List Ty
  fi : Fn
  deriving DecidableEq, Repr

/-- `operator==` of vectors of types. -/
def tysEq (a b : List Ty) : Bool := a.length == b.length && (List.zip a b).all fun p => p.1.eq p.2

/-- lib/model.cpp 26–40: the constructor of `FnEntry` (struct types not modelled). -/
def Fn.entry (f : Fn) : Entry := ⟨f.tys, f⟩

/-- 61–81: the loop of `FnEntry::compare` over the parameters. The `default` branch of the `switch` (an assertion) goes on with the
next parameter. -/
def cmpArgs : List Ty → List Ty → Bool
  | a :: as, b :: bs =>
    if a.eq b then cmpArgs as bs
    else if isSub true a b then true
    else if isSub true b a then false
    else if cmp a b = -1 then true
    else if cmp a b = 1 then false
    else cmpArgs as bs
  | _, _ => false

/-- 57–83 `FnEntry::compare`. -/
def compare (e1 e2 : Entry) : Bool :=
  if e1.t.length < e2.t.length then true
  else if e1.t.length = e2.t.length then cmpArgs e1.t e2.t
  else false

/-- 332–347 `same_parameter_names`. -/
def sameNames (a b : Fn) : Bool :=
  (List.zip a.params b.params).all fun p =>
    match p.1.name, p.2.name with
    | some x, some y => x == y
    | _, _ => true

/-- 351–361 `exact_redeclaration`. -/
def exactRedecl (a b : Fn) : Bool := a.params.length == b.params.length && tysEq a.tys b.tys && sameNames a b

/-- 365 `is_nameable`. -/
def Param.nameable (p : Param) : Bool :=
  match p.name with
  | some s => !s.startsWith "_"
  | none => false

/-- 388–402 `nameable_params`: the parameters by name; `none` if the result is `false`. -/
def nameableParams : List Param → List (String × Ty) → Option (List (String × Ty))
  | [], acc => some acc
  | p :: ps, acc =>
    if !p.nameable then
      if p.dflt then nameableParams ps acc else none
    else
      let s := p.name.getD ""
      if acc.any fun q => q.1 == s then none else nameableParams ps (acc ++ [(s, p.ty)])

/-- 421–437: the inner loop of `ambiguous_named_call`. -/
def agreeOn (pa pb : List (String × Ty)) (ps : List Param) : Bool :=
  ps.all fun p => p.dflt ||
    match pa.find? (·.1 == p.name.getD ""), pb.find? (·.1 == p.name.getD "") with
    | some x, some y => x.2.eq y.2
    | _, _ => false

/-- 415–440 `ambiguous_named_call`. -/
def ambiguousNamed (a b : Fn) : Bool :=
  match nameableParams a.params [], nameableParams b.params [] with
  | some pa, some pb => agreeOn pa pb a.params && agreeOn pa pb b.params
  | _, _ => false

/-- 448–469 `has_name_only_sibling`. -/
def nameOnlySibling (v : List Entry) (f : Fn) : Bool :=
  v.any fun e => e.fi.id != f.id && e.fi.params.length == f.params.length && tysEq e.fi.tys f.tys && !sameNames e.fi f

/-- 471–479 `at_least_as_specific`. -/
def atLeast (a b : List Ty) (n : Nat) : Bool :=
  (List.zip (a.take n) (b.take n)).all fun p => p.1.eq p.2 || isSub true p.1 p.2

/-- `Type::mkPar` (type.cpp 56–61), not for tuples and records. -/
def mkPar (t : Ty) : Ty := { t with var := false, cv := false }

/-- 716–728: the return types as compared when the parameters agree up to `var`. -/
def retKey (t : Ty) : Ty :=
  let u := { mkPar t with opt := false }
  if u.bt = .int then { u with typeId := 0 } else u

/-- 600–748 `registerFn`: what happens at the entry `i` for the new function `f` (`throwIfDuplicate` is `true`). -/
inductive Act where
  | next | stop | replace | error
  deriving DecidableEq, Repr

/-- One iteration of the loop 633–738. -/
def regStep (f : Fn) (i : Entry) : Act :=
  if i.fi.id = f.id then .stop
  else if !exactRedecl i.fi f && ambiguousNamed i.fi f then .error
  else if i.fi.params.length = f.params.length then
    if tysEq i.fi.tys f.tys then
      if i.fi.body && f.body then (if !sameNames i.fi f then .next else .error)
      else if f.body then .replace
      else .stop
    else if tysEq (i.fi.tys.map mkPar) (f.tys.map mkPar) && !(retKey i.fi.ret).eq (retKey f.ret) then .error
    else .next
  else .next

/-- 483–514 `addEntry`. -/
def addEntry (fe : Entry) : List Entry → List Entry
  | [] => [fe]
  | e :: v =>
    if tysEq e.t fe.t && sameNames e.fi fe.fi then
      (if (List.zip fe.fi.tys e.fi.tys).all fun p => isSub false p.1 p.2 then fe else e) :: v
    else e :: addEntry fe v

/-- The loop 633–738 and the insertion at its end; `pre` are the entries passed. `none`: a type error is thrown. -/
def regLoop (f : Fn) (pre : List Entry) : List Entry → Option (List Entry)
  | [] => some (addEntry f.entry pre)
  | i :: v =>
    match regStep f i with
    | .next => regLoop f (pre ++ [i]) v
    | .stop => some (pre ++ i :: v)
    | .replace => some (pre ++ f.entry :: v)
    | .error => none

/-- 600–748 `registerFn` for a function without type-inst variables. -/
def registerFn (v : List Entry) (f : Fn) : Option (List Entry) := regLoop f [] v

/-- lib/flatten.cpp 1618–1662 `EnvI::isSubtype` (without the first test, on tuples). -/
def envSub (T : Tab) (strict : Bool) (t1 t2 : Ty) : Bool :=
  if !isSub strict t1 t2 then false
  else if strict && t1.bt == .int && t1.dim == 0 && t2.dim != 0 && t2.typeId != 0 &&
      ((T.arr t2.typeId).getLastD 0 != 0 && t1.typeId != (T.arr t2.typeId).getLastD 0) then false
  else if strict && t1.bt == .int && t1.dim != 0 && t1.typeId != t2.typeId then
    if t1.typeId = 0 then t1.bt == .bot
    else if t2.typeId ≠ 0 then
      let l1 := T.arr t1.typeId
      let l2 := T.arr t2.typeId
      if l1.length ≠ l2.length then
        if t2.dim = -1 then t1.bt == .bot || l1.getLastD 0 == l2.getLastD 0 else false
      else if !((List.zip l1.dropLast l2.dropLast).all fun p => p.2 == 0 || p.1 == p.2) then false
      else if t1.bt != .bot && l2.getLastD 0 != 0 && l1.getLastD 0 != l2.getLastD 0 then false
      else true
    else true
  else true

/-- The result of a search: a function, no function (`nullptr`, or the error "no function or predicate with this signature found"), or
an error because the choice is ambiguous. -/
inductive Found where
  | fn (f : Fn) | none | error
  deriving DecidableEq, Repr

/-- `env.isSubtype` for every argument. -/
def argsOk (T : Tab) (strict : Bool) (args ps : List Ty) : Bool :=
  (List.zip args ps).all fun p => envSub T strict p.1 p.2

/-- 813–857 `matchFn(env, id, types, strictEnums)`. -/
def matchTypes (T : Tab) (strict : Bool) (v : List Entry) (args : List Ty) : Found :=
  match v.find? fun i => i.t.length == args.length && argsOk T strict args i.t with
  | some i => if nameOnlySibling v i.fi then .error else .fn i.fi
  | none => .none

/-- 1430–1437: the parameters beyond the supplied arguments have defaults. -/
def viable (i : Entry) (n : Nat) : Bool := decide (n ≤ i.t.length) && (i.fi.params.drop n).all (·.dflt)

/-- State of the loop 1407–1464: the matches recorded because of an argument of type `bot`, the most specific candidate, and
whether `botarg` is set. -/
structure Scan where
  matched : List Fn := []
  best : Option Entry := .none
  bot : Bool := false
  deriving DecidableEq, Repr

/-- The loop over the arguments 1440–1452: whether all match, and whether `botarg` has been set. -/
def argScan (T : Tab) (strict : Bool) : List Ty → List Ty → Bool → Bool × Bool
  | a :: as, p :: ps, bot =>
    if !envSub T strict a p then (false, bot)
    else argScan T strict as ps (bot || (a.bt == .bot && p.bt != .top))
  | _, _, bot => (true, bot)

/-- 1407–1464: the loop of `matchFn(env, call)` over the table, for a call that has not been resolved before
(`c->decl() == nullptr`). `fill` is `mayDefaultFill`. -/
def scan (T : Tab) (strict : Bool) (args : List Ty) (fill : Bool) : List Entry → Scan → Scan
  | [], s => s
  | i :: v, s =>
    if viable i args.length then
      let r := argScan T strict args i.t s.bot
      let s := { s with bot := r.2 }
      if r.1 then
        if s.bot then scan T strict args fill v { s with matched := s.matched ++ [i.fi] }
        else match s.best with
          | .none => if fill then scan T strict args fill v { s with best := some i } else { s with best := some i }
          | some b =>
            if atLeast i.t b.t args.length && !atLeast b.t i.t args.length then scan T strict args fill v { s with best := some i }
            else scan T strict args fill v s
      else scan T strict args fill v s
    else scan T strict args fill v s

/-- 1360–1583 `matchFn(env, call, strictEnums, true)` for a call that has not been resolved before. -/
def matchCall (T : Tab) (strict : Bool) (v : List Entry) (args : List Ty) : Found :=
  let fill := match v.getLast? with | some e => decide (e.t.length > args.length) | .none => false
  let s := scan T strict args fill v {}
  match s.best with
  | some i =>
    if v.any fun i2 => i2.fi.id != i.fi.id && tysEq i2.t i.t && !sameNames i2.fi i.fi then .error else .fn i.fi
  | .none =>
    match s.matched with
    | [] => .none
    | f :: fs => if fs.all fun g => envSub T strict (mkPar f.ret) g.ret then .fn f else .error

end Overload
end MZ
