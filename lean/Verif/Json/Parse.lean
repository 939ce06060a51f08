import Verif.Json.Token
import Verif.Json.Coerce

/-!
# The JSON data reader

`JSONParser`, `lib/json_parser.cpp:397-1036`.  Recursion is bounded by a counter that decreases with
every token that a loop or call reads; `parse` starts it at the length of the text, which no token
sequence exceeds.  Declared types are modelled for the base types and enums, sets and arrays of
them; type aliases, tuples and records in declared types are left out, as are error positions.
-/

namespace MZ
namespace Json

/-- Base types, `Type::BaseType` as used at `lib/json_parser.cpp:613`, `:735-736`, of the declared types modelled here. -/
inductive Base where
  | int
  | float
  | bool
  | string
  | unknown
  deriving DecidableEq, Repr

/-- What the reader looks at in a declared type (`TypeInst* ti`): `isEnum()`, `type().bt()`,
`type().isSet()` and the index sets (`none`: no domain given).  For the types modelled here
`type().dim()` is the number of index sets. -/
structure TI where
  enum : Bool
  base : Base
  isSet : Bool
  ranges : List (Option JE)

/-- Strings stand for identifiers, `lib/json_parser.cpp:613`, `:790`, `:857`. -/
def TI.idLike (t : TI) : Bool := t.enum || decide (t.base = .unknown)

/-- Enum objects are expected, `lib/json_parser.cpp:735-736`. -/
def TI.enumObj (t : TI) : Bool := t.enum || decide (t.base = .int) || decide (t.base = .unknown)

/-- The expression for a string token, `lib/json_parser.cpp:613-617`, `:790-794`, `:857-860`. -/
def strExp (ti : Option TI) (s : List Char) : JE :=
  match ti with
  | none => .str s
  | some t => if t.idLike then .id s else .str s

/-- `expectToken`, `lib/json_parser.cpp:397-402`. -/
def expectToken (t : JTok) (inp : List Char) : Res (List Char) := do
  let r ← readToken inp
  if r.1 = t then .ok r.2 else .err

/-- `expectString`, `lib/json_parser.cpp:404-410`. -/
def expectString (inp : List Char) : Res (List Char × List Char) := do
  let r ← readToken inp
  match r.1 with
  | .str s => .ok (s, r.2)
  | _ => .err

/-- `expectInt`, `lib/json_parser.cpp:412-418`. -/
def expectInt (inp : List Char) : Res (Int × List Char) := do
  let r ← readToken inp
  match r.1 with
  | .int i => .ok (i, r.2)
  | _ => .err

/-- `Expression::isa<Id>`, `lib/json_parser.cpp:487`, `:564-566`. -/
def JE.isId : JE → Bool
  | .id _ => true
  | _ => false

/-- `Expression::isa<IntLit>`, `lib/json_parser.cpp:564`. -/
def JE.isInt : JE → Bool
  | .int _ => true
  | _ => false

/-- `Expression::isa<Call>`, `lib/json_parser.cpp:565`. -/
def JE.isCall : JE → Bool
  | .call _ _ => true
  | _ => false

/-- `Expression::isa<SetLit>`, `lib/json_parser.cpp:486`, `:496`. -/
def JE.isSetLit : JE → Bool
  | .intSet _ => true
  | .floatSet _ => true
  | .exprSet _ => true
  | _ => false

/-- The end of an enum object, `lib/json_parser.cpp:562-575`.  `e` is `none` while the C++ pointer of
that name, which is declared without a value (`:541`), has not been assigned: looking at it is
undefined behaviour. -/
def enumObjectEnd (e : Option JE) (c : List Char) (i : Int) : Res JE :=
  match e with
  | none => .ub
  | some e =>
    if (c ≠ [] ∧ e.isId = false ∧ e.isInt = false ∧ e.isCall = false) ∨ (i ≠ -1 ∧ e.isId = false) then .err
    else if c ≠ [] then .ok (.call c [e])
    else if i ≠ -1 then .ok (.call "to_enum".toList [e, .int i])
    else .ok e

mutual

/-- `parseEnum`, `lib/json_parser.cpp:517-535`. -/
def parseEnum : Nat → List Char → Res (JE × List Char)
  | 0, _ => .err
  | n + 1, inp => do
    let r ← readToken inp
    match r.1 with
    | .str s => .ok (.id s, r.2)
    | .int i => .ok (.int i, r.2)
    | .objOpen => do
      let k ← expectString r.2
      let inp ← expectToken .colon k.2
      parseEnumObject n k.1 none [] (-1) inp
    | _ => .err

/-- `parseEnumObject`, `lib/json_parser.cpp:537-580`; the arguments after the key are the local
variables `e`, `c` and `i`. -/
def parseEnumObject : Nat → List Char → Option JE → List Char → Int → List Char → Res (JE × List Char)
  | 0, _, _, _, _, _ => .err
  | n + 1, key, e, c, i, inp => do
    let s : Option JE × List Char × Int × List Char ←
      if key = ['e'] then do
        let r ← parseEnum n inp
        .ok (some r.1, c, i, r.2)
      else if key = ['c'] ∧ i = -1 then do
        let r ← expectString inp
        .ok (e, r.1, i, r.2)
      else if key = ['i'] ∧ c = [] then do
        let r ← expectInt inp
        .ok (e, c, r.1, r.2)
      else .err
    let t ← readToken s.2.2.2
    match t.1 with
    | .comma => do
      let k ← expectString t.2
      let inp ← expectToken .colon k.2
      parseEnumObject n k.1 s.1 s.2.1 s.2.2.1 inp
    | .objClose => do
      let r ← enumObjectEnd s.1 s.2.1 s.2.2.1
      .ok (r, t.2)
    | _ => .err

end

/-- The marker `listT` of `parseSet`, `lib/json_parser.cpp:587`: `none` is its dummy value. -/
inductive SetKind where
  | none
  | int
  | float
  | str
  | bool
  | obj
  deriving DecidableEq, Repr

/-- The set literal built at the end of `parseSet`, `lib/json_parser.cpp:677-700`. -/
def buildSet (k : SetKind) (exprs : List JE) (ranges : List (Num × Num)) : JE :=
  match k with
  | .int => .intSet (ranges.foldl (fun res p =>
      match p with
      | (.int a, .int b) => Ranges.union (IntSet.ofBounds (.fin a) (.fin b)) res
      | _ => res) [])
  | .float => .floatSet ranges
  | _ => .exprSet exprs

/-- One bound of a range in a set, `lib/json_parser.cpp:643-652`, `:656-665`. -/
def rangeBound (k : SetKind) (t : JTok) : Res (SetKind × Num) :=
  match t with
  | .int i => .ok (if k ≠ .float then .int else k, .int i)
  | .float x => .ok (.float, .text x)
  | _ => .err

/-- The loop of `parseSet`, `lib/json_parser.cpp:588-675`. -/
def parseSetLoop : Nat → Option TI → SetKind → List JE → List (Num × Num) → List Char → Res (JE × List Char)
  | 0, _, _, _, _, _ => .err
  | n + 1, ti, k, exprs, ranges, inp => do
    let r ← readToken inp
    match r.1 with
    | .listClose => do
      let inp ← expectToken .objClose r.2
      .ok (buildSet k exprs ranges, inp)
    | .comma => parseSetLoop n ti k exprs ranges r.2
    | .int i =>
      if k = .str ∨ k = .obj then .err
      else parseSetLoop n ti (if k ≠ .float then .int else k) exprs (ranges ++ [(.int i, .int i)]) r.2
    | .float x =>
      if k = .str ∨ k = .obj then .err
      else parseSetLoop n ti .float exprs (ranges ++ [(.text x, .text x)]) r.2
    | .str s =>
      if k ≠ .none ∧ k ≠ .str then .err
      else parseSetLoop n ti .str (exprs ++ [strExp ti s]) ranges r.2
    | .bool b =>
      if k = .str ∨ k = .obj then .err
      else parseSetLoop n ti (if k = .none then .bool else k) (exprs ++ [.bool b]) ranges r.2
    | .objOpen =>
      if k ≠ .none ∧ k ≠ .obj then .err
      else do
        let t ← readToken r.2
        let inp ← expectToken .colon t.2
        let key := match t.1 with
          | .str s => s
          | _ => []
        let e ← parseEnumObject n key none [] (-1) inp
        parseSetLoop n ti .obj (exprs ++ [e.1]) ranges e.2
    | .listOpen =>
      if k ≠ .none ∧ k ≠ .int ∧ k ≠ .float then .err
      else do
        let t1 ← readToken r.2
        let b1 ← rangeBound k t1.1
        let inp ← expectToken .comma t1.2
        let t2 ← readToken inp
        let b2 ← rangeBound b1.1 t2.1
        let inp ← expectToken .listClose t2.2
        parseSetLoop n ti b2.1 exprs (ranges ++ [(b1.2, b2.2)]) inp
    | _ => .err

/-- `parseSet`, `lib/json_parser.cpp:582-701`. -/
def parseSet (n : Nat) (ti : Option TI) (inp : List Char) : Res (JE × List Char) := do
  let inp ← expectToken .listOpen inp
  parseSetLoop n ti .none [] [] inp

/-- Number of dimensions of an array literal, `al->dims()` at `lib/json_parser.cpp:974`. -/
def JE.ndims : JE → Nat
  | .arrN d _ => d.length
  | _ => 1

/-- The call that gives an array its declared index sets, `lib/json_parser.cpp:957-980`; `AnonVar` domains count as absent. -/
def wrapIndex (ranges : List (Option JE)) (al : JE) : JE :=
  if ranges = [] then al
  else
    .call (if al.ndims = 1 then "array".toList ++ Nat.toDigits 10 ranges.length ++ ['d']
      else "array_index_shift".toList)
      (ranges.map (fun d => d.getD (.intSet [⟨.fin 1, .posInf⟩])) ++ [al])

/-- The whole of `coerceArray` for an array type, `lib/json_parser.cpp:878-981`. -/
def coerceFull (t : TI) (l : List JE) : Res JE :=
  if l = [] then .ok (.arr l)
  else do
    let al ← coerceArray t.ranges.length l
    .ok (wrapIndex t.ranges al)

/-- The end of `parseArray`, `lib/json_parser.cpp:821-844` (without the tuple case). -/
def finishArray (ti : Option TI) (k : Nat) (exps : List JE) : Res JE :=
  match ti with
  | none => .ok (.arr exps)
  | some t =>
    if k ≥ t.ranges.length ∧ t.isSet = true then .ok (.exprSet exps)
    else if t.ranges ≠ [] ∧ k = 0 then coerceFull t exps
    else .ok (.arr exps)

/-- The end of an enum definition's constructor, `lib/json_parser.cpp:484-510`. -/
def enumConstructorEnd (e : Option JE) (c : List Char) (i : Option JE) : Res JE :=
  if c ≠ [] then
    match e with
    | none => .err
    | some e =>
      if e.isSetLit = true ∨ e.isId = true then .ok (.call c [e])
      else
        match e.vec? with
        | some v => .ok (.call c [.exprSet v])
        | none => .err
  else
    match i with
    | some i =>
      if i.isSetLit = true then .ok (.call "anon_enum_set".toList [i])
      else
        match i.vec? with
        | some v => .ok (.call "anon_enum_set".toList [.exprSet v])
        | none => .err
    | none =>
      match e with
      | some (.str s) => .ok (.exprSet [.id s])
      | _ => .err

mutual

/-- `parseExp` with `parseObjects = true`, `lib/json_parser.cpp:847-876`. -/
def parseExp : Nat → Option TI → List Char → Res (JE × List Char)
  | 0, _, _ => .err
  | n + 1, ti, inp => do
    let r ← readToken inp
    match r.1 with
    | .int i => .ok (.int i, r.2)
    | .float x => .ok (.float x, r.2)
    | .str s => .ok (strExp ti s, r.2)
    | .bool b => .ok (.bool b, r.2)
    | .null => .ok (.absent, r.2)
    | .objOpen => parseObjectLoop n ti [] r.2
    | .listOpen =>
      if (ti.map TI.enum) = some true then parseEnumDefLoop n [] [] r.2
      else parseArrayLoop n ti 0 [] r.2
    | _ => .err

/-- The loop of `parseObject`, `lib/json_parser.cpp:703-766`, for a declared type that is not a
record; `fields` are the fields read so far. -/
def parseObjectLoop : Nat → Option TI → List (List Char × JE) → List Char → Res (JE × List Char)
  | 0, _, _, _ => .err
  | n + 1, ti, fields, inp => do
    let k ← expectString inp
    let inp ← expectToken .colon k.2
    if k.1 = "set".toList then
      if fields ≠ [] then .err else parseSet n ti inp
    else if (ti.map TI.enumObj) = some true ∧ (k.1 = ['e'] ∨ k.1 = ['i'] ∨ k.1 = ['c']) then
      if fields ≠ [] then .err else parseEnumObject n k.1 none [] (-1) inp
    else do
      let e ← parseExp n none inp
      let t ← readToken e.2
      match t.1 with
      | .comma => parseObjectLoop n ti (fields ++ [(k.1, e.1)]) t.2
      | .objClose => .ok (.record (fields ++ [(k.1, e.1)]), t.2)
      | _ => .err

/-- The loop of `parseArray`, `lib/json_parser.cpp:768-845`; `k` is `range_index`. -/
def parseArrayLoop : Nat → Option TI → Nat → List JE → List Char → Res (JE × List Char)
  | 0, _, _, _, _ => .err
  | n + 1, ti, k, exps, inp => do
    let r ← readToken inp
    match r.1 with
    | .listClose => do
      let a ← finishArray ti k exps
      .ok (a, r.2)
    | .listOpen => do
      let e ← parseArrayLoop n ti (if ti.isNone then 0 else k + 1) [] r.2
      parseArrayLoop n ti k (exps ++ [e.1]) e.2
    | .comma => parseArrayLoop n ti k exps r.2
    | .int i => parseArrayLoop n ti k (exps ++ [.int i]) r.2
    | .float x => parseArrayLoop n ti k (exps ++ [.float x]) r.2
    | .str s => parseArrayLoop n ti k (exps ++ [strExp ti s]) r.2
    | .bool b => parseArrayLoop n ti k (exps ++ [.bool b]) r.2
    | .null => parseArrayLoop n ti k (exps ++ [.absent]) r.2
    | .objOpen => do
      let e ← parseObjectLoop n ti [] r.2
      parseArrayLoop n ti k (exps ++ [e.1]) e.2
    | _ => .err

/-- The loop of `parseEnumDef`, `lib/json_parser.cpp:427-457`. -/
def parseEnumDefLoop : Nat → List JE → List JE → List Char → Res (JE × List Char)
  | 0, _, _, _ => .err
  | n + 1, cs, lits, inp => do
    let r ← readToken inp
    match r.1 with
    | .listClose =>
      .ok (.call "enumFromConstructors".toList
        [.arr (if lits ≠ [] ∨ cs = [] then cs ++ [.exprSet lits] else cs)], r.2)
    | .comma => parseEnumDefLoop n cs lits r.2
    | .str s => parseEnumDefLoop n cs (lits ++ [.id s]) r.2
    | .objOpen => do
      let k ← expectString r.2
      let inp ← expectToken .colon k.2
      let c ← parseEnumConsLoop n k.1 none [] none inp
      parseEnumDefLoop n ((if lits ≠ [] then cs ++ [.exprSet lits] else cs) ++ [c.1]) [] c.2
    | _ => .err

/-- `parseEnumConstructorDef`, `lib/json_parser.cpp:459-515`; the arguments after the key are the
local variables `e`, `c` and `i`. -/
def parseEnumConsLoop : Nat → List Char → Option JE → List Char → Option JE → List Char → Res (JE × List Char)
  | 0, _, _, _, _, _ => .err
  | n + 1, key, e, c, i, inp => do
    let s : Option JE × List Char × Option JE × List Char ←
      if key = ['e'] ∧ i.isNone = true then do
        let r ← parseExp n none inp
        .ok (some r.1, c, i, r.2)
      else if key = ['c'] ∧ i.isNone = true then do
        let r ← expectString inp
        .ok (e, r.1, i, r.2)
      else if key = ['i'] ∧ c = [] then do
        let r ← parseExp n none inp
        .ok (e, c, some r.1, r.2)
      else .err
    let t ← readToken s.2.2.2
    match t.1 with
    | .comma => do
      let k ← expectString t.2
      let inp ← expectToken .colon k.2
      parseEnumConsLoop n k.1 s.1 s.2.1 s.2.2.1 inp
    | .objClose => do
      let r ← enumConstructorEnd s.1 s.2.1 s.2.2.1
      .ok (r, t.2)
    | _ => .err

end

/-- The loop of `parseModel` for data files, `lib/json_parser.cpp:983-1036`: `known` maps the
declared identifiers to their types; the result lists the assignments. -/
def parseModelLoop : Nat → (List Char → Option TI) → List (List Char × JE) → List Char →
    Res (List (List Char × JE) × List Char)
  | 0, _, _, _ => .err
  | n + 1, known, asg, inp => do
    let k ← expectString inp
    let inp ← expectToken .colon k.2
    let e ← parseExp n (known k.1) inp
    let asg := if k.1.head? ≠ some '_' ∧ (known k.1).isSome = true then asg ++ [(k.1, e.1)] else asg
    let t ← readToken e.2
    match t.1 with
    | .objClose => .ok (asg, t.2)
    | .comma => parseModelLoop n known asg t.2
    | _ => .err

/-- `parseFromString` for a data file, `lib/json_parser.cpp:1051-1058`. -/
def parseData (known : List Char → Option TI) (text : List Char) : Res (List (List Char × JE)) := do
  let inp ← expectToken .objOpen text
  let r ← parseModelLoop (text.length + 1) known [] inp
  let t ← readToken r.2
  if t.1 = .eof then .ok r.1 else .err

end Json
end MZ
