import Verif.Syntax.Model
import Verif.Lex.StrLit

/-!
# Enumerated types

`create_enum_mapper` (`lib/typecheck.cpp:162-1187`) turns the declaration of an enumerated type into
items over integers: the set of its values, one constant for every identifier, a function and its
inverse for every constructor, and the functions `_toString_…` that print values.  This file follows
those items as they are evaluated, together with the built-in functions and the library functions for
enumerated types (`lib/builtins.cpp:3568-3630`, `share/minizinc/std/stdlib/stdlib_enum.mzn`).

Sets of integers are given by their elements in increasing order.  `none` stands for an evaluation that
is undefined or fails; the class of the error and its message are not modelled.
-/

namespace MZ
namespace Enums

/-- Text. -/
abbrev Str := List Char

/-! ## Collecting the parts of a declaration -/

/-- The right-hand side of a declaration, as far as `create_enum_mapper` looks at it.
`A` is the type of the calls other than `enumFromConstructors` and `anon_enum` of an array literal. -/
inductive Rhs (A : Type) where
  /-- `{ids}`: a set literal -/
  | set (names : List Str)
  /-- `[ids]` or `anon_enum([ids])`: an array literal -/
  | arr (names : List Str)
  /-- `enumFromConstructors([parts])`: what the parser makes of `part ++ part ++ …` -/
  | constructors (parts : List (List Str ⊕ A))
  /-- any other call -/
  | call (c : A)
  /-- `l ++ r` -/
  | append (l r : Rhs A)

/-- The number of nodes, which bounds the number of rounds of the loop. -/
def Rhs.size {A} : Rhs A → Nat
  | .append l r => l.size + r.size + 1
  | _ => 1

/-- The loop over the explicit stack, `lib/typecheck.cpp:203-265`.  The head of the list is the top of
the stack; the counter bounds the rounds. -/
def collectLoop {A} : Nat → List (Rhs A) → List (List Str ⊕ A) → List (List Str ⊕ A)
  | 0, _, parts => parts
  | _ + 1, [], parts => parts
  | n + 1, e :: stack, parts =>
    match e with
    | .set names => collectLoop n stack (parts ++ [.inl names])
    | .arr names => collectLoop n stack (parts ++ [.inl names])
    | .constructors ps => collectLoop n stack (parts ++ ps)
    | .call c => collectLoop n stack (parts ++ [.inr c])
    | .append l r => collectLoop n (l :: r :: stack) parts

/-- `parts`, `lib/typecheck.cpp:203-265`. -/
def collect {A} (e : Rhs A) : List (List Str ⊕ A) := collectLoop e.size [e] []

/-! ## Declarations -/

/-- The argument of a constructor: the name of an enumerated type (given by its position among the
declarations), a set of integers, or a set of members of an enumerated type. -/
inductive Arg where
  | enum (k : Nat)
  | ints (s : List Int)
  | sub (k : Nat) (s : List Int)
  deriving DecidableEq

/-- One part of a declaration: `{ids}`, `anon_enum(n)`, `_(S)` (that is `anon_enum_set(S)`) and `C(E)`. -/
inductive Part where
  | ids (names : List Str)
  | anon (n : Int)
  | anonSet (s : List Int)
  | cons (c : Str) (a : Arg)
  deriving DecidableEq

/-- A declaration `enum name = part ++ part ++ …`. -/
structure Decl where
  name : Str
  parts : List Part
  deriving DecidableEq

/-! ## Sets of integers -/

/-- `1..n` -/
def upTo (n : Int) : List Int := (List.range n.toNat).map (fun i : Nat => (i : Int) + 1)

/-- `to_enum` for parameters, `b_to_enum`, `lib/builtins.cpp:3568-3583`. -/
def toEnum (X : List Int) (v : Int) : Option Int := if v ∈ X then some v else none

/-- `mzn_set_is_contiguous`, `share/minizinc/std/stdlib/stdlib_internal.mzn:2966-2967`. -/
def contiguous (s : List Int) : Bool :=
  match s.head?, s.getLast? with
  | some mn, some mx => decide ((s.length : Int) = mx - mn + 1)
  | _, _ => true

/-- `mzn_min_or_0`, `share/minizinc/std/stdlib/stdlib_internal.mzn:2969-2970`. -/
def minOr0 (s : List Int) : Int :=
  match s.head? with
  | none => 0
  | some mn => if contiguous s then mn else 1

/-- The loop that fills the sparse inverse, `lib/builtins.cpp:2434-2436`: the elements of the set in
increasing order get the numbers `i`, `i+1`, ….  -/
def fillInverse (mn : Int) : List Int → Int → List Int → List Int
  | [], _, elems => elems
  | v :: vs, i, elems => fillInverse mn vs (i + 1) (elems.set (v - mn).toNat i)

/-- `set_to_sparse_inverse`, `b_set_sparse_inverse`, `lib/builtins.cpp:2424-2443`: the smallest element
and the array that is indexed from it. -/
def sparseInverse (s : List Int) : Option (Int × List Int) :=
  match s.head?, s.getLast? with
  | some mn, some mx => some (mn, fillInverse mn s 1 (List.replicate (mx - mn + 1).toNat 1))
  | _, _ => none

/-- Access to an array whose first index is `mn`; undefined outside of the index set. -/
def access {α} (mn : Int) (a : List α) (i : Int) : Option α :=
  if mn ≤ i then a[(i - mn).toNat]? else none

/-- `partCardinality.back() + v`, or `v` before the first part, `lib/typecheck.cpp:283-288`, `:403-408`,
`:851-857`. -/
def plusPrev (prev : Option Int) (v : Int) : Int :=
  match prev with
  | none => v
  | some p => p + v

/-- `v - partCardinality.back()`, or `v` before the first part, `lib/typecheck.cpp:328-332`, `:684-690`. -/
def minusPrev (v : Int) (prev : Option Int) : Int :=
  match prev with
  | none => v
  | some p => v - p

/-! ## The generated items -/

/-- A generated function `_toString_…(opt x, b, json)`. -/
abbrev TextFn := Bool → Bool → Option Int → Option Str

/-- The text of an absent value, `lib/typecheck.cpp:334-338`, `:386-389`, `:806-811`, `:888-892`. -/
def absentText (json : Bool) : Str := if json then "null".toList else "<>".toList

/-- What is generated for a constructor `C(E)`: the elements of `E` and their type, the function that
prints them, `partCardinality.back()` before the part (`prev`), and `_constrMin_…` (`argMin`),
`lib/typecheck.cpp:458-497`. -/
structure Cons where
  name : Str
  elems : List Int
  ty : Option Nat
  text : TextFn
  prev : Option Int
  argMin : Int

/-- What is generated for one part: `prev` is `partCardinality.back()` before the part, if there is one. -/
inductive Gen where
  | ids (prev : Option Int) (names : List Str)
  | anon
  | cons (c : Cons)

/-- An enumerated type: its upper bound and what was generated for its parts. -/
structure Enum where
  name : Str
  card : Int
  pcs : List Int
  gens : List Gen

/-- The constructor function, `lib/typecheck.cpp:541-576`.  The declared type of the parameter is `E`, so
that the argument must be in `E`. -/
def Cons.apply (X : List Int) (c : Cons) (x : Int) : Option Int :=
  if x ∈ c.elems then
    if contiguous c.elems then toEnum X (c.argMin + x)
    else do
      let (mn, mx) ← sparseInverse c.elems
      let i ← access mn mx x
      toEnum X (c.argMin + i)
  else none

/-- The inverse `C⁻¹`, `lib/typecheck.cpp:655-704`.  The declared type of the parameter is `X`.
`set2array(E)` is the list of the elements, indexed from 1 (`lib/builtins.cpp:2408-2422`). -/
def Cons.inverse (X : List Int) (c : Cons) (x : Int) : Option Int :=
  if x ∈ X then
    if contiguous c.elems then toEnum c.elems (x - c.argMin)
    else do
      let e ← access 1 c.elems (minusPrev x c.prev)
      toEnum c.elems e
  else none

/-- The version for optional arguments, `lib/typecheck.cpp:577-596`, `:705-725`. -/
def liftOpt (f : Int → Option Int) : Option Int → Option (Option Int)
  | none => some none
  | some x => (f x).map some

/-- The version for sets, a set comprehension, `lib/typecheck.cpp:597-619`, `:726-748`.  Duplicates and
the order of the results do not matter. -/
def liftSet (f : Int → Option Int) (s : List Int) : Option (List Int) := s.mapM f

/-- The version for arrays, `arrayXd(x, [C(i) | i in x])`, `lib/typecheck.cpp:620-647`, `:749-776`: the
index sets are kept. -/
def liftArr {I} (f : Int → Option Int) (a : I × List Int) : Option (I × List Int) :=
  (a.2.mapM f).map (fun r => (a.1, r))

/-- The function that prints the values of a list of identifiers, `lib/typecheck.cpp:289-365`. -/
def idsText (prev : Option Int) (names : List Str) (b j : Bool) (x : Option Int) : Option Str :=
  match x with
  | none => some (absentText j)
  | some v => (access 1 names (minusPrev v prev)).map (fun n =>
      if b then Lex.quoteId n
      else if j then "{\"e\":".toList ++ Lex.printLit n ++ "}".toList
      else n)

/-- The function that prints anonymous values, `lib/typecheck.cpp:369-456`. -/
def anonText (name : Str) (b j : Bool) (x : Option Int) : Option Str :=
  match x with
  | none => some (absentText j)
  | some v => some (
    if b then "to_enum(".toList ++ name ++ ",".toList ++ Syn.intText v ++ ")".toList
    else if j then "{\"e\":".toList ++ Lex.printLit name ++ ", \"i\":".toList ++ Syn.intText v ++ "}".toList
    else "to_enum(".toList ++ name ++ ",".toList ++ Syn.intText v ++ ")".toList)

/-- The function that prints the values of a constructor of an enumerated type with values `X`,
`lib/typecheck.cpp:778-848`. -/
def consText (X : List Int) (c : Cons) (b j : Bool) (x : Option Int) : Option Str :=
  match x with
  | none => some (absentText j)
  | some v => (c.inverse X v).bind (fun e => (c.text b j (some e)).map (fun t =>
      (if j then "{ \"c\" : ".toList ++ Lex.printLit c.name ++ ", \"e\" : ".toList
        else (if b then Lex.quoteId c.name else c.name) ++ "(".toList) ++ t ++
      (if j then "}".toList else ")".toList)))

/-- The function that prints the values of one part of an enumerated type with upper bound `ub`. -/
def Gen.text (name : Str) (ub : Int) : Gen → TextFn
  | .ids prev names => idsText prev names
  | .anon => anonText name
  | .cons c => consText (upTo ub) c

/-- The conditional over the parts, `lib/typecheck.cpp:894-912`: all but the last part are tested with
`deopt(x) <= partCardinality[i]`. -/
def dispatch (v : Int) : List Int → List TextFn → TextFn
  | _, [], _, _, _ => none
  | _, [f], b, j, x => f b j x
  | c :: cs, f :: fs, b, j, x => if v ≤ c then f b j x else dispatch v cs fs b j x
  | [], _, _, _, _ => none

/-- `_toString_X`, `lib/typecheck.cpp:350-365` and the like for a single part, `:874-928` for several.
Reading `partCardinality[i]` beyond the end of the vector is undefined behaviour (here: no result). -/
def Enum.text (e : Enum) : TextFn := fun b j x =>
  match e.gens.map (Gen.text e.name e.card) with
  | [f] => f b j x
  | fs =>
    if fs.length ≤ e.pcs.length + 1 then
      match x with
      | none => some (absentText j)
      | some v => dispatch v e.pcs fs b j x
    else none

/-- The values of an enumerated type, `1..partCardinality.back()`, `lib/typecheck.cpp:864-873`. -/
def Enum.set (e : Enum) : List Int := upTo e.card

/-- The generic function that prints elements of a set that is not the name of an enumerated type,
`generate_missing_to_string_functions`, `lib/typecheck.cpp:4542-4584`: `show(x)`, whatever the flags.  `show` of a
member of an enumerated type is its text without quotes (`lib/prettyprinter.cpp:2627-2647`, `:2666-2669`). -/
def genericText (f : Option Int → Option Str) : TextFn := fun _ _ x => f x

/-- `show` of an optional integer. -/
def showInt : Option Int → Option Str
  | none => some "<>".toList
  | some i => some (Syn.intText i)

/-- The argument of a constructor: its elements, their type, and the function that prints them,
`lib/typecheck.cpp:464-479`, `:813-816`. -/
def resolve (es : List Enum) : Arg → Option (List Int × Option Nat × TextFn)
  | .enum k => do
    let e ← es[k]?
    some (e.set, some k, e.text)
  | .ints s => some (s, none, genericText showInt)
  | .sub k s => do
    let e ← es[k]?
    some (s, some k, genericText (e.text false false))

/-- One round of the loop over the parts, `lib/typecheck.cpp:268-862`: what is generated, and the new
`partCardinality`. -/
def step (es : List Enum) (pcs : List Int) : Part → Option (Gen × List Int)
  | .ids names =>
    some (.ids pcs.getLast? names,
      if names = [] then pcs
      else pcs ++ [plusPrev pcs.getLast? names.length])
  | .anon n =>
    some (.anon, pcs ++ [plusPrev pcs.getLast? n])
  | .anonSet s =>
    some (.anon, pcs ++ [plusPrev pcs.getLast? s.length])
  | .cons c a => do
    let (s, ty, text) ← resolve es a
    some (.cons
      { name := c, elems := s, ty := ty, text := text, prev := pcs.getLast?,
        argMin := pcs.getLast?.getD 0 - (minOr0 s - 1) },
      pcs ++ [plusPrev pcs.getLast? s.length])

/-- The loop over the parts, `lib/typecheck.cpp:267-862`. -/
def steps (es : List Enum) : List Int → List Part → Option (List Gen × List Int)
  | pcs, [] => some ([], pcs)
  | pcs, p :: ps => do
    let (g, pcs) ← step es pcs p
    let (gs, pcs) ← steps es pcs ps
    some (g :: gs, pcs)

/-- `create_enum_mapper`, `lib/typecheck.cpp:162-1187`, after the parts are collected. -/
def build (es : List Enum) (d : Decl) : Option Enum := do
  let (gs, pcs) ← steps es [] d.parts
  some { name := d.name, card := pcs.getLast?.getD 0, pcs := pcs, gens := gs }

/-- All declarations of a model, in the order in which the sorting of the items visits them: the argument
of a constructor comes before (`TopoSorter::run`, `lib/typecheck.cpp:1198`). -/
def buildAll : List Enum → List Decl → Option (List Enum)
  | es, [] => some es
  | es, d :: ds => do
    let e ← build es d
    buildAll (es ++ [e]) ds

/-! ## Values -/

/-- The constant of an identifier, `to_enum(X, partCardinality.back() + i + 1)`,
`lib/typecheck.cpp:270-292`. -/
def identValue (ub : Int) (n : Str) : List Gen → Option Int
  | [] => none
  | .ids prev names :: gs =>
    match names.idxOf? n with
    | some i => toEnum (upTo ub) (plusPrev prev ((i : Int) + 1))
    | none => identValue ub n gs
  | _ :: gs => identValue ub n gs

/-- The constructor with a name. -/
def findCons (c : Str) : List Gen → Option Cons
  | [] => none
  | .cons k :: gs => if k.name = c then some k else findCons c gs
  | _ :: gs => findCons c gs

/-- Expressions that denote members of enumerated types and integers: literals, identifiers,
`to_enum(X, i)` and applications of constructors. -/
inductive Val where
  | int (i : Int)
  | id (n : Str)
  | anon (X : Str) (i : Int)
  | app (c : Str) (v : Val)
  deriving DecidableEq

/-- The first result of a function over a list, with its position. -/
def firstIdx {α β} (f : α → Option β) (n : Nat) : List α → Option (Nat × β)
  | [] => none
  | a :: as =>
    match f a with
    | some b => some (n, b)
    | none => firstIdx f (n + 1) as

/-- Evaluation of such an expression with the generated constants and functions: the type (`none` for
integers) and the integer that represents the value. -/
def evalVal (es : List Enum) : Val → Option (Option Nat × Int)
  | .int i => some (none, i)
  | .id n => (firstIdx (fun e : Enum => identValue e.card n e.gens) 0 es).map (fun r => (some r.1, r.2))
  | .anon X i => do
    let (k, e) ← firstIdx (fun e : Enum => if e.name = X then some e else none) 0 es
    let v ← toEnum e.set i
    some (some k, v)
  | .app c v => do
    let (k, e, f) ← (firstIdx (fun e : Enum => (findCons c e.gens).map (fun f => (e, f))) 0 es)
    let (t, w) ← evalVal es v
    if t = f.ty then do
      let r ← f.apply e.set w
      some (some k, r)
    else none

/-! ## Library functions -/

/-- `enum_next(e, x)` for parameters, `b_enum_next`, `lib/builtins.cpp:3585-3606`. -/
def enumNext (e : List Int) (x : Int) : Option Int := if x + 1 ∈ e then some (x + 1) else none

/-- `enum_prev(e, x)` for parameters, `b_enum_prev`, `lib/builtins.cpp:3608-3629`. -/
def enumPrev (e : List Int) (x : Int) : Option Int := if x - 1 ∈ e then some (x - 1) else none

/-- `enum_next(e, x)` for a variable, `share/minizinc/std/stdlib/stdlib_enum.mzn:51-52`: the value under a
solution that gives `x` its value; undefined if the constraint of the `let` is violated (or `max(e)` is
undefined). -/
def enumNextVar (e : List Int) (x : Int) : Option Int :=
  match e.getLast? with
  | none => none
  | some mx => if x < mx then some (x + 1) else none

/-- `enum_prev(e, x)` for a variable, `share/minizinc/std/stdlib/stdlib_enum.mzn:72-73`. -/
def enumPrevVar (e : List Int) (x : Int) : Option Int :=
  match e.head? with
  | none => none
  | some mn => if x > mn then some (x - 1) else none

/-- `to_enum(X, x)` for a variable, `share/minizinc/std/stdlib/stdlib_enum.mzn:84-85`. -/
def toEnumVar (X : List Int) (x : Int) : Option Int := if x ∈ X then some x else none

/-- `to_enum(X, x)` for a set parameter, `share/minizinc/std/stdlib/stdlib_enum.mzn:115`. -/
def toEnumSet (X : List Int) (x : List Int) : Option (List Int) := x.mapM (toEnum X)

/-- The constraints of `to_enum(X, x)` for a set variable, `share/minizinc/std/stdlib/stdlib_enum.mzn:118-126`:
`x` and the introduced `y` (whose declared type is `var set of X`) under an assignment. -/
def toEnumSetVar (X : List Int) (x y : Int → Bool) (univ : List Int) : Bool :=
  univ.all (fun i => !(y i) || decide (i ∈ X)) &&
  univ.all (fun i => !(x i) || decide (i ∈ X)) &&
  X.all (fun i => x i == y i)

/-- The versions for optional arguments, `share/minizinc/std/stdlib/stdlib_enum.mzn:48-49`, `:54-55`,
`:69-70`, `:75-76`, `:81-82`, `:87-88`. -/
def optVersion (f : List Int → Int → Option Int) (e : List Int) : Option Int → Option (Option Int)
  | none => some none
  | some x => (f e x).map some

/-- The printed text of an array of (optional) values, `lib/typecheck.cpp:943-1032`. -/
def arrayText (f : TextFn) (b j : Bool) (xs : List (Option Int)) : Option Str := do
  let ts ← xs.mapM (f b j)
  some ("[".toList ++ List.intercalate ", ".toList ts ++ "]".toList)

/-- The printed text of an (optional) set, `lib/typecheck.cpp:1034-1121`. -/
def setText (f : TextFn) (b j : Bool) (s : Option (List Int)) : Option Str :=
  match s with
  | none => some (absentText j)
  | some s => do
    let ts ← s.mapM (fun i => f b j (some i))
    some ("{".toList ++ (if j then "\"set\":[".toList else []) ++ List.intercalate ", ".toList ts ++
      (if j then "]".toList else []) ++ "}".toList)

end Enums
end MZ
