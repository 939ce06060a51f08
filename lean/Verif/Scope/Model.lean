import Mathlib.Logic.Relation
/-!
# Scopes and the order of declarations (lib/typecheck.cpp)

The pass that binds every identifier to its declaration and puts the declarations into an order in which every declaration comes after
those it refers to. Expressions are reduced to what this pass looks at. Warnings about shadowing, the restriction of enumerations to the
top level and identifiers introduced by the compiler (numbers instead of names) are not modelled.
-/
namespace MZ
namespace Scope

abbrev Name := String

mutual
/-- Expressions as seen by `TopoSorter::run`.
* `lit`: literals, anonymous variables, type-inst identifiers;
* `id`: an identifier; the number tells the occurrences of a name apart;
* `node`: set and array literals, array and field accesses, conditionals, operators, type-insts, with the parts in the order in which
  the code visits them;
* `call`: a call, which has the name of a function besides its arguments;
* `ann`: an expression with annotations;
* `scope`: a comprehension or a `let`. -/
inductive Ex where
  | lit
  | id (occ : Nat) (x : Name)
  | node (cs : Exs)
  | call (f : Name) (cs : Exs)
  | ann (as : Exs) (e : Ex)
  | scope (b : Blk)
/-- Lists of expressions. -/
inductive Exs where
  | nil
  | cons (e : Ex) (es : Exs)
/-- The contents of a scope: for a comprehension the generators (`step` for the set, `decl` for each variable, `step` for the
condition) and the body `fin`; for a `let` its items and the expression after `in`. A declaration has an identity, a name, its type and
right-hand side (`body`), and annotations. -/
inductive Blk where
  | fin (e : Ex)
  | step (e : Ex) (b : Blk)
  | decl (d : Nat) (x : Name) (body : Ex) (as : Exs) (b : Blk)
end

/-- `ScopeType` (typecheck.hh 24). -/
inductive ST where
  | top | fn | inner
  deriving DecidableEq, Repr

/-- `Scopes::Scope` (25–34). -/
structure Sc where
  st : ST
  m : List (Name × Nat)
  deriving DecidableEq, Repr

/-- The outcome of a step: a result, one of the type errors (undefined identifier, identifier already defined, circular definition,
multiple assignment), a failed assertion, or a recursion deeper than the bound. -/
inductive R (α : Type) where
  | ok (a : α) | undef (x : Name) | dup (x : Name) | circ (x : Name) | multi (x : Name) | assertion | deep
  deriving DecidableEq, Repr

def R.bind {α β : Type} : R α → (α → R β) → R β
  | .ok a, f => f a
  | .undef x, _ => .undef x
  | .dup x, _ => .dup x
  | .circ x, _ => .circ x
  | .multi x, _ => .multi x
  | .assertion, _ => .assertion
  | .deep, _ => .deep

/-- The declaration of a name in one scope (`DeclMap::find`). -/
def look (m : List (Name × Nat)) (x : Name) : Option Nat := (m.find? (·.1 == x)).map (·.2)

/-- lib/typecheck.cpp 83–101 `Scopes::find`. The head of the list is the innermost scope, the last element the global one. -/
def find : List Sc → Name → Option Nat
  | [], _ => none
  | s :: rest, x =>
    match look s.m x with
    | some d => some d
    | none =>
      if s.st = .top then
        match rest.getLast? with
        | some g => look g.m x
        | none => none
      else find rest x

/-- State of `TopoSorter` (typecheck.hh 62–92): `pos` (absent, `-1` as `some none`, or a position), `decls`, `scopes`, and the
bindings made so far (`Id::decl`), as pairs of occurrence and declaration. -/
structure S where
  pos : Nat → Option (Option Nat)
  decls : List Nat
  scopes : List Sc
  log : List (Nat × Nat)

/-- typecheck.cpp 37–73 `Scopes::add`. -/
def add (s : S) (x : Name) (d : Nat) : R S :=
  if x = "" then .ok s
  else match s.scopes with
    | [] => .assertion
    | sc :: rest =>
      match look sc.m x with
      | none => .ok { s with scopes := { sc with m := (x, d) :: sc.m } :: rest }
      | some _ => .dup x

/-- 75–79 `pushToplevel`, `pushFun`, `push`. -/
def push (s : S) (t : ST) : S := { s with scopes := ⟨t, []⟩ :: s.scopes }

/-- 81 `pop`. -/
def pop (s : S) : S := { s with scopes := s.scopes.tail }

def setPos (s : S) (d : Nat) (v : Option Nat) : S := { s with pos := fun k => if k = d then some v else s.pos k }

/-- 1357–1362: the declaration gets the next position. -/
def finish (s : S) (d : Nat) : S := setPos { s with decls := s.decls ++ [d] } d (some s.decls.length)

/-- 1219–1245 `checkId` and 1268–1272: the binding of the identifier. `go` runs a declaration. -/
def checkId (go : S → Nat → R S) (s : S) (occ : Nat) (x : Name) : R S :=
  match find s.scopes x with
  | none => .undef x
  | some d =>
    (match s.pos d with
      | none => (go (push s .top) d).bind fun s' => .ok (pop s')
      | some none => .circ x
      | some (some _) => .ok s).bind fun s' => .ok { s' with log := (occ, d) :: s'.log }

mutual
/-- 1247–1399 `TopoSorter::run`, all cases but declarations. Annotations are visited before and after the expression. -/
def run (go : S → Nat → R S) : Ex → S → R S
  | .lit, s => .ok s
  | .id occ x, s => checkId go s occ x
  | .node cs, s => runs go cs s
  | .call _ cs, s => runs go cs s
  | .ann as e, s => (runs go as s).bind fun s => (run go e s).bind fun s => runs go as s
  | .scope b, s => (runB go b (push s .inner)).bind fun s => .ok (pop s)
/-- Lists of expressions. -/
def runs (go : S → Nat → R S) : Exs → S → R S
  | .nil, s => .ok s
  | .cons e es, s => (run go e s).bind fun s => runs go es s
/-- 1295–1310 (comprehension) and 1375–1399 (let). The case of a declaration is 1351–1366, with the annotations visited again at the
end (1386–1389), followed by `scopes.add`. -/
def runB (go : S → Nat → R S) : Blk → S → R S
  | .fin e, s => run go e s
  | .step e b, s => (run go e s).bind fun s => runB go b s
  | .decl d x body as b, s =>
    (match s.pos d with
      | none => (run go body (setPos s d none)).bind fun s => (runs go as s).bind fun s => .ok (finish s d)
      | some none => .assertion
      | some (some _) => .ok s).bind fun s =>
    (runs go as s).bind fun s => (add s x d).bind fun s => runB go b s
end

/-- A global declaration: identity, name, type and right-hand side, annotations. -/
structure Decl where
  d : Nat
  x : Name
  body : Ex
  as : Exs

/-- 1351–1366 and 1386–1389: a declaration is run (`run` with an `E_VARDECL`). -/
def runDecl1 (go : S → Nat → R S) (c : Decl) (s : S) : R S :=
  (match s.pos c.d with
    | none => (run go c.body (setPos s c.d none)).bind fun s => (runs go c.as s).bind fun s => .ok (finish s c.d)
    | some none => .assertion
    | some (some _) => .ok s).bind fun s => runs go c.as s

/-- The recursion of `run` and `checkId`, bounded by the depth of nested definitions. A name that is new to the pass is global. -/
def goN (gs : List Decl) : Nat → S → Nat → R S
  | 0, _, _ => .deep
  | n + 1, s, d =>
    match gs.find? (·.d == d) with
    | some c => runDecl1 (goN gs n) c s
    | none => .assertion

/-- The items visited by `TSV1` (4929–4967): declarations; constraints, solve and output items (an expression); functions with the parts
visited before the parameters are in scope (return type), the parameters, annotations, and the body. -/
inductive Item where
  | decl (c : Decl)
  | expr (e : Ex)
  | fn (f : Name) (ti : Ex) (ps : List Decl) (as : Exs) (body : Ex)

def seqAll {α : Type} (f : α → S → R S) : List α → S → R S
  | [], s => .ok s
  | a :: l, s => (f a s).bind fun s => seqAll f l s

/-- 4929–4967 `TSV1`. -/
def runItem (go : S → Nat → R S) : Item → S → R S
  | .decl c, s => runDecl1 go c s
  | .expr e, s => run go e s
  | .fn _ ti ps as body, s =>
    (run go ti s).bind fun s => (seqAll (runDecl1 go) ps s).bind fun s => (runs go as s).bind fun s =>
    (seqAll (fun p s => add s p.x p.d) ps (push s .fn)).bind fun s => (run go body s).bind fun s => .ok (pop s)

def globals : List Item → List Decl
  | [] => []
  | .decl c :: is => c :: globals is
  | _ :: is => globals is

def init : S := ⟨fun _ => none, [], [⟨.top, []⟩], []⟩

/-- 4788 (`TSV0::vVarDeclI`): all global declarations are added to the global scope; 4967: then the items are visited in order. -/
def sorter (n : Nat) (is : List Item) : R S :=
  (seqAll (fun c s => add s c.x c.d) (globals is) init).bind fun s => seqAll (runItem (goN (globals is) n)) is s

end Scope
end MZ
