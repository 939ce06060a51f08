import Verif.IntVal.Model
import Mathlib.Data.Finset.Card
import Mathlib.Data.Finset.Insert

/-!
# Occurrences of variables in the flat model

Model of `VarOccurrences` (`lib/optimize.cpp:30-126`), of the visitors that maintain it (`:128-177`), of
`EnvI::flatAddItem` and `EnvI::flatRemoveItem` (`lib/flatten.cpp:1050-1104`, `1188-1220`), of the part of `unify` that
moves right hand sides (`lib/optimize.cpp:243-292`), and of the two places where a constraint is changed
(`ChainCompressor::replaceCallArgument` and `LECompressor::leReplaceVar`, `lib/chain_compressor.cpp:47-53` and `551-617`).

Items are identified by their index in the flat model.  `VarOccurrences` stores pointers; the index stands for the
pointer.  The content of an expression is the list of the identifiers in it, in the order of the traversal; internal
annotations, which are skipped (`:133-138`), are not part of this list.
-/

namespace MZ
namespace Occ

/-- The right hand side of a declaration: an identifier, or another expression with the identifiers in it. -/
inductive Rhs where
  | alias (u : Nat)
  /-- `arr`: the expression is an array or a set literal -/
  | expr (arr : Bool) (occ : List Nat)
  deriving DecidableEq

/-- The identifiers in a right hand side. -/
def Rhs.occ : Rhs → List Nat
  | .alias u => [u]
  | .expr _ occ => occ

/-- An item of the flat model: a declaration, or anything else (constraint, solve item). -/
inductive Body where
  | decl (v : Nat) (rhs : Option Rhs)
  | con (occ : List Nat)
  deriving DecidableEq

/-- The identifiers in an item: what `CollectOccurrencesI` visits, `lib/optimize.cpp:142-160`.  The types of declarations
of the flat model contain no identifiers. -/
def Body.occ : Body → List Nat
  | .decl _ none => []
  | .decl _ (some r) => r.occ
  | .con occ => occ

/-- The flat model, the two maps of `VarOccurrences` and the redirections of identifiers.  `root v` is the variable to
which `v` has been redirected, over any number of steps: `v->id()->decl()`. -/
structure State where
  items : List (Option Body)
  /-- `itemMap` -/
  map : Nat → Option (Finset Nat)
  /-- `idx` -/
  idx : Nat → Option Nat
  root : Nat → Nat

/-- The empty flat model. -/
def empty : State := ⟨[], fun _ => none, fun _ => none, id⟩

/-- Assignment to one place of a map. -/
def upd {β : Type} (f : Nat → β) (k : Nat) (b : β) : Nat → β := fun j => if j = k then b else f j

/-- `VarOccurrences::add`, `lib/optimize.cpp:41-49`. -/
def add (s : State) (v i : Nat) : State :=
  match s.map (s.root v) with
  | some is => { s with map := upd s.map (s.root v) (some (insert i is)) }
  | none => { s with map := upd s.map (s.root v) (some {i}) }

/-- `VarOccurrences::remove`, `lib/optimize.cpp:51-56`.  `none`: the assertion fails and an invalid pointer is used. -/
def remove (s : State) (v i : Nat) : Option (State × Nat) :=
  match s.map (s.root v) with
  | some is => some ({ s with map := upd s.map (s.root v) (some (is.erase i)) }, (is.erase i).card)
  | none => none

/-- `VarOccurrences::occurrences`, `lib/optimize.cpp:101-104`. -/
def occurrences (s : State) (v : Nat) : Nat :=
  match s.map (s.root v) with
  | some is => is.card
  | none => 0

/-- `CollectOccurrencesE` on an expression, `lib/optimize.cpp:128-141`. -/
def collect (s : State) (i : Nat) : List Nat → State
  | [] => s
  | v :: vs => collect (add s v i) i vs

/-- `CollectDecls` on an expression, `lib/optimize.cpp:162-177`: the new state and the variables that are pushed.
`free` stands for `CollectDecls::varIsFree`, `include/minizinc/optimize.hh:86-103`. -/
def uncollect (free : Nat → Bool) (s : State) (i : Nat) : List Nat → Option (State × List Nat)
  | [] => some (s, [])
  | v :: vs =>
    match remove s v i with
    | none => none
    | some (s1, n) =>
      match uncollect free s1 i vs with
      | none => none
      | some (s2, ds) => some (s2, (if n = 0 && free (s.root v) then [s.root v] else []) ++ ds)

/-- `EnvI::flatAddItem`, `lib/flatten.cpp:1050-1104`. -/
def addItem (s : State) (b : Body) : State :=
  let i := s.items.length
  let s1 : State := { s with items := s.items ++ [some b] }
  let s2 : State := match b with
    | .decl v _ => { s1 with idx := upd s1.idx v (some i) }
    | .con _ => s1
  collect s2 i b.occ

/-- The result of the removal of declarations that are not used any more. -/
inductive Outcome where
  /-- an assertion fails -/
  | ub
  /-- the number of steps is used up; see `C38_defined` -/
  | fuel
  | done (s : State)

/-- What does not change during one of the operations: `varIsFree` (`include/minizinc/optimize.hh:86-103`), `is_output`
(`lib/optimize.cpp:179-193`) and the second and third condition of `can_remove_fzn_vardecl` (`lib/optimize.cpp:236-240`). -/
structure Env where
  free : Nat → Bool
  output : Nat → Bool
  removable : Nat → Bool

/-- The two loops that remove declarations; the end of the vector is the head of the list.  `strict`: the condition is an
assertion.  `gate`: the condition beside the absence of occurrences.  `block`: the declaration is kept. -/
def loop (strict : Bool) (gate block free : Nat → Bool) : Nat → State → List Nat → Outcome
  | _, s, [] => .done s
  | 0, _, _ => .fuel
  | n + 1, s, cur :: todo =>
    if occurrences s cur = 0 ∧ gate cur = true then
      match s.idx cur with
      | none => loop strict gate block free n s todo
      | some j =>
        match s.items[j]? with
        | some (some (.decl v rhs)) =>
          if block v then loop strict gate block free n s todo
          else
            match uncollect free s j (Body.decl v rhs).occ with
            | none => .ub
            | some (s1, ds) =>
              loop strict gate block free n { s1 with items := s1.items.set j none } (ds.reverse ++ todo)
        | some none => loop strict gate block free n s todo
        | _ => .ub
    else if strict then .ub
    else loop strict gate block free n s todo

/-- The loop of `EnvI::flatRemoveExpr`, `lib/flatten.cpp:1193-1209`. -/
def cascade (E : Env) : Nat → State → List Nat → Outcome := loop true E.free E.output E.free

/-- The number of identifiers in the items. -/
def size (s : State) : Nat := (s.items.map fun o => match o with | some b => b.occ.length + 1 | none => 0).sum

/-- `EnvI::flatRemoveItem`, `lib/flatten.cpp:1212-1220`, for an item that is in the model.  The item is removed after
the loop; to remove it before is the same, unless it is found again by the loop. -/
def removeItem (E : Env) (s : State) (i : Nat) : Outcome :=
  match s.items[i]? with
  | some (some b) =>
    match uncollect E.free s i b.occ with
    | none => .ub
    | some (s1, ds) =>
      match cascade E (size s + ds.length) s1 ds.reverse with
      | .done s2 => .done { s2 with items := s2.items.set i none }
      | r => r
  | _ => .ub

/-- `remove_deleted_items`, `lib/optimize.cpp:435-468`, without the output model. -/
def removeDeleted (E : Env) (s : State) (vs : List Nat) : Outcome :=
  loop false E.removable (fun _ => false) E.free (size s + vs.length) s vs

/-- A constraint is changed as a whole: `leReplaceVar`, `lib/chain_compressor.cpp:560-562` and `614-616`. -/
def replaceItem (E : Env) (s : State) (i : Nat) (occ : List Nat) : Option State :=
  match s.items[i]? with
  | some (some (.con old)) =>
    match uncollect E.free s i old with
    | none => none
    | some (s1, _) => some (collect { s1 with items := s1.items.set i (some (.con occ)) } i occ)
  | _ => none

/-- One argument of a constraint is replaced: `ChainCompressor::replaceCallArgument`, `lib/chain_compressor.cpp:47-53`.
The constraint has the identifiers `before ++ old ++ after`. -/
def replaceArgument (E : Env) (s : State) (i : Nat) (before old after new : List Nat) : Option State :=
  match s.items[i]? with
  | some (some (.con occ)) =>
    if occ = before ++ old ++ after then
      match uncollect E.free s i old with
      | none => none
      | some (s1, _) => some (collect { s1 with items := s1.items.set i (some (.con (before ++ new ++ after))) } i new)
    else none
  | _ => none

/-- The sets of the two variables are joined, `lib/optimize.cpp:79-90`. -/
def mergeMap (map : Nat → Option (Finset Nat)) (v0 v1 : Nat) : Nat → Option (Finset Nat) :=
  match map v0 with
  | some is0 =>
    match map v1 with
    | some is1 => upd (upd map v1 (some (is1 ∪ is0))) v0 none
    | none => upd (upd map v1 (some is0)) v0 none
  | none => map

/-- `VarOccurrences::unify`, `lib/optimize.cpp:64-94`. -/
def unifyMap (s : State) (id0 id1 : Nat) : Option State :=
  let v0 := s.root id0
  let v1 := s.root id1
  if v0 = v1 then some s
  else
    match s.idx v0 with
    | none => none
    | some j =>
      some { items := s.items.set j none, map := mergeMap s.map v0 v1, idx := upd s.idx v0 none,
             root := fun v => if s.root v = v0 then v1 else s.root v }

/-- The right hand side of the declaration at an index. -/
def rhsAt (s : State) (j : Nat) : Option (Nat × Option Rhs) :=
  match s.items[j]? with
  | some (some (.decl v rhs)) => some (v, rhs)
  | _ => none

/-- `vd->e(rhs)`. -/
def setRhs (s : State) (j v : Nat) (rhs : Option Rhs) : State := { s with items := s.items.set j (some (.decl v rhs)) }

/-- The right hand side is an identifier that has been redirected to one of the two variables,
`lib/optimize.cpp:252-254` and `275-277`. -/
def isAliasOf (s : State) (v0 v1 : Nat) : Option Rhs → Bool
  | some (.alias u) => decide (s.root u = v0 ∨ s.root u = v1)
  | _ => false

/-- `lib/optimize.cpp:249-257`: an alias of one of the two is dropped from `id0`, without `CollectDecls`. -/
def dropAlias (s : State) (v0 v1 j0 : Nat) : Option State :=
  match rhsAt s j0 with
  | none => none
  | some (v, rhs) => some (if isAliasOf s v0 v1 rhs then setRhs s j0 v none else s)

/-- `lib/optimize.cpp:258-271`: the right hand side of `id0` is moved to `id1`. -/
def moveRhs (E : Env) (s : State) (j0 j1 : Nat) : Option State :=
  match rhsAt s j0, rhsAt s j1 with
  | some (v, some r), some (w, _) =>
    let s1 := setRhs (setRhs (collect s j1 r.occ) j1 w (some r)) j0 v none
    (uncollect E.free s1 j0 r.occ).map (·.1)
  | some (_, none), some _ => some s
  | _, _ => none

/-- `lib/optimize.cpp:272-285`: an alias of one of the two is removed from `id1`. -/
def clearAlias (E : Env) (s : State) (v0 v1 j1 : Nat) : Option State :=
  match rhsAt s j1 with
  | none => none
  | some (w, rhs) =>
    if isAliasOf s v0 v1 rhs then
      match rhs with
      | some r => (uncollect E.free (setRhs s j1 w none) j1 r.occ).map (·.1)
      | none => some s
    else some s

/-- `unify`, `lib/optimize.cpp:243-389`, without the domains and the output model. -/
def unify (E : Env) (s : State) (id0 id1 : Nat) : Option State :=
  let a := s.root id0
  let b := s.root id1
  if a = b then some s
  else
    let v0 := if E.output a then b else a
    let v1 := if E.output a then a else b
    match s.idx v0, s.idx v1 with
    | some j0, some j1 =>
      match dropAlias s v0 v1 j0 with
      | none => none
      | some s1 =>
        match moveRhs E s1 j0 j1 with
        | none => none
        | some s2 =>
          match clearAlias E s2 v0 v1 j1 with
          | none => none
          | some s3 => unifyMap s3 v0 v1
    | _, _ => none

/-- The loop of `VarOccurrences::usages`, `lib/optimize.cpp:114-124`; `f` is the recursive call. -/
def sumUsages (f : Nat → Option (Nat × Bool)) (items : List (Option Body)) : List Nat → Nat × Bool → Option (Nat × Bool)
  | [], acc => some acc
  | i :: is, acc =>
    match items[i]? with
    | some (some (Body.decl w (some (Rhs.expr true _)))) =>
      match f w with
      | none => none
      | some u => sumUsages f items is (acc.1 + u.1, acc.2 || u.2)
    | _ => sumUsages f items is (acc.1 + 1, acc.2)

/-- `VarOccurrences::usages`, `lib/optimize.cpp:106-126`.  `none`: the recursion does not end within `n` levels. -/
def usages (E : Env) : Nat → State → Nat → Option (Nat × Bool)
  | 0, _, _ => none
  | n + 1, s, v =>
    match s.map (s.root v) with
    | none => some (0, E.output v)
    | some is =>
      sumUsages (usages E n s) s.items ((List.range s.items.length).filter fun i => decide (i ∈ is)) (0, E.output v)

end Occ
end MZ
