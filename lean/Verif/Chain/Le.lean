import Verif.Linear.Model
import Verif.Linear.Spec
import Verif.Ranges.Spec

/-!
# Compression of chains of inequalities

Model of `LECompressor`, `lib/chain_compressor.cpp:369-643`.

As in `Verif/Chain/Imp.lean`, a removed item is `none` and the occurrences are counted directly.  Only integers are
modelled, and no variable has an `int2float` alias, so `_aliasMap` is empty.  Coefficients are finite.
-/

namespace MZ
namespace Chain
open Linear (Atom simplifyLinIdx)

/-- An item: `int_lin_le(as, bs, c)`, or anything else (a declaration with a right hand side is such an item). -/
inductive LItem where
  | lin (ts : List (Int × Atom)) (c : Int)
  | other (n : Nat)
  deriving DecidableEq

/-- The variables that occur in an item of another kind, and the variable it declares. -/
structure LSig where
  args : Nat → List Nat
  decl : Nat → Option Nat

/-- The item contains an occurrence of the variable: `CollectOccurrencesI`, `lib/optimize.cpp:128-160`. -/
def LItem.mentions (S : LSig) (v : Nat) : LItem → Bool
  | .lin ts _ => decide (Atom.id v ∈ ts.map Prod.snd)
  | .other n => decide (v ∈ S.args n)

/-- The variable under which a term stores its item. -/
def termKey : Int × Atom → Option Nat
  | (c, .id v) => if 0 < c then some v else none
  | _ => none

/-- The variables under which an item is stored: `LECompressor::trackItem`, `lib/chain_compressor.cpp:369-421`. -/
def LItem.keys : LItem → List Nat
  | .lin ts _ => ts.filterMap termKey
  | .other _ => []

/-- The flat model and the multimap `_items`. -/
structure LState where
  items : List (Option LItem)
  track : List (Nat × Nat)
  deriving DecidableEq

/-- What does not change: occurrences in other items, the domains, the variables to be kept (output), and the order in
which `std::sort` leaves the indices in `simplify_lin`. -/
structure LEnv where
  sig : LSig
  dom : Nat → Option (List Range)
  keep : Nat → Bool
  sorter : List (Int × Atom) → List Nat

/-- `count`, `include/minizinc/chain_compressor.hh:41`. -/
def lcount (s : LState) (v : Nat) : Nat := (s.track.filter (fun e => e.1 == v)).length

/-- The number of items that contain the variable (`usages`, without arrays). -/
def loccurrences (S : LSig) (s : LState) (v : Nat) : Nat :=
  (s.items.filter (fun o => match o with | some it => it.mentions S v | none => false)).length

/-- `neg->e() != nullptr`. -/
def hasRhs (S : LSig) (s : LState) (v : Nat) : Bool :=
  s.items.any fun o => match o with | some (.other n) => S.decl n == some v | _ => false

/-- The domain of an operand; `none`: no domain.  In `LECompressor::eqBounds`, `lib/chain_compressor.cpp:619-640`. -/
def bounds (E : LEnv) : Atom → Option (List Range)
  | .id v => E.dom v
  | .lit v => some [⟨.fin v, .fin v⟩]
  | .other _ => none

/-- `LECompressor::eqBounds`, `lib/chain_compressor.cpp:619-644`. -/
def eqBounds (E : LEnv) (a b : Atom) : Bool :=
  match bounds E a, bounds E b with
  | some x, some y => decide (x = y)
  | none, none => true
  | _, _ => false

/-- The result of `leReplaceVar` for one item. -/
inductive Replaced where
  /-- `_env.fail()` -/
  | unsat
  /-- `i->remove()` -/
  | gone
  | lin (ts : List (Int × Atom)) (c : Int)

/-- The terms with `new` for `old`, `lib/chain_compressor.cpp:568-577`. -/
def renameTerm (old new : Nat) (t : Int × Atom) : Int × Atom := (t.1, if t.2 = .id old then .id new else t.2)

/-- `leReplaceVar` on the constraint, `lib/chain_compressor.cpp:563-613`. -/
def replaceLin (E : LEnv) (old new : Nat) (ts : List (Int × Atom)) (c : Int) : Res Replaced :=
  let ts1 := ts.map (renameTerm old new)
  do
  let (ts2, d) ← simplifyLinIdx (E.sorter ts1) ts1 0
  if ts2 = [] then
    if d > c then .ok .unsat else .ok .gone
  else do
    let c2 ← safeMinus c d
    .ok (.lin ts2 c2)

/-- The result of a step. -/
inductive LOutcome where
  /-- `++it` -/
  | skip
  /-- `break` -/
  | stop
  /-- undefined behaviour: the iterator has been erased (`assert(lhs != rhs)`), or a failing cast -/
  | ub
  /-- an exception of the arithmetic -/
  | err
  /-- `ModelInconsistent` -/
  | unsat
  | next (s : LState)
  deriving DecidableEq

/-- `leReplaceVar` for all items stored under `old`, `lib/chain_compressor.cpp:495-504` and `550-617`.  The item is
stored under the new variable once for every term with this variable (`596-602`). -/
def replaceAll (E : LEnv) (old new : Nat) : LState → List Nat → LOutcome
  | s, [] => .next s
  | s, i :: is =>
    match s.items[i]? with
    | some (some (.lin ts c)) =>
      match replaceLin E old new ts c with
      | .ok .unsat => .unsat
      | .ok .gone => replaceAll E old new { s with items := s.items.set i none } is
      | .ok (.lin ts2 c2) =>
        replaceAll E old new
          { items := s.items.set i (some (.lin ts2 c2)),
            track := s.track ++ (ts2.filter (fun t => t.2 = .id new)).map fun _ => (new, i) } is
      | .err => .err
      | .ub => .ub
    | _ => .ub

/-- The compression of `pos ≤ neg` found at the entry `e`, `lib/chain_compressor.cpp:490-545`. -/
def compressLe (E : LEnv) (s : LState) (e : Nat × Nat) (neg pos : Nat) : LOutcome :=
  let todo := (s.track.filter (fun e => e.1 == neg)).map (·.2)
  match replaceAll E neg pos { s with track := s.track.filter (fun e => e.1 != neg) } todo with
  | .next s2 => .next { items := s2.items.set e.2 none, track := s2.track.erase e }
  | r => r

/-- The test whether `neg` can be eliminated, `lib/chain_compressor.cpp:447-482`. -/
def canCompressLe (E : LEnv) (s : LState) (neg : Nat) : Bool :=
  !E.keep neg && decide (0 < lcount s neg) && decide (loccurrences E.sig s neg = lcount s neg + 1)

/-- What an entry of the multimap leads to. -/
inductive Target where
  | skip
  | stop
  | ub
  /-- `pos ≤ neg` is compressed -/
  | pair (neg pos : Nat)
  deriving DecidableEq

/-- The tests of one iteration of `LECompressor::compress`, `lib/chain_compressor.cpp:424-488`. -/
def target (E : LEnv) (s : LState) (e : Nat × Nat) : Target :=
  match s.items[e.2]? with
  | some (some (.lin [(a0, x0), (a1, x1)] c)) =>
    if c = 0 ∧ a0 = -a1 ∧ eqBounds E x0 x1 = true then
      match if a0 < a1 then x0 else x1 with
      | .id neg =>
        if hasRhs E.sig s neg then .skip
        else if canCompressLe E s neg then
          match if a0 < a1 then x1 else x0 with
          | .id pos => if pos = neg then .ub else .pair neg pos
          | _ => .skip
        else .skip
      | _ => .stop
    else .skip
  | some (some _) => .skip
  | _ => .ub

/-- One iteration of `LECompressor::compress` for the entry `e` of the multimap, `lib/chain_compressor.cpp:423-548`. -/
def iterationLe (E : LEnv) (s : LState) (e : Nat × Nat) : LOutcome :=
  match target E s e with
  | .skip => .skip
  | .stop => .stop
  | .ub => .ub
  | .pair neg pos => compressLe E s e neg pos

/-- The state at the start: all items are tracked, `lib/optimize.cpp:1172-1177`. -/
def startLe (items : List LItem) : LState where
  items := items.map some
  track := (items.zipIdx.map fun p => p.1.keys.map (·, p.2)).flatten

/-! ## Specification -/

/-- The meaning of the other items: a property of the values of the operands. -/
abbrev LInterp := Nat → (Atom → Int) → Prop

/-- An item of another kind only depends on the variables that occur in it and on the one it declares. -/
def LRespects (I : LInterp) (S : LSig) : Prop :=
  ∀ n ρ τ, (∀ v, v ∈ S.args n ∨ S.decl n = some v → ρ (.id v) = τ (.id v)) →
    (∀ a, (∀ v, a ≠ .id v) → ρ a = τ a) → I n ρ → I n τ

/-- The assignment satisfies the item. -/
def LItem.Holds (I : LInterp) (ρ : Atom → Int) : LItem → Prop
  | .lin ts c => Linear.sum ρ ts ≤ c
  | .other n => I n ρ

/-- The assignment is a solution: all variables are in their domains, and all items hold. -/
def LState.Sol (I : LInterp) (E : LEnv) (ρ : Atom → Int) (s : LState) : Prop :=
  (∀ v l, E.dom v = some l → Mem (ρ (.id v)) l) ∧ ∀ it, some it ∈ s.items → it.Holds I ρ

/-- The assignment of the variables to be kept extends to a solution. -/
def LState.Extends (I : LInterp) (E : LEnv) (ρ : Atom → Int) (s : LState) : Prop :=
  ∃ τ, (∀ v, E.keep v = true → τ (.id v) = ρ (.id v)) ∧ s.Sol I E τ

/-- The multimap holds nothing twice, and every entry belongs to an inequality that is still in the model and has the
variable with a positive coefficient. -/
structure LSound (s : LState) : Prop where
  nodup : s.track.Nodup
  mem : ∀ v i, (v, i) ∈ s.track → ∃ it, s.items[i]? = some (some it) ∧ v ∈ it.keys

/-- Inequalities are in the normal form of `simplify_lin` (C12). -/
def Normalised (s : LState) : Prop :=
  ∀ ts c, some (.lin ts c) ∈ s.items →
    (∀ t ∈ ts, t.1 ≠ 0) ∧ (∀ t ∈ ts, ∀ v, t.2 ≠ .lit v) ∧ (ts.map Prod.snd).Nodup

/-- No inequality that is stored under the variable to be eliminated has the variable that replaces it. -/
def Fresh (s : LState) (neg pos : Nat) : Prop :=
  ∀ i ts c, (neg, i) ∈ s.track → s.items[i]? = some (some (.lin ts c)) → Atom.id pos ∉ ts.map Prod.snd

/-- A run of the loop, in any order of the entries, in which the replacing variable is always fresh. -/
inductive RunLe (E : LEnv) : LState → LState → Prop
  | done (s : LState) : RunLe E s s
  | step (s s1 s2 : LState) (e : Nat × Nat) (neg pos : Nat) (he : e ∈ s.track) (ht : target E s e = .pair neg pos)
      (h : iterationLe E s e = .next s1) (hf : Fresh s neg pos) (hr : RunLe E s1 s2) : RunLe E s s2

end Chain
end MZ
