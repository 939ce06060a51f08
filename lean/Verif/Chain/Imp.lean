import Verif.IntVal.Model

/-!
# Compression of chains of implications

Model of `ImpCompressor`, `lib/chain_compressor.cpp:55-348` and `include/minizinc/chain_compressor.hh`.

Variables are Boolean and numbered; aliases have been followed, arrays are inlined, and fixed literals have been
substituted (phases 1 to 4 of `optimize`).  The items of the flat model have their index as identity; a removed item is
`none`.  `VarOccurrences` is replaced by the count it stands for: the number of items that contain the variable
(`Verif/Occ`).  Declarations that `flatRemoveExpr` removes because they are not used any more stay in the list.
-/

namespace MZ
namespace Chain

/-- An item of the flat model.  A declaration carries the flag "positive context, and a half-reified version of the
predicate exists", `lib/chain_compressor.cpp:100-117`. -/
inductive Item where
  /-- `clause(pos, neg)` -/
  | clause (pos neg : List Nat)
  /-- `pred_imp(..., b)`; the arguments other than `b` belong to the call number `p` -/
  | imp (p b : Nat)
  /-- `mzn_reverse_map_var(b)` -/
  | revmap (b : Nat)
  /-- `var bool: y = forall(xs)` -/
  | forallD (y : Nat) (xs : List Nat)
  /-- `var bool: y = exists(xs)` -/
  | existsD (y : Nat) (xs : List Nat) (pos : Bool)
  /-- `var bool: y = pred(...)` -/
  | predD (y p : Nat) (pos : Bool)
  /-- anything else -/
  | other (n : Nat)
  deriving DecidableEq

/-- The variables that occur in the arguments of a call, and in an item of another kind. -/
structure Sig where
  args : Nat → List Nat
  other : Nat → List Nat

/-- The item contains an occurrence of the variable (a declaration is not an occurrence of the variable it declares):
`CollectOccurrencesI`, `lib/optimize.cpp:128-160`. -/
def Item.mentions (S : Sig) (v : Nat) : Item → Bool
  | .clause pos neg => decide (v ∈ pos ∨ v ∈ neg)
  | .imp p b => decide (v ∈ S.args p ∨ v = b)
  | .revmap b => decide (v = b)
  | .forallD _ xs => decide (v ∈ xs)
  | .existsD _ xs _ => decide (v ∈ xs)
  | .predD _ p _ => decide (v ∈ S.args p)
  | .other n => decide (v ∈ S.other n)

/-- The variables under which an item is stored: `ImpCompressor::trackItem`, `lib/chain_compressor.cpp:55-123`. -/
def Item.keys : Item → List Nat
  | .clause _ neg => neg
  | .imp _ b => [b]
  | .revmap b => [b]
  | .forallD y _ => [y]
  | .existsD y _ pos => if pos then [y] else []
  | .predD y _ pos => if pos then [y] else []
  | .other _ => []

/-- The variable a declaration declares. -/
def Item.declares : Item → Option Nat
  | .forallD y _ => some y
  | .existsD y _ _ => some y
  | .predD y _ _ => some y
  | _ => none

/-- The flat model and the multimap `_items`. -/
structure State where
  items : List (Option Item)
  track : List (Nat × Nat)

/-- `storeItem` for all keys, `include/minizinc/chain_compressor.hh:37`. -/
def store (s : State) (i : Nat) (it : Item) : State := { s with track := s.track ++ it.keys.map (·, i) }

/-- `ChainCompressor::addItem`, `lib/chain_compressor.cpp:30-35`. -/
def addItem (s : State) (it : Item) : State :=
  store { s with items := s.items ++ [some it] } s.items.length it

/-- `ChainCompressor::removeItem`, `lib/chain_compressor.cpp:19-28`. -/
def removeItem (s : State) (i : Nat) : State := { s with items := s.items.set i none }

/-- `count`, `include/minizinc/chain_compressor.hh:41`. -/
def count (s : State) (v : Nat) : Nat := (s.track.filter (fun e => e.1 == v)).length

/-- `VarOccurrences::usages` without arrays: the number of items that contain the variable. -/
def occurrences (S : Sig) (s : State) (v : Nat) : Nat :=
  (s.items.filter (fun o => match o with | some it => it.mentions S v | none => false)).length

/-- The declaration of a variable, if it has a right hand side. -/
def rhsOf (s : State) (v : Nat) : Option Item :=
  (s.items.filterMap id).find? (fun it => it.declares == some v)

/-- What happens to an item that is stored under `old`: what becomes of it, and the items that are added;
`compressItem`, `lib/chain_compressor.cpp:208-296`.  `none`: a cast or an access out of bounds. -/
def effect (old new : Nat) : Item → Option (Option Item × List Item)
  | .clause pos neg =>
    if neg.length = 1 ∧ pos = [new] then some (none, [])
    else some (none, [.clause pos (neg.map fun v => if v = old then new else v)])
  | .revmap b => some (some (.revmap b), [])
  | .imp p _ => some (some (.imp p new), [])
  | .forallD y xs => some (some (.forallD y xs), (xs.filter (· ≠ new)).map fun x => .clause [x] [new])
  | .existsD _ xs true =>
    match xs with
    | [] => none
    | x0 :: _ => some (none, if x0 ≠ new then [.clause xs [new]] else [])
  | .predD y p true => some (some (.predD y p true), [.imp p new])
  | _ => none

/-- The entries of a clause under its other variables are erased, `lib/chain_compressor.cpp:228-243`. -/
def untrack (old i : Nat) (track : List (Nat × Nat)) : List Nat → List (Nat × Nat)
  | [] => track
  | v :: vs => untrack old i (if v = old then track else track.erase (v, i)) vs

/-- `compressItem`, `lib/chain_compressor.cpp:208-296`.  A removed item is not a call any more
(`lib/flatten.cpp:1212-1216`). -/
def compressItem (old new : Nat) (s : State) (i : Nat) : Option State :=
  match s.items[i]? with
  | some (some it) =>
    match effect old new it with
    | none => none
    | some (rep, added) =>
      let track := match it with
        | .clause pos neg => if neg.length = 1 ∧ pos = [new] then s.track else untrack old i s.track neg
        | _ => s.track
      let s1 : State := { items := s.items.set i rep, track := track }
      let s2 := match it with
        | .imp p _ => store s1 i (.imp p new)
        | _ => s1
      some (added.foldl addItem s2)
  | _ => none

/-- `compressItem` for all items of a list, `lib/chain_compressor.cpp:193-197`. -/
def compressAll (old new : Nat) : State → List Nat → Option State
  | s, [] => some s
  | s, i :: is =>
    match compressItem old new s i with
    | none => none
    | some s' => compressAll old new s' is

/-- The test whether `y` can be eliminated, `lib/chain_compressor.cpp:138-170`.  `keep`: the variable is fixed or
output. -/
def canCompress (S : Sig) (keep : Nat → Bool) (s : State) (y : Nat) : Bool :=
  !keep y && decide (0 < count s y) &&
    match rhsOf s y with
    | some (.forallD _ _) => decide (occurrences S s y = 1) && decide (count s y = 1)
    | some _ => decide (occurrences S s y = count s y)
    | none => decide (occurrences S s y = count s y + 1)

/-- The result of one iteration of the loop. -/
inductive Outcome where
  /-- `++it` -/
  | skip
  /-- `continue`, with the same iterator -/
  | loop
  /-- undefined behaviour -/
  | ub
  | next (s : State)

/-- One iteration of `ImpCompressor::compress` for the entry `(x, i)` of the multimap,
`lib/chain_compressor.cpp:125-206`. -/
def iteration (S : Sig) (keep : Nat → Bool) (s : State) (e : Nat × Nat) : Outcome :=
  match s.items[e.2]? with
  | some (some (.clause [y] [x])) =>
    if canCompress S keep s y then
      if x = y then .loop
      else
        let todo := (s.track.filter (fun e => e.1 == y)).map (·.2)
        let s1 : State := { s with track := s.track.filter (fun e => e.1 != y) }
        match compressAll y x s1 todo with
        | none => .ub
        | some s2 => .next { removeItem s2 e.2 with track := s2.track.erase e }
    else .skip
  | some (some _) => .skip
  | _ => .ub

/-- The state at the start: all items are tracked, `lib/optimize.cpp:1172-1177`. -/
def start (items : List Item) : State where
  items := items.map some
  track := (items.zipIdx.map fun p => p.1.keys.map (·, p.2)).flatten

/-! ## Specification -/

/-- The meaning of calls and of other items. -/
structure Interp where
  call : Nat → (Nat → Bool) → Prop
  other : Nat → (Nat → Bool) → Prop

/-- A call only depends on its arguments. -/
def Interp.Respects (I : Interp) (S : Sig) : Prop :=
  (∀ n σ τ, (∀ v ∈ S.args n, σ v = τ v) → I.call n σ → I.call n τ) ∧
  (∀ n σ τ, (∀ v ∈ S.other n, σ v = τ v) → I.other n σ → I.other n τ)

/-- The assignment satisfies the item.  A declaration in positive context stands for an implication. -/
def Item.Holds (I : Interp) (σ : Nat → Bool) : Item → Prop
  | .clause pos neg => (∃ v ∈ pos, σ v = true) ∨ ∃ v ∈ neg, σ v = false
  | .imp p b => σ b = true → I.call p σ
  | .revmap _ => True
  | .forallD y xs => σ y = true ↔ ∀ v ∈ xs, σ v = true
  | .existsD y xs true => σ y = true → ∃ v ∈ xs, σ v = true
  | .existsD y xs false => σ y = true ↔ ∃ v ∈ xs, σ v = true
  | .predD y p true => σ y = true → I.call p σ
  | .predD y p false => σ y = true ↔ I.call p σ
  | .other n => I.other n σ

/-- The assignment is a solution. -/
def State.Sol (I : Interp) (σ : Nat → Bool) (s : State) : Prop := ∀ it, some it ∈ s.items → it.Holds I σ

/-- The same assignment, except for the value of `y`. -/
def setv (σ : Nat → Bool) (y : Nat) (b : Bool) : Nat → Bool := fun v => if v = y then b else σ v

/-- The multimap holds nothing twice, and every entry belongs to an item that is still in the model and that `trackItem`
stores under this variable. -/
structure Sound (s : State) : Prop where
  nodup : s.track.Nodup
  mem : ∀ v i, (v, i) ∈ s.track → ∃ it, s.items[i]? = some (some it) ∧ v ∈ it.keys

/-- A half-reified call does not have its control variable as another argument, and a clause does not have a negative
literal twice. -/
structure Clean (S : Sig) (s : State) : Prop where
  separate : ∀ p b, some (.imp p b) ∈ s.items → b ∉ S.args p
  nodup : ∀ pos neg, some (.clause pos neg) ∈ s.items → neg.Nodup

/-- A variable is declared once. -/
def Declared (s : State) : Prop :=
  ∀ (i j : Nat) (it jt : Item) (y : Nat), s.items[i]? = some (some it) → s.items[j]? = some (some jt) → it.declares = some y →
    jt.declares = some y → i = j

/-- A run of the loop, in any order of the entries, in which all states are clean. -/
inductive Run (S : Sig) (keep : Nat → Bool) : State → State → Prop
  | done (s : State) : Run S keep s s
  | step (s s1 s2 : State) (e : Nat × Nat) (he : e ∈ s.track) (h : iteration S keep s e = .next s1) (hc : Clean S s1)
      (hr : Run S keep s1 s2) : Run S keep s s2

/-- The assignment of the variables to be kept extends to a solution. -/
def State.Extends (I : Interp) (keep : Nat → Bool) (σ : Nat → Bool) (s : State) : Prop :=
  ∃ τ, (∀ v, keep v = true → τ v = σ v) ∧ s.Sol I τ

end Chain
end MZ
