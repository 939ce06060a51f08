import Verif.Occ.Model
import Mathlib.Data.Set.Card

/-!
# Specification of the occurrences of variables

What a user of the flat model means by "the variable is used": an item that is still in the model contains an
identifier that stands for the variable.  This file does not use the maps of `VarOccurrences`.
-/

namespace MZ
namespace Occ

/-- Item `i` is in the flat model, with this content. -/
def Live (s : State) (i : Nat) (b : Body) : Prop := s.items[i]? = some (some b)

/-- Item `i` is in the flat model and contains `v` or an identifier that has been unified with `v`. -/
def Uses (s : State) (i v : Nat) : Prop := ∃ b, Live s i b ∧ ∃ u ∈ b.occ, s.root u = s.root v

/-- Item `i` is in the flat model and declares `v`. -/
def Declares (s : State) (i v : Nat) : Prop := ∃ rhs, Live s i (.decl v rhs)

/-- Two variables can be unified without leaving anything behind: the right hand side of the variable that is removed
is not an identifier for one of the two, and only one of the two has a right hand side. -/
def Tidy (E : Env) (s : State) (id0 id1 : Nat) : Prop :=
  let v0 := if E.output (s.root id0) then s.root id1 else s.root id0
  let v1 := if E.output (s.root id0) then s.root id0 else s.root id1
  ∀ i0 i1 r0 r1, Live s i0 (.decl v0 r0) → Live s i1 (.decl v1 r1) →
    (r0 = none ∨ (r1 = none ∧ ∀ u, r0 = some (.alias u) → s.root u ≠ v0 ∧ s.root u ≠ v1))

/-- One operation on the flat model.  If `tidy` is set, all unifications are `Tidy`. -/
inductive Step (tidy : Bool) : State → State → Prop where
  | add (s : State) (b : Body) (fresh : ∀ v rhs, b = .decl v rhs → s.idx v = none ∧ s.root v = v) : Step tidy s (addItem s b)
  | remove (E : Env) (s s' : State) (i : Nat) (h : removeItem E s i = .done s') : Step tidy s s'
  | removeDeleted (E : Env) (s s' : State) (vs : List Nat) (h : removeDeleted E s vs = .done s') : Step tidy s s'
  | replace (E : Env) (s s' : State) (i : Nat) (occ : List Nat) (h : replaceItem E s i occ = some s') : Step tidy s s'
  | unify (E : Env) (s s' : State) (a b : Nat) (ht : tidy = true → Tidy E s a b) (h : unify E s a b = some s') :
      Step tidy s s'
  /-- the right hand side is dropped before the unification, without the visitor: `lib/optimize.cpp:648-658` and `1731` -/
  | dropRhs (s : State) (j v : Nat) (rhs : Option Rhs) (ht : tidy = false) (h : Live s j (.decl v rhs)) :
      Step tidy s (setRhs s j v none)

/-- The states that the operations lead to. -/
inductive Reach (tidy : Bool) : State → Prop where
  | empty : Reach tidy empty
  | step (s s' : State) (h : Reach tidy s) (h' : Step tidy s s') : Reach tidy s'

/-- Variable `v` is used by a constraint or a declaration, directly or through declarations of arrays and sets. -/
inductive UsedThrough (s : State) : Nat → Prop where
  | direct (v i : Nat) (b : Body) (h : Uses s i v) (hl : Live s i b)
      (ha : ∀ w occ, b ≠ .decl w (some (.expr true occ))) : UsedThrough s v
  | array (v i w : Nat) (occ : List Nat) (h : Uses s i v) (hl : Live s i (.decl w (some (.expr true occ))))
      (hw : UsedThrough s w) : UsedThrough s v

/-- Variable `v`, or an array or set that contains it directly or through others, is an output variable. -/
inductive OutputThrough (E : Env) (s : State) : Nat → Prop where
  | direct (v : Nat) (h : E.output v = true) : OutputThrough E s v
  | array (v i w : Nat) (occ : List Nat) (h : Uses s i v) (hl : Live s i (.decl w (some (.expr true occ))))
      (hw : OutputThrough E s w) : OutputThrough E s v

end Occ
end MZ
