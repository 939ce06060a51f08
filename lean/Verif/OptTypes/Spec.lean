import Mathlib.Data.Set.Basic
import Mathlib.Order.Bounds.Basic

/-!
# Option types: what the operations on values that may be absent mean

An optional value is an `Option`: `none` is the absent value `<>`.  Everything here is stated on these values alone, without
the variables by which the library represents them.
-/

namespace MZ.OptTypes.Spec

/-- A weak relation: it holds as soon as one side is absent. -/
def Weak {α : Type} (R : α → α → Prop) (a b : Option α) : Prop := ∀ u, a = some u → ∀ v, b = some v → R u v

/-- A weak operation: absent as soon as one side is absent. -/
def weakOp {α : Type} (f : α → α → α) : Option α → Option α → Option α
  | some u, some v => some (f u v)
  | _, _ => none

/-- `x - y` and `x div y`: absent if `x` is, `x` if only `y` is; the outer `none` means undefined. -/
def leftOp {α : Type} (f : α → α → Option α) : Option α → Option α → Option (Option α)
  | none, _ => some none
  | some u, none => some (some u)
  | some u, some v => (f u v).map some

/-- A weak operation that may be undefined. -/
def weakPart {α : Type} (f : α → α → Option α) : Option α → Option α → Option (Option α)
  | some u, some v => (f u v).map some
  | _, _ => some none

/-- The values that occur in a list of optional values. -/
def occurring {α : Type} (xs : List (Option α)) : Set α := {v | some v ∈ xs}

/-- `x[i]` for an array with the index set `lo..hi`; `none` means undefined. -/
def access {β : Type} (lo hi : Int) (x : Int → β) (i : Int) : Option β := if lo ≤ i ∧ i ≤ hi then some (x i) else none

/-- `x[i]` with an optional index: absent if the index is. -/
def accessOpt {α : Type} (lo hi : Int) (x : Int → Option α) : Option Int → Option (Option α)
  | none => some none
  | some i => access lo hi x i

/-- Whether an optional index is absent or within `lo..hi`. -/
def InBounds (lo hi : Int) (i : Option Int) : Prop := ∀ k, i = some k → lo ≤ k ∧ k ≤ hi

open Classical in
/-- `x[i, j]` with optional indices: undefined if a non-absent index is out of bounds, absent if an index is absent. -/
noncomputable def accessOpt2 {α : Type} (l1 h1 l2 h2 : Int) (x : Int → Int → Option α) (i j : Option Int) : Option (Option α) :=
  if InBounds l1 h1 i ∧ InBounds l2 h2 j then
    match i, j with
    | some a, some b => some (x a b)
    | _, _ => some none
  else none

end MZ.OptTypes.Spec
