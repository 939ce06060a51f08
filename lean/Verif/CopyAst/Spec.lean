import Verif.CopyAst.Model

/-!
# What a copy is

Two graphs are compared by following references from their roots.
-/

namespace MZ
namespace CopyAst

/-- The objects an object refers to. -/
def Node.refs : Node → List (Option Nat)
  | .const _ => []
  | .node _ bs as => bs ++ as
  | .ident d => [some d]
  | .decl _ _ as => as

/-- The object at the end of a path: at each step the number of the reference to follow. -/
def follow (h : Heap) : Nat → List Nat → Option Nat
  | p, [] => some p
  | p, k :: path =>
    match h.obj p with
    | none => none
    | some n =>
      match n.refs[k]? with
      | some (some c) => follow h c path
      | _ => none

/-- Objects of the same kind with the same label and as many references. -/
def Node.Same : Node → Node → Prop
  | .const l, .const l' => l = l'
  | .node l bs as, .node l' bs' as' => l = l' ∧ bs.length = bs'.length ∧ as.length = as'.length
  | .ident _, .ident _ => True
  | .decl l _ as, .decl l' _ as' => l = l' ∧ as.length = as'.length
  | _, _ => False

/-- Well-formed heaps: references are not dangling and identifiers refer to declarations. -/
structure Heap.Wf (h : Heap) : Prop where
  dom : ∀ p, h.obj p ≠ none ↔ p < h.next
  refs : ∀ p n c, h.obj p = some n → some c ∈ n.refs → c < h.next
  ids : ∀ p d, h.obj p = some (.ident d) → ∃ l i as, h.obj d = some (.decl l i as)

/-- What an object refers to and is copied before the object is registered (the function `c` of a call `p`) does not lead back to it, or it does so
only through an object `x` that is registered at once and through which also all paths from the roots to `p` lead (the function
in whose body a recursive call is). -/
def NoReturn (h : Heap) (roots : List (Option Nat)) : Prop :=
  ∀ p l bs as c, h.obj p = some (.node l bs as) → some c ∈ bs →
    (∀ path, follow h c path ≠ some p) ∨
    ∃ x l' as', h.obj x = some (.node l' [] as') ∧
      (∀ root path, some root ∈ roots → follow h root path = some p → ∃ k, follow h root (path.take k) = some x) ∧
      (∀ path, follow h c path = some p → ∃ k, follow h c (path.take k) = some x)

/-- From `p` in the heap `h` and from `q` in `h'`, the same paths lead to objects, and the objects are the same except for their addresses; those
in `h'` are new or constants. -/
def SamePaths (h h' : Heap) (p q : Nat) : Prop :=
  ∀ path : List Nat,
    (follow h p path = none ∧ follow h' q path = none) ∨
    ∃ x y n n', follow h p path = some x ∧ follow h' q path = some y ∧ h.obj x = some n ∧ h'.obj y = some n' ∧ n.Same n' ∧
      (h.next ≤ y ∨ (x = y ∧ ∃ l, n = .const l))

/-- Paths that lead to one object in the original lead to one object in the copy, and the other way round, except that the identifiers of
one declaration become one object. -/
def SameSharing (h h' : Heap) (p1 q1 p2 q2 : Nat) : Prop :=
  ∀ (path1 path2 : List Nat) (x1 y1 x2 y2 : Nat),
    follow h p1 path1 = some x1 → follow h' q1 path1 = some y1 → follow h p2 path2 = some x2 → follow h' q2 path2 = some y2 →
    (x1 = x2 → y1 = y2) ∧ (y1 = y2 → x1 = x2 ∨ ∃ d, h.obj x1 = some (.ident d) ∧ h.obj x2 = some (.ident d))

end CopyAst
end MZ
