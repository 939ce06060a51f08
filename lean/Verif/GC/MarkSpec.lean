import Verif.GC.Mark
import Mathlib.Logic.Relation
/-!
# Specification: which nodes a node keeps alive

`members` lists the pointer members of every class together with the class of the node they must point to. Three
kinds of members do not keep their target alive and are not listed: the flat version of a declaration, the declaration
of an operator, and the element list of a set that has a range list.
-/
namespace MZ
namespace GCMark
open GCHeap (Addr)

/-- Classes of nodes. -/
inductive Cls where
  | str | chunk | loc | vec | expr | fn
deriving DecidableEq

/-- The node `o` is of class `c`. -/
def Is : Obj → Cls → Prop
  | .str, .str => True
  | .chunk, .chunk => True
  | .locv _, .loc => True
  | .vec _, .vec => True
  | .expr _ _, .expr => True
  | .item _ (.functionI ..), .fn => True
  | _, _ => False

/-- An optional member of class `c`. -/
def opt (c : Cls) : Option Addr → List (Addr × Cls)
  | some a => [(a, c)]
  | none => []

/-- A pointer to an expression. -/
def ptr : Ptr → List (Addr × Cls)
  | .ref a => [(a, .expr)]
  | _ => []

def ptrs (l : List Ptr) : List (Addr × Cls) := l.flatMap ptr

def Expr.members : Expr → List (Addr × Cls)
  | .lit => []
  | .setLit .int _ (some s) => [(s, .chunk)]
  | .setLit .float _ (some s) => [(s, .chunk)]
  | .setLit _ v _ => opt .vec v
  | .stringLit v => opt .str v
  | .id s d => opt .str s ++ ptr d
  | .arrayLit (.vec v) dims => opt .vec v ++ opt .chunk dims
  | .arrayLit (.slice al) dims => (al, .expr) :: opt .chunk dims
  | .arrayAccess v idx => ptr v ++ opt .vec idx
  | .fieldAccess v f => ptr v ++ ptr f
  | .comp e g gi => ptr e ++ opt .vec g ++ opt .chunk gi
  | .ite it els => opt .vec it ++ ptr els
  | .binOp e0 e1 _ => ptr e0 ++ ptr e1
  | .unOp e0 _ => ptr e0
  | .call (.name s) (.inl l) => opt .str s ++ ptrs l
  | .call (.name s) (.nary v) => opt .str s ++ [(v, .vec)]
  | .call (.decl f) (.inl l) => (f, .fn) :: ptrs l
  | .call (.decl f) (.nary v) => [(f, .fn), (v, .vec)]
  | .varDecl ti i e _ => ptr ti ++ ptr i ++ ptr e
  | .letE ds orig body => opt .vec ds ++ opt .vec orig ++ ptr body
  | .typeInst rs dom => opt .vec rs ++ ptr dom
  | .tiid v => opt .str v

def Itm.members : Itm → List (Addr × Cls)
  | .includeI f => opt .str f
  | .assignI id e d => opt .str id ++ ptr e ++ ptr d
  | .constraintI e => ptr e
  | .solveI ann e => ptrs ann ++ ptr e
  | .outputI e ann => ptr e ++ ptrs ann
  | .functionI id ti ps ann e => opt .str id ++ ptr ti ++ opt .vec ps ++ ptrs ann ++ ptr e

def Obj.members : Obj → List (Addr × Cls)
  | .str => []
  | .chunk => []
  | .locv f => opt .str f
  | .vec es => ptrs es
  | .expr h e => opt .loc h.loc ++ ptrs h.ann ++ e.members
  | .item loc i => opt .loc loc ++ i.members

/-- `a` keeps `b` alive. -/
def Keeps (H : Objs) (a b : Addr) : Prop := ∃ o, H a = some o ∧ ∃ c, (b, c) ∈ o.members

/-- The nodes a source of marking refers to. -/
def Root.addrs : Root → List Addr
  | .str s => s.toList
  | .loc l => l.toList
  | .expr p => (ptr p).map (·.1)
  | .item a => [a]

/-- The roots: keep-alive handles, registered containers, saved values on the trail. -/
def Sources.roots (src : Sources) : List Addr :=
  (ptrs src.keep).map (·.1) ++ src.markers.flatten.flatMap Root.addrs ++ (ptrs src.trail).map (·.1)

/-- Reachable from a root. -/
def Reach (H : Objs) (rs : List Addr) (a : Addr) : Prop := ∃ r ∈ rs, Relation.ReflTransGen (Keeps H) r a

/-- The heap is well typed at `a`: every member points to a node of the right class. -/
def TypedAt (H : Objs) (a : Addr) : Prop :=
  ∀ o, H a = some o → ∀ b c, (b, c) ∈ o.members → ∃ o', H b = some o' ∧ Is o' c

/-- A root refers to a node of the right class. -/
def Root.Typed (H : Objs) : Root → Prop
  | .str s => ∀ a ∈ s, ∃ o, H a = some o ∧ Is o .str
  | .loc l => ∀ a ∈ l, ∃ o, H a = some o ∧ Is o .loc
  | .expr p => ∀ a, p = .ref a → ∃ o, H a = some o ∧ Is o .expr
  | .item a => ∃ o, H a = some o ∧ ((∃ l i, o = .item l i) ∨ ∃ h t i e f, o = .expr h (.varDecl t i e f))

/-- Everything that is marked from is well typed. -/
structure Sources.Typed (H : Objs) (src : Sources) : Prop where
  keep : ∀ a, Ptr.ref a ∈ src.keep → ∃ o, H a = some o ∧ Is o .expr
  trail : ∀ a, Ptr.ref a ∈ src.trail → ∃ o, H a = some o ∧ Is o .expr
  markers : ∀ r ∈ src.markers.flatten, r.Typed H

end GCMark
end MZ
