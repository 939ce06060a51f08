import Mathlib.Logic.Function.Basic

/-!
# Model: copying syntax trees (`lib/copy.cpp`)

Expressions and items are objects on a heap that refer to each other; the graph has shared objects and cycles (an identifier refers to its
declaration, a call to its function).  Annotations, types, locations and names that are copied without being followed are part of the label.
Not modelled: `followIds`, the pointers `flat` and payloads of declarations, annotations of identifiers, vectors and value sets that are shared
between several literals, and unboxed numbers (which are values, not objects).  The option `copyFundecls` is taken to be on throughout, as
when models are copied; the code drops it for the functions of operators (`:316`, `:331`), so that the calls in their bodies keep referring to
the original functions.
-/

namespace MZ
namespace CopyAst

/-- An object.  `before` are the objects that are copied before the copy is registered, `after` those that are copied afterwards
(`lib/copy.cpp:63-439` and `451-542`):
* `const`: Boolean literals and `<>` (`:117-119`, `:127-129`) are not copied;
* `node`: string literals, anonymous variables and type identifiers have no references; set and array literals, array accesses,
  comprehensions, conditionals, functions, constraints and assignments register first (`:83-116`, `:203-225`, `:226-247`, `:256-276`, `:277-290`,
  `:469-480`, `:505-534`); calls and operators copy their function, register, and copy the arguments (`:291-340`); field accesses,
  slices, `let`, type-insts, `solve` and `output` register last (`:187-202`, `:248-255`, `:366-380`, `:381-424`, `:481-504`);
* `ident`: an identifier with a declaration;
* `decl`: a variable declaration with its own identifier. -/
inductive Node
  | const (l : String)
  | node (l : String) (before after : List (Option Nat))
  | ident (d : Nat)
  | decl (l : String) (id : Nat) (after : List (Option Nat))
deriving DecidableEq, Repr

/-- The heap: `next` is the next address. -/
structure Heap where
  next : Nat
  obj : Nat → Option Node

/-- The heap and `CopyMap::_nodeMap`, `lib/copy.cpp:18-23`. -/
structure St where
  heap : Heap
  map : Nat → Option Nat

/-- `new`: the object gets the next address. -/
def alloc (st : St) (n : Node) : St := { st with heap := ⟨st.heap.next + 1, Function.update st.heap.obj st.heap.next (some n)⟩ }

/-- Filling in an object, for example `c->setVec(…)`, `lib/copy.cpp:222`. -/
def write (st : St) (q : Nat) (n : Node) : St := { st with heap := { st.heap with obj := Function.update st.heap.obj q (some n) } }

/-- `CopyMap::insert`, `lib/copy.cpp:18-23`. -/
def insert (st : St) (p q : Nat) : St := { st with map := Function.update st.map p (some q) }

/-- The loops over references, for example `lib/copy.cpp:215-217`; null references stay null.  The order of the loops is simplified to that of
the list. -/
def copyList (f : St → Nat → Option (St × Nat)) : St → List (Option Nat) → Option (St × List (Option Nat))
  | st, [] => some (st, [])
  | st, none :: cs => do
    let (st, r) ← copyList f st cs
    some (st, none :: r)
  | st, some c :: cs => do
    let (st, q) ← f st c
    let (st, r) ← copyList f st cs
    some (st, some q :: r)

/-- `copy`, `lib/copy.cpp:63-439, 451-542`, with the depth of the recursion as fuel; `none` also stands for dangling references.
`VarDeclI::removed` (`:69-72`) holds of no copy while the copying goes on. -/
def copyE : Nat → St → Nat → Option (St × Nat)
  | 0, _, _ => none
  | fuel + 1, st, p =>
    match st.map p with
    | some q => some (st, q)
    | none =>
      match st.heap.obj p with
      | none => none
      | some (.const _) => some (st, p)
      | some (.node l bs as) => do
        let (st1, bs') ← copyList (copyE fuel) st bs
        let q := st1.heap.next
        let (st3, as') ← copyList (copyE fuel) (insert (alloc st1 (.node l bs' [])) p q) as
        some (write st3 q (.node l bs' as'), q)
      | some (.ident d) => do
        let (st1, d') ← copyE fuel st d
        match st1.heap.obj d' with
        | some (.decl _ i _) => some (insert st1 p i, i)
        | _ => none
      | some (.decl l _ as) => do
        let q := st.heap.next
        let st2 := insert (insert (alloc (alloc st (.decl l (q + 1) [])) (.ident q)) p q) q q
        let (st3, as') ← copyList (copyE fuel) st2 as
        some (write st3 q (.decl l (q + 1) as'), q)

/-- Copying the items of a model one after the other with one map, `copy(EnvI&, CopyMap&, Model*)`, `lib/copy.cpp:550-570`. -/
def copyModel (fuel : Nat) (h : Heap) (roots : List (Option Nat)) : Option (St × List (Option Nat)) :=
  copyList (copyE fuel) ⟨h, fun _ => none⟩ roots

end CopyAst
end MZ
