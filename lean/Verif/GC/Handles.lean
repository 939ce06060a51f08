import Verif.Linear.Lemmas
import Mathlib.Data.List.Nodup
/-!
# Handles into the collected heap (lib/gc.cpp 718–877): `KeepAlive`, `WeakRef`

Both classes are nodes of a doubly linked list. A handle is identified by its address (a number).
-/
namespace MZ
namespace GCHandle

/-- An `Expression*`: null, an unboxed literal, or the address of a node. -/
inductive Ptr where
  | null
  | unboxed (v : Nat)
  | ref (a : Nat)
  deriving DecidableEq, Repr

/-- `_e != nullptr && !Expression::isUnboxedVal(_e)`. -/
def Ptr.boxed : Ptr → Bool
  | .ref _ => true
  | _ => false

/-- gc.hh 250–252 / 270–272. -/
structure Node where
  e : Ptr
  p : Option Nat
  n : Option Nat

/-- All handles in memory, and the head of the list (`_roots` or `_weakRefs`). -/
structure St where
  cell : Nat → Node
  head : Option Nat

def St.setP (s : St) (h : Nat) (v : Option Nat) : St := { s with cell := fun x => if x = h then { s.cell x with p := v } else s.cell x }
def St.setN (s : St) (h : Nat) (v : Option Nat) : St := { s with cell := fun x => if x = h then { s.cell x with n := v } else s.cell x }
def St.setE (s : St) (h : Nat) (v : Ptr) : St := { s with cell := fun x => if x = h then { s.cell x with e := v } else s.cell x }
def St.put (s : St) (h : Nat) (c : Node) : St := { s with cell := fun x => if x = h then c else s.cell x }

/-- `if (k != nullptr) k->_p = v`. -/
def St.setPO (s : St) (k : Option Nat) (v : Option Nat) : St :=
  match k with
  | some k => s.setP k v
  | none => s

/-- 719–728 `addKeepAlive`, 794–801 `addWeakRef`. The assertions become undefined behaviour. -/
def add (s : St) (h : Nat) : Res St :=
  if (s.cell h).p ≠ none ∨ (s.cell h).n ≠ none then .ub
  else
    let s := s.setN h s.head
    let s := s.setPO s.head (some h)
    .ok { s with head := some h }

/-- 729–740 `removeKeepAlive`, 802–812 `removeWeakRef`. -/
def remove (s : St) (h : Nat) : Res St :=
  match (s.cell h).p with
  | some q =>
    let s := s.setN q (s.cell h).n
    .ok (s.setPO (s.cell h).n (s.cell h).p)
  | none =>
    if s.head ≠ some h then .ub
    else
      let s := { s with head := (s.cell h).n }
      .ok (s.setPO (s.cell h).n (s.cell h).p)

/-- 741–750 `relocateKeepAlive`. -/
def relocate (s : St) (h : Nat) : St :=
  let s := match (s.cell h).p with
    | some q => s.setN q (some h)
    | none => { s with head := some h }
  s.setPO (s.cell h).n (some h)

/-! ## `KeepAlive` (752–792) -/

/-- 752–756. -/
def kCtor (s : St) (h : Nat) (e : Ptr) : Res St :=
  let s := s.put h ⟨e, none, none⟩
  if e.boxed then add s h else .ok s

/-- 757–761. -/
def kDtor (s : St) (h : Nat) : Res St := if (s.cell h).e.boxed then remove s h else .ok s

/-- 762–766. -/
def kCopy (s : St) (h k : Nat) : Res St := kCtor s h (s.cell k).e

/-- 767–778. -/
def kMove (s : St) (h k : Nat) : Res St :=
  let s := s.put h (s.cell k)
  let s := if (s.cell h).e.boxed then relocate s h else s
  .ok (s.put k ⟨.null, none, none⟩)

/-- 779–792. -/
def kAssign (s : St) (h k : Nat) : Res St :=
  if h = k then .ok s
  else do
    let s ←
      if (s.cell h).e.boxed then
        if (s.cell k).e.boxed then .ok s
        else do
          let s ← remove s h
          .ok ((s.setP h none).setN h none)
      else if (s.cell k).e.boxed then add s h
      else .ok s
    .ok (s.setE h (s.cell k).e)

/-- Operations of the clients on handles. -/
inductive Op where
  | ctor (h : Nat) (e : Ptr)
  | dtor (h : Nat)
  | copy (h k : Nat)
  | move (h k : Nat)
  | assign (h k : Nat)

def kStep (s : St) : Op → Res St
  | .ctor h e => kCtor s h e
  | .dtor h => kDtor s h
  | .copy h k => kCopy s h k
  | .move h k => kMove s h k
  | .assign h k => kAssign s h k

def kRun : St → List Op → Res St
  | s, [] => .ok s
  | s, o :: os => do
    let s ← kStep s o
    kRun s os

/-- The traversal of the list by the collector (436–440): `for (e = _roots; e != nullptr; e = e->next())`, at most `fuel` steps. -/
def walk (s : St) : Nat → Option Nat → List Nat
  | 0, _ => []
  | _, none => []
  | f + 1, some h => h :: walk s f (s.cell h).n

/-! ## Specification: a handle is just a variable holding a pointer -/

/-- The handles that exist, with their values. -/
abbrev Vals := Nat → Option Ptr

/-- The effect of an operation on variables; `none` if the operation does not apply (constructing a handle at an address where
there is one, using one that does not exist). -/
def specStep (v : Vals) : Op → Option Vals
  | .ctor h e => if v h = none then some fun x => if x = h then some e else v x else none
  | .dtor h => if v h = none then none else some fun x => if x = h then none else v x
  | .copy h k =>
    match v h, v k with
    | none, some e => some fun x => if x = h then some e else v x
    | _, _ => none
  | .move h k =>
    match v h, v k with
    | none, some e => some fun x => if x = h then some e else if x = k then some .null else v x
    | _, _ => none
  | .assign h k =>
    match v h, v k with
    | some _, some e => some fun x => if x = h then some e else v x
    | _, _ => none

def specRun : Vals → List Op → Option Vals
  | v, [] => some v
  | v, o :: os => (specStep v o).bind fun v => specRun v os

end GCHandle
end MZ
