import Verif.GC.Heap
/-!
# Model: the marking phase (lib/ast.cpp 170–293, 1922–1974; lib/gc.cpp 432–504)

Objects on the heap with the pointers they contain, and the traversal that sets the mark bits.
-/
namespace MZ
namespace GCMark
open GCHeap (Addr)

/-- `Expression*`: null, an unboxed number (ast.hh 366–620) or the address of a node. -/
inductive Ptr where
  | null
  | val
  | ref (a : Addr)
deriving DecidableEq, Repr

/-- ast.hh: what every expression contains: its location (157–255) and its annotations (288–340). -/
structure Hdr where
  loc : Option Addr
  ann : List Ptr

/-- ast.hh 1400–1440: the arguments are stored in the node (`Call1` … `Call4`) or in a vector (`CallNary`). -/
inductive Args where
  | inl (l : List Ptr)
  | nary (v : Addr)

/-- ast.hh 1365–1370, ast.hpp 486–508: the name of the function or its declaration. -/
inductive CallId where
  | name (s : Option Addr)
  | decl (f : Addr)

/-- ast.hh 724–732: which of `isv()` and `fsv()` reads the union, depending on the base type of the set. -/
inductive SetKind where
  | int
  | float
  | other

/-- ast.hh 883–888: elements of an array literal, or the array it is a slice of. -/
inductive Elems where
  | vec (v : Option Addr)
  | slice (al : Addr)

/-- The expression classes, ast.hh 663–1642, with their pointer members in the order of declaration. `lit` stands for
`IntLit`, `FloatLit`, `BoolLit` and `AnonVar`, which contain no pointers. The number of an introduced identifier is not
a pointer: `str = none`. -/
inductive Expr where
  | lit
  | setLit (kind : SetKind) (v u : Option Addr)
  | stringLit (v : Option Addr)
  | id (str : Option Addr) (decl : Ptr)
  | arrayLit (u : Elems) (dims : Option Addr)
  | arrayAccess (v : Ptr) (idx : Option Addr)
  | fieldAccess (v field : Ptr)
  | comp (e : Ptr) (g gIndex : Option Addr)
  | ite (ifThen : Option Addr) (els : Ptr)
  | binOp (e0 e1 : Ptr) (decl : Option Addr)
  | unOp (e0 : Ptr) (decl : Option Addr)
  | call (id : CallId) (args : Args)
  | varDecl (ti id e : Ptr) (flat : Option Addr)
  | letE (decls orig : Option Addr) (body : Ptr)
  | typeInst (ranges : Option Addr) (domain : Ptr)
  | tiid (v : Option Addr)

/-- The item classes, ast.hh 1729–1912. A `VarDeclI` is the `VarDecl` itself (ast.hh 1654, 1762–1782). The model an
include item points to is not on the heap. -/
inductive Itm where
  | includeI (f : Option Addr)
  | assignI (id : Option Addr) (e decl : Ptr)
  | constraintI (e : Ptr)
  | solveI (ann : List Ptr) (e : Ptr)
  | outputI (e : Ptr) (ann : List Ptr)
  | functionI (id : Option Addr) (ti : Ptr) (params : Option Addr) (ann : List Ptr) (e : Ptr)

/-- Nodes: strings; chunks (`ASTIntVecO`, `IntSetVal`, `FloatSetVal`); `LocVec` (ast.hh 171–197) with its file name;
`ASTExprVecO` (astvec.hh 130–165); expressions and items. -/
inductive Obj where
  | str
  | chunk
  | locv (file : Option Addr)
  | vec (es : List Ptr)
  | expr (h : Hdr) (e : Expr)
  | item (loc : Option Addr) (i : Itm)

abbrev Objs := Addr → Option Obj

/-- The mark bits: `_gcMark` and `_vdGcMark` (gc.hh 45–48). -/
structure Bits where
  m : Addr → Bool
  vd : Addr → Bool

def Bits.zero : Bits := ⟨fun _ => false, fun _ => false⟩

/-- `_gcMark = 1` -/
def Bits.mark (s : Bits) (a : Addr) : Bits := { s with m := fun x => x == a || s.m x }

def Bits.marks (s : Bits) (l : List Addr) : Bits := l.foldl Bits.mark s

/-- `cur->_vdGcMark = 1U` -/
def Bits.markVd (s : Bits) (a : Addr) : Bits := { s with vd := fun x => x == a || s.vd x }

/-- aststring.hh 204–208 `ASTString::mark`: the nodes marked. -/
def strMark (H : Objs) : Option Addr → Res (List Addr)
  | none => .ok []
  | some s => if (H s).isSome then .ok [s] else .ub

/-- ast.cpp 138–142, ast.hh 181–186: location and file name. -/
def locMark (H : Objs) : Option Addr → Res (List Addr)
  | none => .ok []
  | some l =>
    match H l with
    | some (.locv f) => do
      let d ← strMark H f
      .ok (l :: d)
    | _ => .ub

/-- astvec.hh 191–195: a vector of integers; also `isv()->mark()`, `fsv()->mark()`. -/
def chunkMark (H : Objs) : Option Addr → Res (List Addr) := strMark H

/-- ast.cpp 170–175, 181–183: null pointers are not pushed. -/
def nn (l : List Ptr) : List Ptr := l.filter fun p => decide (p ≠ .null)

/-- ast.cpp 176–183 `pushall`: marks the vector and pushes its elements. -/
def vecMark (H : Objs) : Option Addr → Res (List Addr × List Ptr)
  | none => .ok ([], [])
  | some v =>
    match H v with
    | some (.vec es) => .ok ([v], nn es)
    | _ => .ub

/-- ast.hpp 490: the name of a call is that of the declaration, if that is known. -/
def callName (H : Objs) : CallId → Res (Option Addr)
  | .name s => .ok s
  | .decl f =>
    match H f with
    | some (.item _ (.functionI s _ _ _ _)) => .ok s
    | _ => .ub

/-- ast.hpp 498–502 `Call::decl`. -/
def callDecl : CallId → Option Addr
  | .decl f => some f
  | .name _ => none

/-- ast.cpp 261–266: the arguments and the vector that holds them. -/
def argsMark (H : Objs) : Args → Res (List Addr × List Ptr)
  | .inl l => .ok ([], nn l)
  | .nary v => vecMark H (some v)

/-- What the traversal does with one expression: nodes marked on the spot, pointers pushed, function item marked by a
recursive call. -/
structure Step where
  now : List Addr
  push : List Ptr
  fn : Option Addr

/-- ast.cpp 204–288: the `switch`. -/
def scanE (H : Objs) : Expr → Res Step
  | .lit => .ok ⟨[], [], none⟩
  | .setLit k v u => do
    -- 211–217
    match k, u with
    | .int, some s => do let d ← chunkMark H (some s); .ok ⟨d, [], none⟩
    | .float, some s => do let d ← chunkMark H (some s); .ok ⟨d, [], none⟩
    | _, _ => do let (d, p) ← vecMark H v; .ok ⟨d, p, none⟩
  | .stringLit v => do let d ← strMark H v; .ok ⟨d, [], none⟩
  | .id s decl => do let d ← strMark H s; .ok ⟨d, nn [decl], none⟩
  | .arrayLit u dims => do
    -- 228–235
    let (d, p) ← match u with
      | .slice al => .ok ([], [.ref al])
      | .vec v => vecMark H v
    let d' ← chunkMark H dims
    .ok ⟨d ++ d', p, none⟩
  | .arrayAccess v idx => do let (d, p) ← vecMark H idx; .ok ⟨d, nn [v] ++ p, none⟩
  | .fieldAccess v f => .ok ⟨[], nn [v, f], none⟩
  | .comp e g gi => do
    let (d, p) ← vecMark H g
    let d' ← chunkMark H gi
    .ok ⟨d ++ d', nn [e] ++ p, none⟩
  | .ite it els => do let (d, p) ← vecMark H it; .ok ⟨d, nn [els] ++ p, none⟩
  | .binOp e0 e1 _ => .ok ⟨[], nn [e0, e1], none⟩
  | .unOp e0 _ => .ok ⟨[], nn [e0], none⟩
  | .call id args => do
    -- 259–269
    let s ← callName H id
    let d ← strMark H s
    let (d', p) ← argsMark H args
    .ok ⟨d ++ d', p, callDecl id⟩
  | .varDecl ti id e _ => .ok ⟨[], nn [ti, e, id], none⟩
  | .letE ds orig body => do
    let (d, p) ← vecMark H ds
    let (d', p') ← vecMark H orig
    .ok ⟨d ++ d', p ++ p' ++ nn [body], none⟩
  | .typeInst rs dom => do let (d, p) ← vecMark H rs; .ok ⟨d, nn [dom] ++ p, none⟩
  | .tiid v => do let d ← strMark H v; .ok ⟨d, [], none⟩

/-- ast.cpp 202–203: location and annotations come first. -/
def scan (H : Objs) (h : Hdr) (e : Expr) : Res Step := do
  let l ← locMark H h.loc
  let st ← scanE H e
  .ok ⟨l ++ st.now, nn h.ann ++ st.push, st.fn⟩

/-- ast.cpp 1922–1974: the nodes marked on the spot and the expressions marked one after the other. Marks on
the spot are listed first; the code does some of them later. -/
def scanI (H : Objs) (loc : Option Addr) : Itm → Res (List Addr × List Ptr)
  | .includeI f => do let l ← locMark H loc; let d ← strMark H f; .ok (l ++ d, [])
  | .assignI id e decl => do let l ← locMark H loc; let d ← strMark H id; .ok (l ++ d, [e, decl])
  | .constraintI e => do let l ← locMark H loc; .ok (l, [e])
  | .solveI ann e => do let l ← locMark H loc; .ok (l, ann ++ [e])
  | .outputI e ann => do let l ← locMark H loc; .ok (l, e :: ann)
  | .functionI id ti ps ann e => do
    let l ← locMark H loc
    let d ← strMark H id
    let (d', p) ← vecMark H ps
    .ok (l ++ d ++ d', ti :: ann ++ [e] ++ p)

/-- ast.cpp 271: a declaration also gets its second mark. -/
def Bits.visit (s : Bits) (a : Addr) : Expr → Bits
  | .varDecl .. => s.markVd a
  | _ => s

mutual

/-- ast.cpp 190–291 `Expression::mark`: the loop over the stack (top first). The first argument bounds the recursion. -/
def markLoop (H : Objs) : Nat → Bits → List Ptr → Res Bits
  | 0, _, _ => .ub
  | _ + 1, s, [] => .ok s
  | _ + 1, _, .null :: _ => .ub
  | n + 1, s, .val :: st => markLoop H n s st
  | n + 1, s, .ref a :: st =>
    if s.m a then markLoop H n s st
    else
      match H a with
      | some (.expr h e) => do
        let sc ← scan H h e
        let s := ((s.mark a).marks sc.now).visit a e
        let s ← match sc.fn with
          | some f => markItem H n s f
          | none => .ok s
        markLoop H n s (sc.push.reverse ++ st)
      | _ => .ub

/-- ast.cpp 1922–1974 `Item::mark`. -/
def markItem (H : Objs) : Nat → Bits → Addr → Res Bits
  | 0, _, _ => .ub
  | n + 1, s, a =>
    if s.m a then .ok s
    else
      match H a with
      | some (.item loc i) => do
        let (d, p) ← scanI H loc i
        markSeq H n ((s.mark a).marks d) p
      | some (.expr h (.varDecl ..)) => do
        -- 1933–1938: the mark is reset so that `Expression::mark` works
        let d ← locMark H h.loc
        markSeq H n (s.marks d) [.ref a]
      | _ => .ub

/-- Consecutive calls of `Expression::mark` (190–193: null and unboxed values are ignored). -/
def markSeq (H : Objs) : Nat → Bits → List Ptr → Res Bits
  | 0, _, _ => .ub
  | _ + 1, s, [] => .ok s
  | n + 1, s, .ref a :: l => do
    let s ← markLoop H n s [.ref a]
    markSeq H n s l
  | n + 1, s, _ :: l => markSeq H n s l

end

/-- What the `mark()` member of a registered container does: a sequence of marks of strings, locations, expressions
and items (for instance model.hh 93–99, ast.cpp 2971–2990, hash.hh 308–312). -/
inductive Root where
  | str (s : Option Addr)
  | loc (l : Option Addr)
  | expr (p : Ptr)
  | item (a : Addr)

def markRoots (H : Objs) (n : Nat) : Bits → List Root → Res Bits
  | s, [] => .ok s
  | s, .str x :: l => do let d ← strMark H x; markRoots H n (s.marks d) l
  | s, .loc x :: l => do let d ← locMark H x; markRoots H n (s.marks d) l
  | s, .expr p :: l => do let s ← markSeq H n s [p]; markRoots H n s l
  | s, .item a :: l => do let s ← markItem H n s a; markRoots H n s l

/-- The part of the collector's state that is used for marking: the values of the keep-alive handles, the registered
containers and the saved values on the trail (last entry first). -/
structure Sources where
  keep : List Ptr
  markers : List (List Root)
  trail : List Ptr

/-- gc.cpp 432–466 `GC::Heap::mark`, without the treatment of weak references. 450: without any registered container the
function returns before the trail is marked. -/
def heapMark (H : Objs) (n : Nat) (src : Sources) : Res Bits := do
  let s ← markSeq H n .zero src.keep
  if src.markers.isEmpty then .ok s
  else do
    let s ← markRoots H n s src.markers.flatten
    markSeq H n s src.trail

/-- The pointers `_flat` of the declarations. -/
def flatOf (H : Objs) (a : Addr) : Option Addr :=
  match H a with
  | some (.expr _ (.varDecl _ _ _ f)) => f
  | _ => none

/-- gc.cpp 541–544, 562–569: what sweeping does with the declarations, in the order in which they are met. -/
def sweepFlat (m : Addr → Bool) : List Addr → (Addr → Option Addr) → (Addr → Bool) → (Addr → Option Addr) × (Addr → Bool)
  | [], flat, vd => (flat, vd)
  | a :: l, flat, vd =>
    if m a then
      let flat := match flat a with
        | some f => if vd f then flat else fun x => if x = a then none else flat x
        | none => flat
      sweepFlat m l flat vd
    else
      sweepFlat m l (fun x => if x = a then none else flat x) (fun x => if x = a then false else vd x)

/-- 625–627: finally the second mark of the live declarations is reset. -/
def sweepVds (m : Addr → Bool) (l : List Addr) (flat : Addr → Option Addr) (vd : Addr → Bool) :
    (Addr → Option Addr) × (Addr → Bool) :=
  let r := sweepFlat m l flat vd
  (r.1, fun x => if l.contains x && m x then false else r.2 x)

end GCMark
end MZ
