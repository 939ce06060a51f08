import Verif.IntVal.Model
/-!
# Model: memory of the garbage collector (lib/gc.cpp)

Pages, the nodes on them, the free lists and the two counters. An address is a page (identified by a number) and
an offset. `sizeof(Item)` is a parameter.
-/
namespace MZ
namespace GCHeap

/-- Header of a node: its size as computed by `nodesize` (244–312), whether its id is `NID_FL`, its mark bit,
and its contents. -/
structure Block where
  size : Nat
  fl : Bool
  mark : Bool
  data : Nat
deriving DecidableEq, Repr

/-- gc.cpp 43–50 `HeapPage`. `cells` are the headers at the offsets where a node has been written. -/
structure Page where
  id : Nat
  size : Nat
  used : Nat
  cells : Nat → Option Block

abbrev Addr := Nat × Nat

/-- gc.cpp 53–114 `GC::Heap`: the page list (`_page` first), the free lists (the chain through `next` as a list)
and the counters. The counters are unsigned in the code; here they are integers, so that an underflow shows. -/
structure Heap where
  pages : List Page
  fls : Nat → List Addr
  alloced : Int
  free : Int

def Heap.init : Heap := ⟨[], fun _ => [], 0, 0⟩

/-- `size += ((8 - (size & 7)) & 7)` -/
def align (size : Nat) : Nat := size + (8 - size % 8) % 8

/-- gc.cpp 117 `pageSize`. -/
def pageSize : Nat := 4194304

/-- gc.cpp 382–388 `_fl_size`; `item` is `sizeof(Item)`. -/
def flSize (item slot : Nat) : Nat := item + (slot + 1) * 8

def flMin (item : Nat) : Nat := flSize item 0
def flMax (item : Nat) : Nat := flSize item 9

/-- `f[i] = x` -/
def set {α : Type} (f : Nat → α) (i : Nat) (x : α) : Nat → α := fun k => if k = i then x else f k

/-- gc.cpp 71–81 `freelistSlot`, with its assertions. -/
def freelistSlot (item size : Nat) : Res Nat :=
  if size > flMax item ∨ size < flMin item then .ub
  else if (size - item) % 8 ≠ 0 then .ub
  else .ok ((size - item) / 8 - 1)

def emptyPage (pid s : Nat) : Page := ⟨pid, s, 0, fun _ => none⟩

/-- gc.cpp 119–157 `allocPage`; `pid` is the page delivered by `malloc`. -/
def allocPage (item : Nat) (h : Heap) (s : Nat) (exact : Bool) (pid : Nat) : Res Heap :=
  let s := if exact then s else max s pageSize
  let h := { h with alloced := h.alloced + s, free := h.free + s }
  match h.pages with
  | [] => .ok { h with pages := [emptyPage pid s] }
  | p :: ps =>
    if exact then .ok { h with pages := p :: emptyPage pid s :: ps }
    else
      let ns := p.size - p.used
      if ns > flMax item then .ub
      else if ns ≥ flMin item then do
        let slot ← freelistSlot item ns
        .ok { h with
          pages := emptyPage pid s ::
            { p with used := p.used + ns, cells := set p.cells p.used (some ⟨ns, true, true, 0⟩) } :: ps
          fls := set h.fls slot ((p.id, p.used) :: h.fls slot) }
      else if h.alloced < h.free - ns then .ub
      else .ok { h with pages := emptyPage pid s :: p :: ps, free := h.free - ns }

/-- Replaces the page with the same identity. -/
def setPage (p : Page) (l : List Page) : List Page := l.map fun q => if q.id = p.id then p else q

/-- 164–167: the page to allocate on. -/
def choosePage (item : Nat) (h : Heap) (size : Nat) (exact : Bool) (pid : Nat) : Res (Nat × Heap) :=
  match h.pages with
  | [] => do
    let h ← allocPage item h size exact pid
    .ok (pid, h)
  | p :: _ =>
    if exact = true ∨ p.used + size ≥ p.size then do
      let h ← allocPage item h size exact pid
      .ok (pid, h)
    else .ok (p.id, h)

/-- gc.cpp 159–177 `alloc`. -/
def alloc (item : Nat) (h : Heap) (size : Nat) (exact : Bool) (pid : Nat) : Res (Addr × Heap) :=
  if ¬ (size ≤ flMax item ∨ exact = true) then .ub
  else do
    let size := align size
    let (tgt, h) ← choosePage item h size exact pid
    match h.pages.find? (·.id == tgt) with
    | none => .ub
    | some p =>
      if p.used + size > p.size then .ub
      else
        let used := p.used + size
        let rem := p.size - used
        let h := { h with free := h.free - size }
        let h := if rem < flMin item then
            { h with
              free := h.free - rem
              alloced := h.alloced - rem
              pages := setPage { p with used := used, size := used } h.pages }
          else { h with pages := setPage { p with used := used } h.pages }
        if h.alloced < h.free then .ub else .ok ((tgt, p.used), h)

/-- gc.cpp 191–201 `fl`. -/
def flAlloc (item : Nat) (h : Heap) (size pid : Nat) : Res (Addr × Heap) := do
  let slot ← freelistSlot item size
  match h.fls slot with
  | a :: rest => .ok (a, { h with fls := set h.fls slot rest, free := h.free - size })
  | [] => alloc item h size false pid

/-- Writes a header. -/
def write (h : Heap) (a : Addr) (b : Block) : Heap :=
  { h with pages := h.pages.map fun p => if p.id = a.1 then { p with cells := set p.cells a.2 (some b) } else p }

/-- gc.cpp 422–434 `GC::alloc`: the new node is first written as a free-list node without mark. -/
def gcAlloc (item : Nat) (h : Heap) (size pid : Nat) : Res (Addr × Heap) := do
  let size := align size
  let (a, h) ← if size < flMin item ∨ size > flMax item then alloc item h size true pid
    else flAlloc item h size pid
  .ok (a, write h a ⟨size, true, false, 0⟩)

/-- The constructor of the node overwrites the header (`ASTNode(id)`: mark 0). The size computed from the new
header is the size asked for, rounded up. -/
def construct (h : Heap) (a : Addr) (size data : Nat) : Heap := write h a ⟨align size, false, false, data⟩

/-! ## Sweeping (gc.cpp 506–646) -/

/-- 524–560: `while (off < p->used) { … off += ns; }`: the nodes visited. `fuel` bounds the number of steps; a size
of zero violates the assertion, a missing header would be read as garbage. -/
def walk (cells : Nat → Option Block) (used : Nat) : Nat → Nat → Res (List (Nat × Block))
  | 0, off => if off < used then .ub else .ok []
  | n + 1, off =>
    if off < used then
      match cells off with
      | none => .ub
      | some b =>
        if b.size = 0 then .ub
        else do
          let l ← walk cells used n (off + b.size)
          .ok ((off, b) :: l)
    else .ok []

/-- Size within the range of the free lists. -/
def inRange (item : Nat) (b : Block) : Bool := decide (b.size ≥ flMin item) && decide (b.size ≤ flMax item)

/-- 533–535: a dead node that is too small or too large for the free lists must be alone on its page. -/
def deadOk (item : Nat) (p : Page) (ob : Nat × Block) : Bool :=
  ob.2.mark || inRange item ob.2 || (ob.1 == 0 && p.used == p.size)

/-- 521, 547: only free-list nodes and dead nodes on the page. -/
def wholePage (l : List (Nat × Block)) : Bool := l.all fun ob => !ob.2.mark || ob.2.fl

/-- Header of a node after a page has been kept: live nodes lose their mark (548), dead ones in the range of the
free lists become free-list nodes (607–610). -/
def sweepBlock (item : Nat) (b : Block) : Block :=
  if b.mark then (if b.fl then b else { b with mark := false })
  else if inRange item b then ⟨b.size, true, true, 0⟩ else b

/-- 607–612: the dead nodes are pushed to the free lists one after the other. -/
def pushAll (item : Nat) (pid : Nat) : List (Nat × Block) → (Nat → List Addr) → Int → Res ((Nat → List Addr) × Int)
  | [], fls, free => .ok (fls, free)
  | (off, b) :: l, fls, free =>
    if !b.mark && inRange item b then do
      let slot ← freelistSlot item b.size
      pushAll item pid l (set fls slot ((pid, off) :: fls slot)) (free + b.size)
    else pushAll item pid l fls free

/-- 590–599: bytes of the free-list nodes on a page that is given back. -/
def flBytes : List (Nat × Block) → Nat
  | [] => 0
  | (_, b) :: l => (if b.fl then b.size else 0) + flBytes l

/-- 506–620: the loop over the pages. `kept` are the pages that stay, `toFree` those given back (with the marks of
their free-list nodes reset, 595). -/
def sweepPages (item : Nat) : List Page → Heap → List Page → Res (Heap × List Page)
  | [], h, toFree => .ok (h, toFree)
  | p :: ps, h, toFree => do
    let l ← walk p.cells p.used p.used 0
    if ¬ l.all (deadOk item p) then .ub
    else if wholePage l then
      let free := if p.size - p.used ≥ flMin item then h.free - ((p.size - p.used : Nat) : Int) else h.free
      let h := { h with alloced := h.alloced - p.size, free := free - flBytes l }
      if h.alloced < h.free ∨ h.free < 0 then .ub
      else
        let pf := { p with cells := fun o => (p.cells o).map fun b => if b.fl then { b with mark := false } else b }
        sweepPages item ps h (toFree ++ [pf])
    else do
      let (fls, free) ← pushAll item p.id l h.fls h.free
      if h.alloced < free then .ub
      else
        let p' := { p with cells := fun o => (p.cells o).map (sweepBlock item) }
        sweepPages item ps { h with fls := fls, free := free, pages := h.pages ++ [p'] } toFree

/-- The header at an address. -/
def header (ps : List Page) (a : Addr) : Option Block := (ps.find? (·.id == a.1)).bind (·.cells a.2)

/-- 625–635: unlinks the nodes without mark from a free list. -/
def unlink (ps : List Page) : List Addr → Res (List Addr)
  | [] => .ok []
  | a :: l =>
    match header ps a with
    | none => .ub
    | some b => do
      let r ← unlink ps l
      .ok (if b.mark then a :: r else r)

/-- 624–635: all free lists from slot `n - 1` down. -/
def unlinkAll (ps : List Page) : Nat → (Nat → List Addr) → Res (Nat → List Addr)
  | 0, fls => .ok fls
  | n + 1, fls => do
    let l ← unlink ps (fls n)
    unlinkAll ps n (set fls n l)

/-- 506–646 `sweep`. -/
def sweep (item : Nat) (h : Heap) : Res Heap := do
  let (h', toFree) ← sweepPages item h.pages { h with pages := [] } []
  if toFree.isEmpty then .ok h'
  else do
    let fls ← unlinkAll (h'.pages ++ toFree) 10 h'.fls
    .ok { h' with fls := fls }

/-- The marks set by the marking phase on the nodes (free-list nodes keep theirs). -/
def setMarks (h : Heap) (m : Addr → Bool) : Heap :=
  { h with pages := h.pages.map fun p =>
      { p with cells := fun o => (p.cells o).map fun b => if b.fl then b else { b with mark := m (p.id, o) } } }

end GCHeap
end MZ
