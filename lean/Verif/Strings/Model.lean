import Verif.IntVal.Model
/-!
# Model: interned strings (lib/aststring.cpp 56–92, include/minizinc/aststring.hh)

A string is the list of its bytes (numbers below 256). In memory it is followed by a zero byte.
-/
namespace MZ
namespace Str

abbrev Bytes := List Nat

/-- The C function `strncmp` on the two zero-terminated texts: stops after `n` characters, at the first
difference, or at a zero byte. Characters are compared as `unsigned char`. -/
def strncmp : Nat → Bytes → Bytes → Int
  | 0, _, _ => 0
  | n + 1, a, b =>
    if a.headD 0 ≠ b.headD 0 then (a.headD 0 : Int) - b.headD 0
    else if a.headD 0 = 0 then 0
    else strncmp n a.tail b.tail

/-- aststring.hh 143–154 `CStringHash`: `result = s.first[i] + result * 31` in `size_t`; `char` is signed. -/
def hash (s : Bytes) : Nat :=
  s.foldl (fun r c => ((if c < 128 then c else 18446744073709551616 - (256 - c)) + r * 31) % 18446744073709551616) 0

/-- aststring.hh 155–161 `CStringEquals`. -/
def cEquals (a b : Bytes) : Bool := a.length == b.length && strncmp a.length a b == 0

/-- Two keys are the same for the hash table: same hash code and equal. (An `unordered_map` with cached hash
codes compares those first.) -/
def keyEq (a b : Bytes) : Bool := hash a == hash b && cEquals a b

/-- The string objects in memory (address and contents), and the interner: its keys point into the objects,
so that an entry is just an address. -/
structure State where
  heap : List (Nat × Bytes)
  table : List Nat
deriving DecidableEq, Repr

def State.init : State := ⟨[], []⟩

/-- Contents at an address. -/
def State.get (st : State) (a : Nat) : Option Bytes := (st.heap.find? (·.1 == a)).map (·.2)

/-- `interner().find({s.c_str(), s.size()})`: the keys are read from memory; a dangling key is undefined
behaviour. -/
def findKey (st : State) (s : Bytes) : List Nat → Res (Option Nat)
  | [] => .ok none
  | a :: l =>
    match st.get a with
    | none => .ub
    | some x => if keyEq x s then .ok (some a) else findKey st s l

/-- aststring.cpp 80–92 `ASTStringData::a`; `fresh` is the address delivered by the allocator. `none` is the
null pointer. -/
def intern (st : State) (s : Bytes) (fresh : Nat) : Res (Option Nat × State) :=
  if s.isEmpty then .ok (none, st)
  else do
    match ← findKey st s st.table with
    | some a => .ok (some a, st)
    | none => .ok (some fresh, ⟨(fresh, s) :: st.heap, fresh :: st.table⟩)

/-- aststring.hh 191–195 `destroy`: `interner().erase(key)` removes the entry with that key. -/
def destroy (st : State) (s : Bytes) : Res State := do
  match ← findKey st s st.table with
  | some a => .ok { st with table := st.table.erase a }
  | none => .ub

/-- gc.cpp 545–547: sweeping destroys every string that is not marked; the memory is released after all
objects have been visited. -/
def destroyAll (keep : Nat → Bool) : List (Nat × Bytes) → State → Res State
  | [], st => .ok st
  | (a, s) :: l, st => do
    if keep a then destroyAll keep l st
    else do
      let st ← destroy st s
      destroyAll keep l st

/-- A collection that keeps the strings whose mark is set. -/
def collect (st : State) (keep : Nat → Bool) : Res State := do
  let st' ← destroyAll keep st.heap st
  .ok { st' with heap := st'.heap.filter (keep ·.1) }

/-! ## Operations on handles; `none` is the empty string. -/

/-- A handle denotes the contents of the object, or the empty string. -/
abbrev Handle := Option Bytes

def Handle.size (h : Handle) : Nat := match h with | none => 0 | some s => s.length
def Handle.bytes (h : Handle) : Bytes := h.getD []

/-- aststring.hh 212–215 comparison with a C string `t` (without its terminator). -/
def eqC (h : Handle) (t : Bytes) : Bool :=
  h.size == t.length && (t.length == 0 || strncmp t.length h.bytes t == 0)

/-- aststring.hh 223–226 comparison with a `std::string`. -/
def eqS (h : Handle) (t : Bytes) : Bool :=
  h.size == t.length && (h.isNone || strncmp h.size h.bytes t == 0)

/-- aststring.hh 253–263 `operator<`. -/
def lt (h k : Handle) : Bool :=
  match h with
  | none => k.isSome
  | some s =>
    let cmp := strncmp (min s.length k.size) s k.bytes
    if cmp = 0 then s.length < k.size else cmp < 0

/-- aststring.hh 264–267 `endsWith`. -/
def endsWith (h : Handle) (t : Bytes) : Bool :=
  decide (h.size ≥ t.length) && (h.isNone || strncmp t.length (h.bytes.drop (h.size - t.length)) t == 0)

/-- aststring.hh 268–270 `beginsWith`. -/
def beginsWith (h : Handle) (t : Bytes) : Bool :=
  decide (h.size ≥ t.length) && (h.isNone || strncmp t.length h.bytes t == 0)

/-- aststring.hh 272–280 `substr`; `count = none` is `npos`. -/
def substr (h : Handle) (pos : Nat) (count : Option Nat) : Res Bytes :=
  if pos > h.size then .err
  else match count with
    | none => .ok ((h.bytes.drop pos).take (h.size - pos))
    | some n => .ok ((h.bytes.drop pos).take (min (h.size - pos) n))

/-- aststring.hh 281–289 `findLastOf`: the loop variable is unsigned, so that the condition `i >= 0` is always
true and the loop continues at 2^64 − 1 after 0; reading there is undefined. -/
def lastLoop (s : Bytes) (ch : Nat) : Nat → Res Nat
  | 0 => if s[0]? = some ch then .ok 0 else .ub
  | i + 1 => if s[i + 1]? = some ch then .ok (i + 1) else lastLoop s ch i

/-- 281–289; for the empty string `size() - 1` wraps around and a null pointer is read. -/
def findLastOf (h : Handle) (ch : Nat) (pos : Option Nat) : Res Nat :=
  match h with
  | none => .ub
  | some s => lastLoop s ch (match pos with | none => s.length - 1 | some p => min (s.length - 1) p)

/-- aststring.hh 291–302 `find`, the loop from `i` on (`n` iterations left). -/
def findLoop (s : Bytes) (ch : Nat) : Nat → Nat → Option Nat
  | 0, _ => none
  | n + 1, i => if s[i]? = some ch then some i else findLoop s ch n (i + 1)

def find (h : Handle) (ch pos : Nat) : Option Nat :=
  if pos ≥ h.size then none else findLoop h.bytes ch (h.size - pos) pos

end Str
end MZ
