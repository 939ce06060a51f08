import Verif.IntVal.Model
/-!
# Model: base64 (lib/thirdparty/cencode.c, cdecode.c, include/minizinc/_thirdparty/b64/{encode,decode}.h,
lib/file_utils.cpp 820–838)

Bytes and characters are natural numbers below 256. The two coders are automata that work on blocks and keep
their state between blocks.
-/
namespace MZ
namespace Base64

/-- The 64 characters of the table in `base64_encode_value` (cencode.c 58). -/
def alphabet : List Nat := "ABCDEFGHIJKLMNOPQRSTUVWXYZabcdefghijklmnopqrstuvwxyz0123456789+/".toList.map Char.toNat

/-- cencode.c 57–61 `base64_encode_value` (values are never negative here). -/
def encodeValue (v : Nat) : Nat := if v > 63 then 61 else alphabet.getD v 0

inductive EStep | A | B | C
deriving DecidableEq, Repr

/-- cencode.h `base64_encodestate` (`chars_per_line` is a parameter of the functions below). -/
structure EState where
  step : EStep
  result : Nat
  count : Nat
deriving DecidableEq, Repr

/-- cencode.c 10–15. -/
def EState.init : EState := ⟨.A, 0, 0⟩

/-- cencode.c 63–70 `CHECK_BREAK`: the characters written and the new step count. -/
def checkBreak (cpl count : Nat) : List Nat × Nat :=
  if cpl ≠ 0 ∧ count ≥ cpl then ([10], 1) else ([], count + 1)

/-- cencode.c 84–133: one byte in state `st`. -/
def encodeByte (cpl : Nat) (st : EState) (b : Nat) : List Nat × EState :=
  match st.step with
  | .A =>
    let (br, n) := checkBreak cpl st.count
    (br ++ [encodeValue ((b &&& 0xfc) >>> 2)], ⟨.B, (b &&& 0x03) <<< 4, n⟩)
  | .B =>
    let (br, n) := checkBreak cpl st.count
    (br ++ [encodeValue (st.result ||| ((b &&& 0xf0) >>> 4))], ⟨.C, (b &&& 0x0f) <<< 2, n⟩)
  | .C =>
    let (br, n) := checkBreak cpl st.count
    let (br', n') := checkBreak cpl n
    (br ++ [encodeValue (st.result ||| ((b &&& 0xc0) >>> 6))] ++ br' ++ [encodeValue (b &&& 0x3f)],
      ⟨.A, b &&& 0x3f, n'⟩)

/-- cencode.c 72–136 `base64_encode_block`. -/
def encodeBlock (cpl : Nat) : List Nat → EState → List Nat × EState
  | [], st => ([], st)
  | b :: l, st =>
    let (o, st) := encodeByte cpl st b
    let (o', st) := encodeBlock cpl l st
    (o ++ o', st)

/-- cencode.c 138–165 `base64_encode_blockend`. -/
def encodeEnd (cpl : Nat) (st : EState) : List Nat :=
  let tail := if cpl ≠ 0 then [10] else []
  match st.step with
  | .B =>
    let (b1, n1) := checkBreak cpl st.count
    let (b2, n2) := checkBreak cpl n1
    let (b3, _) := checkBreak cpl n2
    b1 ++ [encodeValue st.result] ++ b2 ++ [61] ++ b3 ++ [61] ++ tail
  | .C =>
    let (b1, n1) := checkBreak cpl st.count
    let (b2, _) := checkBreak cpl n1
    b1 ++ [encodeValue st.result] ++ b2 ++ [61] ++ tail
  | .A => tail

/-- encode.h 43–69 `encode(istream, ostream)`: read up to `N` bytes at a time; `good()` is false once a
read came up short. -/
def encodeStream (cpl N : Nat) (s : List Nat) (st : EState) : List Nat × EState :=
  if _h : 0 < N ∧ N ≤ s.length then
    let (o, st) := encodeBlock cpl (s.take N) st
    let (o', st) := encodeStream cpl N (s.drop N) st
    (o ++ o', st)
  else encodeBlock cpl s st
termination_by s.length
decreasing_by simp; omega

/-- encode.h 43–69 as a whole. -/
def encode (cpl N : Nat) (s : List Nat) : List Nat :=
  let (o, st) := encodeStream cpl N s .init
  o ++ encodeEnd cpl st

/-- The table of `base64_decode_value` (cdecode.c 19–23). -/
def decoding : List Int :=
  [62, -1, -1, -1, 63, 52, 53, 54, 55, 56, 57, 58, 59, 60, 61, -1, -1, -1, -2, -1,
   -1, -1, 0,  1,  2,  3,  4,  5,  6,  7,  8,  9,  10, 11, 12, 13, 14, 15, 16, 17,
   18, 19, 20, 21, 22, 23, 24, 25, -1, -1, -1, -1, -1, -1, 26, 27, 28, 29, 30, 31,
   32, 33, 34, 35, 36, 37, 38, 39, 40, 41, 42, 43, 44, 45, 46, 47, 48, 49, 50, 51]

/-- cdecode.c 18–28 `base64_decode_value`; the argument is a `signed char`. Reading behind the table is
undefined. -/
def decodeValue (c : Nat) : Res Int :=
  let v : Int := if c < 128 then c else (c : Int) - 256
  if v < 43 then .ok (-1)
  else
    let v := v - 43
    if v > decoding.length then .ok (-1)
    else
      match decoding[v.toNat]? with
      | some f => .ok f
      | none => .ub

inductive DStep | a | b | c | d
deriving DecidableEq, Repr

/-- cdecode.h `base64_decodestate`. -/
structure DState where
  step : DStep
  plain : Nat
deriving DecidableEq, Repr

/-- cdecode.c 30–33. -/
def DState.init : DState := ⟨.a, 0⟩

/-- cdecode.c 45–87: a fragment in state `st`; the bytes completed and the new state. Assignments to `char`
keep the low 8 bits. -/
def decodeFragment (st : DState) (f : Nat) : List Nat × DState :=
  match st.step with
  | .a => ([], ⟨.b, ((f &&& 0x3f) <<< 2) % 256⟩)
  | .b => ([st.plain ||| ((f &&& 0x30) >>> 4)], ⟨.c, ((f &&& 0x0f) <<< 4) % 256⟩)
  | .c => ([st.plain ||| ((f &&& 0x3c) >>> 2)], ⟨.d, ((f &&& 0x03) <<< 6) % 256⟩)
  | .d => ([st.plain ||| (f &&& 0x3f)], ⟨.a, st.plain ||| (f &&& 0x3f)⟩)

/-- cdecode.c 35–91 `base64_decode_block`: characters with a negative value are skipped. -/
def decodeBlock : List Nat → DState → Res (List Nat × DState)
  | [], st => .ok ([], st)
  | c :: l, st => do
    let f ← decodeValue c
    if f < 0 then decodeBlock l st
    else do
      let (o', st') ← decodeBlock l (decodeFragment st f.toNat).2
      .ok ((decodeFragment st f.toNat).1 ++ o', st')

/-- decode.h 41–66 `decode(istream, ostream)`. -/
def decodeStream (N : Nat) (s : List Nat) (st : DState) : Res (List Nat × DState) :=
  if _h : 0 < N ∧ N ≤ s.length then do
    let (o, st) ← decodeBlock (s.take N) st
    let (o', st) ← decodeStream N (s.drop N) st
    .ok (o ++ o', st)
  else decodeBlock s st
termination_by s.length
decreasing_by simp; omega

/-- file_utils.cpp 820–827 `encode_base64`: a leading `@`, no line breaks, buffer size 4096. -/
def encode_base64 (s : List Nat) : List Nat := 64 :: encode 0 4096 s

/-- file_utils.cpp 829–838 `decode_base64`; the exception is `err`. -/
def decode_base64 (s : List Nat) : Res (List Nat) :=
  match s with
  | [] => .err
  | c :: l =>
    if c ≠ 64 then .err
    else do
      let (o, _) ← decodeStream 4096 l .init
      .ok o

end Base64
end MZ
