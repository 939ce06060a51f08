import Verif.Linear.Lemmas
import Verif.Lex.StrLit

/-!
# The tokens of the JSON reader

`JSONParser::readToken`, `lib/json_parser.cpp:138-395`.  The input stream is the list of bytes that
remain; a byte is written as the character whose code it is.  Line and column counters, which only
occur in error messages, are left out.
-/

namespace MZ
namespace Json

/-- `JSONParser::Token`, `lib/json_parser.cpp:29-52`.  A float token keeps the text that
`iss >> v` converts to a `double`. -/
inductive JTok where
  | listOpen
  | listClose
  | objOpen
  | objClose
  | comma
  | colon
  | str (s : List Char)
  | int (i : Int)
  | float (text : List Char)
  | bool (b : Bool)
  | null
  | eof
  deriving DecidableEq, Repr

/-- `[0-9]` at `lib/json_parser.cpp:235`, `:349`, `:365`, `:377`. -/
def isDigit (c : Char) : Bool := decide ('0' ≤ c) && decide (c ≤ '9')

/-- `isspace` in the "C" locale, which formatted extraction skips. -/
def isSpace (c : Char) : Bool :=
  decide (c = ' ') || decide (c = '\t') || decide (c = '\n') || decide (c = '\x0b') ||
    decide (c = '\x0c') || decide (c = '\r')

/-- The part of libstdc++'s `num_get::_M_extract_int` for base 16 that reads leading zeros and `0x`
prefixes: `found` is `__found_zero`.  Returns the flag and the remaining text. -/
def hexPrefix : List Char → Bool → Bool × List Char
  | [], found => (found, [])
  | c :: r, found =>
    if c = '0' ∧ found = false then hexPrefix r true
    else if (c = 'x' ∨ c = 'X') ∧ found = true then hexPrefix r false
    else (found, c :: r)

/-- Value of a run of hexadecimal digits. -/
def hexRun (ds : List Char) : Nat := ds.foldl (fun n c => n * 16 + Lex.hexVal c) 0

/-- `ss >> std::hex >> codepoint` for an unsigned target of `bits` bits, `lib/json_parser.cpp:272-279`
and `:292-296`: blanks are skipped, a sign and a `0x` prefix are accepted, the digits end at the
first other character, and only the absence of digits sets the fail bit.  A minus sign negates
modulo `2 ^ bits`.  At most four characters are read, so the value never overflows. -/
def hexExtract (bits : Nat) (s : List Char) : Option Nat :=
  let s := s.dropWhile isSpace
  let neg := s.head? = some '-'
  let s := if s.head? = some '-' ∨ s.head? = some '+' then s.tail else s
  let p := hexPrefix s false
  let ds := p.2.takeWhile Lex.isHex
  if ds = [] ∧ p.1 = false then none
  else if neg then some ((2 ^ bits - hexRun ds) % 2 ^ bits)
  else some (hexRun ds)

/-- The loop at `lib/json_parser.cpp:312-315`: `n` continuation bytes, last one first. -/
def encTail : Nat → Nat → List Char → Nat × List Char
  | 0, cp, acc => (cp, acc)
  | n + 1, cp, acc => encTail n (cp >>> 6) (Lex.toByte (0x80 ||| (cp &&& 0x3F)) :: acc)

/-- The number of bytes, `lib/json_parser.cpp:304-311`. -/
def encBytes (cp : Nat) : Nat :=
  if cp ≤ 0x7F then 1 else if cp ≤ 0x7FF then 2 else if cp ≤ 0xFFFF then 3 else 4

/-- The UTF-8 bytes written for a code point, `lib/json_parser.cpp:303-320`. -/
def encode (cp : Nat) : List Char :=
  let bytes := encBytes cp
  let p := encTail (bytes - 1) cp []
  let lead := if bytes > 1 then (0xF0 <<< (4 - bytes)) ||| p.1 else p.1
  Lex.toByte lead :: p.2

/-- `codepoint = (((codepoint - 0xD800) << 10) | (lowSurrogate - 0xDC00)) | 0x10000`,
`lib/json_parser.cpp:300`. -/
def combine (hi lo : Nat) : Nat := (((hi - 0xD800) <<< 10) ||| (lo - 0xDC00)) ||| 0x10000

/-- A `\u` escape after the `u`, `lib/json_parser.cpp:261-322`: the bytes appended to the string and
the remaining input. -/
def readU (inp : List Char) : Res (List Char × List Char) :=
  if inp.length < 4 then .err
  else
    match hexExtract 64 (inp.take 4) with
    | none => .err
    | some cp =>
      if 0xD800 ≤ cp ∧ cp ≤ 0xDBFF then
        if inp.length < 10 then .err
        else if (inp.drop 4).take 2 ≠ ['\\', 'u'] then .err
        else
          match hexExtract 32 ((inp.drop 6).take 4) with
          | none => .err
          | some lo =>
            if lo < 0xDC00 ∨ lo > 0xDFFF then .err
            else .ok (encode (combine cp lo), inp.drop 10)
      else .ok (encode cp, inp.drop 4)

/-- The state `S_STRING_ESCAPE` on the byte after the backslash, `lib/json_parser.cpp:244-329`:
the bytes appended and the remaining input. -/
def readEscape (c : Char) (r : List Char) : Res (List Char × List Char) :=
  if c = '"' then .ok (['"'], r)
  else if c = '\\' then .ok (['\\'], r)
  else if c = '/' then .ok (['/'], r)
  else if c = 'n' then .ok (['\n'], r)
  else if c = 't' then .ok (['\t'], r)
  else if c = 'u' then readU r
  else .ok (['\\', c], r)

theorem readU_length {inp out r : List Char} (h : readU inp = .ok (out, r)) :
    r.length ≤ inp.length := by
  unfold readU at h
  repeat' split at h
  all_goals first
    | (cases h; done)
    | (cases h; simp only [List.length_drop]; omega)

theorem readEscape_length {c : Char} {r out r' : List Char} (h : readEscape c r = .ok (out, r')) :
    r'.length ≤ r.length := by
  unfold readEscape at h
  repeat' split at h
  all_goals first
    | (cases h; exact Nat.le_refl _)
    | exact readU_length h

/-- The states `S_STRING` and `S_STRING_ESCAPE`, `lib/json_parser.cpp:244-340`; running out of input
inside a string returns the token `eof` (`:166-170`). -/
def readStr (inp acc : List Char) : Res (JTok × List Char) :=
  match inp with
  | [] => .ok (.eof, [])
  | c :: r =>
    if c = '"' then .ok (.str acc, r)
    else if c = '\\' then
      match r with
      | [] => .ok (.eof, [])
      | d :: r' =>
        match h : readEscape d r' with
        | .ok (out, r'') => readStr r'' (acc ++ out)
        | .err => .err
        | .ub => .ub
    else readStr r (acc ++ [c])
  termination_by inp.length
  decreasing_by
    · have := readEscape_length h
      simp only [List.length_cons]
      omega
    · simp

/-- Value of a run of decimal digits. -/
def decRun (ds : List Char) : Nat := ds.foldl (fun n c => n * 10 + (c.toNat - 48)) 0

/-- `std::istringstream iss(result); int v; iss >> v;` `lib/json_parser.cpp:353-355`, where the text
is an optional minus sign and decimal digits: a text without digits gives 0, a value outside the
32-bit range gives the nearest bound; the fail bit is not looked at. -/
def toInt32 (text : List Char) : Int :=
  let ds := if text.head? = some '-' then text.tail else text
  if ds = [] then 0
  else
    let v : Int := if text.head? = some '-' then -(decRun ds : Int) else (decRun ds : Int)
    if v < -2147483648 then -2147483648 else if v > 2147483647 then 2147483647 else v

/-- The state `S_FLOAT_EXPONENT`, `lib/json_parser.cpp:376-388`. -/
def readExp : List Char → List Char → Res (JTok × List Char)
  | [], _ => .ok (.eof, [])
  | c :: r, acc => if isDigit c then readExp r (acc ++ [c]) else .ok (.float acc, c :: r)

/-- The lambda `read_exponent_start`, `lib/json_parser.cpp:144-162`, followed by the rest of the
exponent. -/
def readExpStart (inp acc : List Char) : Res (JTok × List Char) :=
  match inp with
  | [] => .err
  | c :: r =>
    if c = '-' then
      match r with
      | [] => .err
      | d :: r' => if isDigit d then readExp r' (acc ++ ['-', d]) else .err
    else if isDigit c then readExp r (acc ++ [c]) else .err

/-- The state `S_FLOAT`, `lib/json_parser.cpp:360-375`. -/
def readFloat : List Char → List Char → Res (JTok × List Char)
  | [], _ => .ok (.eof, [])
  | c :: r, acc =>
    if c = 'e' ∨ c = 'E' then readExpStart r (acc ++ [c])
    else if isDigit c then readFloat r (acc ++ [c])
    else .ok (.float acc, c :: r)

/-- The state `S_INT`, `lib/json_parser.cpp:341-359`. -/
def readInt : List Char → List Char → Res (JTok × List Char)
  | [], _ => .ok (.eof, [])
  | c :: r, acc =>
    if c = '.' then readFloat r (acc ++ [c])
    else if c = 'e' ∨ c = 'E' then readExpStart r (acc ++ [c])
    else if isDigit c then readInt r (acc ++ [c])
    else .ok (.int (toInt32 acc), c :: r)

/-- The white space of the state `S_NOTHING`, `lib/json_parser.cpp:176-183`. -/
def isWs (c : Char) : Bool :=
  decide (c = '\n') || decide (c = ' ') || decide (c = '\t') || decide (c = '\r')

/-- `JSONParser::readToken`, `lib/json_parser.cpp:138-395`. -/
def readToken : List Char → Res (JTok × List Char)
  | [] => .ok (.eof, [])
  | c :: r =>
    if isWs c then readToken r
    else if c = '[' then .ok (.listOpen, r)
    else if c = ']' then .ok (.listClose, r)
    else if c = '{' then .ok (.objOpen, r)
    else if c = '}' then .ok (.objClose, r)
    else if c = ',' then .ok (.comma, r)
    else if c = ':' then .ok (.colon, r)
    else if c = '"' then readStr r []
    else if c = 't' then if r.take 3 = "rue".toList then .ok (.bool true, r.drop 3) else .err
    else if c = 'f' then if r.take 4 = "alse".toList then .ok (.bool false, r.drop 4) else .err
    else if c = 'n' then if r.take 3 = "ull".toList then .ok (.null, r.drop 3) else .err
    else if isDigit c ∨ c = '-' then readInt r [c]
    else .err

end Json
end MZ
