import Verif.IntVal.Model
/-!
# Model: small utilities (lib/utils.cpp, include/minizinc/utils.hh)

Strings are lists of characters.
-/
namespace MZ
namespace Utils

/-! ## Reading numbers (utils.cpp 30–67) -/

/-- `std::isspace` in the C locale, and the list of characters in `find_first_not_of` (52). -/
def isSpace (c : Char) : Bool :=
  c = ' ' || c = '\t' || c = '\n' || c = '\r' || c = Char.ofNat 12 || c = Char.ofNat 11

/-- A decimal digit, as recognised by `strtol`. -/
def isDigit (c : Char) : Bool := decide ('0' ≤ c) && decide (c ≤ '9')

/-- Value of a digit character. -/
def digitVal (c : Char) : Nat := c.toNat - '0'.toNat

/-- Accumulation of `strtol`/`strtoul` (C standard), unbounded. -/
def accumulate : List Char → Nat → Nat
  | [], acc => acc
  | c :: l, acc => accumulate l (acc * 10 + digitVal c)

/-- Optional sign: whether it is a minus, and the rest. -/
def sign : List Char → Bool × List Char
  | '-' :: l => (true, l)
  | '+' :: l => (false, l)
  | l => (false, l)

/-- The C functions `strtol`, `strtoul` as used by `std::stoi`, `std::stol`, `std::stoul` with base 10: skip
white space, optional sign, longest run of digits. The result is the sign, the digits and the remaining
text; without digits `std::invalid_argument` is thrown. -/
def scan (s : List Char) : Res (Bool × List Char × List Char) :=
  let (neg, l) := sign (s.dropWhile isSpace)
  let ds := l.takeWhile isDigit
  if ds.isEmpty then .err else .ok (neg, ds, l.dropWhile isDigit)

/-- `std::stoi`/`std::stol` with the range of the target type; out of range: `std::out_of_range`. -/
def sto (lo hi : Int) (s : List Char) : Res (Int × List Char) := do
  let (neg, ds, rest) ← scan s
  let v : Int := if neg then -(accumulate ds 0 : Int) else (accumulate ds 0 : Int)
  if lo ≤ v ∧ v ≤ hi then .ok (v, rest) else .err

/-- utils.cpp 30–37 `parse_int`, 39–46 `parse_long`: the whole text must have been consumed. -/
def parseSigned (lo hi : Int) (s : List Char) : Res Int := do
  let (v, rest) ← sto lo hi s
  if rest ≠ [] then .err else .ok v

/-- utils.cpp 30–37: 32-bit `int`. -/
def parseInt (s : List Char) : Res Int := parseSigned (-2147483648) 2147483647 s
/-- utils.cpp 39–46: 64-bit `long`. -/
def parseLong (s : List Char) : Res Int := parseSigned LMIN LMAX s

/-- utils.cpp 48–59 `parse_unsigned_long` (64 bits). `std::stoul` would accept a minus sign and negate
modulo 2^64; the test at the beginning excludes that. -/
def parseUnsignedLong (s : List Char) : Res Nat := do
  match s.dropWhile isSpace with
  | '-' :: _ => .err
  | _ => do
    let (_, ds, rest) ← scan s
    if accumulate ds 0 ≤ 18446744073709551615 then
      if rest ≠ [] then .err else .ok (accumulate ds 0)
    else .err

/-- utils.cpp 61–67 `parse_unsigned_int`. -/
def parseUnsignedInt (s : List Char) : Res Nat := do
  let v ← parseUnsignedLong s
  if v > 4294967295 then .err else .ok v

/-! ## Writing numbers (utils.cpp 98–113) -/

/-- `buf[i] = c`. -/
def set (f : Nat → Char) (i : Nat) (c : Char) : Nat → Char := fun j => if j = i then c else f j

/-- `"0123456789"[k]` -/
def digitChar (k : Nat) : Char := "0123456789".toList.getD k '?'

/-- 99–104: the `do … while` loop; `p` is the write position. -/
def itoaDigits (v p : Nat) (buf : Nat → Char) : Nat × (Nat → Char) :=
  let buf := set buf p (digitChar (v - v / 10 * 10))
  if _h : v / 10 = 0 then (p + 1, buf) else itoaDigits (v / 10) (p + 1) buf
termination_by v
decreasing_by omega

/-- 106–112: the swapping loop. -/
def itoaReverse (start stop : Nat) (buf : Nat → Char) : Nat → Char :=
  if _h : start < stop then itoaReverse (start + 1) (stop - 1) (set (set buf stop (buf start)) start (buf stop))
  else buf
termination_by stop - start

/-- 98–113 `itoa_async_safe`: the buffer afterwards, and the position of the terminating zero. -/
def itoa (v : Nat) (buf : Nat → Char) : Nat × (Nat → Char) :=
  let (p, buf) := itoaDigits v 0 buf
  let buf := set buf p (Char.ofNat 0)
  (p, itoaReverse 0 (p - 1) buf)

/-- The C string in a buffer of which the first `n` characters are not zero. -/
def text (n : Nat) (buf : Nat → Char) : List Char := (List.range n).map buf

/-- utils.cpp 114–122 `basename_async_safe`: `max` is the part after the last separator met. -/
def basename : List Char → List Char → List Char
  | [], max => max
  | c :: l, max => if c = '/' ∨ c = '\\' then basename l l else basename l max

/-! ## Crash report (utils.cpp 124–177) -/

/-- 134–172: the loop over the call stack. `i` is the unsigned loop variable before the test; the test
`(i--) >= 0` is always true and the decrement wraps around. `stack[i]` is true for a call. The result is the
list of the positions reported; reading outside the vector is undefined. -/
def dumpLoop (stack : List Bool) : Nat → Nat → Res (List Nat)
  | 0, _ => .ub
  | i + 1, count =>
    match stack[i]? with
    | none => .ub
    | some true =>
      if count - 1 = 0 then .ok [i]
      else do
        let l ← dumpLoop stack i (count - 1)
        .ok (i :: l)
    | some false => dumpLoop stack i count

/-- utils.cpp 133–172 with the initial count 15. -/
def dumpStack (stack : List Bool) : Res (List Nat) := dumpLoop stack stack.length 15

/-! ## Versions (utils.hh 245–316) -/

/-- utils.hh 245–249: the three components. -/
structure Version where
  major : Nat
  minor : Nat
  patch : Nat
deriving DecidableEq, Repr

/-- 253–262: the lambda `parseComponent`. -/
def parseComponent (s : List Char) : Nat :=
  if s.isEmpty then 0
  else match parseUnsignedInt s with
    | .ok v => v
    | _ => 0

/-- Text before the first dot, and the text behind it if there is a dot (`find('.')`, `substr`). -/
def splitDot : List Char → List Char × Option (List Char)
  | [] => ([], none)
  | c :: l => if c = '.' then ([], some l) else ((c :: (splitDot l).1), (splitDot l).2)

/-- 252–278: the constructor from a string. -/
def parseVersion (s : List Char) : Version :=
  match splitDot s with
  | (a, none) => ⟨parseComponent a, 0, 0⟩
  | (a, some r) =>
    match splitDot r with
    | (b, none) => ⟨parseComponent a, parseComponent b, 0⟩
    | (b, some r) => ⟨parseComponent a, parseComponent b, parseComponent (splitDot r).1⟩

/-- 279–291 `operator<`. -/
def Version.lt (a b : Version) : Bool :=
  if a.major < b.major then true
  else if a.minor < b.minor then true
  else if a.patch < b.patch then true
  else false

/-- 292–304 `operator<=`. -/
def Version.le (a b : Version) : Bool :=
  if a.major > b.major then false
  else if a.minor > b.minor then false
  else if a.patch > b.patch then false
  else true

/-- 305–307 `operator==`. -/
def Version.eq (a b : Version) : Bool :=
  decide (a.major = b.major) && decide (a.minor = b.minor) && decide (a.patch = b.patch)

/-- 308–315 `operator<<`; decimal output of an unsigned number is the decimal representation. -/
def printVersion (a : Version) : List Char :=
  Nat.toDigits 10 a.major ++ ['.'] ++ Nat.toDigits 10 a.minor ++ ['.'] ++ Nat.toDigits 10 a.patch

/-! ## Splitting (utils.hh 204–213) -/

/-- `iss >> buf`: the next word and the rest, or nothing at the end of the text. -/
def nextWord (s : List Char) : Option (List Char × List Char) :=
  let l := s.dropWhile isSpace
  if l.isEmpty then none else some (l.takeWhile (!isSpace ·), l.dropWhile (!isSpace ·))

/-- utils.hh 206–213 `split`: the loop pushes the buffer also after the extraction that failed. The stream
stays usable (`while (iss)`) after a word that is followed by more text or that was read up to the end of
the text (`eofbit` alone does not make the stream false). `fuel` bounds the number of words. -/
def splitWords : Nat → List Char → List Char → List (List Char)
  | 0, _, _ => []
  | n + 1, s, buf =>
    match nextWord s with
    | some (w, r) => w :: splitWords n r w
    | none => [buf]

/-- utils.hh 206–213 `split`. -/
def split (s : List Char) : List (List Char) := splitWords (s.length + 1) s []

/-- utils.hh 81–83 `beginswith`: `s.compare(0, t.length(), t) == 0`. -/
def beginswith (s t : List Char) : Bool := s.take t.length == t

end Utils
end MZ
