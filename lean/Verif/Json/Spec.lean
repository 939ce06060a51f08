/-!
# What JSON text means (RFC 8259)

Written without reference to the reader.  Text is a list of bytes; a byte is written as the
character whose code it is.
-/

namespace MZ
namespace Json

/-- `c` is a hexadecimal digit of value `v`. -/
def HexDigit (c : Char) (v : Nat) : Prop :=
  (c, v) ∈ "0123456789abcdef".toList.zipIdx ++ "0123456789ABCDEF".toList.zipIdx

instance (c : Char) (v : Nat) : Decidable (HexDigit c v) := by
  unfold HexDigit
  infer_instance

/-- `t` is a text of four hexadecimal digits of value `v`. -/
def Hex4 (t : List Char) (v : Nat) : Prop :=
  ∃ a b c d va vb vc vd, t = [a, b, c, d] ∧ HexDigit a va ∧ HexDigit b vb ∧ HexDigit c vc ∧
    HexDigit d vd ∧ v = va * 4096 + vb * 256 + vc * 16 + vd

/-- The UTF-8 bytes of a Unicode scalar value (Lean's own encoder). -/
def utf8 (c : Char) : List Char := (String.utf8EncodeChar c).map (fun b => Char.ofNat b.toNat)

/-- High half of the surrogate pair of a character outside the basic plane. -/
def hiSurrogate (c : Char) : Nat := 0xD800 + (c.toNat - 0x10000) / 1024

/-- Low half of the surrogate pair of a character outside the basic plane. -/
def loSurrogate (c : Char) : Nat := 0xDC00 + (c.toNat - 0x10000) % 1024

/-- One element of a JSON string (RFC 8259, section 7): source text and decoded bytes. -/
inductive Elem : List Char → List Char → Prop
  /-- an unescaped byte -/
  | plain (c : Char) (h1 : c ≠ '"') (h2 : c ≠ '\\') : Elem [c] [c]
  /-- a two-character escape -/
  | esc (e v : Char) (h : (e, v) ∈ [('"', '"'), ('\\', '\\'), ('/', '/'), ('b', '\x08'),
      ('f', '\x0c'), ('n', '\n'), ('r', '\r'), ('t', '\t')]) : Elem ['\\', e] [v]
  /-- a four-digit escape of a character of the basic plane -/
  | bmp (t : List Char) (c : Char) (h : Hex4 t c.toNat) : Elem ('\\' :: 'u' :: t) (utf8 c)
  /-- a surrogate pair -/
  | pair (t t' : List Char) (c : Char) (hc : 0x10000 ≤ c.toNat) (h : Hex4 t (hiSurrogate c))
      (h' : Hex4 t' (loSurrogate c)) : Elem ('\\' :: 'u' :: t ++ '\\' :: 'u' :: t') (utf8 c)

/-- A nonempty run of decimal digits. -/
def Digits (ds : List Char) : Prop := ds ≠ [] ∧ ∀ c ∈ ds, '0' ≤ c ∧ c ≤ '9'

/-- The integer an optional minus sign and decimal digits denote. -/
def intValue (neg : Bool) (ds : List Char) : Int :=
  if neg then -(Nat.ofDigitChars 10 ds 0 : Int) else (Nat.ofDigitChars 10 ds 0 : Int)

/-- Source text of an integer. -/
def intText (neg : Bool) (ds : List Char) : List Char := if neg then '-' :: ds else ds

/-- Text that may follow a number: it is not empty and does not go on with the number. -/
def EndsNumber (rest : List Char) : Prop :=
  ∃ c r, rest = c :: r ∧ ¬ ('0' ≤ c ∧ c ≤ '9') ∧ c ≠ '.' ∧ c ≠ 'e' ∧ c ≠ 'E'

end Json
end MZ
