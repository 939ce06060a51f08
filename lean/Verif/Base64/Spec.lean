/-!
# Specification: base64 (RFC 4648, section 4)

Groups of three bytes are read as a 24-bit number and written as four 6-bit digits; a final group of one or
two bytes is padded with zero bits, and with one or two `=`.
-/
namespace MZ
namespace Base64

/-- The digit characters of the standard alphabet. -/
def digit (v : Nat) : Nat :=
  if v < 26 then 65 + v else if v < 52 then 97 + (v - 26) else if v < 62 then 48 + (v - 52)
  else if v = 62 then 43 else 47

/-- RFC 4648 encoding of a byte sequence. -/
def rfc : List Nat → List Nat
  | [] => []
  | [x] =>
    let n := x * 2 ^ 4
    [digit (n / 64), digit (n % 64), 61, 61]
  | [x, y] =>
    let n := (x * 2 ^ 8 + y) * 2 ^ 2
    [digit (n / 64 ^ 2), digit (n / 64 % 64), digit (n % 64), 61]
  | x :: y :: z :: l =>
    let n := x * 2 ^ 16 + y * 2 ^ 8 + z
    digit (n / 64 ^ 3) :: digit (n / 64 ^ 2 % 64) :: digit (n / 64 % 64) :: digit (n % 64) :: rfc l

end Base64
end MZ
