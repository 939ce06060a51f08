import Verif.IntVal.Model
import Mathlib.Data.Int.Log
import Mathlib.Data.Rat.Floor
/-!
# Model: integer division through `double`

`LinearTraits<IntLit>::floorDiv` and `ceilDiv` (include/minizinc/flatten_internal.hh 767–774)
convert two 64-bit integers to `double`, divide, and round with `std::floor`/`std::ceil`.
IEEE-754 binary64 arithmetic with the default rounding mode is modelled on the rationals:
`rnd` is rounding to 53 significant bits, ties to even. Simplification: overflow, underflow and
signed zeros are left out; operands are 64-bit integers, so every non-zero quotient has a
magnitude between `2^-64` and `2^64`, far from those limits.
-/
namespace MZ
namespace Dbl

/-- Round to nearest integer, ties to even. -/
def rne (q : ℚ) : ℤ :=
  if q - ⌊q⌋ < 1 / 2 then ⌊q⌋
  else if 1 / 2 < q - ⌊q⌋ then ⌊q⌋ + 1
  else if ⌊q⌋ % 2 = 0 then ⌊q⌋ else ⌊q⌋ + 1

/-- The distance between neighbouring doubles of the magnitude of `q`. -/
def ulp (q : ℚ) : ℚ := (2 : ℚ) ^ (Int.log 2 |q| - 52)

/-- IEEE-754 rounding of a real number to binary64. -/
def rnd (q : ℚ) : ℚ := if q = 0 then 0 else rne (q / ulp q) * ulp q

/-- `static_cast<double>(v)` of a 64-bit integer. -/
def ofInt (v : ℤ) : ℚ := rnd v

/-- `a / b` on doubles, `b` not zero. -/
def div (a b : ℚ) : ℚ := rnd (a / b)

/-- flatten_internal.hh 767–770 `floorDiv`. Division by zero gives an infinity or NaN, whose
conversion to `long long` is undefined; so is the conversion of a value out of range. -/
def floorDiv (v0 v1 : ℤ) : Res ℤ := if v1 = 0 then .ub else ll ⌊div (ofInt v0) (ofInt v1)⌋

/-- flatten_internal.hh 771–774 `ceilDiv`. -/
def ceilDiv (v0 v1 : ℤ) : Res ℤ := if v1 = 0 then .ub else ll ⌈div (ofInt v0) (ofInt v1)⌉

end Dbl
end MZ
