import Verif.AST.Unboxed
/-!
# Source locations (lib/ast.cpp 53–101, include/minizinc/ast.hpp 97–167)

Line and column numbers are 32-bit unsigned integers. The numbers stored in the node are unboxed integers, whose
round trip is `C14_int`; here they are natural numbers.
-/
namespace MZ
namespace Loc

/-- `a - b` on 32-bit unsigned integers. -/
def sub32 (a b : Nat) : Nat := (a + (2 ^ 32 - b)) % 2 ^ 32

/-- The data of a `LocVec`: one combined number, or four numbers in the order of the constructor (ast.cpp 91–101). -/
inductive LocVec where
  | packed (combined : Nat)
  | full (d1 d2 d3 d4 : Nat)
  deriving DecidableEq

/-- ast.cpp 53–84 `LocVec::a`; `wide` for 64-bit pointers. -/
def create (wide : Bool) (firstLine firstColumn lastLine lastColumn : Nat) : LocVec :=
  if wide then
    if firstLine < 1 <<< 20 ∧ sub32 lastLine firstLine < 1 <<< 20 ∧ firstColumn < 1 <<< 10 ∧ lastColumn < 1 <<< 10 then
      .packed (firstLine ||| sub32 lastLine firstLine <<< 20 ||| firstColumn <<< (20 + 20) ||| lastColumn <<< (20 + 20 + 10))
    else .full firstLine lastLine firstColumn lastColumn
  else
    if firstLine < 1 <<< 8 ∧ sub32 lastLine firstLine < 1 <<< 7 ∧ firstColumn < 1 <<< 6 ∧ lastColumn < 1 <<< 7 then
      .packed (firstLine ||| sub32 lastLine firstLine <<< 8 ||| firstColumn <<< (8 + 7) ||| lastColumn <<< (8 + 7 + 6))
    else .full firstLine lastLine firstColumn lastColumn

/-- `static_cast<unsigned int>`. -/
def u32 (n : Nat) : Nat := n % 2 ^ 32

/-- ast.hpp 97–110. -/
def firstLine (wide : Bool) : LocVec → Nat
  | .packed u => u32 (u &&& (if wide then 0xFFFFF else 0xFF))
  | .full d1 _ _ _ => u32 d1

/-- 111–128. -/
def lastLine (wide : Bool) : LocVec → Nat
  | .packed u =>
    u32 ((u &&& (if wide then 0xFFFFF else 0xFF)) + ((u >>> (if wide then 20 else 8)) &&& (if wide then 0xFFFFF else 0x7F)))
  | .full _ d2 _ _ => u32 d2

/-- 129–145. -/
def firstColumn (wide : Bool) : LocVec → Nat
  | .packed u => u32 ((u >>> (if wide then 20 + 20 else 8 + 7)) &&& (if wide then 0x3FF else 0x3F))
  | .full _ _ d3 _ => u32 d3

/-- 146–162. -/
def lastColumn (wide : Bool) : LocVec → Nat
  | .packed u => u32 ((u >>> (if wide then 20 + 20 + 10 else 8 + 7 + 6)) &&& (if wide then 0x3FF else 0x7F))
  | .full _ _ _ d4 => u32 d4

theorem or_field {a b k : Nat} (h : a < 2 ^ k) : a ||| b <<< k = a + b * 2 ^ k := by
  have := Nat.shiftLeft_add_eq_or_of_lt h b
  rw [Nat.or_comm, ← this, Nat.shiftLeft_eq, Nat.add_comm]

/-- **C15**. Whatever the line and column numbers (in 32 bits), and on both pointer sizes, a location reports the numbers it was
created with. -/
theorem _root_.MZ.C15_location (wide : Bool) {fl fc ll lc : Nat} (h1 : fl < 2 ^ 32) (h2 : fc < 2 ^ 32) (h3 : ll < 2 ^ 32) (h4 : lc < 2 ^ 32) :
    firstLine wide (create wide fl fc ll lc) = fl ∧ firstColumn wide (create wide fl fc ll lc) = fc ∧
    lastLine wide (create wide fl fc ll lc) = ll ∧ lastColumn wide (create wide fl fc ll lc) = lc := by
  have full : ∀ x, x = LocVec.full fl ll fc lc → firstLine wide x = fl ∧ firstColumn wide x = fc ∧ lastLine wide x = ll ∧ lastColumn wide x = lc := by
    rintro x rfl
    simp only [firstLine, firstColumn, lastLine, lastColumn, u32]
    omega
  have m20 : (0xFFFFF : Nat) = 2 ^ 20 - 1 := by norm_num
  have m10 : (0x3FF : Nat) = 2 ^ 10 - 1 := by norm_num
  have m8 : (0xFF : Nat) = 2 ^ 8 - 1 := by norm_num
  have m7 : (0x7F : Nat) = 2 ^ 7 - 1 := by norm_num
  have m6 : (0x3F : Nat) = 2 ^ 6 - 1 := by norm_num
  cases wide
  · unfold create
    simp only [Bool.false_eq_true, if_false]
    split
    · rename_i h
      obtain ⟨a, b, c, d⟩ := h
      rw [Nat.shiftLeft_eq] at a b c d
      have e1 : fl ||| sub32 ll fl <<< 8 = fl + sub32 ll fl * 2 ^ 8 := or_field (by omega)
      have e2 : (fl + sub32 ll fl * 2 ^ 8) ||| fc <<< (8 + 7) = fl + sub32 ll fl * 2 ^ 8 + fc * 2 ^ (8 + 7) := or_field (by omega)
      have e3 : (fl + sub32 ll fl * 2 ^ 8 + fc * 2 ^ (8 + 7)) ||| lc <<< (8 + 7 + 6) =
        fl + sub32 ll fl * 2 ^ 8 + fc * 2 ^ (8 + 7) + lc * 2 ^ (8 + 7 + 6) := or_field (by omega)
      rw [e1, e2, e3]
      simp only [firstLine, firstColumn, lastLine, lastColumn, u32, Bool.false_eq_true, if_false, Nat.shiftRight_eq_div_pow, m8, m7, m6,
        Nat.and_two_pow_sub_one_eq_mod]
      have hs : sub32 ll fl = ll - fl ∧ fl ≤ ll := by
        unfold sub32 at b ⊢
        omega
      rw [hs.1] at b ⊢
      omega
    · exact full _ rfl
  · unfold create
    simp only [if_true]
    split
    · rename_i h
      obtain ⟨a, b, c, d⟩ := h
      rw [Nat.shiftLeft_eq] at a b c d
      have e1 : fl ||| sub32 ll fl <<< 20 = fl + sub32 ll fl * 2 ^ 20 := or_field (by omega)
      have e2 : (fl + sub32 ll fl * 2 ^ 20) ||| fc <<< (20 + 20) = fl + sub32 ll fl * 2 ^ 20 + fc * 2 ^ (20 + 20) := or_field (by omega)
      have e3 : (fl + sub32 ll fl * 2 ^ 20 + fc * 2 ^ (20 + 20)) ||| lc <<< (20 + 20 + 10) =
        fl + sub32 ll fl * 2 ^ 20 + fc * 2 ^ (20 + 20) + lc * 2 ^ (20 + 20 + 10) := or_field (by omega)
      rw [e1, e2, e3]
      simp only [firstLine, firstColumn, lastLine, lastColumn, u32, if_true, Nat.shiftRight_eq_div_pow, m20, m10,
        Nat.and_two_pow_sub_one_eq_mod]
      have hs : sub32 ll fl = ll - fl ∧ fl ≤ ll := by
        unfold sub32 at b ⊢
        omega
      rw [hs.1] at b ⊢
      omega
    · exact full _ rfl

/-- **C15**. The combined number always fits into an unboxed integer, so that no further node is needed. -/
theorem _root_.MZ.C15_packed_fits {fl fc ll lc u : Nat} (h : create true fl fc ll lc = .packed u) : (u : Int) ≤ Unboxed.maxVal := by
  unfold create at h
  simp only [if_true] at h
  split at h
  · rename_i hc
    obtain ⟨a, b, c, d⟩ := hc
    rw [Nat.shiftLeft_eq] at a b c d
    cases h
    have e1 : fl ||| sub32 ll fl <<< 20 = fl + sub32 ll fl * 2 ^ 20 := or_field (by omega)
    have e2 : (fl + sub32 ll fl * 2 ^ 20) ||| fc <<< (20 + 20) = fl + sub32 ll fl * 2 ^ 20 + fc * 2 ^ (20 + 20) := or_field (by omega)
    have e3 : (fl + sub32 ll fl * 2 ^ 20 + fc * 2 ^ (20 + 20)) ||| lc <<< (20 + 20 + 10) =
        fl + sub32 ll fl * 2 ^ 20 + fc * 2 ^ (20 + 20) + lc * 2 ^ (20 + 20 + 10) := or_field (by omega)
    rw [e1, e2, e3]
    have hm : Unboxed.maxVal = 2305843009213693951 := by decide
    rw [hm]
    omega
  · cases h

/-- Non-vacuity: both forms occur. -/
example : create true 17 4 19 80 = .packed (17 + 2 * 2 ^ 20 + 4 * 2 ^ 40 + 80 * 2 ^ 50) ∧ create true 17 4 19 5000 = .full 17 19 4 5000 := by
  decide +kernel

end Loc
end MZ
