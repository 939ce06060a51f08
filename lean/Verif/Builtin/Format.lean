import Verif.Arr.Builtins
/-!
# `format`, `format_justify_string`, `show_int`, `show_float` (lib/builtins.cpp 2753–2933)

Texts are sequences of bytes. The text of a number (`oss << v`) is an input. Texts are shorter than 2³¹ bytes.
-/
namespace MZ
namespace Builtin
open Arr (i32)

abbrev Bytes := List Nat

/-- `n` blanks; a loop `for (int i = n; (i--) != 0;)` with `n ≥ 0`. -/
def blanks (n : Nat) : Bytes := List.replicate n 32

/-- Negation of an `int`. -/
def negInt (x : Int) : Res Int := if x = -2147483648 then .ub else .ok (-x)

/-- 2873–2886 of `b_show_int` and 2913–2927 of `b_show_float`: the text `s` of the number in `w` columns. -/
def showNum (w : Int) (s : Bytes) : Res Bytes :=
  let j := i32 w
  let addLeft := if j < 0 then 0 else j - s.length
  let addLeft := if addLeft < 0 then 0 else addLeft
  do
    let addRight ← if j < 0 then (· - (s.length : Int)) <$> negInt j else .ok 0
    let addRight := if addRight < 0 then 0 else addRight
    .ok (blanks addLeft.toNat ++ s ++ blanks addRight.toNat)

/-- 2902–2906 `b_show_float`: a negative number of digits is an error. -/
def showFloat (w d : Int) (text : Int → Bytes) : Res Bytes :=
  if i32 d < 0 then .err else showNum w (text (i32 d))

/-- A number in an output stream with field width (2774–2785, 2790–2803). -/
def streamNum (w : Int) (s : Bytes) : Res Bytes :=
  let width := i32 w
  if width > 0 then .ok (blanks (width.toNat - s.length) ++ s)
  else if width < 0 then do
    let m ← negInt width
    .ok (s ++ blanks (m.toNat - s.length))
  else .ok s

/-- 2806–2826 (end of `b_format`) and 2841–2859 (end of `b_format_justify_string`): the width, for a text that has been cut. -/
def justify (w : Int) (s : Bytes) : Res Bytes := do
  let width := i32 w
  let a ← if width < 0 then negInt width else .ok width
  if (s.length : Int) < a then do
    let addLeft := if width < 0 then 0 else width - s.length
    let addLeft := if addLeft < 0 then 0 else addLeft
    let addRight ← if width < 0 then (· - (s.length : Int)) <$> negInt width else .ok 0
    let addRight := if addRight < 0 then 0 else addRight
    .ok (blanks addLeft.toNat ++ s ++ blanks addRight.toNat)
  else .ok s

/-- What is formatted: a finite number, with its text for a precision (`none`: not given), or something else with its text. -/
inductive Item where
  | num (text : Option Int → Bytes)
  | other (s : Bytes)

/-- 2753–2827 `b_format` with width `w` (0 if not given) and precision `d`. -/
def format (w : Int) (d : Option Int) (e : Item) : Res Bytes :=
  match d with
  | some d =>
    if i32 d < 0 then .err else
    match e with
    | .num text => streamNum w (text (some (i32 d)))
    | .other s => justify w (if i32 d < (s.length : Int) then s.take (i32 d).toNat else s)
  | none =>
    match e with
    | .num text => streamNum w (text none)
    | .other s => justify w s

/-- 2829–2860 `b_format_justify_string`: the maximal length is cast to `size_t`, so that it is never negative. -/
def formatJustify (w : Int) (m : Option Int) (s : Bytes) : Res Bytes :=
  match m with
  | some m => justify w (s.take (m % 18446744073709551616).toNat)
  | none => justify w s

/-! ### Specification -/

/-- The text `s` in `|w|` columns, on the right if `w ≥ 0` and on the left otherwise: blanks are added up to the width, and nothing is cut. -/
def Justified (w : Int) (s out : Bytes) : Prop :=
  out.length = max s.length w.natAbs ∧
  ∃ n, (0 ≤ w → out = List.replicate n 32 ++ s) ∧ (w < 0 → out = s ++ List.replicate n 32)

/-- The width is an `int` other than `INT_MIN`. -/
def Width (w : Int) : Prop := -2147483648 < w ∧ w < 2147483648

theorem i32_id {w : Int} (h : -2147483648 ≤ w) (h' : w < 2147483648) : i32 w = w := by unfold i32; omega

theorem showNum_ok {w : Int} (hw : Width w) (s : Bytes) : ∃ out, showNum w s = .ok out ∧ Justified w s out := by
  unfold showNum
  rw [i32_id (by have := hw.1; omega) hw.2]
  obtain ⟨h1, h2⟩ := hw
  by_cases h : w < 0
  · simp only [h, if_true, negInt, if_neg (show ¬ w = -2147483648 by omega), Res.ok_map, Res.ok_bind]
    refine ⟨_, rfl, ?_, (if -w - (s.length : Int) < 0 then 0 else -w - (s.length : Int)).toNat, fun h' => absurd h (by omega), fun _ => ?_⟩
    · simp [blanks]; split <;> omega
    · simp [blanks]
  · simp only [h, if_false, Res.ok_bind]
    refine ⟨_, rfl, ?_, (if w - (s.length : Int) < 0 then 0 else w - (s.length : Int)).toNat, fun _ => ?_, fun h' => absurd h' h⟩
    · simp [blanks]; split <;> omega
    · simp [blanks]

theorem streamNum_ok {w : Int} (hw : Width w) (s : Bytes) : ∃ out, streamNum w s = .ok out ∧ Justified w s out := by
  unfold streamNum
  rw [i32_id (by have := hw.1; omega) hw.2]
  obtain ⟨h1, h2⟩ := hw
  by_cases h : w > 0
  · simp only [h, if_true]
    refine ⟨_, rfl, ?_, w.toNat - s.length, fun _ => rfl, fun h' => by omega⟩
    simp [blanks]; omega
  · simp only [h, if_false]
    by_cases h3 : w < 0
    · simp only [h3, if_true, negInt, if_neg (show ¬ w = -2147483648 by omega), Res.ok_bind]
      refine ⟨_, rfl, ?_, (-w).toNat - s.length, fun h' => by omega, fun _ => rfl⟩
      simp [blanks]; omega
    · simp only [h3, if_false]
      exact ⟨_, rfl, by omega, 0, fun _ => rfl, fun h' => absurd h' h3⟩

theorem justify_ok {w : Int} (hw : Width w) (s : Bytes) : ∃ out, justify w s = .ok out ∧ Justified w s out := by
  unfold justify
  rw [i32_id (by have := hw.1; omega) hw.2]
  obtain ⟨h1, h2⟩ := hw
  by_cases h : w < 0
  · simp only [h, if_true, negInt, if_neg (show ¬ w = -2147483648 by omega), Res.ok_map, Res.ok_bind]
    by_cases hl : (s.length : Int) < -w
    · rw [if_pos hl]
      refine ⟨_, rfl, ?_, (if -w - (s.length : Int) < 0 then 0 else -w - (s.length : Int)).toNat, fun h' => absurd h (by omega), fun _ => ?_⟩
      · simp [blanks]; split <;> omega
      · simp [blanks]
    · rw [if_neg hl]
      exact ⟨_, rfl, by omega, 0, fun _ => rfl, fun _ => by simp⟩
  · simp only [h, if_false, Res.ok_bind]
    by_cases hl : (s.length : Int) < w
    · rw [if_pos hl]
      refine ⟨_, rfl, ?_, (if w - (s.length : Int) < 0 then 0 else w - (s.length : Int)).toNat, fun _ => ?_, fun h' => absurd h' h⟩
      · simp [blanks]; split <;> omega
      · simp [blanks]
    · rw [if_neg hl]
      exact ⟨_, rfl, by omega, 0, fun _ => rfl, fun _ => by simp⟩

/-- **C64** (show_int). -/
theorem _root_.MZ.C64_show_int (w : Int) (hw : Width w) (s : Bytes) : ∃ out, showNum w s = .ok out ∧ Justified w s out := showNum_ok hw s

/-- **C64** (show_float). A negative number of digits is an error; otherwise the number, with these digits, is justified. -/
theorem _root_.MZ.C64_show_float (w d : Int) (hw : Width w) (hd : Width d) (text : Int → Bytes) :
    (d < 0 → showFloat w d text = .err) ∧ (0 ≤ d → ∃ out, showFloat w d text = .ok out ∧ Justified w (text d) out) := by
  unfold showFloat
  rw [i32_id (by have := hd.1; omega) hd.2]
  exact ⟨fun h => if_pos h, fun h => by rw [if_neg (by omega)]; exact showNum_ok hw _⟩

/-- **C64** (format). A negative precision is an error; otherwise a number is shown with that precision, and other texts are cut to that
length; the result is justified. -/
theorem _root_.MZ.C64_format (w : Int) (hw : Width w) (d : Option Int) (hd : ∀ x ∈ d, Width x) (e : Item) :
    ((∃ x ∈ d, x < 0) → format w d e = .err) ∧
    ((∀ x ∈ d, 0 ≤ x) → ∃ out, format w d e = .ok out ∧
      Justified w (match e, d with | .num text, d => text d | .other s, some x => s.take x.toNat | .other s, none => s) out) := by
  cases d with
  | none =>
    refine ⟨fun ⟨x, hx, _⟩ => by simp at hx, fun _ => ?_⟩
    cases e with
    | num text => exact streamNum_ok hw _
    | other s => exact justify_ok hw _
  | some x =>
    have hx := hd x rfl
    simp only [format]
    rw [i32_id (by have := hx.1; omega) hx.2]
    refine ⟨fun ⟨y, hy, h⟩ => ?_, fun h => ?_⟩
    · simp only [Option.mem_def, Option.some.injEq] at hy
      subst hy
      rw [if_pos h]
    · have h0 := h x rfl
      rw [if_neg (by omega)]
      cases e with
      | num text => exact streamNum_ok hw _
      | other s =>
        simp only
        have : (if x < (s.length : Int) then s.take x.toNat else s) = s.take x.toNat := by
          split
          · rfl
          · rw [List.take_of_length_le (by omega)]
        rw [this]
        exact justify_ok hw _

/-- **C64** (format_justify_string, part). For a maximal length that is not negative. What is missing: see `C64_fails`. -/
theorem _root_.MZ.C64_format_justify_partial (w : Int) (hw : Width w) (m : Option Int) (hm : ∀ x ∈ m, 0 ≤ x ∧ x < 9223372036854775808) (s : Bytes) :
    ∃ out, formatJustify w m s = .ok out ∧ Justified w (match m with | some x => s.take x.toNat | none => s) out := by
  cases m with
  | none => exact justify_ok hw s
  | some x =>
    have := hm x rfl
    simp only [formatJustify]
    rw [show x % 18446744073709551616 = x by omega]
    exact justify_ok hw _

/-- **C64** (the full statement fails). A negative maximal length is not rejected, and the text is not cut (`format_justify_string(0, -1, "ab")`);
a width of 2³² is taken as 0; the least `int` as a width is undefined; and the length counts bytes, so that a character of two
bytes (here U+00E9) is cut in the middle. -/
theorem _root_.MZ.C64_fails : formatJustify 0 (some (-1)) [97, 98] = .ok [97, 98] ∧ showNum 4294967296 [49] = .ok [49] ∧
    showNum (-2147483648) [49] = .ub ∧ format 0 (some 1) (.other [195, 169]) = .ok [195] := by decide

example : showNum 4 [49, 50] = .ok [32, 32, 49, 50] ∧ showNum (-3) [49] = .ok [49, 32, 32] ∧ justify (-4) [97] = .ok [97, 32, 32, 32] ∧
    format 5 (some 2) (.other [97, 98, 99]) = .ok [32, 32, 32, 97, 98] ∧ streamNum (-3) [55] = .ok [55, 32, 32] := by decide

end Builtin
end MZ
