import Verif.IntVal.Props
import Verif.Json.TokenProps
import Mathlib.Data.Nat.Digits.Defs

/-!
# Integer literals of the language (C52)
-/

namespace MZ
namespace Lex

/-- Tokens of the integer rules, `lib/lexer.lxx:213-235`. -/
inductive NTok where
  /-- `MZN_INTEGER_LITERAL` -/
  | int (v : Int)
  /-- `MZN_MAX_NEGATIVE_INTEGER_LITERAL` -/
  | maxNegative
  /-- `MZN_INVALID_INTEGER_LITERAL` -/
  | invalid
  deriving DecidableEq, Repr

/-- `iss >> std::hex >> v` or `iss >> std::oct >> v` on a text of digits of that base:
a value beyond `long long` sets the fail bit.  `lib/lexer.lxx:78-88`. -/
def baseStrToInt (base : Nat) (ds : List Char) : Option Int :=
  if (ds.foldl (fun n c => n * base + hexVal c) 0 : Int) ≤ LMAX then
    some (ds.foldl (fun n c => n * base + hexVal c) 0 : Int)
  else none

/-- The loop of `fast_strtointval`, `lib/lexer.lxx:93-95`. -/
def fastLoop : List Char → IntVal → Res IntVal
  | [], x => .ok x
  | c :: s, x => do
    let y ← IntVal.mul x (IntVal.fin 10)
    let z ← IntVal.add y (IntVal.fin ((c.toNat : Int) - 48))
    fastLoop s z

/-- `fast_strtointval`, `lib/lexer.lxx:90-101`: `none` is the result `false`. -/
def fastStrToInt (s : List Char) : Res (Option Int) :=
  match fastLoop s (IntVal.fin 0) with
  | .ok x => some <$> x.toInt
  | .err => .ok none
  | .ub => .ub

/-- The token of a text that one of the integer rules has matched, `lib/lexer.lxx:213-235`.  The
literal `9223372036854775808` has its own rule, which comes first. -/
def numTok (text : List Char) : Res NTok :=
  match text with
  | '0' :: 'x' :: ds => .ok ((baseStrToInt 16 ds).elim .invalid .int)
  | '0' :: 'X' :: ds => .ok ((baseStrToInt 16 ds).elim .invalid .int)
  | '0' :: 'o' :: ds => .ok ((baseStrToInt 8 ds).elim .invalid .int)
  | ds =>
    if ds = "9223372036854775808".toList then .ok .maxNegative
    else do
      let r ← fastStrToInt ds
      .ok (r.elim .invalid .int)

/-- The expression of a number token with or without a minus sign before it,
`lib/parser.yxx:1523-1533`, `:1605`: the value of the `IntLit`, or `none` for a syntax error (the
parser has no rule for the token). -/
def numExpr (neg : Bool) (t : NTok) : Res (Option Int) :=
  match t with
  | .invalid => .ok none
  | .int v => if neg then (do
      let x ← IntVal.neg (IntVal.fin v)
      .ok (some x.v)) else .ok (some v)
  | .maxNegative => if neg then .ok (some (-9223372036854775807 - 1)) else .ok none

/-! ## Proofs -/

theorem digit_val {c : Char} (h : '0' ≤ c ∧ c ≤ '9') : 0 ≤ (c.toNat : Int) - 48 ∧ (c.toNat : Int) - 48 ≤ 9 ∧
    48 ≤ c.toNat := by
  have h1 : '0'.toNat ≤ c.toNat := h.1
  have h2 : c.toNat ≤ '9'.toNat := h.2
  have e1 : '0'.toNat = 48 := rfl
  have e2 : '9'.toNat = 57 := rfl
  omega

theorem ofDigitChars_ge (ds : List Char) (n : Nat) : n ≤ Nat.ofDigitChars 10 ds n := by
  induction ds generalizing n with
  | nil => simp
  | cons c ds ih =>
    rw [Nat.ofDigitChars_cons]
    exact le_trans (by omega) (ih _)

theorem fastLoop_eq (ds : List Char) (hd : ∀ c ∈ ds, '0' ≤ c ∧ c ≤ '9') (n : Nat) (hn : (n : Int) ≤ LMAX) :
    fastLoop ds (IntVal.fin n) =
      if (Nat.ofDigitChars 10 ds n : Int) ≤ LMAX then .ok (IntVal.fin (Nat.ofDigitChars 10 ds n : Nat)) else .err := by
  induction ds generalizing n with
  | nil => simp [fastLoop, hn]
  | cons c ds ih =>
    obtain ⟨d1, d2, d3⟩ := digit_val (hd c (by simp))
    have hin : inLL (n : Int) := by rw [inLL_iff]; unfold LMAX at hn; omega
    have h10 : inLL 10 := by decide
    rw [fastLoop, C01_mul hin h10, if_neg (by decide), if_neg (by
      unfold LMIN; omega), Nat.ofDigitChars_cons]
    have e0 : '0'.toNat = 48 := rfl
    rw [e0]
    have hge := ofDigitChars_ge ds (10 * n + (c.toNat - 48))
    by_cases hm : magLL ((n : Int) * 10)
    · rw [if_pos hm, Res.ok_bind]
      have hm' := hm
      rw [magLL_iff] at hm'
      rw [C01_add (by rw [inLL_iff]; omega) (by rw [inLL_iff]; omega)]
      by_cases hs : inLL ((n : Int) * 10 + ((c.toNat : Int) - 48))
      · rw [if_pos hs, Res.ok_bind]
        have hcast : ((n : Int) * 10 + ((c.toNat : Int) - 48)) = ((10 * n + (c.toNat - 48) : Nat) : Int) := by
          push_cast
          omega
        rw [hcast] at hs ⊢
        exact ih (fun x hx => hd x (by simp [hx])) _ hs.2
      · rw [if_neg hs, Res.err_bind, if_neg]
        rw [inLL_iff] at hs
        unfold LMAX
        omega
    · rw [if_neg hm, Res.err_bind, if_neg]
      rw [magLL_iff] at hm
      unfold LMAX
      omega

theorem fastStrToInt_eq (ds : List Char) (hd : ∀ c ∈ ds, '0' ≤ c ∧ c ≤ '9') :
    fastStrToInt ds = .ok (if (Nat.ofDigitChars 10 ds 0 : Int) ≤ LMAX then some (Nat.ofDigitChars 10 ds 0 : Int) else none) := by
  unfold fastStrToInt
  have h := fastLoop_eq ds hd 0 (by decide)
  simp only [Nat.cast_zero] at h
  rw [h]
  split
  · rename_i h2
    split at h2
    · rename_i h3
      cases h2
      rw [if_pos h3]
      rfl
    · exact absurd h2 (by simp)
  · rename_i h2
    split at h2
    · exact absurd h2 (by simp)
    · rename_i h3
      rw [if_neg h3]
  · rename_i h2
    split at h2 <;> exact absurd h2 (by simp)

/-- Decimal texts do not start like another base. -/
theorem numTok_dec {ds : List Char} (hd : ∀ c ∈ ds, '0' ≤ c ∧ c ≤ '9') :
    numTok ds = if ds = "9223372036854775808".toList then .ok .maxNegative
      else .ok (if (Nat.ofDigitChars 10 ds 0 : Int) ≤ LMAX then .int (Nat.ofDigitChars 10 ds 0 : Int) else .invalid) := by
  unfold numTok
  split
  · exact absurd (hd 'x' (by simp)) (by decide)
  · exact absurd (hd 'X' (by simp)) (by decide)
  · exact absurd (hd 'o' (by simp)) (by decide)
  · split
    · rfl
    · rw [fastStrToInt_eq ds hd, Res.ok_bind]
      split <;> rfl

end Lex

open Lex

/-- **C52 (integer literals denote the written number), decimal.**  For every sequence of decimal
digits, with or without a minus sign before it, the expression read is the integer it denotes, or a
syntax error is reported; the error occurs only if the digits denote more than 2^63 − 1 and the text
is not exactly `-9223372036854775808`. -/
theorem C52_decimal (neg : Bool) (ds : List Char) (hd : Json.Digits ds) :
    (numTok ds >>= numExpr neg) =
      .ok (if Nat.ofDigitChars 10 ds 0 < 2 ^ 63 ∨ (neg = true ∧ ds = "9223372036854775808".toList)
        then some (Json.intValue neg ds) else none) := by
  obtain ⟨_, hd⟩ := hd
  rw [numTok_dec hd]
  by_cases h1 : ds = "9223372036854775808".toList
  · subst h1
    cases neg <;> decide +kernel
  · rw [if_neg h1, Res.ok_bind]
    have hc : (Nat.ofDigitChars 10 ds 0 : Int) ≤ LMAX ↔ Nat.ofDigitChars 10 ds 0 < 2 ^ 63 := by
      unfold LMAX
      omega
    by_cases h2 : Nat.ofDigitChars 10 ds 0 < 2 ^ 63
    · rw [if_pos (hc.2 h2), if_pos (Or.inl h2)]
      unfold numExpr Json.intValue
      cases neg with
      | false => rfl
      | true =>
        simp only [if_true]
        have := hc.2 h2
        rw [C01_neg (by rw [inLL_iff]; unfold LMAX at this; omega), if_pos (by
          rw [inLL_iff]; unfold LMAX at this; omega), Res.ok_bind]
        rfl
    · rw [if_neg (fun h => h2 (hc.1 h)), if_neg (by tauto)]
      rfl

/-- **C52, hexadecimal and octal.**  For every sequence of hexadecimal (octal) digits after `0x` or
`0X` (`0o`), the literal is the number they denote, or invalid if that exceeds 2^63 − 1. -/
theorem C52_based (ds : List (Char × Nat)) :
    ((∀ p ∈ ds, Json.HexDigit p.1 p.2) → ∀ x ∈ ['x', 'X'],
      numTok ('0' :: x :: ds.map Prod.fst) =
        .ok (if (Nat.ofDigits 16 (ds.map Prod.snd).reverse : Nat) < 2 ^ 63
          then .int ((Nat.ofDigits 16 (ds.map Prod.snd).reverse : Nat) : Int) else .invalid)) ∧
    ((∀ p ∈ ds, p ∈ "01234567".toList.zipIdx) →
      numTok ('0' :: 'o' :: ds.map Prod.fst) =
        .ok (if (Nat.ofDigits 8 (ds.map Prod.snd).reverse : Nat) < 2 ^ 63
          then .int ((Nat.ofDigits 8 (ds.map Prod.snd).reverse : Nat) : Int) else .invalid)) := by
  have key : ∀ (b : Nat) (ds : List (Char × Nat)), (∀ p ∈ ds, hexVal p.1 = p.2) →
      ((ds.map Prod.fst).foldl (fun n c => n * b + hexVal c) 0 : Nat) = Nat.ofDigits b (ds.map Prod.snd).reverse := by
    intro b ds h
    have gen : ∀ (ds : List (Char × Nat)) (a : List Nat), (∀ p ∈ ds, hexVal p.1 = p.2) →
        (ds.map Prod.fst).foldl (fun n c => n * b + hexVal c) (Nat.ofDigits b a) =
          Nat.ofDigits b ((ds.map Prod.snd).reverse ++ a) := by
      intro ds
      induction ds with
      | nil => intro a _; rfl
      | cons p ds ih =>
        intro a hp
        have e : Nat.ofDigits b a * b + hexVal p.1 = Nat.ofDigits b (p.2 :: a) := by
          rw [Nat.ofDigits_cons, hp p (by simp)]
          push_cast
          ring
        rw [List.map_cons, List.foldl_cons, e, ih _ (fun q hq => hp q (by simp [hq]))]
        simp
    have := gen ds [] h
    simpa using this
  have cast : ∀ (b : Nat) (l : List Char), (l.foldl (fun n c => n * (b : Int) + (hexVal c : Int)) 0 : Int) =
      ((l.foldl (fun n c => n * b + hexVal c) 0 : Nat) : Int) := by
    intro b l
    have gen : ∀ (l : List Char) (n : Nat), (l.foldl (fun n c => n * (b : Int) + (hexVal c : Int)) (n : Int) : Int) =
        ((l.foldl (fun n c => n * b + hexVal c) n : Nat) : Int) := by
      intro l
      induction l with
      | nil => intro n; rfl
      | cons c l ih =>
        intro n
        rw [List.foldl_cons, List.foldl_cons, ← ih]
        push_cast
        rfl
    exact gen l 0
  have fin : ∀ b n : Nat, (((if (n : Int) ≤ LMAX then some (n : Int) else none) : Option Int).elim NTok.invalid NTok.int) =
      if n < 2 ^ 63 then NTok.int n else NTok.invalid := by
    intro b n
    have : (n : Int) ≤ LMAX ↔ n < 2 ^ 63 := by unfold LMAX; omega
    by_cases h : n < 2 ^ 63
    · rw [if_pos (this.2 h), if_pos h]
      rfl
    · rw [if_neg (fun h' => h (this.1 h')), if_neg h]
      rfl
  constructor
  · intro h x hx
    have hv : ∀ p ∈ ds, hexVal p.1 = p.2 := fun p hp => (h p hp).facts.2.1
    have e : numTok ('0' :: x :: ds.map Prod.fst) = .ok ((baseStrToInt 16 (ds.map Prod.fst)).elim .invalid .int) := by
      simp only [List.mem_cons, List.not_mem_nil, or_false] at hx
      rcases hx with rfl | rfl <;> rfl
    rw [e]
    unfold baseStrToInt
    rw [cast, key 16 ds hv, fin 16]
  · intro h
    have hv : ∀ p ∈ ds, hexVal p.1 = p.2 := by
      have k2 : ∀ p ∈ "01234567".toList.zipIdx, hexVal p.1 = p.2 := by decide +kernel
      exact fun p hp => k2 p (h p hp)
    show Res.ok ((baseStrToInt 8 (ds.map Prod.fst)).elim NTok.invalid NTok.int) = _
    unfold baseStrToInt
    rw [cast, key 8 ds hv, fin 8]

/-- **C52, round trip.**  Every 64-bit integer, printed in decimal and read again, is the same
integer. -/
theorem C52_roundtrip (v : Int) (hv : inLL v) :
    (numTok (Nat.toDigits 10 v.natAbs) >>= numExpr (decide (v < 0))) = .ok (some v) := by
  have hd : Json.Digits (Nat.toDigits 10 v.natAbs) := by
    refine ⟨Nat.toDigits_ne_nil, ?_⟩
    intro c hc
    have := Nat.isDigit_of_mem_toDigits (by decide) (by decide) hc
    simp only [Char.isDigit, Bool.and_eq_true, decide_eq_true_eq] at this
    exact ⟨this.1, this.2⟩
  rw [C52_decimal _ _ hd, Nat.ofDigitChars_toDigits (by decide) (by decide)]
  rw [inLL_iff] at hv
  by_cases h : v.natAbs < 2 ^ 63
  · rw [if_pos (Or.inl h)]
    unfold Json.intValue
    rw [Nat.ofDigitChars_toDigits (by decide) (by decide)]
    congr 2
    by_cases h0 : v < 0
    · simp only [h0, decide_true, if_true]
      omega
    · simp only [h0, decide_false, Bool.false_eq_true, if_false]
      omega
  · have : v = -9223372036854775808 := by omega
    subst this
    decide +kernel

/-- Non-vacuity. -/
example : (numTok "007".toList >>= numExpr true) = .ok (some (-7)) :=
  C52_decimal true "007".toList ⟨by decide, by decide⟩
example : (numTok "9223372036854775808".toList >>= numExpr false) = .ok none :=
  C52_decimal false "9223372036854775808".toList ⟨by decide, by decide⟩
example : numTok "0x1F".toList = .ok (.int 31) :=
  (C52_based [('1', 1), ('F', 15)]).1 (by decide +kernel) 'x' (by simp)

end MZ
