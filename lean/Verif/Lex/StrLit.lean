import Verif.Linear.Lemmas

/-!
# String literals: printing and lexing

Text is a list of bytes; a byte is written as the character whose code it is (0–255).
-/

namespace MZ
namespace Lex

/-- One byte of `Printer::escapeStringLit`, `include/minizinc/prettyprinter.hh:51-68`. -/
def escByte (c : Char) : List Char :=
  if c = '\n' then ['\\', 'n']
  else if c = '\t' then ['\\', 't']
  else if c = '"' then ['\\', '"']
  else if c = '\\' then ['\\', '\\']
  else [c]

/-- `Printer::escapeStringLit`, `include/minizinc/prettyprinter.hh:47-71`. -/
def escape (s : List Char) : List Char := s.flatMap escByte

/-- The printed form of a string literal, `lib/prettyprinter.cpp:354`. -/
def printLit (s : List Char) : List Char := '"' :: escape s ++ ['"']

/-- The class `[0-9a-fA-F]` used at `lib/lexer.lxx:428`. -/
def isHex (c : Char) : Bool :=
  (decide ('0' ≤ c) && decide (c ≤ '9')) || (decide ('a' ≤ c) && decide (c ≤ 'f')) ||
    (decide ('A' ≤ c) && decide (c ≤ 'F'))

/-- The class `[0-7]` used at `lib/lexer.lxx:436`. -/
def isOct (c : Char) : Bool := decide ('0' ≤ c) && decide (c ≤ '7')

/-- Value of a hexadecimal digit, as read by `std::hex` extraction in `hexstrtointval`,
`lib/lexer.lxx:78-82`. -/
def hexVal (c : Char) : Nat :=
  if decide ('0' ≤ c) && decide (c ≤ '9') then c.toNat - 48
  else if decide ('a' ≤ c) && decide (c ≤ 'f') then c.toNat - 87
  else c.toNat - 55

/-- `static_cast<char>(v)`, `lib/lexer.lxx:431`, `:439`: the low eight bits. -/
def toByte (v : Nat) : Char := Char.ofNat (v % 256)

/-- What the lexer hands to the parser in the states `string` and `string_quote`,
`lib/lexer.lxx:424-456`. -/
inductive Tok where
  /-- `MZN_STRING_LITERAL` with its text. -/
  | literal (s : List Char)
  /-- `MZN_STRING_QUOTE_START`: text before an interpolated expression. -/
  | quoteStart (s : List Char)
  /-- A single character no rule covers (a syntax error in the parser). -/
  | char (c : Char)
  /-- `MZN_END_OF_LINE_IN_STRING`. -/
  | endOfLine
  /-- `MZN_INVALID_NULL`, the rule `<*>\x0` at `lib/lexer.lxx:165`. -/
  | invalidNull
  /-- `MZN_UNTERMINATED_STRING`. -/
  | unterminated
  deriving DecidableEq, Repr

/-- `bufferData`, `lib/lexer.lxx:146-150`: `strdup(stringBuffer.c_str())` stops at the first NUL. -/
def bufferData (buf : List Char) : List Char := buf.takeWhile (fun c => c ≠ '\x00')

/-- An escape sequence of a string literal, given what follows the backslash: the byte it appends
and the remaining input, or `none` when no escape rule matches.  flex takes the longest match, so
`\x` and octal escapes take as many digits as their patterns allow.
`lib/lexer.lxx:426-443`. -/
def lexEscape : List Char → Option (Char × List Char)
  | [] => none
  | d :: r =>
    if d = 'n' then some ('\n', r)
    else if d = 't' then some ('\t', r)
    else if d = 'x' then
      match r with
      | [] => none
      | h :: r' =>
        if isHex h then
          match r' with
          | [] => some (toByte (hexVal h), [])
          | k :: r'' =>
            if isHex k then some (toByte (hexVal h * 16 + hexVal k), r'')
            else some (toByte (hexVal h), k :: r'')
        else none
    else if isOct d then
      match r with
      | [] => some (toByte (hexVal d), [])
      | e :: r' =>
        if isOct e then
          match r' with
          | [] => some (toByte (hexVal d * 8 + hexVal e), [])
          | f :: r'' =>
            if isOct f then some (toByte (hexVal d * 64 + hexVal e * 8 + hexVal f), r'')
            else some (toByte (hexVal d * 8 + hexVal e), f :: r'')
        else some (toByte (hexVal d), e :: r')
    else if d = '\\' ∨ d = '"' ∨ d = '\'' then some (d, r)
    else none

theorem lexEscape_length {i : List Char} {c : Char} {r : List Char}
    (h : lexEscape i = some (c, r)) : r.length < i.length := by
  unfold lexEscape at h
  split at h
  · exact absurd h (by simp)
  · repeat' split at h
    all_goals (cases h)
    all_goals (simp only [List.length_cons]; omega)

/-- The lexer in the state `string` after the opening quote, `lib/lexer.lxx:425-456`.  The maximal
run of ordinary bytes that the rule at `:425` takes in one match is appended byte by byte here,
which gives the same buffer. -/
def lexString (inp buf : List Char) : Tok × List Char :=
  match inp with
  | [] => (.unterminated, [])
  | c :: r =>
    if c = '\x00' then (.invalidNull, r)
    else if c = '\n' ∨ c = '\r' then (.endOfLine, r)
    else if c = '"' then (.literal (bufferData buf), r)
    else if c = '\\' then
      match h : lexEscape r with
      | some (b, r') => lexString r' (buf ++ [b])
      | none => if r.head? = some '(' then (.quoteStart (bufferData buf), r.tail) else (.char '\\', r)
    else lexString r (buf ++ [c])
  termination_by inp.length
  decreasing_by
    · have := lexEscape_length h
      simp only [List.length_cons]
      omega
    · simp

/-- The first string token of a text, `lib/lexer.lxx:424`: the opening quote enters the state
`string` with an empty buffer. -/
def lexLit : List Char → Option (Tok × List Char)
  | '"' :: r => some (lexString r [])
  | _ => none

theorem lexString_plain {c : Char} (r buf : List Char) (h0 : c ≠ '\x00') (h1 : c ≠ '\n')
    (h2 : c ≠ '\r') (h3 : c ≠ '"') (h4 : c ≠ '\\') :
    lexString (c :: r) buf = lexString r (buf ++ [c]) := by
  rw [lexString]
  simp [h0, h1, h2, h3, h4]

theorem lexString_esc {i r buf : List Char} {b : Char} (h : lexEscape i = some (b, r)) :
    lexString ('\\' :: i) buf = lexString r (buf ++ [b]) := by
  rw [lexString]
  simp only [Char.reduceEq, if_false, or_self, if_true]
  split
  · rename_i b' r' h'
    rw [h] at h'
    simp only [Option.some.injEq, Prod.mk.injEq] at h'
    rw [h'.1, h'.2]
  · rename_i h'
    rw [h] at h'
    exact absurd h' (by simp)

theorem lexString_escByte {c : Char} (r buf : List Char) (h0 : c ≠ '\x00') (h2 : c ≠ '\r') :
    lexString (escByte c ++ r) buf = lexString r (buf ++ [c]) := by
  unfold escByte
  split
  · rename_i h
    subst h
    exact lexString_esc rfl
  · split
    · rename_i h
      subst h
      exact lexString_esc rfl
    · split
      · rename_i h
        subst h
        exact lexString_esc rfl
      · split
        · rename_i h
          subst h
          exact lexString_esc rfl
        · rename_i h1 _ h3 h4
          exact lexString_plain r buf h0 h1 h2 h3 h4

theorem lexString_escape (s r buf : List Char) (h0 : '\x00' ∉ s) (h2 : '\r' ∉ s) :
    lexString (escape s ++ r) buf = lexString r (buf ++ s) := by
  induction s generalizing buf with
  | nil => simp [escape]
  | cons c s ih =>
    have e : escape (c :: s) ++ r = escByte c ++ (escape s ++ r) := by simp [escape]
    rw [e, lexString_escByte _ _ (fun h => h0 (by simp [h])) (fun h => h2 (by simp [h])),
      ih _ (fun h => h0 (by simp [h])) (fun h => h2 (by simp [h]))]
    simp

theorem bufferData_of_no_nul {s : List Char} (h : '\x00' ∉ s) : bufferData s = s := by
  unfold bufferData
  induction s with
  | nil => rfl
  | cons c s ih =>
    rw [List.takeWhile_cons_of_pos (by simpa using fun e => h (by simp [e])),
      ih (fun e => h (by simp [e]))]

theorem bufferData_no_nul (s : List Char) : '\x00' ∉ bufferData s := by
  unfold bufferData
  induction s with
  | nil => simp
  | cons c s ih =>
    by_cases h : c = '\x00'
    · simp [h]
    · rw [List.takeWhile_cons_of_pos (by simpa using h)]
      simp only [List.mem_cons, not_or]
      exact ⟨fun e => h e.symm, ih⟩

theorem lexString_quote (r buf : List Char) :
    lexString ('"' :: r) buf = (.literal (bufferData buf), r) := by
  rw [lexString]
  simp

/-- Every string literal token has NUL-free text. -/
theorem lexString_no_nul (inp buf v r : List Char) (h : lexString inp buf = (.literal v, r)) :
    '\x00' ∉ v := by
  induction inp, buf using lexString.induct <;> rw [lexString] at h <;> simp_all
  all_goals first
    | (rw [← h.1]; exact bufferData_no_nul _)
    | skip
  all_goals (split at h <;> simp_all)

theorem lexString_bad (s t r buf : List Char) (c : Char) (h0 : '\x00' ∉ s) (h2 : '\r' ∉ s)
    (hc : c = '\x00' ∨ c = '\r') : ∀ v r', lexString (escape (s ++ c :: t) ++ r) buf ≠ (.literal v, r') := by
  intro v r'
  have e : escape (s ++ c :: t) ++ r = escape s ++ (escByte c ++ (escape t ++ r)) := by simp [escape]
  rw [e, lexString_escape s _ _ h0 h2]
  rcases hc with rfl | rfl
  · have : escByte '\x00' = ['\x00'] := rfl
    rw [this, List.singleton_append, lexString]
    simp
  · have : escByte '\r' = ['\r'] := rfl
    rw [this, List.singleton_append, lexString]
    simp

theorem exists_first {p : Char → Prop} [DecidablePred p] (s : List Char) (h : ∃ c ∈ s, p c) :
    ∃ a c t, s = a ++ c :: t ∧ p c ∧ ∀ x ∈ a, ¬ p x := by
  induction s with
  | nil => simp at h
  | cons c s ih =>
    by_cases hc : p c
    · exact ⟨[], c, s, rfl, hc, by simp⟩
    · obtain ⟨x, hx, px⟩ := h
      rcases List.mem_cons.1 hx with e | e
      · exact absurd (e ▸ px) hc
      · obtain ⟨a, d, t, e1, e2, e3⟩ := ih ⟨x, e, px⟩
        refine ⟨c :: a, d, t, by simp [e1], e2, ?_⟩
        intro y hy
        rcases List.mem_cons.1 hy with e | e
        · exact e ▸ hc
        · exact e3 y e

end Lex

open Lex

/-- **C23 (string literals survive printing and re-parsing).**  For every byte string `s` and
every following text, lexing the printed literal gives back exactly the literal `s` and leaves the
following text, if and only if `s` contains neither a carriage return nor a NUL. -/
theorem C23_roundtrip_iff (s rest : List Char) :
    lexLit (printLit s ++ rest) = some (.literal s, rest) ↔ '\r' ∉ s ∧ '\x00' ∉ s := by
  have e : lexLit (printLit s ++ rest) = some (lexString (escape s ++ '"' :: rest) []) := by
    simp [printLit, lexLit]
  rw [e, Option.some.injEq]
  constructor
  · intro h
    by_contra hc
    have hx : ∃ c ∈ s, c = '\x00' ∨ c = '\r' := by
      by_cases h1 : '\r' ∈ s
      · exact ⟨_, h1, Or.inr rfl⟩
      · by_cases h2 : '\x00' ∈ s
        · exact ⟨_, h2, Or.inl rfl⟩
        · exact absurd ⟨h1, h2⟩ hc
    obtain ⟨a, c, t, e1, e2, e3⟩ := exists_first s hx
    subst e1
    exact lexString_bad a t _ [] c (fun h => e3 _ h (Or.inl rfl)) (fun h => e3 _ h (Or.inr rfl)) e2
      _ _ h
  · rintro ⟨h1, h2⟩
    rw [lexString_escape s _ _ h2 h1, lexString_quote, List.nil_append, bufferData_of_no_nul h2]

/-- **C23, for literals that come from source text.**  If the lexer produced a literal `v` from any
source text, and `v` has no carriage return, then printing `v` and lexing the result gives `v`
again. -/
theorem C23_reparse (src rest rest' v : List Char) (h : lexLit src = some (.literal v, rest))
    (hr : '\r' ∉ v) : lexLit (printLit v ++ rest') = some (.literal v, rest') := by
  refine (C23_roundtrip_iff v rest').2 ⟨hr, ?_⟩
  unfold lexLit at h
  split at h
  · rename_i r
    exact lexString_no_nul _ _ _ _ (Option.some.inj h)
  · exact absurd h (by simp)

/-- **C23 fails with a carriage return.**  The source literal `"\x0d"` is accepted and denotes a
carriage return, but its printed form is rejected by the lexer: the carriage return is printed raw
and ends the line. -/
theorem C23_cr_fails :
    lexLit "\"\\x0d\"".toList = some (.literal ['\r'], []) ∧
    lexLit (printLit ['\r']) = some (.endOfLine, ['"']) := by
  constructor
  · simp [lexLit, lexString, lexEscape, isHex, hexVal, toByte, bufferData]
  · simp [lexLit, lexString, printLit, escape, escByte]

/-- Non-vacuity: a literal with every escaped byte. -/
example : lexLit (printLit "a\n\t\"\\(b".toList ++ [';']) = some (.literal "a\n\t\"\\(b".toList, [';']) :=
  (C23_roundtrip_iff _ _).2 (by decide)

/-- **C23, NUL bytes.**  A literal written with a NUL escape is silently cut at the NUL. -/
theorem C23_nul_fails : lexLit "\"a\\0b\"".toList = some (.literal ['a'], []) := by
  simp [lexLit, lexString, lexEscape, isOct, hexVal, toByte, bufferData]

end MZ
