import Verif.Linear.Lemmas

/-!
# Identifiers: printing and lexing
-/

namespace MZ
namespace Lex

/-- `idBegin`, `include/minizinc/prettyprinter.hh:76`; `[A-Za-z]` in `lib/lexer.lxx`. -/
def isLetter (c : Char) : Bool :=
  (decide ('A' ≤ c) && decide (c ≤ 'Z')) || (decide ('a' ≤ c) && decide (c ≤ 'z'))

/-- `idChars`, `include/minizinc/prettyprinter.hh:75`; `[A-Za-z0-9_]` in `lib/lexer.lxx`. -/
def isIdChar (c : Char) : Bool :=
  isLetter c || (decide ('0' ≤ c) && decide (c ≤ '9')) || decide (c = '_')

/-- `strchr(set, c) != nullptr`: the terminating NUL counts as a member.
`include/minizinc/prettyprinter.hh:97`, `:102`. -/
def strchr (set : Char → Bool) (c : Char) : Bool := set c || decide (c = '\x00')

/-- The reserved words of `Printer::quoteId`, `include/minizinc/prettyprinter.hh:85-93`. -/
def reserved : List (List Char) :=
  ["ann", "annotation", "any", "array", "bool", "case", "constraint",
   "default", "diff", "div", "else", "elseif", "endif", "enum",
   "false", "float", "function", "if", "in", "include", "int",
   "intersect", "let", "list", "maximize", "minimize", "mod", "not",
   "of", "op", "opt", "output", "par", "predicate", "record",
   "satisfy", "set", "solve", "string", "subset", "superset", "symdiff",
   "test", "then", "true", "tuple", "type", "union", "var",
   "where", "xor"].map String.toList

/-- Text in single quotes, `include/minizinc/prettyprinter.hh:98`, `:103`. -/
def inQuotes (s : List Char) : List Char := '\'' :: s ++ ['\'']

/-- `Printer::quoteId`, `include/minizinc/prettyprinter.hh:73-107`.  `s` is the identifier's text,
free of NUL bytes; `getD _ '\x00'` is the terminator of `c_str()`. -/
def quoteId (s : List Char) : List Char :=
  if s.head? = some '\'' then s
  else
    let offset := if s.head? = some '_' then 1 else 0
    if s ∈ reserved ∨ strchr isLetter (s.getD offset '\x00') = false then inQuotes s
    else if (s.drop (1 + offset)).all (strchr isIdChar) then s
    else inQuotes s

/-- The keywords of the lexer that consist of identifier characters, `lib/lexer.lxx:203-204`,
`:265-325` (`"true"` to `"xor"`). -/
def keywords : List (List Char) :=
  ["true", "false", "ann", "annotation", "any", "array", "bool", "case", "constraint", "default",
   "div", "diff", "else", "elseif", "endif", "enum", "float", "function", "if", "include",
   "infinity", "intersect", "in", "int", "let", "list", "maximize", "minimize", "mod", "not", "of",
   "output", "opt", "par", "predicate", "record", "satisfy", "set", "solve", "string", "subset",
   "superset", "symdiff", "test", "then", "tuple", "type", "union", "var", "variant_record",
   "where", "xor"].map String.toList

/-- The operators that have a token of their own when written between single quotes,
`lib/lexer.lxx:256-262`, `:273-363`. -/
def quotedOps : List (List Char) :=
  ["..", "..<", "<..", "<..<", "div", "diff", "intersect", "in", "mod", "not", "subset", "superset",
   "symdiff", "union", "xor", "+", "-", "*", "/", "^", "++", "<", "<=", ">", ">=", "==", "=", "!=",
   "->", "<-", "<->", "\\/", "/\\"].map String.toList

/-- Tokens for words. -/
inductive WTok where
  /-- `MZN_IDENTIFIER` with its text. -/
  | ident (s : List Char)
  | keyword (s : List Char)
  | quotedOp (s : List Char)
  | underscore
  | other
  deriving DecidableEq, Repr

/-- The class `[^'\xa\xd\x0]`, `lib/lexer.lxx:382`. -/
def isQuotable (c : Char) : Bool :=
  !(decide (c = '\'') || decide (c = '\n') || decide (c = '\r') || decide (c = '\x00'))

/-- A maximal word is a keyword or an identifier: a keyword and the identifier rule match the same
length, and the keyword's rule comes first.  `lib/lexer.lxx:203-381`. -/
def word (w rest : List Char) : WTok × List Char :=
  if w ∈ keywords then (.keyword w, rest) else (.ident w, rest)

/-- The token at the head of a text that starts with a letter, an underscore or a single quote, in
a MiniZinc (not FlatZinc) file: longest match, earliest rule on ties.
`lib/lexer.lxx:203-392`; texts starting otherwise are `other`. -/
def lexWord : List Char → WTok × List Char
  | [] => (.other, [])
  | c :: r =>
    if c = '\'' then
      if (r.takeWhile isQuotable ≠ [] ∧ (r.dropWhile isQuotable).head? = some '\'') then
        (if r.takeWhile isQuotable ∈ quotedOps then .quotedOp (r.takeWhile isQuotable)
         else .ident (r.takeWhile isQuotable), (r.dropWhile isQuotable).tail)
      else (.other, r)
    else if isLetter c then word (c :: r.takeWhile isIdChar) (r.dropWhile isIdChar)
    else if c = '_' then
      if (r.head?.map isLetter) = some true then
        word ('_' :: r.takeWhile isIdChar) (r.dropWhile isIdChar)
      else (.underscore, r)
    else (.other, r)

theorem letter_idChar {c : Char} (h : isLetter c = true) : isIdChar c = true := by
  simp [isIdChar, h]

theorem idChar_quotable {c : Char} (h : isIdChar c = true) : isQuotable c = true := by
  by_contra hc
  have : c = '\'' ∨ c = '\n' ∨ c = '\r' ∨ c = '\x00' := by
    simp only [isQuotable, Bool.not_eq_true', Bool.not_eq_false, Bool.or_eq_true, decide_eq_true_eq] at hc
    tauto
  rcases this with rfl | rfl | rfl | rfl <;> exact absurd h (by decide)

theorem takeWhile_stop {p : Char → Bool} {a b : List Char} (ha : ∀ c ∈ a, p c = true)
    (hb : ∀ c, b.head? = some c → p c = false) : (a ++ b).takeWhile p = a ∧ (a ++ b).dropWhile p = b := by
  induction a with
  | nil =>
    cases b with
    | nil => simp
    | cons c b => simp [hb c rfl]
  | cons c a ih =>
    have := ih (fun x hx => ha x (by simp [hx]))
    simp [ha c (by simp), this.1, this.2]

theorem takeWhile_mem {p : Char → Bool} (l : List Char) : ∀ c ∈ l.takeWhile p, p c = true := by
  induction l with
  | nil => simp
  | cons c l ih =>
    by_cases h : p c = true
    · simp only [List.takeWhile_cons_of_pos h, List.mem_cons]
      rintro x (rfl | hx)
      · exact h
      · exact ih x hx
    · simp [List.takeWhile_cons_of_neg h]

/-- Texts of the shape `_?[A-Za-z][A-Za-z0-9_]*`. -/
def WordShape (s : List Char) : Prop :=
  (∃ c r, s = c :: r ∧ isLetter c = true ∧ ∀ x ∈ r, isIdChar x = true) ∨
  (∃ c r, s = '_' :: c :: r ∧ isLetter c = true ∧ ∀ x ∈ r, isIdChar x = true)

theorem WordShape.idChars {s : List Char} (h : WordShape s) : ∀ x ∈ s, isIdChar x = true := by
  rcases h with ⟨c, r, rfl, h1, h2⟩ | ⟨c, r, rfl, h1, h2⟩
  · intro x hx
    rcases List.mem_cons.1 hx with rfl | hx
    · exact letter_idChar h1
    · exact h2 x hx
  · intro x hx
    rcases List.mem_cons.1 hx with rfl | hx
    · decide
    · rcases List.mem_cons.1 hx with rfl | hx
      · exact letter_idChar h1
      · exact h2 x hx

theorem lexWord_word {s rest : List Char} (h : WordShape s)
    (hr : ∀ c, rest.head? = some c → isIdChar c = false) : lexWord (s ++ rest) = word s rest := by
  have hall := h.idChars
  rcases h with ⟨c, r, rfl, h1, h2⟩ | ⟨c, r, rfl, h1, h2⟩
  · have hc : c ≠ '\'' := by rintro rfl; exact absurd h1 (by decide)
    obtain ⟨e1, e2⟩ := takeWhile_stop h2 hr
    simp only [List.cons_append, lexWord, if_neg hc, h1, if_true, e1, e2]
  · obtain ⟨e1, e2⟩ := takeWhile_stop (a := c :: r) (fun x hx => hall x (by simp only [List.mem_cons] at hx ⊢; tauto)) hr
    rw [List.cons_append] at e1 e2
    have : isLetter '_' = false := by decide
    simp only [List.cons_append, lexWord, this, e1, e2, List.head?_cons, Option.map_some, h1, if_true,
      Bool.false_eq_true, if_false, Char.reduceEq]

theorem lexWord_quoted {s rest : List Char} (h0 : s ≠ []) (h : ∀ c ∈ s, isQuotable c = true) :
    lexWord (inQuotes s ++ rest) =
      (if s ∈ quotedOps then .quotedOp s else .ident s, rest) := by
  obtain ⟨e1, e2⟩ := takeWhile_stop (b := '\'' :: rest) h (fun c hc => by
    simp only [List.head?_cons, Option.some.injEq] at hc; rw [← hc]; rfl)
  have e3 : inQuotes s ++ rest = '\'' :: (s ++ '\'' :: rest) := by simp [inQuotes]
  rw [e3]
  simp only [lexWord, if_true, e1, e2, List.head?_cons, List.tail_cons, ne_eq, h0, not_false_eq_true,
    and_self]

/-- What identifiers the lexer can deliver. -/
theorem lexWord_ident {src s r : List Char} (h : lexWord src = (.ident s, r)) :
    (WordShape s ∧ s ∉ keywords) ∨ (s ≠ [] ∧ (∀ c ∈ s, isQuotable c = true) ∧ s ∉ quotedOps) := by
  unfold lexWord at h
  split at h
  · simp at h
  · rename_i c t
    split at h
    · split at h
      · rename_i h1
        split at h
        · simp at h
        · rename_i h2
          simp only [Prod.mk.injEq, WTok.ident.injEq] at h
          obtain ⟨rfl, _⟩ := h
          exact Or.inr ⟨h1.1, takeWhile_mem _, h2⟩
      · simp at h
    · split at h
      · rename_i h1
        unfold word at h
        split at h
        · simp at h
        · rename_i h2
          simp only [Prod.mk.injEq, WTok.ident.injEq] at h
          obtain ⟨rfl, _⟩ := h
          exact Or.inl ⟨Or.inl ⟨c, _, rfl, h1, takeWhile_mem _⟩, h2⟩
      · split at h
        · split at h
          · rename_i h1
            unfold word at h
            split at h
            · simp at h
            · rename_i h2
              simp only [Prod.mk.injEq, WTok.ident.injEq] at h
              obtain ⟨rfl, _⟩ := h
              cases t with
              | nil => simp at h1
              | cons d t =>
                simp only [List.head?_cons, Option.map_some, Option.some.injEq] at h1
                have e := letter_idChar h1
                rw [List.takeWhile_cons_of_pos e] at h2 ⊢
                exact Or.inl ⟨Or.inr ⟨d, _, rfl, h1, takeWhile_mem _⟩, h2⟩
          · simp at h
        · simp at h

theorem keywords_reserved : ∀ k ∈ keywords, k ∈ reserved ∨ k = "infinity".toList ∨ k = "variant_record".toList := by
  decide +kernel

theorem ops_keywords : ∀ q ∈ quotedOps, q ∈ keywords ∨ q.all isIdChar = false := by
  decide +kernel

theorem strchr_of_ne {p : Char → Bool} {c : Char} (h : strchr p c = true) (hc : c ≠ '\x00') : p c = true := by
  simpa [strchr, hc] using h

/-- `quoteId` either quotes, or leaves a word, or leaves a lone underscore. -/
theorem quoteId_cases {s : List Char} (h0 : s ≠ []) (h1 : '\'' ∉ s) (h2 : '\x00' ∉ s) :
    quoteId s = inQuotes s ∨ (quoteId s = s ∧ s ∉ reserved ∧ (WordShape s ∨ s = ['_'])) := by
  have hh : s.head? ≠ some '\'' := by
    intro e
    cases s with
    | nil => simp at e
    | cons c s =>
      simp only [List.head?_cons, Option.some.injEq] at e
      exact h1 (by simp [e])
  simp only [quoteId, if_neg hh]
  by_cases hc : s ∈ reserved ∨ strchr isLetter (s.getD (if s.head? = some '_' then 1 else 0) '\x00') = false
  · rw [if_pos hc]
    exact Or.inl rfl
  · rw [if_neg hc]
    rw [not_or] at hc
    obtain ⟨hc1, hc2⟩ := hc
    rw [Bool.not_eq_false] at hc2
    by_cases ha : (s.drop (1 + if s.head? = some '_' then 1 else 0)).all (strchr isIdChar) = true
    · rw [if_pos ha]
      refine Or.inr ⟨rfl, hc1, ?_⟩
      rw [List.all_eq_true] at ha
      cases s with
      | nil => exact absurd rfl h0
      | cons c s =>
        by_cases hu : c = '_'
        · subst hu
          simp only [List.head?_cons, if_true, Nat.reduceAdd, List.drop_succ_cons, List.getD_cons_succ] at hc2 ha
          cases s with
          | nil => exact Or.inr rfl
          | cons d s =>
            refine Or.inl (Or.inr ⟨d, s, rfl, ?_, ?_⟩)
            · exact strchr_of_ne hc2 (fun e => h2 (by rw [← e]; simp))
            · intro x hx
              exact strchr_of_ne (ha x (by simpa using hx)) (fun e => h2 (by rw [← e]; simp [hx]))
        · have : (c :: s).head? ≠ some '_' := by simpa using hu
          simp only [if_neg this, Nat.add_zero, List.drop_succ_cons, List.drop_zero, List.getD_cons_zero] at hc2 ha
          refine Or.inl (Or.inl ⟨c, s, rfl, ?_, ?_⟩)
          · exact strchr_of_ne hc2 (fun e => h2 (by simp [e]))
          · intro x hx
            exact strchr_of_ne (ha x hx) (fun e => h2 (by rw [← e]; simp [hx]))
    · rw [if_neg ha]
      exact Or.inl rfl

end Lex

open Lex

/-- **C50 (identifiers survive printing and re-lexing).**  Let `s` be any identifier the lexer
delivered from some source text.  Printing it and lexing the result, followed by any text that does
not continue a word, gives the identifier `s` again and leaves the following text, if and only if
`s` is none of the three texts `_`, `infinity` and `variant_record`. -/
theorem C50_roundtrip_iff (src r s rest : List Char) (h : lexWord src = (.ident s, r))
    (hr : ∀ c, rest.head? = some c → isIdChar c = false) :
    lexWord (quoteId s ++ rest) = (.ident s, rest) ↔
      s ∉ [['_'], "infinity".toList, "variant_record".toList] := by
  have hs := lexWord_ident h
  have h0 : s ≠ [] := by
    rcases hs with ⟨⟨c, t, e, _⟩ | ⟨c, t, e, _⟩, _⟩ | ⟨h, _⟩
    · rw [e]; simp
    · rw [e]; simp
    · exact h
  have hq : ∀ c ∈ s, isQuotable c = true := by
    rcases hs with ⟨h, _⟩ | ⟨_, h, _⟩
    · exact fun c hc => idChar_quotable (h.idChars c hc)
    · exact h
  have ho : s ∉ quotedOps := by
    rcases hs with ⟨h, hk⟩ | ⟨_, _, h⟩
    · intro hm
      rcases ops_keywords s hm with h1 | h1
      · exact hk h1
      · exact absurd (List.all_eq_true.2 h.idChars) (by rw [h1]; simp)
    · exact h
  have q1 : '\'' ∉ s := fun e => absurd (hq _ e) (by decide)
  have q2 : '\x00' ∉ s := fun e => absurd (hq _ e) (by decide)
  have hquoted : lexWord (inQuotes s ++ rest) = (.ident s, rest) := by
    rw [lexWord_quoted h0 hq, if_neg ho]
  constructor
  · intro hl hm
    simp only [List.mem_cons, List.not_mem_nil, or_false] at hm
    have key : ∀ t : List Char, t ∈ keywords → WordShape t → quoteId t = t → s = t → False := by
      intro t ht hw hqt e
      subst e
      rw [hqt, lexWord_word hw hr, word, if_pos ht] at hl
      simp at hl
    rcases hm with rfl | e | e
    · have e1 : quoteId ['_'] = ['_'] := by decide
      rw [e1] at hl
      cases rest with
      | nil => simp [lexWord] at hl; exact absurd hl (by decide)
      | cons c t =>
        have := hr c rfl
        have hl2 : isLetter c = false := by
          by_contra hcc
          rw [Bool.not_eq_false] at hcc
          rw [letter_idChar hcc] at this
          exact absurd this (by simp)
        have hu : isLetter '_' = false := by decide
        simp [lexWord, hl2, hu] at hl
    · exact key _ (by decide +kernel) (Or.inl ⟨'i', "nfinity".toList, by decide, by decide, by decide⟩)
        (by decide +kernel) e
    · exact key _ (by decide +kernel)
        (Or.inl ⟨'v', "ariant_record".toList, by decide, by decide, by decide⟩) (by decide +kernel) e
  · intro hm
    simp only [List.mem_cons, List.not_mem_nil, or_false, not_or] at hm
    rcases quoteId_cases h0 q1 q2 with e | ⟨e, hres, hw | hw⟩
    · rw [e, hquoted]
    · rw [e, lexWord_word hw hr, word, if_neg]
      intro hk
      rcases keywords_reserved s hk with h1 | h1 | h1
      · exact hres h1
      · exact hm.2.1 h1
      · exact hm.2.2 h1
    · exact absurd hw hm.1

/-- **C50 fails for `infinity`, `variant_record` and `_`.**  All three can be written as quoted
identifiers; they are printed without quotes, and the result is a keyword or the wildcard. -/
theorem C50_fails :
    lexWord "'infinity';".toList = (.ident "infinity".toList, [';']) ∧
    lexWord (quoteId "infinity".toList) = (.keyword "infinity".toList, []) ∧
    lexWord "'variant_record';".toList = (.ident "variant_record".toList, [';']) ∧
    lexWord (quoteId "variant_record".toList) = (.keyword "variant_record".toList, []) ∧
    lexWord "'_';".toList = (.ident ['_'], [';']) ∧ lexWord (quoteId ['_']) = (.underscore, []) := by
  refine ⟨?_, ?_, ?_, ?_, ?_, ?_⟩ <;> decide +kernel

/-- Non-vacuity: a reserved word, an ordinary identifier and one with a blank. -/
example : lexWord (quoteId "if".toList ++ [';']) = (.ident "if".toList, [';']) :=
  (C50_roundtrip_iff "'if'".toList [] _ _ (by decide +kernel) (by simp; decide)).2 (by decide)
example : quoteId "_x1".toList = "_x1".toList ∧ quoteId "my var".toList = "'my var'".toList := by
  decide +kernel

end MZ
