import Verif.Syntax.Spec

/-!
# Operator expressions: the tokens of printed text
-/

namespace MZ
namespace Syn

/-- A list of tokens read one after the other. -/
inductive Lexes : List Tok → List Char → List Char → Prop
  | nil (r) : Lexes [] r r
  | cons {t ts inp r rest} : nextTok inp = some (t, r) → Lexes ts r rest → Lexes (t :: ts) inp rest

/-- Token of a natural number. -/
def natTok (n : Nat) : Tok := if n = 9223372036854775808 then .maxNeg else .int n

def intToks (i : Int) : List Tok := (if i < 0 then [.op .minus] else []) ++ [natTok i.natAbs]

def wrapT (b : Bool) (t : List Tok) : List Tok := if b then .lpar :: t ++ [.rpar] else t

def UOp.tok : UOp → Tok
  | .not => .not
  | .plus => .op .plus
  | .minus => .op .minus

mutual
/-- The tokens of the printed text. -/
def toks : E → List Tok
  | .int i => intToks i
  | .ref s => [.ident s]
  | .range a b => intToks a ++ .op .dotdot :: intToks b
  | .call f args => .ident f :: .lpar :: toksArgs true args ++ [.rpar]
  | .bin o l r =>
    if o = .pow ∧ print r = ['-', '1'] then wrapT (parenL o l) (toks l) ++ [.powm1]
    else wrapT (parenL o l) (toks l) ++ .op o :: wrapT (parenR o r) (toks r)
  | .un u e => u.tok :: wrapT (parenU e) (toks e)

def toksArgs : Bool → Es → List Tok
  | _, .nil => []
  | first, .cons e r => (if first then [] else [.comma]) ++ toks e ++ toksArgs false r
end

/-- What can follow an operand. -/
def Stop (r : List Char) : Prop :=
  ∀ c, r.head? = some c → Lex.isIdChar c = false ∧ (c = '.' → r.tail.head? = some '.')

/-- Characters an operand can start with. -/
def isStart (c : Char) : Bool :=
  Lex.isIdChar c || decide (c = '\'') || decide (c = '-') || decide (c = '+') || decide (c = '(')

def LexAs (ts0 : List Tok) (t : List Char) : Prop :=
  ∀ ts r rest, Stop r → Lexes ts r rest → Lexes (ts0 ++ ts) (t ++ r) rest

theorem nextTok_space (x : List Char) : nextTok (' ' :: x) = nextTok x := by
  simp [nextTok, isWs]

theorem Lexes.space {t ts x rest} (h : Lexes (t :: ts) x rest) : Lexes (t :: ts) (' ' :: x) rest := by
  cases h with
  | cons h1 h2 => exact .cons (by rw [nextTok_space, h1]) h2

theorem nextTok_sym {c : Char} {r : List Char} {t} (hc : isWs c = false) (h : symTok (c :: r) = some t) :
    nextTok (c :: r) = some t := by
  simp [nextTok, hc, h]

theorem symTok_none {c : Char} {r : List Char}
    (h : c ∉ ['+', '-', '*', '/', '^', '<', '>', '=', '!', '.', '\\', '(', ')', ',']) : symTok (c :: r) = none := by
  unfold symTok
  split <;> first
    | rfl
    | (rename_i heq
       exact absurd (by rw [(List.cons.inj heq).1]; decide) h)

theorem idChar_sym {c : Char} (h : Lex.isIdChar c = true) :
    c ∉ ['+', '-', '*', '/', '^', '<', '>', '=', '!', '.', '\\', '(', ')', ','] := by
  intro hc
  have : ∀ d ∈ ['+', '-', '*', '/', '^', '<', '>', '=', '!', '.', '\\', '(', ')', ','], Lex.isIdChar d = false := by
    decide
  rw [this c hc] at h
  simp at h

theorem ws_idChar {c : Char} (h : Lex.isIdChar c = true) : isWs c = false := by
  by_contra hw
  rw [Bool.not_eq_false] at hw
  simp only [isWs, Bool.or_eq_true, decide_eq_true_eq] at hw
  rcases hw with (((rfl | rfl) | rfl) | rfl) | rfl <;> exact absurd h (by decide)

theorem dig_idChar {c : Char} (h : isDig c = true) : Lex.isIdChar c = true := by
  simp only [isDig] at h
  simp [Lex.isIdChar, h]

/-- Words. -/
theorem nextTok_word {c : Char} {r : List Char}
    (hc : Lex.isIdChar c = true ∨ c = '\'') (hd : isDig c = false) :
    nextTok (c :: r) = (match Lex.lexWord (c :: r) with
        | (.ident s, rest) => some (.ident s, rest)
        | (.keyword s, rest) => some (keywordTok s, rest)
        | (_, rest) => some (.bad, rest)) := by
  have hw : isWs c = false := by
    rcases hc with hc | rfl
    · exact ws_idChar hc
    · decide
  have hs : symTok (c :: r) = none := by
    apply symTok_none
    rcases hc with hc | rfl
    · exact idChar_sym hc
    · decide
  unfold nextTok
  rw [List.dropWhile_cons_of_neg (by simp [hw])]
  simp only [hs, hd, Bool.false_eq_true, if_false]
  rfl

theorem numberTok_stop {ds r : List Char} (h : Stop r) : numberTok ds r = (numberTok.plain ds, r) := by
  unfold numberTok
  split
  · rename_i c t
    have := (h '.' rfl).2 rfl
    simp only [List.tail_cons, List.head?_cons, Option.some.injEq] at this
    subst this
    rfl
  · exact absurd (h 'e' rfl).1 (by decide)
  · exact absurd (h 'E' rfl).1 (by decide)
  · exact absurd (h 'x' rfl).1 (by decide)
  · exact absurd (h 'X' rfl).1 (by decide)
  · exact absurd (h 'o' rfl).1 (by decide)
  · rfl

theorem isDig_digits {n : Nat} {c : Char} (h : c ∈ Nat.toDigits 10 n) : isDig c = true := by
  have := Nat.isDigit_of_mem_toDigits (by decide) (by decide) h
  simp only [Char.isDigit, Bool.and_eq_true, decide_eq_true_eq] at this
  simp only [isDig, Bool.and_eq_true, decide_eq_true_eq]
  exact ⟨this.1, this.2⟩

theorem plain_nat {n : Nat} (h : n ≤ 9223372036854775808) : numberTok.plain (Nat.toDigits 10 n) = natTok n := by
  have hd : ∀ c ∈ Nat.toDigits 10 n, '0' ≤ c ∧ c ≤ '9' := by
    intro c hc
    have := isDig_digits hc
    simpa [isDig] using this
  unfold numberTok.plain natTok
  rw [Lex.numTok_dec hd, Nat.ofDigitChars_toDigits (by decide) (by decide)]
  by_cases hn : n = 9223372036854775808
  · subst hn
    rw [if_pos (by decide), if_pos rfl]
  · have hne : Nat.toDigits 10 n ≠ "9223372036854775808".toList := by
      intro e
      have := congrArg (fun ds => Nat.ofDigitChars 10 ds 0) e
      simp only [Nat.ofDigitChars_toDigits (n := n) (b := 10) (by decide) (by decide)] at this
      exact hn (this.trans (by decide))
    rw [if_neg hne, if_neg hn, if_pos (by unfold LMAX; omega)]

theorem lexes_nat {n : Nat} (h : n ≤ 9223372036854775808) : LexAs [natTok n] (Nat.toDigits 10 n) := by
  intro ts r rest hr hl
  have hne : Nat.toDigits 10 n ≠ [] := Nat.toDigits_ne_nil
  obtain ⟨c, ds, e⟩ := List.exists_cons_of_ne_nil hne
  have hc : isDig c = true := isDig_digits (n := n) (by rw [e]; simp)
  refine .cons ?_ hl
  have h1 : nextTok (Nat.toDigits 10 n ++ r) = some (numberTok ((Nat.toDigits 10 n ++ r).takeWhile isDig)
      ((Nat.toDigits 10 n ++ r).dropWhile isDig)) := by
    rw [e, List.cons_append]
    unfold nextTok
    rw [List.dropWhile_cons_of_neg (by simp [ws_idChar (dig_idChar hc)])]
    simp only [symTok_none (idChar_sym (dig_idChar hc)), hc, if_true]
  obtain ⟨e1, e2⟩ := Lex.takeWhile_stop (p := isDig) (a := Nat.toDigits 10 n) (b := r) (fun c hc => isDig_digits hc) (by
    intro c hc
    by_contra hd
    rw [Bool.not_eq_false] at hd
    have := (hr c hc).1
    rw [dig_idChar hd] at this
    simp at this)
  rw [h1, e1, e2, numberTok_stop hr, plain_nat h]

theorem symTok_minus {x : List Char} (h : x.head? ≠ some '>') : symTok ('-' :: x) = some (.op .minus, x) := by
  cases x with
  | nil => rfl
  | cons c x =>
    rw [symTok]
    intro r e
    rw [e] at h
    simp at h

theorem digits_head (n : Nat) (r : List Char) (d : Char) (hd : isDig d = false) :
    (Nat.toDigits 10 n ++ r).head? ≠ some d := by
  obtain ⟨c, ds, e⟩ := List.exists_cons_of_ne_nil (Nat.toDigits_ne_nil (b := 10) (n := n))
  have hc : isDig c = true := isDig_digits (n := n) (by rw [e]; simp)
  rw [e]
  simp only [List.cons_append, List.head?_cons, ne_eq, Option.some.injEq]
  rintro rfl
  rw [hd] at hc
  simp at hc

theorem lexes_int {i : Int} (h : inLL i) : LexAs (intToks i) (intText i) := by
  rw [inLL_iff] at h
  unfold intToks intText
  have hn := lexes_nat (n := i.natAbs) (by omega)
  by_cases hi : i < 0
  · simp only [if_pos hi]
    intro ts r rest hr hl
    exact .cons (nextTok_sym (by decide) (symTok_minus (digits_head _ _ _ (by decide)))) (hn ts r rest hr hl)
  · simp only [if_neg hi]
    exact hn

theorem letter_dig {c : Char} (h : Lex.isLetter c = true) : isDig c = false := by
  simp only [Lex.isLetter, Bool.or_eq_true, Bool.and_eq_true, decide_eq_true_eq] at h
  by_contra hd
  simp only [isDig, Bool.not_eq_false, Bool.and_eq_true, decide_eq_true_eq] at hd
  have h1 : c.toNat ≤ '9'.toNat := hd.2
  have h9 : '9'.toNat = 57 := rfl
  have hA : 'A'.toNat = 65 := rfl
  have ha : 'a'.toNat = 97 := rfl
  rcases h with ⟨h, _⟩ | ⟨h, _⟩
  · have h2 : 'A'.toNat ≤ c.toNat := h
    omega
  · have h2 : 'a'.toNat ≤ c.toNat := h
    omega

theorem quoteId_start {s : List Char} (h : Name s) :
    ∃ c x, Lex.quoteId s = c :: x ∧ (Lex.isIdChar c = true ∨ c = '\'') ∧ isDig c = false := by
  obtain ⟨⟨src, t, h1⟩, h2⟩ := h
  have hs := Lex.lexWord_ident h1
  have h0 : s ≠ [] := by
    rcases hs with ⟨⟨c, t, e, _⟩ | ⟨c, t, e, _⟩, _⟩ | ⟨h, _⟩
    · rw [e]; simp
    · rw [e]; simp
    · exact h
  have hq : ∀ c ∈ s, Lex.isQuotable c = true := by
    rcases hs with ⟨h, _⟩ | ⟨_, h, _⟩
    · exact fun c hc => Lex.idChar_quotable (h.idChars c hc)
    · exact h
  have q1 : '\'' ∉ s := fun e => absurd (hq _ e) (by decide)
  have q2 : '\x00' ∉ s := fun e => absurd (hq _ e) (by decide)
  rcases Lex.quoteId_cases h0 q1 q2 with e | ⟨e, _, hw | hw⟩
  · exact ⟨'\'', s ++ ['\''], by rw [e]; rfl, Or.inr rfl, by decide⟩
  · rw [e]
    rcases hw with ⟨c, r, rfl, hc, _⟩ | ⟨c, r, rfl, hc, _⟩
    · exact ⟨c, r, rfl, Or.inl (Lex.letter_idChar hc), letter_dig hc⟩
    · exact ⟨'_', c :: r, rfl, Or.inl (by decide), by decide⟩
  · subst hw
    simp at h2

theorem lexes_name {s : List Char} (h : Name s) (r : List Char) (hr : Stop r) :
    nextTok (Lex.quoteId s ++ r) = some (.ident s, r) := by
  obtain ⟨⟨src, t, h1⟩, h2⟩ := h
  have h3 := (C50_roundtrip_iff src t s r h1 (fun c hc => (hr c hc).1)).2 h2
  obtain ⟨c, x, e, hc, hd⟩ := quoteId_start ⟨⟨src, t, h1⟩, h2⟩
  rw [e] at h3 ⊢
  rw [List.cons_append] at h3 ⊢
  rw [nextTok_word hc hd, h3]

/-! ## Operators -/

theorem kw_lex (c : Char) (w x : List Char) (hc : Lex.isLetter c = true) (hw : ∀ d ∈ w, Lex.isIdChar d = true)
    (hk : c :: w ∈ Lex.keywords) : nextTok (c :: w ++ ' ' :: x) = some (keywordTok (c :: w), ' ' :: x) := by
  have h1 := Lex.lexWord_word (s := c :: w) (rest := ' ' :: x) (Or.inl ⟨c, w, rfl, hc, hw⟩) (by
    intro d hd
    simp only [List.head?_cons, Option.some.injEq] at hd
    subst hd
    decide)
  rw [Lex.word, if_pos hk] at h1
  rw [List.cons_append] at h1 ⊢
  rw [nextTok_word (Or.inl (Lex.letter_idChar hc)) (letter_dig hc), h1]

theorem op_lex (o : Op) (c : Char) (x : List Char) (hc : isStart c = true) (hp : o = .plus → c ≠ '+')
    (hpow : o = .pow → ¬ ['-', '1'] <+: c :: x) :
    ∃ y, nextTok (o.text ++ c :: x) = some (.op o, y) ∧ (y = c :: x ∨ y = ' ' :: c :: x) := by
  have hne : ∀ d, isStart d = false → c ≠ d := by
    rintro d hd rfl
    rw [hd] at hc
    simp at hc
  cases o with
  | plus =>
    refine ⟨_, nextTok_sym (c := '+') (by decide) (t := (.op .plus, c :: x)) ?_, Or.inl rfl⟩
    show symTok ('+' :: c :: x) = _
    rw [symTok]
    intro r e
    exact hp rfl (List.cons.inj e).1
  | minus =>
    refine ⟨_, nextTok_sym (c := '-') (by decide) (t := (.op .minus, c :: x)) ?_, Or.inl rfl⟩
    refine symTok_minus ?_
    simpa using hne '>' (by decide)
  | mult => exact ⟨_, nextTok_sym (c := '*') (by decide) (t := (.op .mult, c :: x)) rfl, Or.inl rfl⟩
  | div =>
    refine ⟨_, nextTok_sym (c := '/') (by decide) (t := (.op .div, c :: x)) ?_, Or.inl rfl⟩
    show symTok ('/' :: c :: x) = _
    rw [symTok]
    · intro r e
      exact hne '*' (by decide) (List.cons.inj e).1
    · intro r e
      exact hne '\\' (by decide) (List.cons.inj e).1
  | pow =>
    refine ⟨_, nextTok_sym (c := '^') (by decide) (t := (.op .pow, c :: x)) ?_, Or.inl rfl⟩
    show symTok ('^' :: c :: x) = _
    rw [symTok]
    intro r e
    exact hpow rfl (by rw [e]; exact ⟨r, rfl⟩)
  | lq => exact ⟨_, nextTok_sym (c := '<') (by decide) (t := (.op .lq, c :: x)) rfl, Or.inl rfl⟩
  | gq => exact ⟨_, nextTok_sym (c := '>') (by decide) (t := (.op .gq, c :: x)) rfl, Or.inl rfl⟩
  | eq => exact ⟨_, nextTok_sym (c := '=') (by decide) (t := (.op .eq, c :: x)) rfl, Or.inl rfl⟩
  | nq => exact ⟨_, nextTok_sym (c := '!') (by decide) (t := (.op .nq, c :: x)) rfl, Or.inl rfl⟩
  | plusplus => exact ⟨_, nextTok_sym (c := '+') (by decide) (t := (.op .plusplus, c :: x)) rfl, Or.inl rfl⟩
  | dotdot =>
    refine ⟨_, nextTok_sym (c := '.') (by decide) (t := (.op .dotdot, c :: x)) ?_, Or.inl rfl⟩
    show symTok ('.' :: '.' :: c :: x) = _
    rw [symTok]
    intro r e
    exact hne '<' (by decide) (List.cons.inj e).1
  | le =>
    exact ⟨_, (nextTok_space _).trans (nextTok_sym (c := '<') (by decide) (t := (.op .le, ' ' :: c :: x)) rfl), Or.inr rfl⟩
  | gr =>
    exact ⟨_, (nextTok_space _).trans (nextTok_sym (c := '>') (by decide) (t := (.op .gr, ' ' :: c :: x)) rfl), Or.inr rfl⟩
  | equiv =>
    exact ⟨_, (nextTok_space _).trans (nextTok_sym (c := '<') (by decide) (t := (.op .equiv, ' ' :: c :: x)) rfl), Or.inr rfl⟩
  | impl =>
    exact ⟨_, (nextTok_space _).trans (nextTok_sym (c := '-') (by decide) (t := (.op .impl, ' ' :: c :: x)) rfl), Or.inr rfl⟩
  | rimpl =>
    exact ⟨_, (nextTok_space _).trans (nextTok_sym (c := '<') (by decide) (t := (.op .rimpl, ' ' :: c :: x)) rfl), Or.inr rfl⟩
  | or =>
    exact ⟨_, (nextTok_space _).trans (nextTok_sym (c := '\\') (by decide) (t := (.op .or, ' ' :: c :: x)) rfl), Or.inr rfl⟩
  | and =>
    exact ⟨_, (nextTok_space _).trans (nextTok_sym (c := '/') (by decide) (t := (.op .and, ' ' :: c :: x)) rfl), Or.inr rfl⟩
  | idiv => exact ⟨_, (nextTok_space _).trans (kw_lex 'd' "iv".toList _ (by decide) (by decide) (by decide +kernel)), Or.inr rfl⟩
  | mod => exact ⟨_, (nextTok_space _).trans (kw_lex 'm' "od".toList _ (by decide) (by decide) (by decide +kernel)), Or.inr rfl⟩
  | isIn => exact ⟨_, (nextTok_space _).trans (kw_lex 'i' "n".toList _ (by decide) (by decide) (by decide +kernel)), Or.inr rfl⟩
  | subset => exact ⟨_, (nextTok_space _).trans (kw_lex 's' "ubset".toList _ (by decide) (by decide) (by decide +kernel)), Or.inr rfl⟩
  | superset => exact ⟨_, (nextTok_space _).trans (kw_lex 's' "uperset".toList _ (by decide) (by decide) (by decide +kernel)), Or.inr rfl⟩
  | union => exact ⟨_, (nextTok_space _).trans (kw_lex 'u' "nion".toList _ (by decide) (by decide) (by decide +kernel)), Or.inr rfl⟩
  | diff => exact ⟨_, (nextTok_space _).trans (kw_lex 'd' "iff".toList _ (by decide) (by decide) (by decide +kernel)), Or.inr rfl⟩
  | symdiff => exact ⟨_, (nextTok_space _).trans (kw_lex 's' "ymdiff".toList _ (by decide) (by decide) (by decide +kernel)), Or.inr rfl⟩
  | intersect => exact ⟨_, (nextTok_space _).trans (kw_lex 'i' "ntersect".toList _ (by decide) (by decide) (by decide +kernel)), Or.inr rfl⟩
  | xor => exact ⟨_, (nextTok_space _).trans (kw_lex 'x' "or".toList _ (by decide) (by decide) (by decide +kernel)), Or.inr rfl⟩

theorem op_stop (o : Op) (x : List Char) : Stop (o.text ++ x) := by
  have : ∃ c d t, o.text ++ x = c :: t ∧ Lex.isIdChar c = false ∧ (c = '.' → t = '.' :: d) := by
    cases o <;> first
      | exact ⟨_, x, _, rfl, by decide, fun h => absurd h (by decide)⟩
      | exact ⟨_, x, _, rfl, by decide, fun _ => rfl⟩
  obtain ⟨c, d, t, e, h1, h2⟩ := this
  intro c' hc'
  rw [e] at hc' ⊢
  simp only [List.head?_cons, Option.some.injEq] at hc'
  subst hc'
  refine ⟨h1, fun h => ?_⟩
  rw [h2 h]
  rfl

theorem int_start (i : Int) : ∃ c x, intText i = c :: x ∧ isStart c = true ∧ (c = '-' → x ≠ []) := by
  obtain ⟨c, ds, e⟩ := List.exists_cons_of_ne_nil (Nat.toDigits_ne_nil (b := 10) (n := i.natAbs))
  have hc : isDig c = true := isDig_digits (n := i.natAbs) (by rw [e]; simp)
  unfold intText
  rw [e]
  by_cases h : i < 0
  · simp only [if_pos h]
    exact ⟨'-', c :: ds, rfl, by decide, fun _ => by simp⟩
  · simp only [if_neg h]
    refine ⟨c, ds, rfl, by simp [isStart, dig_idChar hc], ?_⟩
    rintro rfl
    exact absurd hc (by decide)

theorem intToks_ne (i : Int) : intToks i ≠ [] := by simp [intToks]

theorem wrapT_ne {b : Bool} {t : List Tok} (h : t ≠ []) : wrapT b t ≠ [] := by
  unfold wrapT
  split
  · simp
  · exact h

theorem toks_powm1 {o l r} (h : o = .pow ∧ print r = ['-', '1']) :
    toks (.bin o l r) = wrapT (parenL o l) (toks l) ++ [.powm1] := by
  rw [toks]
  split
  · rfl
  · exact absurd h ‹_›

theorem toks_bin {o l r} (h : ¬ (o = .pow ∧ print r = ['-', '1'])) :
    toks (.bin o l r) = wrapT (parenL o l) (toks l) ++ .op o :: wrapT (parenR o r) (toks r) := by
  rw [toks]
  split
  · exact absurd ‹_› h
  · rfl

theorem toks_ne (e : E) : toks e ≠ [] := by
  cases e with
  | int i => rw [toks]; exact intToks_ne i
  | ref s => simp [toks]
  | range a b => simp [toks]
  | call f args => simp [toks]
  | bin o l r => rw [toks]; split <;> simp
  | un u e => simp [toks]

theorem wrap_start {b : Bool} {t : List Char} (h : ∃ c x, t = c :: x ∧ isStart c = true ∧ (c = '-' → x ≠ [])) :
    ∃ c x, wrap b t = c :: x ∧ isStart c = true ∧ (c = '-' → x ≠ []) := by
  unfold wrap
  split
  · exact ⟨'(', t ++ [')'], rfl, by decide, by simp⟩
  · exact h

/-- Every printed expression starts with a character an operand can start with. -/
theorem print_start (e : E) (h : Clean e) :
    ∃ c x, print e = c :: x ∧ isStart c = true ∧ (c = '-' → x ≠ []) := by
  match e, h with
  | .int i, _ => rw [print]; exact int_start i
  | .ref s, h =>
    obtain ⟨c, x, e, hc, _⟩ := quoteId_start h
    rw [print, e]
    refine ⟨c, x, rfl, ?_, ?_⟩
    · rcases hc with hc | rfl
      · simp [isStart, hc]
      · decide
    · rintro rfl
      rcases hc with hc | hc
      · exact absurd hc (by decide)
      · exact absurd hc (by decide)
  | .range a b, h =>
    obtain ⟨_, _, h⟩ := h
    obtain ⟨c, x, e, h1, h2⟩ := int_start a
    rw [print, if_neg (by omega), e]
    exact ⟨c, x ++ "..".toList ++ intText b, rfl, h1, fun hm => by simp [h2 hm]⟩
  | .call f args, h =>
    obtain ⟨c, x, e, hc, _⟩ := quoteId_start h.1
    rw [print, e]
    refine ⟨c, _, rfl, ?_, fun _ => by simp⟩
    rcases hc with hc | rfl
    · simp [isStart, hc]
    · decide
  | .bin o l r, h =>
    rw [Clean] at h
    obtain ⟨c, x, e, h1, h2⟩ := wrap_start (b := parenL o l) (print_start l h.1)
    rw [print, e]
    exact ⟨c, _, rfl, h1, fun hm => by simp [h2 hm]⟩
  | .un u e, h =>
    rw [Clean] at h
    obtain ⟨c, x, e', h1, h2⟩ := wrap_start (b := parenU e) (print_start e h.1)
    rw [print, e']
    cases u with
    | not => exact ⟨'n', "ot ".toList ++ c :: x, rfl, by decide, fun h => absurd h (by decide)⟩
    | plus => exact ⟨'+', c :: x, rfl, by decide, fun h => absurd h (by decide)⟩
    | minus => exact ⟨'-', c :: x, rfl, by decide, fun _ => by simp⟩

theorem lex_lpar (r : List Char) : nextTok ('(' :: r) = some (.lpar, r) := nextTok_sym (by decide) rfl

theorem lex_rpar (r : List Char) : nextTok (')' :: r) = some (.rpar, r) := nextTok_sym (by decide) rfl

theorem lex_comma (r : List Char) : nextTok (',' :: r) = some (.comma, r) := nextTok_sym (by decide) rfl

theorem atom_noplus (e : E) (h : Clean e) (hp : parenU e = false) (r : List Char) : (print e ++ r).head? ≠ some '+' := by
  have hi : ∀ (i : Int) (r : List Char), (intText i ++ r).head? ≠ some '+' := by
    intro i r
    unfold intText
    by_cases h : i < 0
    · simp [if_pos h]
    · simp only [if_neg h, List.nil_append]
      exact digits_head _ _ _ (by decide)
  have hn : ∀ s r, Name s → (Lex.quoteId s ++ r).head? ≠ some '+' := by
    intro s r hs
    obtain ⟨c, x, e, hc, _⟩ := quoteId_start hs
    rw [e]
    simp only [List.cons_append, List.head?_cons, ne_eq, Option.some.injEq]
    rintro rfl
    rcases hc with hc | hc
    · exact absurd hc (by decide)
    · exact absurd hc (by decide)
  match e, h with
  | .int i, _ => rw [print]; exact hi i r
  | .ref s, h => rw [print]; exact hn s r h
  | .range a b, h =>
    rw [print, if_neg (by have := h.2.2; omega), List.append_assoc, List.append_assoc]
    exact hi a _
  | .call f args, h => rw [print, List.append_assoc, List.append_assoc]; exact hn f _ h.1
  | .bin o l r, _ => simp [parenU] at hp
  | .un u e, _ => simp [parenU] at hp

theorem parenR_minus1 {r : E} (hr : Clean r) (h2 : print r = ['-', '1']) : parenR .pow r = false := by
  cases r with
  | bin o' a b =>
    rw [Clean] at hr
    rw [print] at h2
    have := congrArg List.length h2
    obtain ⟨_, _, e1, _⟩ := wrap_start (b := parenL o' a) (print_start a hr.1)
    obtain ⟨_, _, e2, _⟩ := wrap_start (b := parenR o' b) (print_start b hr.2.1)
    have e3 : 1 ≤ o'.text.length := by cases o' <;> decide
    rw [e1, e2] at this
    simp only [List.length_append, List.length_cons, List.length_nil] at this
    omega
  | _ => rfl

theorem lexes_wrap {b : Bool} {t : List Char} {l : List Tok} (h : LexAs l t) : LexAs (wrapT b l) (wrap b t) := by
  unfold wrapT wrap
  cases b with
  | false => exact h
  | true =>
    intro ts r rest hr hl
    simp only [if_true, List.cons_append, List.append_assoc, List.nil_append]
    refine .cons (lex_lpar _) (h _ _ _ ?_ (.cons (lex_rpar _) hl))
    intro c hc
    simp only [List.head?_cons, Option.some.injEq] at hc
    subst hc
    exact ⟨by decide, fun h => absurd h (by decide)⟩

theorem stop_char {c : Char} {r : List Char} (h : c = ')' ∨ c = ',' ∨ c = '(' ∨ c = '^') : Stop (c :: r) := by
  intro d hd
  simp only [List.head?_cons, Option.some.injEq] at hd
  subst hd
  rcases h with rfl | rfl | rfl | rfl <;> exact ⟨by decide, fun h => absurd h (by decide)⟩

theorem lexes_powm1 {l : List Char} {tl : List Tok} (h : LexAs tl l) :
    LexAs (tl ++ [.powm1]) (l ++ Op.text .pow ++ wrap false ['-', '1']) := by
  intro ts q rest hq hlx
  have h1 : nextTok ('^' :: '-' :: '1' :: q) = some (.powm1, q) := nextTok_sym (by decide) rfl
  have h2 : Lexes (.powm1 :: ts) ('^' :: '-' :: '1' :: q) rest := .cons h1 hlx
  have h3 := h _ _ _ (stop_char (by simp)) h2
  have e : Op.text .pow = ['^'] := by decide
  rw [e]
  simpa only [wrap, List.append_assoc, List.cons_append, List.nil_append, Bool.false_eq_true, if_false] using h3

theorem lexes_op {o : Op} {l r : List Char} {tl tr : List Tok} (h1 : LexAs tl l) (h2 : LexAs tr r) (hne : tr ≠ [])
    (hs : ∃ c x, r = c :: x ∧ isStart c = true ∧ (c = '-' → x ≠ [])) (hp : o = .plus → r.head? ≠ some '+')
    (hpow : o = .pow → ¬ ['-', '1'] <+: r) : LexAs (tl ++ .op o :: tr) (l ++ o.text ++ r) := by
  intro ts q rest hq hl
  obtain ⟨c, x, rfl, hc, hm⟩ := hs
  have h3 := h2 ts q rest hq hl
  obtain ⟨y, hy, hy'⟩ := op_lex o c (x ++ q) hc (by
      intro ho hcc
      exact hp ho (by rw [hcc]; rfl)) (by
      intro ho hpre
      apply hpow ho
      obtain ⟨z, hz⟩ := hpre
      simp only [List.cons_append, List.nil_append, List.cons.injEq] at hz
      obtain ⟨hz1, hz2⟩ := hz
      have := hm hz1.symm
      cases x with
      | nil => exact absurd rfl this
      | cons d x =>
        simp only [List.cons_append, List.cons.injEq] at hz2
        exact ⟨x, by rw [← hz1, ← hz2.1]; rfl⟩)
  have h4 : Lexes (.op o :: (tr ++ ts)) (o.text ++ (c :: x) ++ q) rest := by
    obtain ⟨t0, tr, rfl⟩ := List.exists_cons_of_ne_nil hne
    rw [List.append_assoc]
    refine .cons hy ?_
    rcases hy' with rfl | rfl
    · exact h3
    · exact Lexes.space h3
  have h5 := h1 _ _ rest (by rw [List.append_assoc]; exact op_stop o _) h4
  simpa [List.append_assoc] using h5

mutual
/-- The tokens of the printed text of a clean expression. -/
theorem lexes_expr (e : E) (h : Clean e) : LexAs (toks e) (print e) := by
  match e, h with
  | .int i, h => rw [toks, print]; exact lexes_int h
  | .ref s, h =>
    rw [toks, print]
    intro ts r rest hr hl
    exact .cons (lexes_name h r hr) hl
  | .range a b, h =>
    obtain ⟨ha, hb, hab⟩ := h
    rw [toks, print, if_neg (by omega)]
    exact lexes_op (o := .dotdot) (lexes_int ha) (lexes_int hb) (intToks_ne b) (int_start b) (fun h => by simp at h)
      (fun h => by simp at h)
  | .call f args, h =>
    intro ts r rest hr hl
    have i1 : Lexes (.rpar :: ts) (')' :: r) rest := .cons (lex_rpar _) hl
    have i2 := lexes_args args h.2 true _ _ _ (stop_char (Or.inl rfl)) i1
    have i3 : Lexes (.lpar :: (toksArgs true args ++ .rpar :: ts)) ('(' :: (printArgs true args ++ ')' :: r)) rest :=
      .cons (lex_lpar _) i2
    have i4 : Lexes (.ident f :: .lpar :: (toksArgs true args ++ .rpar :: ts))
        (Lex.quoteId f ++ '(' :: (printArgs true args ++ ')' :: r)) rest :=
      .cons (lexes_name h.1 _ (stop_char (by simp))) i3
    rw [toks, print]
    simpa only [List.cons_append, List.append_assoc, List.nil_append] using i4
  | .bin o l r, h =>
    rw [Clean] at h
    obtain ⟨hl, hr, hplus, hpow⟩ := h
    have i1 := lexes_wrap (b := parenL o l) (lexes_expr l hl)
    rw [print]
    by_cases hm : o = .pow ∧ print r = ['-', '1']
    · rw [toks_powm1 hm]
      have hnp : parenR o r = false := by
        rw [hm.1]
        exact parenR_minus1 hr hm.2
      rw [hnp, hm.2, hm.1]
      rw [hm.1] at i1
      exact lexes_powm1 i1
    · rw [toks_bin hm]
      have i2 := lexes_wrap (b := parenR o r) (lexes_expr r hr)
      refine lexes_op i1 i2 (wrapT_ne (toks_ne r)) (wrap_start (print_start r hr)) ?_ ?_
      · intro ho
        cases hpr : parenR o r with
        | true => simp [wrap]
        | false =>
          have := hplus ho (by rw [← ho, hpr])
          simpa [wrap] using this
      · intro ho
        cases hpr : parenR o r with
        | true => 
          rintro ⟨z, hz⟩
          simp [wrap] at hz
        | false =>
          intro hz
          have := (hpow ho).2.2 (by rw [← ho, hpr]) (by simpa [wrap] using hz)
          exact hm ⟨ho, this.1⟩
  | .un u e, h =>
    rw [Clean] at h
    have i1 := lexes_wrap (b := parenU e) (lexes_expr e h.1)
    obtain ⟨c, x, he, hc, _⟩ := wrap_start (b := parenU e) (print_start e h.1)
    rw [toks, print]
    intro ts r rest hr hl
    have i2 := i1 ts r rest hr hl
    rw [he] at i2 ⊢
    cases u with
    | not =>
      obtain ⟨t0, tr, e0⟩ := List.exists_cons_of_ne_nil (wrapT_ne (b := parenU e) (toks_ne e))
      rw [e0] at i2 ⊢
      exact .cons (kw_lex 'n' "ot".toList _ (by decide) (by decide) (by decide +kernel)) (Lexes.space i2)
    | plus =>
      refine .cons (nextTok_sym (c := '+') (by decide) ?_) i2
      have hcp : c ≠ '+' := by
        rintro rfl
        cases hpu : parenU e with
        | true =>
          rw [hpu] at he
          simp [wrap] at he
        | false =>
          have := atom_noplus e h.1 hpu []
          rw [hpu] at he
          simp only [wrap, Bool.false_eq_true, if_false] at he
          rw [he] at this
          simp at this
      show symTok ('+' :: c :: (x ++ r)) = _
      rw [symTok]
      · rfl
      · intro r e
        exact hcp (List.cons.inj e).1
    | minus =>
      have hcp : (c :: x ++ r).head? ≠ some '>' := by
        simp only [List.cons_append, List.head?_cons, ne_eq, Option.some.injEq]
        rintro rfl
        exact absurd hc (by decide)
      exact .cons (nextTok_sym (c := '-') (by decide) (symTok_minus hcp)) i2

theorem lexes_args (args : Es) (h : CleanL args) (first : Bool) : LexAs (toksArgs first args) (printArgs first args) := by
  match args, h with
  | .nil, _ =>
    rw [toksArgs, printArgs]
    exact fun ts r rest _ h => h
  | .cons e l, h =>
    have i1 := lexes_expr e h.1
    have i2 := lexes_args l h.2 false
    rw [toksArgs, printArgs]
    intro ts r rest hr hl
    have i3 := i2 ts r rest hr hl
    have hs : Stop (printArgs false l ++ r) := by
      cases l with
      | nil => rw [printArgs]; exact hr
      | cons e l => rw [printArgs]; exact stop_char (by simp)
    have i4 := i1 _ _ _ hs i3
    cases first with
    | true => simpa [List.append_assoc] using i4
    | false =>
      simp only [Bool.false_eq_true, if_false, List.cons_append, List.nil_append, List.append_assoc]
      exact .cons (lex_comma _) i4
end

end Syn
end MZ
