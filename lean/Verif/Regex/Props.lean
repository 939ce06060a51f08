import Verif.Regex.Lang
import Verif.Regex.Text

/-! # Regular expressions in `regular` mean what the documentation says -/

namespace MZ
namespace Regex
open MZ.Globals MZ.LexOrd.Spec

/-! ## Names -/

theorem number_eq (ds : List Char) : number ds = Nat.ofDigitChars 10 ds 0 := by
  unfold number Nat.ofDigitChars
  congr 1
  funext n c
  rw [Nat.mul_comm]

theorem number_decimal (n : Nat) : number (decimal n) = n := by
  rw [number_eq, decimal, Nat.ofDigitChars_toDigits (by decide) (by decide)]

theorem decimal_digits (n : Nat) : ∀ c ∈ decimal n, isDigit c = true := by
  intro c hc
  have := Nat.isDigit_of_mem_toDigits (by decide) (by decide) hc
  simp only [Char.isDigit, Bool.and_eq_true, decide_eq_true_eq] at this
  simp only [isDigit, decide_eq_true_eq]
  exact this

theorem decimal_ne (n : Nat) : decimal n ≠ [] := Nat.toDigits_ne_nil

theorem digit_not_letter {c : Char} (h : isDigit c = true) : letter c = false := by
  unfold isDigit at h
  unfold letter
  simp only [decide_eq_true_eq, Char.le_def, UInt32.le_iff_toNat_le, decide_eq_false_iff_not] at h ⊢
  simp only [show ('A' : Char).val.toNat = 65 from rfl, show ('Z' : Char).val.toNat = 90 from rfl, show ('a' : Char).val.toNat = 97 from rfl,
    show ('z' : Char).val.toNat = 122 from rfl, show ('0' : Char).val.toNat = 48 from rfl, show ('9' : Char).val.toNat = 57 from rfl] at h ⊢
  omega

theorem digit_idChar {c : Char} (h : isDigit c = true) : idChar c = true := by
  unfold isDigit at h
  unfold idChar
  simp only [decide_eq_true_eq] at h ⊢
  exact Or.inr (Or.inl h)

theorem letter_idChar {c : Char} (h : letter c = true) : idChar c = true := by
  unfold idChar
  simp [h]

theorem digit_not_quote {c : Char} (h : isDigit c = true) : c ≠ '\'' := by
  rintro rfl
  exact absurd h (by decide)

theorem symbol_plain {c : Char} {t : Tok} (h : symbol c = some t) : letter c = false ∧ c ≠ '\'' := by
  unfold symbol at h
  split at h <;> first | exact ⟨by decide, by decide⟩ | simp at h

theorem white_plain {c : Char} (h : c = ' ' ∨ c = '\t' ∨ c = '\n') : letter c = false ∧ c ≠ '\'' := by
  rcases h with rfl | rfl | rfl <;> exact ⟨by decide, by decide⟩

theorem takeWhile_all {p : Char → Bool} {x s : List Char} (hx : ∀ d ∈ x, p d = true) (hs : NotFirst p s) :
    (x ++ s).takeWhile p = x ∧ (x ++ s).dropWhile p = s := by
  induction x with
  | nil =>
    cases s with
    | nil => exact ⟨rfl, rfl⟩
    | cons c s =>
      have : p c = false := hs
      simp [List.takeWhile_cons, List.dropWhile_cons, this]
  | cons d x ih =>
    have h1 := hx d (by simp)
    have h2 := ih (fun d hd => hx d (by simp [hd]))
    simp [List.takeWhile_cons, List.dropWhile_cons, h1, h2.1, h2.2]

/-- Digits are copied. -/
theorem idents_digits (names : List Char → Option Meaning) : ∀ (ds s s' : List Char) (n : Nat), (∀ c ∈ ds, isDigit c = true) →
    idents names n s = .ok s' → idents names (n + ds.length) (ds ++ s) = .ok (ds ++ s')
  | [], _, _, _, _, h => h
  | c :: ds, s, s', n, hd, h => by
    have hc := hd c (by simp)
    have ih := idents_digits names ds s s' n (fun c hc => hd c (by simp [hc])) h
    rw [List.length_cons, ← Nat.add_assoc, List.cons_append, idents, if_neg (by simp [digit_not_letter hc]), if_neg (digit_not_quote hc), ih]
    rfl

theorem idents_fuel (names : List Char → Option Meaning) : ∀ (n m : Nat) (s : List Char), s.length ≤ n → n ≤ m → idents names m s = idents names n s
  | 0, m, s, h, _ => by
    have : s = [] := List.length_eq_zero_iff.mp (by omega)
    subst this
    cases m <;> rfl
  | n + 1, 0, s, _, h => by omega
  | n + 1, m + 1, [], _, _ => rfl
  | n + 1, m + 1, c :: s, h, hm => by
    have hd : ((c :: s).dropWhile idChar).length ≤ (c :: s).length := (List.dropWhile_sublist _).length_le
    by_cases hl : letter c = true
    · have h1 : ((c :: s).dropWhile idChar).length ≤ n := by
        rw [List.dropWhile_cons, if_pos (letter_idChar hl)]
        have := (List.dropWhile_sublist (p := idChar) (l := s)).length_le
        simp only [List.length_cons] at h
        omega
      simp only [idents, hl, if_true, idents_fuel names n m _ h1 (by omega)]
    · simp only [idents, hl, Bool.false_eq_true, if_false, idents_fuel names n m s (by simpa using h) (by omega)]

/-- Names are replaced by numbers. -/
theorem idents_tokens (names : List Char → Option Meaning) {s : List Char} {ts : List Tok} (h : NameTokens names s ts) :
    ∃ s', idents names s.length s = .ok s' ∧ Tokens s' ts ∧ (NotFirst idChar s → NotFirst isDigit s') := by
  induction h with
  | nil => exact ⟨[], rfl, .nil, fun _ => trivial⟩
  | white hc _ ih =>
    obtain ⟨s', h1, h2, _⟩ := ih
    refine ⟨_ :: s', ?_, .white hc h2, fun _ => white_not_digit hc⟩
    have hp := white_plain hc
    rw [List.length_cons, idents, if_neg (by simp [hp.1]), if_neg hp.2, h1]
    rfl
  | symbol hc _ ih =>
    obtain ⟨s', h1, h2, _⟩ := ih
    refine ⟨_ :: s', ?_, .symbol hc h2, fun _ => symbol_not_digit hc⟩
    have hp := symbol_plain hc
    rw [List.length_cons, idents, if_neg (by simp [hp.1]), if_neg hp.2, h1]
    rfl
  | num h1 h2 h3 h4 _ ih =>
    obtain ⟨s', i1, i2, i3⟩ := ih
    rename_i ds s ts _
    refine ⟨ds ++ s', ?_, .num h1 h2 h3 (i3 h4) i2, ?_⟩
    · rw [List.length_append, Nat.add_comm]
      exact idents_digits names ds s s' _ h2 i1
    · intro hn
      cases ds with
      | nil => exact absurd rfl h1
      | cons c ds =>
        have hn : idChar c = false := hn
        rw [digit_idChar (h2 c (by simp))] at hn
        simp at hn
  | name hl hx hv hb hn _ ih =>
    obtain ⟨s', i1, i2, i3⟩ := ih
    rename_i c x v s ts _
    have hcx : ∀ d ∈ c :: x, idChar d = true := by
      intro d hd
      simp only [List.mem_cons] at hd
      rcases hd with rfl | hd
      · exact letter_idChar hl
      · exact hx d hd
    have ht := takeWhile_all hcx hn
    rw [List.cons_append] at ht
    refine ⟨decimal v ++ s', ?_, ?_, ?_⟩
    · rw [List.length_cons, idents, if_pos hl, ht.1, hv]
      dsimp only
      rw [ht.2, idents_fuel names s.length _ s (le_refl _) (by simp), i1]
      rfl
    · have := Tokens.num (decimal_ne v) (decimal_digits v) (by rw [number_decimal]; exact hb) (i3 hn) i2
      rwa [number_decimal] at this
    · intro hf
      have hf : idChar c = false := hf
      rw [letter_idChar hl] at hf
      simp at hf

/-- **C90** (names). Names of enumerated types stand for their values.  Partial: texts in which a name is followed by a single name or number in
parentheses (a call of a constructor, or a name before a group) are not covered. -/
theorem _root_.MZ.C90_names_partial (names : List Char → Option Meaning) (text : List Char) (ts : List Tok) (h : NameTokens names text ts)
    (hc : hasCall text = false) : ∃ s, replaceNames names text = .ok s ∧ Tokens s ts := by
  obtain ⟨s', h1, h2, _⟩ := idents_tokens names h
  refine ⟨s', ?_, h2⟩
  unfold replaceNames
  have : ∀ n, allCalls names n text = .ok text := by
    intro n
    cases n with
    | zero => rfl
    | succ n => simp [allCalls, hc]
  rw [this]
  exact h1

/-! ## Text and syntax -/

/-- The signs of the documentation. -/
def signs : List (Char × Tok) :=
  [('*', .star), ('+', .plus), ('?', .opt), ('|', .union), ('(', .gopen), (')', .gclose), ('[', .copen), (']', .cclose), ('^', .neg), ('-', .range),
    ('{', .qopen), ('}', .qclose), (',', .comma), ('.', .any)]

/-- **C90** (characters). The signs are the documented ones; names are made of letters, digits and underscores and begin with a letter. -/
theorem _root_.MZ.C90_characters (c : Char) : (∀ t, symbol c = some t ↔ (c, t) ∈ signs) ∧ isDigit c = c.isDigit ∧ letter c = c.isAlpha ∧
    idChar c = (c.isAlphanum || c == '_') := by
  refine ⟨?_, ?_, ?_, ?_⟩
  · intro t
    constructor
    · intro h
      unfold symbol at h
      split at h <;> first | (cases h; decide) | simp at h
    · intro h
      simp only [signs, List.mem_cons, Prod.mk.injEq, List.not_mem_nil, or_false] at h
      rcases h with h | h | h | h | h | h | h | h | h | h | h | h | h | h <;> (obtain ⟨rfl, rfl⟩ := h; rfl)
  · rw [Bool.eq_iff_iff]
    simp [isDigit, Char.isDigit, Char.le_def]
  · rw [Bool.eq_iff_iff]
    simp [letter, Char.isAlpha, Char.isUpper, Char.isLower, Char.le_def]
  · rw [Bool.eq_iff_iff]
    simp [idChar, letter, Char.isAlphanum, Char.isAlpha, Char.isUpper, Char.isLower, Char.isDigit, Char.le_def]
    tauto

/-- **C90** (tokens). A text is read as the documentation says, and refused if it has no such reading. -/
theorem _root_.MZ.C90_tokens (s : List Char) (ts : List Tok) : lex s none = some ts ↔ Tokens s ts := lex_iff s ts

/-- **C90** (syntax). Exactly the documented expressions are accepted; a wildcard or a negated class must have a value. -/
theorem _root_.MZ.C90_syntax (lo hi : Int) (ts : List Tok) :
    (∃ r, parse lo hi ts = some r) ↔ ∃ e, Written .expr ts e ∧ e.Inhabited lo hi := by
  constructor
  · rintro ⟨r, h⟩
    obtain ⟨e, hw, ha⟩ := (parse_iff lo hi ts r).mp h
    exact ⟨e, hw, (act_exists hw).mpr ⟨r, ha⟩⟩
  · rintro ⟨e, hw, hi'⟩
    obtain ⟨r, ha⟩ := (act_exists hw).mp hi'
    exact ⟨r, (parse_iff lo hi ts r).mpr ⟨e, hw, ha⟩⟩

/-- **C90** (one reading). A text has one meaning: two readings of the same tokens have the same sequences. -/
theorem _root_.MZ.C90_unambiguous (G : Gecode) (lo hi : Int) (dom : Int → Prop) (hd : ∀ v, dom v → lo ≤ v ∧ v ≤ hi) (ts : List Tok) (e e' : Re)
    (h : Written .expr ts e) (h' : Written .expr ts e') (ho : e.Ordered) (ho' : e'.Ordered) (hi₁ : e.Inhabited lo hi) (hi₂ : e'.Inhabited lo hi)
    (w : List Int) (hw : ∀ v ∈ w, dom v) : w ∈ e.lang dom ↔ w ∈ e'.lang dom := by
  obtain ⟨r, ha⟩ := (act_exists h).mp hi₁
  obtain ⟨r', ha'⟩ := (act_exists h').mp hi₂
  have h1 := (parse_iff lo hi ts r).mpr ⟨e, h, ha⟩
  have h2 := (parse_iff lo hi ts r').mpr ⟨e', h', ha'⟩
  rw [h1] at h2
  obtain rfl : r = r' := Option.some.inj h2
  rw [← act_lang G hd e r ho ha w hw, act_lang G hd e' r ho' ha' w hw]

/-! ## The constraint -/

theorem mem_foldl_union (doms : List (Finset Int)) : ∀ (s : Finset Int) (v : Int), v ∈ doms.foldl (· ∪ ·) s ↔ v ∈ s ∨ ∃ d ∈ doms, v ∈ d := by
  induction doms with
  | nil => intro s v; simp
  | cons d l ih =>
    intro s v
    rw [List.foldl_cons, ih]
    simp only [Finset.mem_union, List.mem_cons, exists_eq_or_imp]
    tauto

/-- A value of the domain of some variable. -/
def InDomain (doms : List (Finset Int)) (v : Int) : Prop := ∃ d ∈ doms, v ∈ d

/-- **C90** (meaning). The constraint holds for exactly the assignments whose sequence of values the documented expression accepts; the wildcard
and negated classes range over the domains of the variables.  Partial: as for `C90_names_partial`, and the meaning of `{n,m}` with `n > m`
depends on Gecode. -/
theorem _root_.MZ.C90_regular_partial (G : Gecode) (dfa : Reg → Dfa) (names : List Char → Option Meaning)
    (doms : List (Finset Int)) (text : List Char) (ts : List Tok) (e : Re) (ht : NameTokens names text ts) (hc : hasCall text = false)
    (hw : Written .expr ts e) (ho : e.Ordered) (hdfa : ∀ lo hi r, parse lo hi ts = some r → (dfa r).For (G.lang r))
    (hi : ∀ lo hi, (∀ v, InDomain doms v → lo ≤ v ∧ v ≤ hi) → e.Inhabited lo hi) (hne : ∃ v, InDomain doms v) (xs : Arr Int)
    (hx : ∀ v ∈ elems xs, InDomain doms v) :
    ∃ p, regularFromString dfa names doms text xs = .ok (some p) ∧ (p ↔ elems xs ∈ e.lang (InDomain doms)) := by
  obtain ⟨s, h1, h2⟩ := C90_names_partial names text ts ht hc
  have hmem : ∀ v, v ∈ doms.foldl (· ∪ ·) ∅ ↔ InDomain doms v := fun v => by
    rw [mem_foldl_union]; simp [InDomain]
  have hdom : (doms.foldl (· ∪ ·) ∅).Nonempty := by
    obtain ⟨v, hv⟩ := hne
    exact ⟨v, (hmem v).mpr hv⟩
  have hb : ∀ v, InDomain doms v → (doms.foldl (· ∪ ·) ∅).min' hdom ≤ v ∧ v ≤ (doms.foldl (· ∪ ·) ∅).max' hdom := fun v hv =>
    ⟨Finset.min'_le _ _ ((hmem v).mpr hv), Finset.le_max' _ _ ((hmem v).mpr hv)⟩
  obtain ⟨r, ha⟩ := (act_exists hw).mp (hi _ _ hb)
  have hp := (parse_iff _ _ ts r).mpr ⟨e, hw, ha⟩
  obtain ⟨p, h3, h4⟩ := post_iff (hdfa _ _ r hp) (by
    obtain ⟨v, hv⟩ := hne
    have := hb v hv
    omega) xs (fun v hv => hb v (hx v hv))
  refine ⟨p, ?_, ?_⟩
  · unfold regularFromString
    rw [h1]
    simp only [Res.ok_bind, (lex_iff s ts).mpr h2, hdom, dif_pos, hp, h3]
  · rw [h4]
    exact act_lang G hb e r ho ha (elems xs) hx

/-- **C90** (errors). A text without names that is not a documented expression is refused. -/
theorem _root_.MZ.C90_refused (dfa : Reg → Dfa) (names : List Char → Option Meaning) (doms : List (Finset Int)) (text : List Char) (xs : Arr Int)
    (hp : ∀ c ∈ text, letter c = false ∧ c ≠ '\'') (h : ¬ ∃ ts e, Tokens text ts ∧ Written .expr ts e) :
    regularFromString dfa names doms text xs = .err := by
  have hm : ∀ s : List Char, (∀ c ∈ s, letter c = false) → hasCall s = false := by
    intro s
    induction s with
    | nil => intros; rfl
    | cons c s ih =>
      intro hs
      simp only [hasCall, matchCall, hs c (by simp), Bool.false_eq_true, if_false, Option.isSome_none, Bool.false_or]
      exact ih fun c hc => hs c (by simp [hc])
  have hi : ∀ s : List Char, (∀ c ∈ s, letter c = false ∧ c ≠ '\'') → idents names s.length s = .ok s := by
    intro s
    induction s with
    | nil => intros; rfl
    | cons c s ih =>
      intro hs
      rw [List.length_cons, idents, if_neg (by simp [(hs c (by simp)).1]), if_neg (hs c (by simp)).2, ih fun c hc => hs c (by simp [hc])]
      rfl
  have hr : replaceNames names text = .ok text := by
    unfold replaceNames
    have : ∀ n, allCalls names n text = .ok text := by
      intro n
      cases n with
      | zero => rfl
      | succ n => simp [allCalls, hm text fun c hc => (hp c hc).1]
    rw [this]
    exact hi text hp
  unfold regularFromString
  rw [hr]
  simp only [Res.ok_bind]
  cases hl : lex text none with
  | none => rfl
  | some ts =>
    have hn : ∀ lo hi, parse lo hi ts = none := by
      intro lo hi
      by_contra hne
      obtain ⟨r, hr⟩ := Option.ne_none_iff_exists'.mp hne
      obtain ⟨e, he, _⟩ := (parse_iff lo hi ts r).mp hr
      exact h ⟨ts, e, (lex_iff _ _).mp hl, he⟩
    simp only [hn]
    split <;> rfl

/-! ## Deviations -/

/-- **C90** (deviation). Without variables the empty sequence should be tested, but the call of `regular` fails its assertion. -/
theorem _root_.MZ.C90_no_variables_fails (dfa : Reg → Dfa) (names : List Char → Option Meaning) :
    ([] : List Int) ∈ (Re.star (.num 1)).lang (InDomain []) ∧
    regularFromString dfa names [] "1*".toList ⟨1, 0, fun _ => 0⟩ = .ok none := by
  refine ⟨?_, ?_⟩
  · simp only [Re.lang]
    exact Language.nil_mem_kstar _
  · have h1 : replaceNames names "1*".toList = .ok "1*".toList := rfl
    unfold regularFromString
    rw [h1]
    have h2 : lex "1*".toList none = some [.int 1, .star] := by decide
    have h3 : parse 1 0 [.int 1, .star] = some (.star (.sym 1)) := by decide
    simp only [Res.ok_bind, h2, List.foldl_nil, Finset.not_nonempty_empty, dif_neg, not_false_eq_true, h3]
    unfold post Ext.regular
    dsimp only
    rw [if_neg]
    unfold Ext.regularOk
    intro h
    exact absurd h.2.1 (by omega)

/-- The names of the examples: `A B` needs quotes, `X` is 1, `C` is a constructor. -/
def exampleNames (s : List Char) : Option Meaning :=
  if s = "A B".toList then some (.value 3)
  else if s = "X".toList then some (.value 1)
  else if s = "C".toList then some (.ctor (fun n => if 1 ≤ n ∧ n ≤ 2 then some (n + 1) else none))
  else none

/-- **C90** (deviation). Names in quotes are refused: they are looked up with the quotes. -/
theorem _root_.MZ.C90_quoted_names_fails : exampleNames "A B".toList = some (.value 3) ∧ replaceNames exampleNames "'A B'".toList = .err := ⟨rfl, rfl⟩

/-- **C90** (deviation). Two calls of a constructor without space between them become one number: `C(1)C(2)` is read as 23, not as 2 and 3. -/
theorem _root_.MZ.C90_adjacent_calls_fails : replaceNames exampleNames "C(1) C(2)".toList = .ok "2 3".toList ∧
    replaceNames exampleNames "C(1)C(2)".toList = .ok "23".toList := ⟨rfl, rfl⟩

/-- **C90** (deviation). Negative values of the domain cannot be written. -/
theorem _root_.MZ.C90_negative_fails (dfa : Reg → Dfa) (names : List Char → Option Meaning) (doms : List (Finset Int)) (xs : Arr Int) :
    regularFromString dfa names doms "-1".toList xs = .err := by
  have h1 : replaceNames names "-1".toList = .ok "-1".toList := rfl
  have h2 : lex "-1".toList none = some [.range, .int 1] := by decide
  have h3 : ∀ lo hi, parse lo hi [.range, .int 1] = none := fun _ _ => rfl
  unfold regularFromString
  rw [h1]
  simp only [Res.ok_bind, h2, h3]
  split <;> rfl

/-- **C90** (deviation). A negated class that leaves no value of the domains is refused, although the expression has a meaning: here it accepts the
sequence of a single 1. -/
theorem _root_.MZ.C90_empty_class_fails (dfa : Reg → Dfa) (names : List Char → Option Meaning) :
    [1] ∈ (Re.alt (.num 1) (.notCls [.between 1 2])).lang (InDomain [{1, 2}]) ∧
    regularFromString dfa names [{1, 2}] "1|[^1-2]".toList ⟨1, 1, fun _ => 1⟩ = .err := by
  refine ⟨?_, ?_⟩
  · simp only [Re.lang]
    exact Or.inl ⟨1, rfl, rfl⟩
  · have h1 : replaceNames names "1|[^1-2]".toList = .ok "1|[^1-2]".toList := rfl
    have h2 : lex "1|[^1-2]".toList none = some [.int 1, .union, .copen, .neg, .int 1, .range, .int 2, .cclose] := by decide
    have h3 : parse 1 2 [.int 1, .union, .copen, .neg, .int 1, .range, .int 2, .cclose] = none := by decide
    have h4 : List.foldl (· ∪ ·) ∅ [({1, 2} : Finset Int)] = {1, 2} := by decide
    have hn : ({1, 2} : Finset Int).Nonempty := ⟨1, by simp⟩
    have h5 : ({1, 2} : Finset Int).min' hn = 1 := by decide +revert
    have h6 : ({1, 2} : Finset Int).max' hn = 2 := by decide +revert
    unfold regularFromString
    rw [h1]
    simp only [Res.ok_bind, h2, h4, hn, dif_pos, h5, h6, h3]

/-! ## Examples -/

/-- The languages of Gecode exist. -/
def sample : Gecode where
  lang := fun r => r.rec (fun n => single (· = n)) (fun l => single (· ∈ l)) (fun _ _ a b => a + b) (fun _ _ a b => a * b)
    (fun _ a => KStar.kstar a) (fun _ a => a * KStar.kstar a) (fun _ n m a => times a n m) (fun _ n a => a ^ n * KStar.kstar a)
  sym := fun _ => rfl
  anyOf := fun _ => rfl
  alt := fun _ _ => rfl
  cat := fun _ _ => rfl
  star := fun _ => rfl
  plus := fun _ => rfl
  quant := fun _ _ _ _ => rfl
  atLeast := fun _ _ => rfl

/-- The expression `X (2|[^1-2])*`. -/
def sampleRe : Re := .cat (.num 1) (.star (.alt (.num 2) (.notCls [.between 1 2])))

/-- Its tokens. -/
def sampleToks : List Tok := [.int 1, .gopen, .int 2, .union, .copen, .neg, .int 1, .range, .int 2, .cclose, .gclose, .star]

example : replaceNames exampleNames "X (2|[^1-2])*".toList = .ok "1 (2|[^1-2])*".toList := rfl
example : hasCall "X (2|[^1-2])*".toList = false := by decide
example : lex "1 (2|[^1-2])*".toList none = some sampleToks := by decide
example : parse (-1) 3 sampleToks = some (.cat (.sym 1) (.star (.alt (.sym 2) (.anyOf [-1, 0, 3])))) := by decide
example : sampleRe.Ordered := by simp [sampleRe, Re.Ordered]
example : sampleRe.Inhabited (-1) 3 := by
  simp only [sampleRe, Re.Inhabited, true_and]
  exact ⟨3, by decide, by decide, by simp [Item.Has]⟩
example : Written .expr sampleToks sampleRe :=
  .only (.cat (.plain (.num 1)) (.last (.star (.group (.alt (.last (.plain (.num 2))) (.only (.last (.plain (.notCls (.range 1 2))))))))))

/-- The automaton of `1 2*`. -/
def sampleDfa : Dfa := ⟨2, [(0, 1, 1), (1, 2, 1)], 1, 2⟩

theorem sampleDfa_for : sampleDfa.For (sample.lang (.cat (.sym 1) (.star (.sym 2)))) where
  accepts := by
    have key : ∀ w, sampleDfa.Accepts 1 w ↔ w ∈ KStar.kstar (single (· = 2)) := by
      intro w
      induction w with
      | nil => simp [Dfa.Accepts, sampleDfa, Language.nil_mem_kstar]
      | cons v w ih =>
        rw [← Language.one_add_self_mul_kstar_eq_kstar, Language.mem_add, Language.mem_mul]
        constructor
        · rintro ⟨q', h1, h2⟩
          simp only [sampleDfa, List.mem_cons, Prod.mk.injEq, one_ne_zero, false_and, List.not_mem_nil, or_false, false_or, true_and] at h1
          obtain ⟨rfl, rfl⟩ := h1
          exact Or.inr ⟨[2], ⟨2, rfl, rfl⟩, w, ih.mp h2, rfl⟩
        · rintro (h | ⟨a, ⟨u, rfl, rfl⟩, b, hb, e⟩)
          · simp [Language.mem_one] at h
          · simp only [List.cons_append, List.nil_append, List.cons.injEq] at e
            obtain ⟨rfl, rfl⟩ := e
            exact ⟨1, by simp [sampleDfa], ih.mpr hb⟩
    intro w
    change _ ↔ w ∈ single (· = 1) * KStar.kstar (single (· = 2))
    rw [Language.mem_mul]
    constructor
    · intro h
      cases w with
      | nil => simp [Dfa.Accepts, sampleDfa] at h
      | cons v w =>
        obtain ⟨q', h1, h2⟩ := h
        simp only [sampleDfa, List.mem_cons, Prod.mk.injEq, zero_ne_one, false_and, List.not_mem_nil, or_false, true_and] at h1
        obtain ⟨rfl, rfl⟩ := h1
        exact ⟨[1], ⟨1, rfl, rfl⟩, w, (key w).mp h2, rfl⟩
    · rintro ⟨a, ⟨u, rfl, rfl⟩, b, hb, rfl⟩
      exact ⟨1, by simp [sampleDfa], (key b).mpr hb⟩
  det := by
    intro q v q₁ q₂ h1 h2
    simp only [sampleDfa, List.mem_cons, Prod.mk.injEq, List.not_mem_nil, or_false] at h1 h2
    omega
  states := by
    intro q v q' h
    simp only [sampleDfa, List.mem_cons, Prod.mk.injEq, List.not_mem_nil, or_false] at h ⊢
    omega
  first := by decide
  final := by decide

theorem sample_tokens : NameTokens exampleNames "X 2*".toList [.int 1, .int 2, .star] :=
  .name (c := 'X') (x := []) (v := 1) (s := [' ', '2', '*']) (by decide) (by simp) rfl (by decide) (by decide : idChar ' ' = false)
    (.white (by simp) (.num (ds := ['2']) (s := ['*']) (by simp) (by decide) (by decide) (by decide : idChar '*' = false)
      (.symbol (c := '*') rfl .nil)))

theorem sample_written : Written .expr [.int 1, .int 2, .star] (.cat (.num 1) (.star (.num 2))) :=
  .only (.cat (.plain (.num 1)) (.last (.star (.num 2))))

/-- All hypotheses of `C90_regular_partial` hold together. -/
example : ∃ p, regularFromString (fun _ => sampleDfa) exampleNames [{1, 2}, {2, 3}] "X 2*".toList ⟨1, 2, fun i => i⟩ = .ok (some p) ∧
    (p ↔ elems (⟨1, 2, fun i => i⟩ : Arr Int) ∈ (Re.cat (.num 1) (.star (.num 2))).lang (InDomain [{1, 2}, {2, 3}])) :=
  C90_regular_partial sample (fun _ => sampleDfa) exampleNames [{1, 2}, {2, 3}] "X 2*".toList _ _ sample_tokens (by decide) sample_written
    (by simp [Re.Ordered]) (fun lo hi r h => by
      have : parse lo hi [.int 1, .int 2, .star] = some (.cat (.sym 1) (.star (.sym 2))) :=
        (parse_iff _ _ _ _).mpr ⟨_, sample_written, rfl⟩
      rw [this] at h
      cases h
      exact sampleDfa_for)
    (fun _ _ _ => by simp [Re.Inhabited]) ⟨1, {1, 2}, by simp, by simp⟩ _ (by
      have : elems (⟨1, 2, fun i => i⟩ : Arr Int) = [1, 2] := by decide
      rw [this]
      intro v hv
      exact ⟨{1, 2}, by simp, by simpa using hv⟩)

end Regex
end MZ
