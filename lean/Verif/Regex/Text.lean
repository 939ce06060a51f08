import Verif.Regex.Spec
import Mathlib.Tactic.Push

/-! # Texts and tokens -/

namespace MZ
namespace Regex

/-- The number that digits stand for. -/
def number (ds : List Char) : Nat := ds.foldl (fun n c => n * 10 + (c.toNat - '0'.toNat)) 0

/-- A text does not begin with a character of the kind. -/
def NotFirst (p : Char → Bool) : List Char → Prop
  | [] => True
  | c :: _ => p c = false

/-- The tokens of a text, from the documentation: white space separates; characters belong to the same number unless split by syntax or
white space. -/
inductive Tokens : List Char → List Tok → Prop
  | nil : Tokens [] []
  | white {c s ts} : c = ' ' ∨ c = '\t' ∨ c = '\n' → Tokens s ts → Tokens (c :: s) ts
  | symbol {c t s ts} : symbol c = some t → Tokens s ts → Tokens (c :: s) (t :: ts)
  | num {ds s ts} : ds ≠ [] → (∀ c ∈ ds, isDigit c = true) → number ds ≤ 2147483647 → NotFirst isDigit s → Tokens s ts →
      Tokens (ds ++ s) (.int (number ds) :: ts)

theorem digit_of {c : Char} (h : isDigit c = true) : digit c = some (c.toNat - '0'.toNat) := by
  unfold isDigit at h
  unfold digit
  rw [if_pos (by simpa using h)]

theorem digit_none {c : Char} (h : isDigit c = false) : digit c = none := by
  unfold isDigit at h
  unfold digit
  rw [if_neg (by simpa using h)]

theorem symbol_not_digit {c : Char} {t : Tok} (h : symbol c = some t) : isDigit c = false := by
  unfold symbol at h
  split at h <;> first | decide | simp at h

theorem symbol_not_white {c : Char} {t : Tok} (h : symbol c = some t) : ¬ (c = ' ' ∨ c = '\t' ∨ c = '\n') := by
  rintro (rfl | rfl | rfl) <;> simp [symbol] at h

theorem white_not_digit {c : Char} (h : c = ' ' ∨ c = '\t' ∨ c = '\n') : isDigit c = false := by
  rcases h with rfl | rfl | rfl <;> decide

/-- The digits after the first ones. -/
def more (p : Option Nat) (ds : List Char) : Nat := ds.foldl (fun n c => n * 10 + (c.toNat - '0'.toNat)) (p.getD 0)

theorem lex_digits : ∀ (ds : List Char) (s : List Char) (p : Option Nat), ds ≠ [] → (∀ c ∈ ds, isDigit c = true) →
    lex (ds ++ s) p = lex s (some (more p ds))
  | [], _, _, h, _ => absurd rfl h
  | [c], s, p, _, h => by
    simp only [List.cons_append, List.nil_append]
    rw [lex, digit_of (h c (by simp))]
    rfl
  | c :: d :: ds, s, p, _, h => by
    rw [List.cons_append, lex, digit_of (h c (by simp))]
    dsimp only
    rw [lex_digits (d :: ds) s _ (by simp) (fun c hc => h c (by simp only [List.mem_cons] at hc ⊢; tauto))]
    rfl

/-- A number that is not followed by a digit ends. -/
theorem lex_flush {s : List Char} (h : NotFirst isDigit s) (n : Nat) (hn : n ≤ 2147483647) :
    lex s (some n) = (lex s none).map (Tok.int n :: ·) := by
  cases s with
  | nil => simp [lex, flush, hn]
  | cons c s =>
    have h' : isDigit c = false := h
    simp only [lex, digit_none h', flush, hn, if_true]
    split_ifs
    · cases lex s none <;> simp
    · split
      · cases lex s none <;> simp
      · rfl

theorem lex_complete {s : List Char} {ts : List Tok} (h : Tokens s ts) : lex s none = some ts := by
  induction h with
  | nil => rfl
  | white hc _ ih =>
    rw [lex, digit_none (white_not_digit hc)]
    simp [hc, flush, ih]
  | symbol hc _ ih =>
    rw [lex, digit_none (symbol_not_digit hc)]
    simp [symbol_not_white hc, flush, ih, hc]
  | num h1 h2 h3 h4 _ ih =>
    rw [lex_digits _ _ _ h1 h2]
    rename_i ds s ts _
    have : more none ds = number ds := rfl
    rw [this, lex_flush h4 _ h3, ih]
    rfl

/-- What is read with digits pending. -/
theorem lex_sound : ∀ (s : List Char) (ts : List Tok), (lex s none = some ts → Tokens s ts) ∧
    ∀ ds : List Char, ds ≠ [] → (∀ c ∈ ds, isDigit c = true) → lex s (some (number ds)) = some ts → Tokens (ds ++ s) ts
  | [], ts => by
    refine ⟨fun h => ?_, fun ds hd hall h => ?_⟩
    · simp only [lex, flush, Option.some.injEq] at h
      subst h; exact .nil
    · simp only [lex, flush] at h
      split_ifs at h with hn
      simp only [Option.some.injEq] at h
      subst h
      exact .num hd hall hn trivial .nil
  | c :: s, ts => by
    cases hc : isDigit c with
    | true =>
      refine ⟨fun h => ?_, fun ds hd hall h => ?_⟩
      · rw [lex, digit_of hc] at h
        have := (lex_sound s ts).2 [c] (by simp) (by simpa using hc) (by simpa [number] using h)
        simpa using this
      · rw [lex, digit_of hc] at h
        have := (lex_sound s ts).2 (ds ++ [c]) (by simp) (by
          intro x hx
          simp only [List.mem_append, List.mem_singleton] at hx
          rcases hx with hx | rfl
          · exact hall x hx
          · exact hc) (by simpa [number] using h)
        simpa using this
    | false =>
      have key : ∀ us, lex (c :: s) none = some us → Tokens (c :: s) us := by
        intro us h
        rw [lex, digit_none hc] at h
        simp only [flush] at h
        split_ifs at h with hw
        · simp only [bind, Option.bind_some, Option.bind_eq_some_iff, List.nil_append, Option.some.injEq] at h
          obtain ⟨vs, h1, rfl⟩ := h
          exact .white hw ((lex_sound s vs).1 h1)
        · split at h
          · rename_i t ht
            simp only [bind, Option.bind_some, Option.bind_eq_some_iff, List.nil_append, Option.some.injEq] at h
            obtain ⟨vs, h1, rfl⟩ := h
            exact .symbol ht ((lex_sound s vs).1 h1)
          · simp at h
      refine ⟨key ts, fun ds hd hall h => ?_⟩
      by_cases hn : number ds ≤ 2147483647
      · rw [lex_flush (s := c :: s) hc _ hn, Option.map_eq_some_iff] at h
        obtain ⟨us, h1, rfl⟩ := h
        exact .num hd hall hn hc (key us h1)
      · rw [lex, digit_none hc] at h
        simp only [flush, hn, if_false] at h
        split_ifs at h
        · simp at h
        · split at h <;> simp at h

theorem lex_iff (s : List Char) (ts : List Tok) : lex s none = some ts ↔ Tokens s ts :=
  ⟨(lex_sound s ts).1, lex_complete⟩

/-! ## Names -/

/-- The tokens of a text with names of enumerated types, which stand for their values. -/
inductive NameTokens (names : List Char → Option Meaning) : List Char → List Tok → Prop
  | nil : NameTokens names [] []
  | white {c s ts} : c = ' ' ∨ c = '\t' ∨ c = '\n' → NameTokens names s ts → NameTokens names (c :: s) ts
  | symbol {c t s ts} : symbol c = some t → NameTokens names s ts → NameTokens names (c :: s) (t :: ts)
  | num {ds s ts} : ds ≠ [] → (∀ c ∈ ds, isDigit c = true) → number ds ≤ 2147483647 → NotFirst idChar s → NameTokens names s ts →
      NameTokens names (ds ++ s) (.int (number ds) :: ts)
  | name {c x v s ts} : letter c = true → (∀ d ∈ x, idChar d = true) → names (c :: x) = some (.value v) → v ≤ 2147483647 → NotFirst idChar s →
      NameTokens names s ts → NameTokens names (c :: (x ++ s)) (.int v :: ts)

end Regex
end MZ
