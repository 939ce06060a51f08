import Verif.Lex.StrLit
import Verif.Json.TokenProps

/-!
# What the source text of a string literal denotes (C51)
-/

namespace MZ
namespace Lex

/-! ## Specification -/

/-- `c` is an octal digit of value `v`. -/
def OctDigit (c : Char) (v : Nat) : Prop := (c, v) ∈ "01234567".toList.zipIdx

instance (c : Char) (v : Nat) : Decidable (OctDigit c v) := by
  unfold OctDigit
  infer_instance

/-- `LitSrc src bytes`: the text `src` between the quotes of a string literal denotes `bytes`.
Numeric escapes take as many digits as they can: one or two hexadecimal, one to three octal. -/
inductive LitSrc : List Char → List Char → Prop
  | nil : LitSrc [] []
  | plain (c : Char) (s b : List Char) (h : c ∉ ['\\', '"', '\n', '\r', '\x00']) (hs : LitSrc s b) :
      LitSrc (c :: s) (c :: b)
  | esc (e v : Char) (s b : List Char)
      (h : (e, v) ∈ [('n', '\n'), ('t', '\t'), ('\\', '\\'), ('"', '"'), ('\'', '\'')]) (hs : LitSrc s b) :
      LitSrc ('\\' :: e :: s) (v :: b)
  | hex1 (c : Char) (v : Nat) (s b : List Char) (h : Json.HexDigit c v)
      (hn : ∀ d t, s = d :: t → ∀ w, ¬ Json.HexDigit d w) (hs : LitSrc s b) :
      LitSrc ('\\' :: 'x' :: c :: s) (Char.ofNat v :: b)
  | hex2 (c d : Char) (v w : Nat) (s b : List Char) (h : Json.HexDigit c v) (h' : Json.HexDigit d w)
      (hs : LitSrc s b) :
      LitSrc ('\\' :: 'x' :: c :: d :: s) (Char.ofNat (v * 16 + w) :: b)
  | oct1 (c : Char) (v : Nat) (s b : List Char) (h : OctDigit c v)
      (hn : ∀ d t, s = d :: t → ∀ w, ¬ OctDigit d w) (hs : LitSrc s b) :
      LitSrc ('\\' :: c :: s) (Char.ofNat v :: b)
  | oct2 (c d : Char) (v w : Nat) (s b : List Char) (h : OctDigit c v) (h' : OctDigit d w)
      (hn : ∀ d t, s = d :: t → ∀ w, ¬ OctDigit d w) (hs : LitSrc s b) :
      LitSrc ('\\' :: c :: d :: s) (Char.ofNat (v * 8 + w) :: b)
  | oct3 (c d e : Char) (v w x : Nat) (s b : List Char) (h : OctDigit c v) (h' : OctDigit d w)
      (h'' : OctDigit e x) (hs : LitSrc s b) :
      LitSrc ('\\' :: c :: d :: e :: s) (Char.ofNat ((v * 64 + w * 8 + x) % 256) :: b)

/-! ## Proofs -/

theorem OctDigit.facts {c : Char} {v : Nat} (h : OctDigit c v) :
    isOct c = true ∧ hexVal c = v ∧ v < 8 ∧ c ≠ 'n' ∧ c ≠ 't' ∧ c ≠ 'x' := by
  have key : ∀ p ∈ "01234567".toList.zipIdx,
      isOct p.1 = true ∧ hexVal p.1 = p.2 ∧ p.2 < 8 ∧ p.1 ≠ 'n' ∧ p.1 ≠ 't' ∧ p.1 ≠ 'x' := by decide +kernel
  exact key _ h

theorem char_ext {c d : Char} (h : c.toNat = d.toNat) : c = d := by
  apply Char.ext
  exact UInt32.toNat_inj.1 h

theorem char_of_bounds {lo hi c : Char} (h1 : lo ≤ c) (h2 : c ≤ hi) : lo.toNat ≤ c.toNat ∧ c.toNat ≤ hi.toNat :=
  ⟨h1, h2⟩

theorem isHex_digit {c : Char} (h : isHex c = true) : ∃ v, Json.HexDigit c v := by
  have key : ∀ n ∈ List.range 128, isHex (Char.ofNat n) = true →
      ∃ v ∈ List.range 16, (Char.ofNat n, v) ∈ "0123456789abcdef".toList.zipIdx ++ "0123456789ABCDEF".toList.zipIdx := by
    decide +kernel
  have hlt : c.toNat < 128 := by
    simp only [isHex, Bool.or_eq_true, Bool.and_eq_true, decide_eq_true_eq] at h
    rcases h with (⟨h1, h2⟩ | ⟨h1, h2⟩) | ⟨h1, h2⟩
    · have := (char_of_bounds h1 h2).2
      have e : '9'.toNat = 57 := rfl
      omega
    · have := (char_of_bounds h1 h2).2
      have e : 'f'.toNat = 102 := rfl
      omega
    · have := (char_of_bounds h1 h2).2
      have e : 'F'.toNat = 70 := rfl
      omega
  have e : Char.ofNat c.toNat = c := Char.ofNat_toNat c
  obtain ⟨v, _, hv⟩ := key c.toNat (by simpa using hlt) (by rw [e]; exact h)
  rw [e] at hv
  exact ⟨v, hv⟩

theorem isOct_digit {c : Char} (h : isOct c = true) : ∃ v, OctDigit c v := by
  have key : ∀ n ∈ List.range 128, isOct (Char.ofNat n) = true →
      ∃ v ∈ List.range 8, (Char.ofNat n, v) ∈ "01234567".toList.zipIdx := by
    decide +kernel
  have hlt : c.toNat < 128 := by
    simp only [isOct, Bool.and_eq_true, decide_eq_true_eq] at h
    have := (char_of_bounds h.1 h.2).2
    have e : '7'.toNat = 55 := rfl
    omega
  have e : Char.ofNat c.toNat = c := Char.ofNat_toNat c
  obtain ⟨v, _, hv⟩ := key c.toNat (by simpa using hlt) (by rw [e]; exact h)
  rw [e] at hv
  exact ⟨v, hv⟩

/-- The character after a literal's text: the next one, or the closing quote. -/
theorem next_not {p : Char → Bool} {P : Char → Nat → Prop} (hp : ∀ c, p c = true → ∃ v, P c v)
    (hq : p '"' = false) {s : List Char} (r : List Char) (hn : ∀ d t, s = d :: t → ∀ w, ¬ P d w) :
    ∃ k u, s ++ '"' :: r = k :: u ∧ p k = false := by
  cases s with
  | nil => exact ⟨'"', r, rfl, hq⟩
  | cons d t =>
    refine ⟨d, t ++ '"' :: r, rfl, ?_⟩
    by_contra hc
    rw [Bool.not_eq_false] at hc
    obtain ⟨v, hv⟩ := hp d hc
    exact hn d t rfl v hv

theorem toByte_lt {v : Nat} (h : v < 256) : toByte v = Char.ofNat v := by
  unfold toByte
  rw [Nat.mod_eq_of_lt h]

theorem lexString_src {src bytes : List Char} (h : LitSrc src bytes) (rest buf : List Char) :
    lexString (src ++ '"' :: rest) buf = (.literal (bufferData (buf ++ bytes)), rest) := by
  induction h generalizing buf with
  | nil => simpa using lexString_quote rest buf
  | plain c s b h hs ih =>
    simp only [List.mem_cons, List.not_mem_nil, or_false, not_or] at h
    rw [List.cons_append, lexString_plain _ _ h.2.2.2.2 h.2.2.1 h.2.2.2.1 h.2.1 h.1, ih]
    simp
  | esc e v s b h hs ih =>
    have : lexEscape (e :: (s ++ '"' :: rest)) = some (v, s ++ '"' :: rest) := by
      simp only [List.mem_cons, Prod.mk.injEq, List.not_mem_nil, or_false] at h
      rcases h with ⟨rfl, rfl⟩ | ⟨rfl, rfl⟩ | ⟨rfl, rfl⟩ | ⟨rfl, rfl⟩ | ⟨rfl, rfl⟩ <;> rfl
    rw [List.cons_append, List.cons_append, lexString_esc this, ih]
    simp
  | hex1 c v s b h hn hs ih =>
    obtain ⟨h1, h2, _, _, _, _, _, h3, _⟩ := h.facts
    obtain ⟨k, u, e, hk⟩ := next_not (fun c hc => isHex_digit hc) (by decide) rest hn
    have : lexEscape ('x' :: c :: (s ++ '"' :: rest)) = some (Char.ofNat v, s ++ '"' :: rest) := by
      rw [e, lexEscape.eq_def]
      simp [h1, hk, h2, toByte_lt (show v < 256 by omega)]
    rw [List.cons_append, List.cons_append, List.cons_append, lexString_esc this, ih]
    simp
  | hex2 c d v w s b h h' hs ih =>
    obtain ⟨h1, h2, _, _, _, _, _, h3, _⟩ := h.facts
    obtain ⟨k1, k2, _, _, _, _, _, k3, _⟩ := h'.facts
    have : lexEscape ('x' :: c :: d :: (s ++ '"' :: rest)) = some (Char.ofNat (v * 16 + w), s ++ '"' :: rest) := by
      rw [lexEscape.eq_def]
      simp [h1, k1, h2, k2, toByte_lt (show v * 16 + w < 256 by omega)]
    simp only [List.cons_append]
    rw [lexString_esc this, ih]
    simp
  | oct1 c v s b h hn hs ih =>
    obtain ⟨h1, h2, h3, h4, h5, h6⟩ := h.facts
    obtain ⟨k, u, e, hk⟩ := next_not (fun c hc => isOct_digit hc) (by decide) rest hn
    have : lexEscape (c :: (s ++ '"' :: rest)) = some (Char.ofNat v, s ++ '"' :: rest) := by
      rw [e, lexEscape.eq_def]
      simp [h1, h2, h4, h5, h6, hk, toByte_lt (show v < 256 by omega)]
    simp only [List.cons_append]
    rw [lexString_esc this, ih]
    simp
  | oct2 c d v w s b h h' hn hs ih =>
    obtain ⟨h1, h2, h3, h4, h5, h6⟩ := h.facts
    obtain ⟨k1, k2, k3, _⟩ := h'.facts
    obtain ⟨k, u, e, hk⟩ := next_not (fun c hc => isOct_digit hc) (by decide) rest hn
    have : lexEscape (c :: d :: (s ++ '"' :: rest)) = some (Char.ofNat (v * 8 + w), s ++ '"' :: rest) := by
      rw [e, lexEscape.eq_def]
      simp [h1, h2, h4, h5, h6, k1, k2, hk, toByte_lt (show v * 8 + w < 256 by omega)]
    simp only [List.cons_append]
    rw [lexString_esc this, ih]
    simp
  | oct3 c d e v w x s b h h' h'' hs ih =>
    obtain ⟨h1, h2, h3, h4, h5, h6⟩ := h.facts
    obtain ⟨k1, k2, k3, _⟩ := h'.facts
    obtain ⟨l1, l2, l3, _⟩ := h''.facts
    have : lexEscape (c :: d :: e :: (s ++ '"' :: rest)) =
        some (Char.ofNat ((v * 64 + w * 8 + x) % 256), s ++ '"' :: rest) := by
      rw [lexEscape.eq_def]
      simp [h1, h2, h4, h5, h6, k1, k2, l1, l2, toByte]
    simp only [List.cons_append]
    rw [lexString_esc this, ih]
    simp

end Lex

open Lex

/-- **C51 (string literals denote what their source says).**  Every source text of a string literal,
made of ordinary characters, character escapes and hexadecimal and octal escapes, is lexed as
exactly the bytes it denotes, and the text after the closing quote is left, provided no escape denotes
the NUL byte. -/
theorem C51_literal_partial (src bytes rest : List Char) (h : LitSrc src bytes) (h0 : '\x00' ∉ bytes) :
    lexLit ('"' :: src ++ '"' :: rest) = some (.literal bytes, rest) := by
  simp only [List.cons_append, lexLit]
  rw [lexString_src h rest [], List.nil_append, bufferData_of_no_nul h0]

/-- **C51 fails for the NUL byte.**  A literal with an escape for NUL loses everything from there
on. -/
theorem C51_nul_fails (s t bytes bytes' rest : List Char) (h : LitSrc (s ++ t) (bytes ++ '\x00' :: bytes'))
    (h0 : '\x00' ∉ bytes) :
    lexLit ('"' :: (s ++ t) ++ '"' :: rest) = some (.literal bytes, rest) := by
  rw [List.cons_append, lexLit, lexString_src h rest []]
  have : bufferData (bytes ++ '\x00' :: bytes') = bytes := by
    unfold bufferData
    rw [List.takeWhile_append_of_pos (by
      intro c hc
      simp only [ne_eq, decide_not, Bool.not_eq_eq_eq_not, Bool.not_true, decide_eq_false_iff_not]
      rintro rfl
      exact h0 hc)]
    simp
  rw [List.nil_append, this]

/-- Non-vacuity: `"a\x41\7\n"`. -/
example : lexLit "\"a\\x41\\7\\n\";".toList = some (.literal "aA\x07\n".toList, [';']) :=
  C51_literal_partial "a\\x41\\7\\n".toList "aA\x07\n".toList [';']
    (.plain 'a' _ _ (by decide) (.hex2 '4' '1' 4 1 _ _ (by decide +kernel) (by decide +kernel)
      (.oct1 '7' 7 _ _ (by decide +kernel) (by
        intro d t e w hw
        cases e
        have := hw.facts.1
        exact absurd this (by decide)) (.esc 'n' '\n' _ _ (by decide) .nil)))) (by decide)

end MZ
