import Verif.Json.Token
import Verif.Json.Spec

/-!
# JSON strings and integers (C21, C22)
-/

namespace MZ
namespace Json

theorem HexDigit.facts {c : Char} {v : Nat} (h : HexDigit c v) :
    Lex.isHex c = true ∧ Lex.hexVal c = v ∧ isSpace c = false ∧ c ≠ '-' ∧ c ≠ '+' ∧ c ≠ 'x' ∧ c ≠ 'X' ∧
      v < 16 ∧ (c = '0' → v = 0) := by
  have key : ∀ p ∈ "0123456789abcdef".toList.zipIdx ++ "0123456789ABCDEF".toList.zipIdx,
      Lex.isHex p.1 = true ∧ Lex.hexVal p.1 = p.2 ∧ isSpace p.1 = false ∧ p.1 ≠ '-' ∧ p.1 ≠ '+' ∧
        p.1 ≠ 'x' ∧ p.1 ≠ 'X' ∧ p.2 < 16 ∧ (p.1 = '0' → p.2 = 0) := by decide +kernel
  exact key _ h

theorem hexExtract_hex4 (bits : Nat) {t : List Char} {v : Nat} (h : Hex4 t v) :
    hexExtract bits t = some v ∧ v < 65536 := by
  obtain ⟨a, b, c, d, va, vb, vc, vd, rfl, ha, hb, hc, hd, rfl⟩ := h
  obtain ⟨a1, a2, a3, a4, a5, a6, a7, a8, a9⟩ := ha.facts
  obtain ⟨b1, b2, b3, b4, b5, b6, b7, b8, b9⟩ := hb.facts
  obtain ⟨c1, c2, c3, c4, c5, c6, c7, c8, c9⟩ := hc.facts
  obtain ⟨d1, d2, d3, d4, d5, d6, d7, d8, d9⟩ := hd.facts
  refine ⟨?_, by omega⟩
  have e1 : List.dropWhile isSpace [a, b, c, d] = [a, b, c, d] := by simp [a3]
  unfold hexExtract
  simp only [e1, List.head?_cons, Option.some.injEq, a4, a5, or_self, if_false]
  by_cases h0 : a = '0'
  · have hp : hexPrefix [a, b, c, d] false = (true, [b, c, d]) := by
      rw [hexPrefix, if_pos ⟨h0, rfl⟩, hexPrefix, if_neg (by simp), if_neg (by simp [b6, b7])]
    have := a9 h0
    simp only [hp, List.takeWhile_cons, b1, c1, d1, if_true, List.takeWhile_nil, Bool.true_eq_false,
      and_false, if_false, hexRun, List.foldl_cons, List.foldl_nil, b2, c2, d2]
    congr 1
    omega
  · have hp : hexPrefix [a, b, c, d] false = (false, [a, b, c, d]) := by
      rw [hexPrefix, if_neg (by simp [h0]), if_neg (by simp)]
    simp only [hp, List.takeWhile_cons, a1, b1, c1, d1, if_true, List.takeWhile_nil, reduceCtorEq,
      false_and, if_false, hexRun, List.foldl_cons, List.foldl_nil, a2, b2, c2, d2]
    congr 1
    omega

theorem or_low (k a b : Nat) (h : b < 2 ^ k) : (2 ^ k * a) ||| b = 2 ^ k * a + b :=
  (Nat.two_pow_add_eq_or_of_lt h a).symm

theorem contByte (x : Nat) : (0x80 ||| (x &&& 0x3F)) = 128 + x % 64 := by
  have e : x &&& 0x3F = x % 64 := Nat.and_two_pow_sub_one_eq_mod x 6
  rw [e]
  have := or_low 7 1 (x % 64) (by omega)
  simpa using this

theorem shr6 (x : Nat) : x >>> 6 = x / 64 := Nat.shiftRight_eq_div_pow x 6

theorem uint8_char (n : Nat) : Char.ofNat (UInt8.ofNat n).toNat = Lex.toByte n := by
  simp [Lex.toByte]

theorem leadByte2 (x : Nat) (h : x < 32) : ((0xF0 <<< (4 - 2)) ||| x) % 256 = 192 + x := by
  have := or_low 6 15 x (by omega)
  have e : (0xF0 <<< (4 - 2) : Nat) = 2 ^ 6 * 15 := by decide
  rw [e, this]
  omega

theorem leadByte3 (x : Nat) (h : x < 16) : ((0xF0 <<< (4 - 3)) ||| x) % 256 = 224 + x := by
  have := or_low 5 15 x (by omega)
  have e : (0xF0 <<< (4 - 3) : Nat) = 2 ^ 5 * 15 := by decide
  rw [e, this]
  omega

theorem leadByte4 (x : Nat) (h : x < 8) : ((0xF0 <<< (4 - 4)) ||| x) % 256 = 240 + x := by
  have := or_low 4 15 x (by omega)
  have e : (0xF0 <<< (4 - 4) : Nat) = 2 ^ 4 * 15 := by decide
  rw [e, this]
  omega

theorem toByte_congr {a b : Nat} (h : a % 256 = b % 256) : Lex.toByte a = Lex.toByte b := by
  simp [Lex.toByte, h]

theorem char_lt (c : Char) : c.toNat < 0x110000 := by
  have := c.valid
  unfold UInt32.isValidChar Nat.isValidChar at this
  have e : c.toNat = c.val.toNat := rfl
  rw [e]
  omega

theorem encode_char (c : Char) : encode c.toNat = utf8 c := by
  have hlt := char_lt c
  unfold utf8 String.utf8EncodeChar encode encBytes
  have e : c.val.toNat = c.toNat := rfl
  rw [e]
  generalize c.toNat = v at *
  by_cases h1 : v ≤ 0x7F
  · simp [h1, encTail, Lex.toByte]
  · by_cases h2 : v ≤ 0x7FF
    · simp only [h1, h2, if_false, if_true, encTail, List.map_cons, List.map_nil, uint8_char,
        List.cons.injEq, and_true, contByte, shr6]
      refine ⟨toByte_congr ?_, toByte_congr (by omega)⟩
      have := leadByte2 (v / 64) (by omega)
      rw [if_pos (by decide), this]
      omega
    · by_cases h3 : v ≤ 0xFFFF
      · simp only [h1, h2, h3, if_false, if_true, encTail, List.map_cons, List.map_nil, uint8_char,
          List.cons.injEq, and_true, contByte, shr6]
        refine ⟨toByte_congr ?_, toByte_congr (by omega), toByte_congr (by omega)⟩
        have := leadByte3 (v / 64 / 64) (by omega)
        rw [if_pos (by decide), this]
        omega
      · simp only [h1, h2, h3, if_false, encTail, List.map_cons, List.map_nil, uint8_char,
          List.cons.injEq, and_true, contByte, shr6]
        refine ⟨toByte_congr ?_, toByte_congr (by omega), toByte_congr (by omega), toByte_congr (by omega)⟩
        have := leadByte4 (v / 64 / 64 / 64) (by omega)
        rw [if_pos (by decide), this]
        omega

theorem combine_eq (v : Nat) (h : v < 2 ^ 20) :
    combine (0xD800 + v / 1024) (0xDC00 + v % 1024) =
      if v / 65536 % 2 = 1 then v else v + 65536 := by
  unfold combine
  have e1 : 0xD800 + v / 1024 - 0xD800 = v / 1024 := Nat.add_sub_cancel_left ..
  have e2 : 0xDC00 + v % 1024 - 0xDC00 = v % 1024 := Nat.add_sub_cancel_left ..
  rw [e1, e2, Nat.shiftLeft_eq, Nat.mul_comm, or_low 10 _ _ (by omega)]
  have e3 : 2 ^ 10 * (v / 1024) + v % 1024 = v := by omega
  rw [e3]
  split
  · rename_i hb
    apply Nat.eq_of_testBit_eq
    intro i
    have e4 : (0x10000 : Nat) = 2 ^ 16 := by decide
    rw [e4, Nat.testBit_or, Nat.testBit_two_pow]
    by_cases hi : i = 16
    · subst hi
      rw [Nat.testBit_eq_decide_div_mod_eq]
      simp [hb]
    · have : decide (16 = i) = false := by simp; omega
      rw [this, Bool.or_false]
  · rename_i hb
    have hr : v % 65536 < 2 ^ 16 := by omega
    have d1 : v = 2 ^ 17 * (v / 131072) + v % 65536 := by omega
    have d2 : v + 65536 = 2 ^ 17 * (v / 131072) + (2 ^ 16 * 1 + v % 65536) := by omega
    rw [d2]
    conv_lhs => rw [d1]
    rw [← or_low 17 _ _ (by omega), ← or_low 17 _ (2 ^ 16 * 1 + v % 65536) (by omega),
      ← or_low 16 1 _ hr, Nat.or_assoc, Nat.or_comm (v % 65536)]
    rfl

theorem readU_bmp {t : List Char} {c : Char} (h : Hex4 t c.toNat) (r : List Char) :
    readU (t ++ r) = .ok (utf8 c, r) := by
  obtain ⟨e, hlt⟩ := hexExtract_hex4 64 h
  have hl : t.length = 4 := by
    obtain ⟨_, _, _, _, _, _, _, _, rfl, _⟩ := h
    rfl
  unfold readU
  rw [if_neg (by simp only [List.length_append, hl]; omega), List.take_left' hl, e]
  simp only
  have hv := c.valid
  unfold UInt32.isValidChar Nat.isValidChar at hv
  have ec : c.toNat = c.val.toNat := rfl
  rw [if_neg (by rw [ec] at hlt ⊢; omega), List.drop_left' hl, encode_char]

theorem readU_pair {t t' : List Char} {hi lo : Nat} (h : Hex4 t hi) (h' : Hex4 t' lo)
    (h1 : 0xD800 ≤ hi ∧ hi ≤ 0xDBFF) (h2 : 0xDC00 ≤ lo ∧ lo ≤ 0xDFFF) (r : List Char) :
    readU (t ++ '\\' :: 'u' :: t' ++ r) = .ok (encode (combine hi lo), r) := by
  have e := (hexExtract_hex4 64 h).1
  have e' := (hexExtract_hex4 32 h').1
  obtain ⟨a, b, c, d, _, _, _, _, rfl, _⟩ := h
  obtain ⟨a', b', c', d', _, _, _, _, rfl, _⟩ := h'
  unfold readU
  simp only [List.cons_append, List.nil_append, List.length_cons, List.take_succ_cons, List.take_zero,
    List.drop_succ_cons, List.drop_zero]
  rw [if_neg (by omega), e]
  simp only
  rw [if_pos h1, if_neg (by omega), if_neg (by simp), e']
  simp only
  rw [if_neg (by omega)]

theorem readStr_esc (d : Char) (r' acc out r'' : List Char) (h : readEscape d r' = .ok (out, r'')) :
    readStr ('\\' :: d :: r') acc = readStr r'' (acc ++ out) := by
  rw [readStr]
  simp only [Char.reduceEq, if_false, if_true]
  split
  · rename_i o r3 h3
    rw [h] at h3
    simp only [Res.ok.injEq, Prod.mk.injEq] at h3
    rw [h3.1, h3.2]
  · rename_i h3
    rw [h] at h3
    exact absurd h3 (by simp)
  · rename_i h3
    rw [h] at h3
    exact absurd h3 (by simp)

theorem readStr_plain (c : Char) (r acc : List Char) (h1 : c ≠ '"') (h2 : c ≠ '\\') :
    readStr (c :: r) acc = readStr r (acc ++ [c]) := by
  rw [readStr.eq_def]
  simp [h1, h2]

/-- The elements the reader decodes as RFC 8259 says: all but the escapes `\b`, `\f` and `\r`, and
surrogate pairs of characters in an even-numbered plane. -/
def Supported (src dec : List Char) : Prop :=
  src ≠ ['\\', 'b'] ∧ src ≠ ['\\', 'f'] ∧ src ≠ ['\\', 'r'] ∧
    ∀ c : Char, 0x10000 ≤ c.toNat → dec = utf8 c → c.toNat / 0x10000 % 2 = 1

theorem readStr_elem {src dec : List Char} (h : Elem src dec) (hs : Supported src dec)
    (r acc : List Char) : readStr (src ++ r) acc = readStr r (acc ++ dec) := by
  obtain ⟨s1, s2, s3, s4⟩ := hs
  cases h with
  | plain c h1 h2 => exact readStr_plain c r acc h1 h2
  | esc e v h =>
    simp only [List.mem_cons, Prod.mk.injEq, List.not_mem_nil, or_false] at h
    rcases h with ⟨rfl, rfl⟩ | ⟨rfl, rfl⟩ | ⟨rfl, rfl⟩ | ⟨rfl, rfl⟩ | ⟨rfl, rfl⟩ | ⟨rfl, rfl⟩ | ⟨rfl, rfl⟩ |
      ⟨rfl, rfl⟩
    · exact readStr_esc _ _ _ _ _ rfl
    · exact readStr_esc _ _ _ _ _ rfl
    · exact readStr_esc _ _ _ _ _ rfl
    · exact absurd rfl s1
    · exact absurd rfl s2
    · exact readStr_esc _ _ _ _ _ rfl
    · exact absurd rfl s3
    · exact readStr_esc _ _ _ _ _ rfl
  | bmp t c h => exact readStr_esc _ _ _ _ _ (readU_bmp h r)
  | pair t t' c hc h h' =>
    have hodd := s4 c hc rfl
    have hlt := char_lt c
    have e : '\\' :: 'u' :: t ++ '\\' :: 'u' :: t' ++ r = '\\' :: 'u' :: (t ++ '\\' :: 'u' :: t' ++ r) := by
      simp
    rw [e]
    refine readStr_esc _ _ _ _ _ ?_
    have := readU_pair h h' (by unfold hiSurrogate; omega) (by unfold loSurrogate; omega) r
    show readU _ = _
    rw [this]
    unfold hiSurrogate loSurrogate
    rw [combine_eq _ (by omega), if_neg (by omega)]
    have : c.toNat - 0x10000 + 65536 = c.toNat := by omega
    rw [this, encode_char]

theorem readStr_quote (r acc : List Char) : readStr ('"' :: r) acc = .ok (.str acc, r) := by
  rw [readStr.eq_def]
  simp

theorem readToken_quote (r : List Char) : readToken ('"' :: r) = readStr r [] := by
  rw [readToken]
  simp [isWs]

theorem readStr_elems (es : List (List Char × List Char)) (h : ∀ e ∈ es, Elem e.1 e.2 ∧ Supported e.1 e.2)
    (rest acc : List Char) :
    readStr ((es.map Prod.fst).flatten ++ '"' :: rest) acc = .ok (.str (acc ++ (es.map Prod.snd).flatten), rest) := by
  induction es generalizing acc with
  | nil =>
    simp only [List.map_nil, List.flatten_nil, List.nil_append, List.append_nil]
    exact readStr_quote rest acc
  | cons e es ih =>
    obtain ⟨h1, h2⟩ := h e (by simp)
    simp only [List.map_cons, List.flatten_cons, List.append_assoc]
    rw [readStr_elem h1 h2, ih (fun x hx => h x (by simp [hx]))]
    simp

theorem readEscape_escByte (c : Char) (r acc : List Char) :
    readStr (Lex.escByte c ++ r) acc = readStr r (acc ++ [c]) := by
  unfold Lex.escByte
  split
  · rename_i h; subst h; exact readStr_esc _ _ _ _ _ rfl
  · split
    · rename_i h; subst h; exact readStr_esc _ _ _ _ _ rfl
    · split
      · rename_i h; subst h; exact readStr_esc _ _ _ _ _ rfl
      · split
        · rename_i h; subst h; exact readStr_esc _ _ _ _ _ rfl
        · rename_i h3 h4
          exact readStr_plain c r acc h3 h4

theorem readStr_escape (s r acc : List Char) :
    readStr (Lex.escape s ++ r) acc = readStr r (acc ++ s) := by
  induction s generalizing acc with
  | nil => simp [Lex.escape]
  | cons c s ih =>
    have e : Lex.escape (c :: s) ++ r = Lex.escByte c ++ (Lex.escape s ++ r) := by simp [Lex.escape]
    rw [e, readEscape_escByte, ih]
    simp

theorem utf8_ge (c : Char) (h : 0x10000 ≤ c.toNat) :
    utf8 c = [Lex.toByte (c.toNat / 262144 % 8 + 240), Lex.toByte (c.toNat / 4096 % 64 + 128),
      Lex.toByte (c.toNat / 64 % 64 + 128), Lex.toByte (c.toNat % 64 + 128)] := by
  unfold utf8 String.utf8EncodeChar
  have e : c.val.toNat = c.toNat := rfl
  rw [e, if_neg (by omega), if_neg (by omega), if_neg (by omega)]
  simp only [List.map_cons, List.map_nil, uint8_char]

theorem toNat_ofNat {n : Nat} (h : n.isValidChar) : (Char.ofNat n).toNat = n := by
  unfold Char.ofNat
  rw [dif_pos h]
  rfl

theorem toByte_inj {a b : Nat} (ha : a < 256) (hb : b < 256) (h : Lex.toByte a = Lex.toByte b) : a = b := by
  unfold Lex.toByte at h
  rw [Nat.mod_eq_of_lt ha, Nat.mod_eq_of_lt hb] at h
  have := congrArg Char.toNat h
  rwa [toNat_ofNat (by left; omega), toNat_ofNat (by left; omega)] at this

/-! ## Integers -/

theorem isDigit_iff (c : Char) : isDigit c = true ↔ '0' ≤ c ∧ c ≤ '9' := by
  simp [isDigit]

theorem decRun_eq (ds : List Char) : decRun ds = Nat.ofDigitChars 10 ds 0 := by
  unfold decRun
  have key : ∀ n, ds.foldl (fun n c => n * 10 + (c.toNat - 48)) n = Nat.ofDigitChars 10 ds n := by
    induction ds with
    | nil => intro n; simp
    | cons c ds ih =>
      intro n
      rw [List.foldl_cons, ih, Nat.ofDigitChars_cons]
      congr 1
      have : '0'.toNat = 48 := rfl
      rw [this, Nat.mul_comm]
  exact key 0

theorem digit_ne {c : Char} (h : '0' ≤ c ∧ c ≤ '9') :
    c ≠ '.' ∧ c ≠ 'e' ∧ c ≠ 'E' ∧ c ≠ '-' ∧ isWs c = false ∧ c ≠ '[' ∧ c ≠ ']' ∧ c ≠ '{' ∧ c ≠ '}' ∧
      c ≠ ',' ∧ c ≠ ':' ∧ c ≠ '"' ∧ c ≠ 't' ∧ c ≠ 'f' ∧ c ≠ 'n' := by
  refine ⟨?_, ?_, ?_, ?_, ?_, ?_, ?_, ?_, ?_, ?_, ?_, ?_, ?_, ?_, ?_⟩
  pick_goal 5
  · by_contra hc
    rw [Bool.not_eq_false] at hc
    simp only [isWs, Bool.or_eq_true, decide_eq_true_eq] at hc
    rcases hc with ((rfl | rfl) | rfl) | rfl <;> exact absurd h (by decide)
  all_goals (rintro rfl; exact absurd h (by decide))

theorem readInt_digits (ds : List Char) (h : ∀ c ∈ ds, '0' ≤ c ∧ c ≤ '9') (r acc : List Char) :
    readInt (ds ++ r) acc = readInt r (acc ++ ds) := by
  induction ds generalizing acc with
  | nil => simp
  | cons c ds ih =>
    obtain ⟨h1, h2, h3, _⟩ := digit_ne (h c (by simp))
    rw [List.cons_append, readInt, if_neg h1, if_neg (by tauto), if_pos ((isDigit_iff c).2 (h c (by simp))),
      ih (fun x hx => h x (by simp [hx]))]
    simp

theorem readInt_end {rest acc : List Char} (h : EndsNumber rest) :
    readInt rest acc = .ok (.int (toInt32 acc), rest) := by
  obtain ⟨c, r, rfl, h1, h2, h3, h4⟩ := h
  rw [readInt, if_neg h2, if_neg (by tauto), if_neg (by rw [isDigit_iff]; exact h1)]

theorem readToken_num {c : Char} (r : List Char) (h : ('0' ≤ c ∧ c ≤ '9') ∨ c = '-') :
    readToken (c :: r) = readInt r [c] := by
  have key : isWs c = false ∧ c ≠ '[' ∧ c ≠ ']' ∧ c ≠ '{' ∧ c ≠ '}' ∧
      c ≠ ',' ∧ c ≠ ':' ∧ c ≠ '"' ∧ c ≠ 't' ∧ c ≠ 'f' ∧ c ≠ 'n' := by
    rcases h with h | rfl
    · exact (digit_ne h).2.2.2.2
    · decide
  obtain ⟨k1, k2, k3, k4, k5, k6, k7, k8, k9, k10, k11⟩ := key
  have hd : isDigit c = true ∨ c = '-' := by rwa [isDigit_iff]
  rw [readToken, k1, if_neg (by simp), if_neg k2, if_neg k3, if_neg k4, if_neg k5, if_neg k6, if_neg k7,
    if_neg k8, if_neg k9, if_neg k10, if_neg k11, if_pos hd]

theorem readToken_int (neg : Bool) {ds rest : List Char} (hd : Digits ds) (hr : EndsNumber rest) :
    readToken (intText neg ds ++ rest) = .ok (.int (toInt32 (intText neg ds)), rest) := by
  obtain ⟨h0, h1⟩ := hd
  cases neg with
  | true =>
    simp only [intText, if_true, List.cons_append]
    rw [readToken_num _ (Or.inr rfl), readInt_digits ds h1, readInt_end hr]
    rfl
  | false =>
    cases ds with
    | nil => exact absurd rfl h0
    | cons c ds =>
      simp only [intText, Bool.false_eq_true, if_false, List.cons_append]
      rw [readToken_num _ (Or.inl (h1 c (by simp))), readInt_digits ds (fun x hx => h1 x (by simp [hx])),
        readInt_end hr]
      rfl

/-- Nearest 32-bit integer. -/
def clamp32 (v : Int) : Int :=
  if v < -2147483648 then -2147483648 else if v > 2147483647 then 2147483647 else v

theorem toInt32_eq (neg : Bool) {ds : List Char} (hd : Digits ds) :
    toInt32 (intText neg ds) = clamp32 (intValue neg ds) := by
  obtain ⟨h0, h1⟩ := hd
  unfold toInt32 clamp32 intValue
  cases neg with
  | true => simp only [intText, if_true, List.head?_cons, List.tail_cons, if_neg h0, decRun_eq]
  | false =>
    have : ds.head? ≠ some '-' := by
      intro e
      cases ds with
      | nil => simp at e
      | cons c ds =>
        simp only [List.head?_cons, Option.some.injEq] at e
        exact absurd (h1 c (by simp)) (by rw [e]; decide)
    simp only [intText, Bool.false_eq_true, if_false, if_neg this, if_neg h0, decRun_eq]

end Json

open Json

/-- **C21 (JSON strings are decoded as RFC 8259 says), partial.**  A JSON string made of any number
of elements is read as the concatenation of their meanings, the text after it is left, provided no
element is `\b`, `\f`, `\r` or a surrogate pair of a character in an even-numbered plane.  What is
missing are exactly those elements; see the theorems below for what happens to them. -/
theorem C21_strings_partial (es : List (List Char × List Char)) (rest : List Char)
    (h : ∀ e ∈ es, Elem e.1 e.2 ∧ Supported e.1 e.2) :
    readToken ('"' :: (es.map Prod.fst).flatten ++ '"' :: rest) =
      .ok (.str (es.map Prod.snd).flatten, rest) := by
  rw [List.cons_append, readToken_quote, readStr_elems es h]
  simp

/-- **C21, surrogate pairs.**  For every character outside the basic plane, written as its
surrogate pair with any digits: the reader delivers the character's UTF-8 encoding if and only if
the number of its plane is odd. -/
theorem C21_pair_iff (c : Char) (t t' rest : List Char) (hc : 0x10000 ≤ c.toNat)
    (h : Hex4 t (hiSurrogate c)) (h' : Hex4 t' (loSurrogate c)) :
    readToken ('"' :: '\\' :: 'u' :: t ++ '\\' :: 'u' :: t' ++ '"' :: rest) = .ok (.str (utf8 c), rest) ↔
      c.toNat / 0x10000 % 2 = 1 := by
  have hlt := char_lt c
  have hv := readU_pair h h' (by unfold hiSurrogate; omega) (by unfold loSurrogate; omega) ('"' :: rest)
  have e : '"' :: '\\' :: 'u' :: t ++ '\\' :: 'u' :: t' ++ '"' :: rest =
      '"' :: '\\' :: 'u' :: (t ++ '\\' :: 'u' :: t' ++ '"' :: rest) := by simp
  have hq := readStr_quote rest
  rw [e, readToken_quote, readStr_esc _ _ _ _ _ (show readEscape 'u' _ = _ from hv), hq]
  unfold hiSurrogate loSurrogate
  rw [combine_eq _ (by omega)]
  simp only [List.nil_append, Res.ok.injEq, Prod.mk.injEq, and_true, JTok.str.injEq]
  constructor
  · intro he
    by_contra hodd
    rw [if_pos (by omega)] at he
    have hval : (c.toNat - 0x10000).isValidChar := by unfold Nat.isValidChar; omega
    obtain ⟨d, hd⟩ : ∃ d : Char, d.toNat = c.toNat - 0x10000 :=
      ⟨Char.ofNat (c.toNat - 0x10000), toNat_ofNat hval⟩
    rw [← hd, encode_char, utf8_ge d (by omega), utf8_ge c hc] at he
    simp only [List.cons.injEq] at he
    have := toByte_inj (by omega) (by omega) he.2.1
    omega
  · intro hodd
    rw [if_neg (by omega)]
    have : c.toNat - 0x10000 + 65536 = c.toNat := by omega
    rw [this, encode_char]

/-- **C21 fails in the even-numbered planes.**  The text `"\uD840\uDC00"` denotes U+20000, but
the reader delivers the encoding of U+10000. -/
theorem C21_pair_fails :
    readToken "\"\\uD840\\uDC00\"".toList = .ok (.str (utf8 (Char.ofNat 0x10000)), []) ∧
    Elem "\\uD840\\uDC00".toList (utf8 (Char.ofNat 0x20000)) := by
  constructor
  · have e : "\"\\uD840\\uDC00\"".toList = '"' :: '\\' :: 'u' :: ("D840".toList ++ '\\' :: 'u' :: "DC00".toList ++ ['"']) := by
      decide
    have h1 : Hex4 "D840".toList 0xD840 := ⟨'D', '8', '4', '0', 13, 8, 4, 0, by decide +kernel⟩
    have h2 : Hex4 "DC00".toList 0xDC00 := ⟨'D', 'C', '0', '0', 13, 12, 0, 0, by decide +kernel⟩
    have h3 : readEscape 'u' ("D840".toList ++ '\\' :: 'u' :: "DC00".toList ++ ['"']) = _ :=
      readU_pair h1 h2 (by decide) (by decide) ['"']
    rw [e, readToken_quote, readStr_esc _ _ _ _ _ h3, readStr_quote]
    decide +kernel
  · exact Elem.pair "D840".toList "DC00".toList (Char.ofNat 0x20000) (by decide +kernel)
      ⟨'D', '8', '4', '0', 13, 8, 4, 0, by decide +kernel⟩ ⟨'D', 'C', '0', '0', 13, 12, 0, 0, by decide +kernel⟩

/-- **C21 fails for `\b`, `\f` and `\r`.**  For each of these escapes the reader delivers the
backslash and the letter instead of the control character. -/
theorem C21_control_fails (e : Char) (he : e ∈ ['b', 'f', 'r']) (rest : List Char) :
    readToken ('"' :: '\\' :: e :: '"' :: rest) = .ok (.str ['\\', e], rest) := by
  rw [readToken_quote, readStr_esc _ _ _ ['\\', e] ('"' :: rest), readStr_quote]
  · simp
  · simp only [List.mem_cons, List.not_mem_nil, or_false] at he
    rcases he with rfl | rfl | rfl <;> rfl

/-- **C21, malformed escapes are accepted.**  `\u12zz` is read as U+0012 although it is not a JSON
escape. -/
theorem C21_malformed_fails :
    readToken "\"\\u12zz\"".toList = .ok (.str ['\x12'], []) := by
  have h : readEscape 'u' "12zz\"".toList = .ok (['\x12'], ['"']) := by decide +kernel
  have e : "\"\\u12zz\"".toList = '"' :: '\\' :: 'u' :: "12zz\"".toList := by decide
  rw [e, readToken_quote, readStr_esc _ _ _ _ _ h, readStr_quote]
  rfl

/-- **C21, round trip.**  A JSON string written by the printer is read back exactly, for every byte
string. -/
theorem C21_roundtrip (s rest : List Char) :
    readToken (Lex.printLit s ++ rest) = .ok (.str s, rest) := by
  have e : Lex.printLit s ++ rest = '"' :: (Lex.escape s ++ '"' :: rest) := by simp [Lex.printLit]
  rw [e, readToken_quote, readStr_escape, readStr_quote]
  simp

/-- Non-vacuity of C21: a string with a plain byte, `\n`, `\u00e9` and the pair of U+1F600. -/
example : readToken "\"a\\n\\u00e9\\ud83d\\uDE00\",".toList =
    .ok (.str ("a\n".toList ++ utf8 'é' ++ utf8 (Char.ofNat 0x1F600)), [',']) := by
  have := C21_strings_partial
    [("a".toList, "a".toList), ("\\n".toList, "\n".toList), ("\\u00e9".toList, utf8 'é'),
      ("\\ud83d\\uDE00".toList, utf8 (Char.ofNat 0x1F600))] [','] (by
      have hu : ∀ c : Char, 0x10000 ≤ c.toNat → ∀ l, l.length ≠ 4 → l ≠ utf8 c := by
        intro c hc l hl e
        rw [e, utf8_ge c hc] at hl
        exact hl rfl
      intro e he
      simp only [List.mem_cons, List.not_mem_nil, or_false] at he
      rcases he with rfl | rfl | rfl | rfl
      · exact ⟨.plain 'a' (by decide) (by decide), by decide, by decide, by decide,
          fun c hc h => absurd h (hu c hc _ (by decide))⟩
      · exact ⟨.esc 'n' '\n' (by decide), by decide, by decide, by decide,
          fun c hc h => absurd h (hu c hc _ (by decide))⟩
      · exact ⟨.bmp "00e9".toList 'é' ⟨'0', '0', 'e', '9', 0, 0, 14, 9, by decide +kernel⟩, by decide, by decide,
          by decide, fun c hc h => absurd h (hu c hc _ (by decide +kernel))⟩
      · refine ⟨.pair "d83d".toList "DE00".toList (Char.ofNat 0x1F600) (by decide +kernel)
          ⟨'d', '8', '3', 'd', 13, 8, 3, 13, by decide +kernel⟩ ⟨'D', 'E', '0', '0', 13, 14, 0, 0, by decide +kernel⟩,
          by decide, by decide, by decide, ?_⟩
        intro c hc h
        rw [utf8_ge c hc, utf8_ge _ (by decide +kernel)] at h
        simp only [List.cons.injEq] at h
        have hlt := char_lt c
        have h1 := toByte_inj (by omega) (by omega) h.1
        have h2 := toByte_inj (by omega) (by omega) h.2.1
        have e1 : (Char.ofNat 0x1F600).toNat = 0x1F600 := by decide +kernel
        rw [e1] at h1 h2
        omega)
  simpa using this

/-- **C22 (JSON integers are read exactly or rejected), partial.**  Every integer text (an optional
minus sign and any number of digits) followed by something that does not continue the number is
read as exactly the integer it denotes if and only if that integer has 32 bits. -/
theorem C22_iff_partial (neg : Bool) (ds rest : List Char) (hd : Digits ds) (hr : EndsNumber rest) :
    readToken (intText neg ds ++ rest) = .ok (.int (intValue neg ds), rest) ↔
      -2 ^ 31 ≤ intValue neg ds ∧ intValue neg ds < 2 ^ 31 := by
  rw [readToken_int neg hd hr, toInt32_eq neg hd]
  simp only [Res.ok.injEq, Prod.mk.injEq, and_true, JTok.int.injEq]
  unfold clamp32
  constructor
  · intro h
    split at h
    · omega
    · split at h <;> omega
  · intro h
    rw [if_neg (by omega), if_neg (by omega)]

/-- **C22 fails beyond 32 bits.**  Every larger integer is silently replaced by the nearest 32-bit
one, without an error. -/
theorem C22_clamp_fails (neg : Bool) (ds rest : List Char) (hd : Digits ds) (hr : EndsNumber rest)
    (h : intValue neg ds < -2 ^ 31 ∨ 2 ^ 31 ≤ intValue neg ds) :
    readToken (intText neg ds ++ rest) =
      .ok (.int (if intValue neg ds < 0 then -2147483648 else 2147483647), rest) := by
  rw [readToken_int neg hd hr, toInt32_eq neg hd]
  unfold clamp32
  congr 3
  split
  · rw [if_pos (by omega)]
  · split
    · rw [if_neg (by omega)]
    · omega

/-- **C22 fails on a lone minus sign and at the end of the input.**  A minus sign without digits is
read as 0, and a number that ends the input is dropped. -/
theorem C22_minus_fails :
    readToken "-,".toList = .ok (.int 0, [',']) ∧ readToken "5".toList = .ok (.eof, []) := by
  constructor <;> decide +kernel

/-- Non-vacuity of C22. -/
example : readToken "-0042]".toList = .ok (.int (-42), [']']) :=
  (C22_iff_partial true "0042".toList [']'] ⟨by decide, by decide⟩ ⟨']', [], by decide⟩).2 (by decide)
example : readToken "3000000000]".toList = .ok (.int 2147483647, [']']) :=
  C22_clamp_fails false "3000000000".toList [']'] ⟨by decide, by decide⟩ ⟨']', [], by decide⟩ (by decide)

end MZ
