import Verif.Base64.Model
import Verif.Base64.Spec
import Verif.IntVal.Props
import Mathlib.Tactic.IntervalCases
/-!
# C33: base64
-/
namespace MZ
namespace Base64

theorem encodeValue_digit : ∀ v, v < 64 → encodeValue v = digit v := by decide

theorem decode_digit : ∀ v, v < 64 → decodeValue (digit v) = .ok (v : Int) := by decide +kernel

theorem and_fc : ∀ b, b < 256 → (b &&& 0xfc) >>> 2 = b / 4 := by decide +kernel
theorem and_03 : ∀ b, b < 256 → (b &&& 0x03) <<< 4 = b % 4 * 16 := by decide +kernel
theorem and_f0 : ∀ b, b < 256 → (b &&& 0xf0) >>> 4 = b / 16 := by decide +kernel
theorem and_0f : ∀ b, b < 256 → (b &&& 0x0f) <<< 2 = b % 16 * 4 := by decide +kernel
theorem and_c0 : ∀ b, b < 256 → (b &&& 0xc0) >>> 6 = b / 64 := by decide +kernel
theorem and_3f : ∀ b, b < 256 → b &&& 0x3f = b % 64 := by decide +kernel
theorem or_16 : ∀ x, x < 4 → ∀ y, y < 16 → (x * 16 ||| y) = x * 16 + y := by decide +kernel
theorem or_4 : ∀ x, x < 16 → ∀ y, y < 4 → (x * 4 ||| y) = x * 4 + y := by decide +kernel
theorem f_3f : ∀ f, f < 64 → ((f &&& 0x3f) <<< 2) % 256 = f * 4 := by decide +kernel
theorem f_30 : ∀ f, f < 64 → (f &&& 0x30) >>> 4 = f / 16 := by decide +kernel
theorem f_0f : ∀ f, f < 64 → ((f &&& 0x0f) <<< 4) % 256 = f % 16 * 16 := by decide +kernel
theorem f_3c : ∀ f, f < 64 → (f &&& 0x3c) >>> 2 = f / 4 := by decide +kernel
theorem f_03 : ∀ f, f < 64 → ((f &&& 0x03) <<< 6) % 256 = f % 4 * 64 := by decide +kernel
theorem f_id : ∀ f, f < 64 → f &&& 0x3f = f := by decide +kernel
theorem or_4' : ∀ x, x < 64 → ∀ y, y < 4 → (x * 4 ||| y) = x * 4 + y := by decide +kernel
theorem or_16' : ∀ x, x < 16 → ∀ y, y < 16 → (x * 16 ||| y) = x * 16 + y := by decide +kernel
theorem or_64' : ∀ x, x < 4 → ∀ y, y < 64 → (x * 64 ||| y) = x * 64 + y := by decide +kernel

/-- Line feeds removed. -/
def strip (l : List Nat) : List Nat := l.filter (· ≠ 10)

theorem strip_append (a b : List Nat) : strip (a ++ b) = strip a ++ strip b := List.filter_append a b

theorem strip_break (cpl n : Nat) : strip (checkBreak cpl n).1 = [] := by
  unfold checkBreak; split <;> simp [strip]

theorem digit_ne : ∀ v, v < 64 → digit v ≠ 10 := by decide

theorem strip_digit {v : Nat} (h : v < 64) : strip [digit v] = [digit v] := by
  simp [strip, digit_ne v h]

/-- Splitting the input into blocks does not matter. -/
theorem encodeBlock_append (cpl : Nat) : ∀ (a b : List Nat) (st : EState),
    encodeBlock cpl (a ++ b) st = ((encodeBlock cpl a st).1 ++ (encodeBlock cpl b (encodeBlock cpl a st).2).1,
      (encodeBlock cpl b (encodeBlock cpl a st).2).2)
  | [], b, st => by simp [encodeBlock]
  | x :: a, b, st => by
    simp only [List.cons_append, encodeBlock]
    rw [encodeBlock_append cpl a b]
    simp

theorem encodeStream_eq (cpl N : Nat) (s : List Nat) (st : EState) :
    encodeStream cpl N s st = encodeBlock cpl s st := by
  fun_induction encodeStream cpl N s st with
  | case1 s st h o st1 h1 o' st2 h2 ih =>
    have : s = s.take N ++ s.drop N := by simp
    conv_rhs => rw [this, encodeBlock_append]
    rw [h1]
    rw [ih] at h2
    simp [h2]
  | case2 => rfl

/-- The characters of a full group, starting in state A. -/
theorem encode_group (cpl : Nat) (x y z : Nat) (hx : x < 256) (hy : y < 256) (hz : z < 256) (r n : Nat)
    (l : List Nat) : ∃ r' n', strip (encodeBlock cpl (x :: y :: z :: l) ⟨.A, r, n⟩).1 =
      digit (x / 4) :: digit (x % 4 * 16 + y / 16) :: digit (y % 16 * 4 + z / 64) :: digit (z % 64) ::
        strip (encodeBlock cpl l ⟨.A, r', n'⟩).1 ∧
      (encodeBlock cpl (x :: y :: z :: l) ⟨.A, r, n⟩).2 = (encodeBlock cpl l ⟨.A, r', n'⟩).2 := by
  refine ⟨z &&& 0x3f, (checkBreak cpl (checkBreak cpl (checkBreak cpl (checkBreak cpl n).2).2).2).2, ?_, ?_⟩
  · simp only [encodeBlock, encodeByte, strip_append, strip_break]
    rw [and_fc x hx, and_03 x hx, and_f0 y hy, and_0f y hy, and_c0 z hz, and_3f z hz,
      or_16 _ (by omega) _ (by omega), or_4 _ (by omega) _ (by omega),
      encodeValue_digit _ (by omega), encodeValue_digit _ (by omega), encodeValue_digit _ (by omega),
      encodeValue_digit _ (by omega), strip_digit (by omega), strip_digit (by omega), strip_digit (by omega),
      strip_digit (by omega)]
    simp
  · simp only [encodeBlock, encodeByte]

theorem encodeEnd_A (cpl r n : Nat) : strip (encodeEnd cpl ⟨.A, r, n⟩) = [] := by
  unfold encodeEnd; dsimp only; split <;> decide

/-- Up to line feeds, the encoder computes the RFC encoding. -/
theorem encode_rfc (cpl : Nat) : ∀ (s : List Nat), (∀ b ∈ s, b < 256) → ∀ r n,
    strip ((encodeBlock cpl s ⟨.A, r, n⟩).1 ++ encodeEnd cpl (encodeBlock cpl s ⟨.A, r, n⟩).2) = rfc s
  | [], _, r, n => by simp [encodeBlock, rfc, encodeEnd_A]
  | [x], hs, r, n => by
    have hx := hs x (by simp)
    simp only [encodeBlock, encodeByte, encodeEnd, strip_append, strip_break, rfc]
    rw [and_fc x hx, and_03 x hx, encodeValue_digit _ (by omega), encodeValue_digit _ (by omega),
      strip_digit (by omega), strip_digit (by omega)]
    have e1 : x / 4 = x * 2 ^ 4 / 64 := by omega
    have e2 : x % 4 * 16 = x * 2 ^ 4 % 64 := by omega
    rw [e1, e2]
    split <;> simp [strip]
  | [x, y], hs, r, n => by
    have hx := hs x (by simp)
    have hy := hs y (by simp)
    simp only [encodeBlock, encodeByte, encodeEnd, strip_append, strip_break, rfc]
    rw [and_fc x hx, and_03 x hx, and_f0 y hy, and_0f y hy, or_16 _ (by omega) _ (by omega),
      encodeValue_digit _ (by omega), encodeValue_digit _ (by omega), encodeValue_digit _ (by omega),
      strip_digit (by omega), strip_digit (by omega), strip_digit (by omega)]
    have e1 : x / 4 = (x * 2 ^ 8 + y) * 2 ^ 2 / 64 ^ 2 := by omega
    have e2 : x % 4 * 16 + y / 16 = (x * 2 ^ 8 + y) * 2 ^ 2 / 64 % 64 := by omega
    have e3 : y % 16 * 4 = (x * 2 ^ 8 + y) * 2 ^ 2 % 64 := by omega
    rw [e1, e2, e3]
    split <;> simp [strip]
  | x :: y :: z :: l, hs, r, n => by
    have hx := hs x (by simp)
    have hy := hs y (by simp)
    have hz := hs z (by simp)
    obtain ⟨r', n', h1, h2⟩ := encode_group cpl x y z hx hy hz r n l
    rw [strip_append, h1, h2]
    simp only [List.cons_append]
    rw [← strip_append, encode_rfc cpl l (fun b hb => hs b (by simp [hb])) r' n']
    simp only [rfc]
    have e1 : x / 4 = (x * 2 ^ 16 + y * 2 ^ 8 + z) / 64 ^ 3 := by omega
    have e2 : x % 4 * 16 + y / 16 = (x * 2 ^ 16 + y * 2 ^ 8 + z) / 64 ^ 2 % 64 := by omega
    have e3 : y % 16 * 4 + z / 64 = (x * 2 ^ 16 + y * 2 ^ 8 + z) / 64 % 64 := by omega
    have e4 : z % 64 = (x * 2 ^ 16 + y * 2 ^ 8 + z) % 64 := by omega
    rw [e1, e2, e3, e4]

/-- Decoding ignores line feeds. -/
theorem decode_strip : ∀ (l : List Nat) (st : DState), decodeBlock l st = decodeBlock (strip l) st
  | [], st => rfl
  | c :: l, st => by
    by_cases hc : c = 10
    · subst hc
      have : strip (10 :: l) = strip l := by simp [strip]
      rw [this, ← decode_strip l st]
      simp only [decodeBlock]
      show (Res.bind (decodeValue 10) _) = _
      have : decodeValue 10 = .ok (-1) := by decide
      rw [this]; rfl
    · have : strip (c :: l) = c :: strip l := by simp [strip, hc]
      rw [this]
      simp only [decodeBlock]
      congr 1
      funext f
      split
      · exact decode_strip l st
      · rw [decode_strip l]

theorem decodeBlock_digit {v : Nat} (h : v < 64) (l : List Nat) (st : DState) :
    decodeBlock (digit v :: l) st = (do
      let (o', st') ← decodeBlock l (decodeFragment st v).2
      .ok ((decodeFragment st v).1 ++ o', st')) := by
  conv_lhs => unfold decodeBlock
  rw [decode_digit v h]
  rw [Res.ok_bind, if_neg (by omega)]
  simp

theorem decodeBlock_pad (l : List Nat) (st : DState) : decodeBlock (61 :: l) st = decodeBlock l st := by
  conv_lhs => unfold decodeBlock
  have : decodeValue 61 = .ok (-2) := by decide
  rw [this]
  rfl

theorem decodeBlock_nil (st : DState) : decodeBlock [] st = .ok ([], st) := rfl

/-- Decoding the RFC encoding gives the bytes back. -/
theorem decode_rfc : ∀ (s : List Nat), (∀ b ∈ s, b < 256) → ∀ p, ∃ st,
    decodeBlock (rfc s) ⟨.a, p⟩ = .ok (s, st)
  | [], _, p => ⟨_, rfl⟩
  | [x], hs, p => by
    have hx := hs x (by simp)
    simp only [rfc]
    rw [decodeBlock_digit (by omega), decodeBlock_digit (by omega), decodeBlock_pad, decodeBlock_pad,
      decodeBlock_nil]
    simp only [decodeFragment, Res.ok_bind]
    rw [f_3f _ (by omega), f_30 _ (by omega), or_4' _ (by omega) _ (by omega)]
    simp only [List.nil_append, List.append_nil, Res.ok.injEq, Prod.mk.injEq, List.cons.injEq, and_true]
    exact ⟨_, by omega, rfl⟩
  | [x, y], hs, p => by
    have hx := hs x (by simp)
    have hy := hs y (by simp)
    simp only [rfc]
    rw [decodeBlock_digit (by omega), decodeBlock_digit (by omega), decodeBlock_digit (by omega),
      decodeBlock_pad, decodeBlock_nil]
    simp only [decodeFragment, Res.ok_bind]
    rw [f_3f _ (by omega), f_30 _ (by omega), f_0f _ (by omega), f_3c _ (by omega),
      or_4' _ (by omega) _ (by omega), or_16' _ (by omega) _ (by omega)]
    simp only [List.nil_append, List.append_nil, List.cons_append, Res.ok.injEq, Prod.mk.injEq, List.cons.injEq,
      and_true]
    exact ⟨_, ⟨by omega, by omega⟩, rfl⟩
  | x :: y :: z :: l, hs, p => by
    have hx := hs x (by simp)
    have hy := hs y (by simp)
    have hz := hs z (by simp)
    simp only [rfc]
    rw [decodeBlock_digit (by omega), decodeBlock_digit (by omega), decodeBlock_digit (by omega),
      decodeBlock_digit (by omega)]
    simp only [decodeFragment]
    rw [f_3f _ (by omega), f_30 _ (by omega), f_0f _ (by omega), f_3c _ (by omega), f_03 _ (by omega),
      f_id _ (by omega), or_4' _ (by omega) _ (by omega), or_16' _ (by omega) _ (by omega),
      or_64' _ (by omega) _ (by omega)]
    obtain ⟨st, h⟩ := decode_rfc l (fun b hb => hs b (by simp [hb]))
      ((((x * 2 ^ 16 + y * 2 ^ 8 + z) / 64 % 64) % 4 * 64 + (x * 2 ^ 16 + y * 2 ^ 8 + z) % 64))
    refine ⟨st, ?_⟩
    rw [h]
    show Res.ok _ = Res.ok _
    simp only [List.nil_append, List.append_nil, List.cons_append, Res.ok.injEq, Prod.mk.injEq, List.cons.injEq,
      and_true]
    refine ⟨by omega, by omega, by omega⟩

theorem decodeBlock_append : ∀ (a b : List Nat) (st : DState),
    decodeBlock (a ++ b) st = (do
      let (o, st') ← decodeBlock a st
      let (o', st'') ← decodeBlock b st'
      .ok (o ++ o', st''))
  | [], b, st => by
    simp only [List.nil_append]
    show _ = (Res.bind (decodeBlock b st) _)
    cases decodeBlock b st <;> rfl
  | c :: a, b, st => by
    simp only [List.cons_append, decodeBlock]
    cases decodeValue c with
    | err => rfl
    | ub => rfl
    | ok f =>
      show (if f < 0 then _ else _) = (Res.bind (if f < 0 then _ else _) _)
      split
      · exact decodeBlock_append a b st
      · rw [decodeBlock_append a b]
        cases decodeBlock a (decodeFragment st f.toNat).2 with
        | err => rfl
        | ub => rfl
        | ok r =>
          show (Res.bind (Res.bind (decodeBlock b r.2) _) _) = (Res.bind (decodeBlock b r.2) _)
          cases decodeBlock b r.2 <;> simp [Res.bind]

theorem decodeStream_eq (N : Nat) (s : List Nat) (st : DState) : decodeStream N s st = decodeBlock s st := by
  fun_induction decodeStream N s st with
  | case1 s st h ih =>
    have : s = s.take N ++ s.drop N := by simp
    conv_rhs => rw [this, decodeBlock_append]
    congr 1
    funext r
    obtain ⟨o, st'⟩ := r
    dsimp only
    rw [ih]
  | case2 => rfl

/-- Up to the line feeds inserted after every `cpl` characters, the encoder writes the RFC 4648 encoding,
whatever the buffer size. -/
theorem _root_.MZ.C33_encode_is_rfc (cpl N : Nat) (s : List Nat) (hs : ∀ b ∈ s, b < 256) :
    (encode cpl N s).filter (· ≠ 10) = rfc s := by
  have := encode_rfc cpl s hs 0 0
  unfold encode
  rw [encodeStream_eq]
  exact this

/-- Any byte sequence survives encoding followed by decoding, with any line length and any buffer sizes on
the two sides. -/
theorem _root_.MZ.C33_stream_roundtrip (cpl N M : Nat) (s : List Nat) (hs : ∀ b ∈ s, b < 256) :
    ∃ st, decodeStream M (encode cpl N s) .init = .ok (s, st) := by
  rw [decodeStream_eq, decode_strip]
  have := C33_encode_is_rfc cpl N s hs
  unfold strip
  rw [this]
  exact decode_rfc s hs 0

/-- `decode_base64(encode_base64(s)) = s` for every byte string. -/
theorem _root_.MZ.C33_roundtrip (s : List Nat) (hs : ∀ b ∈ s, b < 256) :
    decode_base64 (encode_base64 s) = .ok s := by
  unfold encode_base64 decode_base64
  obtain ⟨st, h⟩ := C33_stream_roundtrip 0 4096 4096 s hs
  show (if (64 : Nat) ≠ 64 then _ else _) = _
  rw [if_neg (by simp), h]
  rfl

/-- Two byte strings with the same encoding are equal. -/
theorem _root_.MZ.C33_injective (s t : List Nat) (hs : ∀ b ∈ s, b < 256) (ht : ∀ b ∈ t, b < 256)
    (h : encode_base64 s = encode_base64 t) : s = t := by
  have h1 := C33_roundtrip s hs
  have h2 := C33_roundtrip t ht
  rw [h, h2] at h1
  simpa using h1.symm

/-- The encoding starts with `@` and otherwise contains only printable characters: it has no line breaks. -/
theorem _root_.MZ.C33_text (s : List Nat) (hs : ∀ b ∈ s, b < 256) :
    ∃ t, encode_base64 s = 64 :: t ∧ ∀ c ∈ t, c = 61 ∨ ∃ v, v < 64 ∧ c = digit v := by
  refine ⟨_, rfl, ?_⟩
  have hrfc : ∀ s : List Nat, (∀ b ∈ s, b < 256) → ∀ c ∈ rfc s, c = 61 ∨ ∃ v, v < 64 ∧ c = digit v := by
    intro s
    fun_induction rfc s with
    | case1 => simp
    | case2 x n =>
      intro hs c hc
      have hx := hs x (by simp)
      simp only [List.mem_cons, List.not_mem_nil, or_false] at hc
      rcases hc with rfl | rfl | rfl | rfl
      · exact .inr ⟨_, by omega, rfl⟩
      · exact .inr ⟨_, by omega, rfl⟩
      · exact .inl rfl
      · exact .inl rfl
    | case3 x y n =>
      intro hs c hc
      have hx := hs x (by simp)
      have hy := hs y (by simp)
      simp only [List.mem_cons, List.not_mem_nil, or_false] at hc
      rcases hc with rfl | rfl | rfl | rfl
      · exact .inr ⟨_, by omega, rfl⟩
      · exact .inr ⟨_, by omega, rfl⟩
      · exact .inr ⟨_, by omega, rfl⟩
      · exact .inl rfl
    | case4 x y z l n ih =>
      intro hs c hc
      have hx := hs x (by simp)
      have hy := hs y (by simp)
      have hz := hs z (by simp)
      simp only [List.mem_cons] at hc
      rcases hc with rfl | rfl | rfl | rfl | hc
      · exact .inr ⟨_, by omega, rfl⟩
      · exact .inr ⟨_, by omega, rfl⟩
      · exact .inr ⟨_, by omega, rfl⟩
      · exact .inr ⟨_, by omega, rfl⟩
      · exact ih (fun b hb => hs b (by simp [hb])) c hc
  intro c hc
  by_cases h10 : c = 10
  · exfalso
    have hb : ∀ (s : List Nat) (st : EState), (∀ b ∈ s, b < 256) → st.result < 64 →
        (st.step = .B → ∃ x, x < 4 ∧ st.result = x * 16) → (st.step = .C → ∃ x, x < 16 ∧ st.result = x * 4) →
        10 ∉ (encodeBlock 0 s st).1 ∧ (encodeBlock 0 s st).2.result < 64 := by
      intro s
      induction s with
      | nil => intro st _ h _ _; simp [encodeBlock, h]
      | cons b s ih =>
        intro st hs h hB hC
        have hb := hs b (by simp)
        have hs' := fun b hb => hs b (List.mem_cons_of_mem _ hb)
        simp only [encodeBlock]
        cases e : st.step with
        | A =>
          simp only [encodeByte, e, checkBreak]
          rw [and_fc b hb, and_03 b hb, encodeValue_digit _ (by omega)]
          have := ih ⟨.B, b % 4 * 16, st.count + 1⟩ hs' (by dsimp only; omega)
            (fun _ => ⟨b % 4, by omega, rfl⟩) (by simp)
          have hd := digit_ne (b / 4) (by omega)
          simp [this, hd.symm]
        | B =>
          obtain ⟨x, hx, hr⟩ := hB e
          simp only [encodeByte, e, checkBreak]
          rw [and_f0 b hb, and_0f b hb, hr, or_16 _ hx _ (by omega), encodeValue_digit _ (by omega)]
          have := ih ⟨.C, b % 16 * 4, st.count + 1⟩ hs' (by dsimp only; omega) (by simp)
            (fun _ => ⟨b % 16, by omega, rfl⟩)
          have hd := digit_ne (x * 16 + b / 16) (by omega)
          simp [this, hd.symm]
        | C =>
          obtain ⟨x, hx, hr⟩ := hC e
          simp only [encodeByte, e, checkBreak]
          rw [and_c0 b hb, and_3f b hb, hr, or_4 _ hx _ (by omega), encodeValue_digit _ (by omega),
            encodeValue_digit _ (by omega)]
          have := ih ⟨.A, b % 64, st.count + 1 + 1⟩ hs' (by dsimp only; omega) (by simp) (by simp)
          have hd := digit_ne (x * 4 + b / 64) (by omega)
          have hd' := digit_ne (b % 64) (by omega)
          simp [this, hd.symm, hd'.symm]
    unfold encode at hc
    rw [encodeStream_eq] at hc
    obtain ⟨h1, h2⟩ := hb s .init hs (by decide) (by simp [EState.init]) (by simp [EState.init])
    rw [h10, List.mem_append] at hc
    rcases hc with hc | hc
    · exact h1 hc
    · have hd := digit_ne _ h2
      unfold encodeEnd at hc
      dsimp only at hc
      split at hc <;> simp [checkBreak, encodeValue_digit _ h2, hd.symm] at hc
  · have : c ∈ (encode 0 4096 s).filter (· ≠ 10) := by simp [hc, h10]
    rw [C33_encode_is_rfc 0 4096 s hs] at this
    exact hrfc s hs c this

/-- The bound test of the decoding table is off by one: decoding text that contains `{` reads behind the
table. -/
theorem _root_.MZ.C33_decode_reads_behind_table : decode_base64 [64, 123] = .ub := by decide +kernel

/-- Text without `{` never leads to undefined behaviour. -/
theorem _root_.MZ.C33_decode_safe (s : List Nat) (hs : ∀ c ∈ s, c < 256 ∧ c ≠ 123) : decode_base64 s ≠ .ub := by
  have hv : ∀ c, c < 256 → c ≠ 123 → decodeValue c ≠ .ub := by decide +kernel
  have hb : ∀ (l : List Nat) (st : DState), (∀ c ∈ l, c < 256 ∧ c ≠ 123) → decodeBlock l st ≠ .ub := by
    intro l
    induction l with
    | nil => intro st _; simp [decodeBlock]
    | cons c l ih =>
      intro st h
      have hl := fun c hc => h c (List.mem_cons_of_mem _ hc)
      simp only [decodeBlock]
      cases e : decodeValue c with
      | err => simp [bind, Res.bind]
      | ub => exact absurd e (hv c (h c (by simp)).1 (h c (by simp)).2)
      | ok f =>
        show (if f < 0 then _ else _) ≠ _
        split
        · exact ih st hl
        · cases e2 : decodeBlock l (decodeFragment st f.toNat).2 with
          | ub => exact absurd e2 (ih _ hl)
          | err => simp [bind, Res.bind]
          | ok r => simp [bind, Res.bind]
  unfold decode_base64
  split
  · simp
  · rename_i c l
    split
    · simp
    · rw [decodeStream_eq]
      cases e2 : decodeBlock l .init with
      | ub => exact absurd e2 (hb _ _ (fun c hc => hs c (by simp [hc])))
      | err => simp [bind, Res.bind]
      | ok r => simp [bind, Res.bind]

example : encode_base64 [77, 90, 78, 33] = "@TVpOIQ==".toList.map Char.toNat := by decide +kernel
example : decode_base64 ("@TVpOIQ==".toList.map Char.toNat) = .ok [77, 90, 78, 33] := by decide +kernel
example : ∀ b ∈ [77, 90, 78, 33], b < 256 := by decide

end Base64
end MZ
