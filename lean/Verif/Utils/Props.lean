import Verif.Utils.Spec
import Verif.Linear.Lemmas
/-!
# C35–C37: versions, reading numbers, crash report
-/
namespace MZ
namespace Utils

theorem isSpace_iff (c : Char) : isSpace c = true ↔ Blank c := by
  simp [isSpace, Blank, or_assoc]

theorem isDigit_iff (c : Char) : isDigit c = true ↔ '0' ≤ c ∧ c ≤ '9' := by
  simp [isDigit]

theorem digit_not_blank {c : Char} (h : '0' ≤ c ∧ c ≤ '9') : ¬ Blank c := by
  rintro (h | h | h | h | h | h) <;> subst h <;> exact absurd h (by decide)

theorem accumulate_eq (ds : List Char) (n : Nat) : accumulate ds n = Nat.ofDigitChars 10 ds n := by
  induction ds generalizing n with
  | nil => simp [accumulate]
  | cons c l ih =>
    rw [accumulate, ih, Nat.ofDigitChars_cons, digitVal, Nat.mul_comm]

theorem sign_spec (l : List Char) :
    (∃ r, l = '-' :: r ∧ sign l = (true, r)) ∨ (∃ r, l = '+' :: r ∧ sign l = (false, r)) ∨
      (l.head? ≠ some '-' ∧ l.head? ≠ some '+' ∧ sign l = (false, l)) := by
  unfold sign
  split
  · exact .inl ⟨_, rfl, rfl⟩
  · exact .inr (.inl ⟨_, rfl, rfl⟩)
  · rename_i h1 h2
    refine .inr (.inr ⟨?_, ?_, rfl⟩)
    · intro h; cases l with
      | nil => simp at h
      | cons a t => simp at h; subst h; exact h1 t rfl
    · intro h; cases l with
      | nil => simp at h
      | cons a t => simp at h; subst h; exact h2 t rfl

theorem dropWhile_append_all {p : Char → Bool} (a b : List Char) (ha : ∀ c ∈ a, p c = true)
    (hb : ∀ c, b.head? = some c → p c = false) : (a ++ b).dropWhile p = b := by
  induction a with
  | nil =>
    cases b with
    | nil => rfl
    | cons c t => simp [List.dropWhile_cons, hb c rfl]
  | cons c t ih =>
    simp only [List.cons_append, List.dropWhile_cons, ha c (by simp), if_true]
    exact ih fun d hd => ha d (by simp [hd])

theorem takeWhile_append_all {p : Char → Bool} (a b : List Char) (ha : ∀ c ∈ a, p c = true)
    (hb : ∀ c, b.head? = some c → p c = false) : (a ++ b).takeWhile p = a := by
  induction a with
  | nil =>
    cases b with
    | nil => rfl
    | cons c t => simp [List.takeWhile_cons, hb c rfl]
  | cons c t ih =>
    simp only [List.cons_append, List.takeWhile_cons, ha c (by simp), if_true]
    rw [ih fun d hd => ha d (by simp [hd])]

theorem takeWhile_all {p : Char → Bool} (l : List Char) : ∀ c ∈ l.takeWhile p, p c = true := by
  induction l with
  | nil => simp
  | cons a t ih =>
    intro c hc
    rw [List.takeWhile_cons] at hc
    split at hc
    · rcases List.mem_cons.1 hc with rfl | h
      · assumption
      · exact ih c h
    · simp at hc

/-- What `scan` accepts, when nothing remains. -/
theorem scan_iff (s : List Char) (neg : Bool) (ds : List Char) :
    scan s = .ok (neg, ds, []) ↔
      ∃ ws sg, s = ws ++ sg ++ ds ∧ (∀ c ∈ ws, Blank c) ∧ DigitString ds ∧
        (neg = true ∧ sg = ['-'] ∨ neg = false ∧ (sg = [] ∨ sg = ['+'])) := by
  constructor
  · intro h
    have hs : s = s.takeWhile isSpace ++ s.dropWhile isSpace := (List.takeWhile_append_dropWhile).symm
    have hws : ∀ c ∈ s.takeWhile isSpace, Blank c := fun c hc => (isSpace_iff c).1 (takeWhile_all s c hc)
    have key : ∀ l n, (if (l.takeWhile isDigit).isEmpty then (Res.err : Res (Bool × List Char × List Char))
        else .ok (n, l.takeWhile isDigit, l.dropWhile isDigit)) = .ok (neg, ds, []) →
        n = neg ∧ l = ds ∧ DigitString ds := by
      intro l n h
      split at h
      · cases h
      · rename_i hne
        have h' := Res.ok.inj h
        simp only [Prod.mk.injEq] at h'
        obtain ⟨h1, h2, h3⟩ := h'
        have hl : l = l.takeWhile isDigit ++ l.dropWhile isDigit := (List.takeWhile_append_dropWhile).symm
        rw [h2, h3, List.append_nil] at hl
        refine ⟨h1, hl, ?_, ?_⟩
        · intro he; rw [h2, he] at hne; simp at hne
        · intro c hc; rw [← h2] at hc
          exact (isDigit_iff c).1 (takeWhile_all l c hc)
    unfold scan at h
    rcases sign_spec (s.dropWhile isSpace) with ⟨r, hr, hq⟩ | ⟨r, hr, hq⟩ | ⟨_, _, hq⟩
    · rw [hq] at h
      obtain ⟨h1, h2, h3⟩ := key _ _ h
      refine ⟨_, ['-'], ?_, hws, h3, .inl ⟨h1.symm, rfl⟩⟩
      conv_lhs => rw [hs, hr, h2]
      simp
    · rw [hq] at h
      obtain ⟨h1, h2, h3⟩ := key _ _ h
      refine ⟨_, ['+'], ?_, hws, h3, .inr ⟨h1.symm, .inr rfl⟩⟩
      conv_lhs => rw [hs, hr, h2]
      simp
    · rw [hq] at h
      obtain ⟨h1, h2, h3⟩ := key _ _ h
      refine ⟨_, [], ?_, hws, h3, .inr ⟨h1.symm, .inl rfl⟩⟩
      conv_lhs => rw [hs, h2]
      simp
  · rintro ⟨ws, sg, rfl, hws, ⟨hne, hd⟩, hsg⟩
    obtain ⟨d, t, rfl⟩ := List.exists_cons_of_ne_nil hne
    have hdrop : (ws ++ sg ++ d :: t).dropWhile isSpace = sg ++ d :: t := by
      rw [List.append_assoc]
      refine dropWhile_append_all _ _ (fun c hc => (isSpace_iff c).2 (hws c hc)) ?_
      intro c hc
      rcases hsg with ⟨_, rfl⟩ | ⟨_, rfl | rfl⟩
      · simp at hc; subst hc; decide
      · simp at hc; subst hc
        have := digit_not_blank (hd d (by simp))
        rw [← isSpace_iff] at this; simpa using this
      · simp at hc; subst hc; decide
    have htk : (d :: t).takeWhile isDigit = d :: t := by
      have := takeWhile_append_all (p := isDigit) (d :: t) [] (fun c hc => (isDigit_iff c).2 (hd c hc)) (by simp)
      simpa using this
    have hdr : (d :: t).dropWhile isDigit = [] := by
      have := dropWhile_append_all (p := isDigit) (d :: t) [] (fun c hc => (isDigit_iff c).2 (hd c hc)) (by simp)
      simpa using this
    have hsign : sign (sg ++ d :: t) = (neg, d :: t) := by
      rcases hsg with ⟨rfl, rfl⟩ | ⟨rfl, rfl | rfl⟩
      · rfl
      · rcases sign_spec ([] ++ d :: t) with ⟨r, hr, _⟩ | ⟨r, hr, _⟩ | ⟨_, _, h⟩
        · simp at hr; have := hd d (by simp); rw [hr.1] at this; exact absurd this (by decide)
        · simp at hr; have := hd d (by simp); rw [hr.1] at this; exact absurd this (by decide)
        · exact h
      · rfl
    unfold scan
    rw [hdrop, hsign]
    simp only [htk, hdr]
    rfl

theorem parseSigned_iff (lo hi : Int) (s : List Char) (v : Int) :
    parseSigned lo hi s = .ok v ↔ SignedText s v ∧ lo ≤ v ∧ v ≤ hi := by
  unfold parseSigned
  rw [Res.bind_eq_ok]
  constructor
  · rintro ⟨⟨w, rest⟩, h1, h2⟩
    simp only at h2
    split at h2
    · cases h2
    rename_i hr
    simp only [ne_eq, Decidable.not_not] at hr
    cases Res.ok.inj h2
    subst hr
    unfold sto at h1
    rw [Res.bind_eq_ok] at h1
    obtain ⟨⟨neg, ds, r⟩, h3, h4⟩ := h1
    simp only at h4
    by_cases hc : lo ≤ (if neg then -(accumulate ds 0 : Int) else (accumulate ds 0 : Int)) ∧
        (if neg then -(accumulate ds 0 : Int) else (accumulate ds 0 : Int)) ≤ hi
    · rw [if_pos hc] at h4
      have := Res.ok.inj h4
      simp only [Prod.mk.injEq] at this
      obtain ⟨hv, rfl⟩ := this
      rw [hv] at hc
      refine ⟨?_, hc⟩
      obtain ⟨ws, sg, h5, h6, h7, h8⟩ := (scan_iff s neg ds).1 h3
      refine ⟨ws, sg, ds, h5, h6, h7, ?_⟩
      rw [accumulate_eq] at hv
      rcases h8 with ⟨rfl, h⟩ | ⟨rfl, h⟩
      · exact .inr ⟨h, by simpa using hv.symm⟩
      · exact .inl ⟨h, by simpa using hv.symm⟩
    · rw [if_neg hc] at h4; cases h4
  · rintro ⟨⟨ws, sg, ds, h5, h6, h7, h8⟩, hlo, hhi⟩
    have hs : ∃ neg, scan s = .ok (neg, ds, []) ∧
        v = if neg then -(accumulate ds 0 : Int) else (accumulate ds 0 : Int) := by
      rw [accumulate_eq]
      rcases h8 with ⟨h, hv⟩ | ⟨h, hv⟩
      · exact ⟨false, (scan_iff s false ds).2 ⟨ws, sg, h5, h6, h7, .inr ⟨rfl, h⟩⟩, by simpa using hv⟩
      · exact ⟨true, (scan_iff s true ds).2 ⟨ws, sg, h5, h6, h7, .inl ⟨rfl, h⟩⟩, by simpa using hv⟩
    obtain ⟨neg, h3, hv⟩ := hs
    refine ⟨(v, []), ?_, by simp⟩
    unfold sto
    rw [Res.bind_eq_ok]
    refine ⟨_, h3, ?_⟩
    simp only [← hv]
    rw [if_pos ⟨hlo, hhi⟩]

/-- **C36** (`int`). A text is accepted as a 32-bit integer exactly if the whole text is a decimal number in
that range, and the result is that number. -/
theorem _root_.MZ.C36_parse_int (s : List Char) (v : Int) :
    parseInt s = .ok v ↔ SignedText s v ∧ -2147483648 ≤ v ∧ v ≤ 2147483647 :=
  parseSigned_iff _ _ s v

/-- **C36** (`long`). -/
theorem _root_.MZ.C36_parse_long (s : List Char) (v : Int) :
    parseLong s = .ok v ↔ SignedText s v ∧ -9223372036854775808 ≤ v ∧ v ≤ 9223372036854775807 := by
  unfold parseLong
  rw [parseSigned_iff]
  simp [LMIN, LMAX]

/-- **C36** (`unsigned long`). -/
theorem _root_.MZ.C36_parse_unsigned_long (s : List Char) (v : Nat) :
    parseUnsignedLong s = .ok v ↔ UnsignedText s v ∧ v ≤ 18446744073709551615 := by
  unfold parseUnsignedLong
  constructor
  · intro h
    split at h
    · cases h
    rename_i hm
    rw [Res.bind_eq_ok] at h
    obtain ⟨⟨neg, ds, r⟩, h3, h4⟩ := h
    simp only at h4
    split at h4
    · rename_i hle
      split at h4
      · cases h4
      · rename_i hr
        simp only [ne_eq, Decidable.not_not] at hr
        subst hr
        have hv := Res.ok.inj h4
        obtain ⟨ws, sg, h5, h6, h7, h8⟩ := (scan_iff s neg ds).1 h3
        rw [accumulate_eq] at hv hle
        refine ⟨⟨ws, sg, ds, h5, h6, h7, ?_, hv.symm⟩, by omega⟩
        rcases h8 with ⟨_, rfl⟩ | ⟨_, h⟩
        · exfalso
          subst h5
          refine hm ds ?_
          rw [List.append_assoc]
          refine dropWhile_append_all _ _ (fun c hc => (isSpace_iff c).2 (h6 c hc)) ?_
          intro c hc; simp at hc; subst hc; decide
        · exact h
    · cases h4
  · rintro ⟨⟨ws, sg, ds, h5, h6, h7, h8, hv⟩, hle⟩
    have h3 := (scan_iff s false ds).2 ⟨ws, sg, h5, h6, h7, .inr ⟨rfl, h8⟩⟩
    obtain ⟨d, t, rfl⟩ := List.exists_cons_of_ne_nil h7.1
    have hd := h7.2 d (by simp)
    have hdrop : s.dropWhile isSpace = sg ++ d :: t := by
      rw [h5, List.append_assoc]
      refine dropWhile_append_all _ _ (fun c hc => (isSpace_iff c).2 (h6 c hc)) ?_
      intro c hc
      rcases h8 with rfl | rfl
      · simp at hc; subst hc
        have := digit_not_blank hd
        rw [← isSpace_iff] at this; simpa using this
      · simp at hc; subst hc; decide
    split
    · rename_i r hr
      rw [hdrop] at hr
      rcases h8 with rfl | rfl
      · simp at hr; rw [hr.1] at hd; exact absurd hd (by decide)
      · simp at hr
    · rw [Res.bind_eq_ok]
      refine ⟨_, h3, ?_⟩
      simp only
      rw [accumulate_eq, ← hv, if_pos hle]
      simp

/-- **C36** (`unsigned int`). -/
theorem _root_.MZ.C36_parse_unsigned_int (s : List Char) (v : Nat) :
    parseUnsignedInt s = .ok v ↔ UnsignedText s v ∧ v ≤ 4294967295 := by
  unfold parseUnsignedInt
  rw [Res.bind_eq_ok]
  constructor
  · rintro ⟨w, h1, h2⟩
    rw [C36_parse_unsigned_long] at h1
    split at h2
    · cases h2
    · cases Res.ok.inj h2
      exact ⟨h1.1, by omega⟩
  · rintro ⟨h, hv⟩
    refine ⟨v, (C36_parse_unsigned_long s v).2 ⟨h, by omega⟩, ?_⟩
    rw [if_neg (by omega)]

theorem bind_ne_ub {α β : Type} {x : Res α} {f : α → Res β} (hx : x ≠ .ub) (hf : ∀ a, f a ≠ .ub) :
    (x >>= f) ≠ .ub := by
  cases x with
  | ok a => exact hf a
  | err => exact fun h => by cases h
  | ub => exact absurd rfl hx

/-- Everything else is an error, never undefined behaviour. -/
theorem _root_.MZ.C36_no_ub (s : List Char) :
    parseInt s ≠ .ub ∧ parseLong s ≠ .ub ∧ parseUnsignedLong s ≠ .ub ∧ parseUnsignedInt s ≠ .ub := by
  have hscan : scan s ≠ .ub := by
    unfold scan; simp only; split <;> simp
  have hite : ∀ {α : Type} (p : Prop) [Decidable p] (x y : Res α), x ≠ .ub → y ≠ .ub →
      (if p then x else y) ≠ .ub := by
    intro α p _ x y hx hy; split <;> assumption
  have hs : ∀ lo hi, parseSigned lo hi s ≠ .ub := fun lo hi =>
    bind_ne_ub (bind_ne_ub hscan fun _ => hite _ _ _ (by simp) (by simp)) fun _ => hite _ _ _ (by simp) (by simp)
  have hu : parseUnsignedLong s ≠ .ub := by
    unfold parseUnsignedLong
    split
    · simp
    · exact bind_ne_ub hscan fun _ => hite _ _ _ (hite _ _ _ (by simp) (by simp)) (by simp)
  exact ⟨hs _ _, hs _ _, hu, bind_ne_ub hu fun _ => hite _ _ _ (by simp) (by simp)⟩

/-! ## Decimal text of a number -/

theorem toDigits_digitString (n : Nat) : DigitString (Nat.toDigits 10 n) := by
  refine ⟨Nat.toDigits_ne_nil, fun c hc => ?_⟩
  have := Nat.isDigit_of_mem_toDigits (by decide) (by decide) hc
  simp only [Char.isDigit, Bool.and_eq_true, decide_eq_true_eq] at this
  exact this

theorem unsignedText_toDigits (n : Nat) : UnsignedText (Nat.toDigits 10 n) n :=
  ⟨[], [], _, rfl, by simp, toDigits_digitString n, .inl rfl, Nat.ofDigitChars_ten_toDigits.symm⟩

/-- **C36** (round trip). The usual decimal text of a number of the type is read as that number. -/
theorem _root_.MZ.C36_roundtrip (n : Nat) (h : n ≤ 4294967295) :
    parseUnsignedInt (Nat.toDigits 10 n) = .ok n :=
  (C36_parse_unsigned_int _ n).2 ⟨unsignedText_toDigits n, h⟩

example : parseInt " -42".toList = .ok (-42) := by decide +kernel
example : parseInt "42 ".toList = .err ∧ parseInt "2147483648".toList = .err ∧ parseInt "".toList = .err ∧
    parseInt "- 4".toList = .err ∧ parseUnsignedInt "-4".toList = .err := by decide +kernel
example : SignedText " -42".toList (-42) :=
  ⟨[' '], ['-'], ['4', '2'], rfl, by simp [Blank], ⟨by simp, by decide⟩, .inr ⟨rfl, by decide⟩⟩

/-! ## itoa -/

theorem digitChar_eq {k : Nat} (h : k < 10) : digitChar k = Nat.digitChar k := by
  revert h; revert k; decide

/-- The loop writes the digits of `v` backwards from position `p`. -/
theorem itoaDigits_spec (v p : Nat) (buf : Nat → Char) :
    (itoaDigits v p buf).1 = p + (Nat.toDigits 10 v).length ∧
    (∀ i, i < (Nat.toDigits 10 v).length →
      (itoaDigits v p buf).2 (p + i) = (Nat.toDigits 10 v).reverse.getD i '?') ∧
    (∀ i, i < p ∨ p + (Nat.toDigits 10 v).length ≤ i → (itoaDigits v p buf).2 i = buf i) := by
  induction v using Nat.strongRecOn generalizing p buf with
  | ind v ih =>
    rw [itoaDigits]
    have hmod : v - v / 10 * 10 = v % 10 := by omega
    simp only [hmod, digitChar_eq (Nat.mod_lt v (by decide : 0 < 10))]
    by_cases h : v / 10 = 0
    · rw [dif_pos h]
      have hv : v < 10 := by omega
      rw [Nat.toDigits_of_lt_base hv, Nat.mod_eq_of_lt hv]
      refine ⟨by simp, ?_, ?_⟩
      · intro i hi; simp at hi; subst hi; simp [set]
      · intro i hi; simp at hi; simp only [set]; rw [if_neg (by omega)]
    · rw [dif_neg h]
      have hb : 10 ≤ v := by omega
      rw [Nat.toDigits_of_base_le (by decide) hb]
      obtain ⟨h1, h2, h3⟩ := ih (v / 10) (by omega) (p + 1) (set buf p (v % 10).digitChar)
      refine ⟨by rw [h1]; simp; omega, ?_, ?_⟩
      · intro i hi
        rw [List.length_append, List.length_singleton] at hi
        cases i with
        | zero =>
          rw [h3 (p + 0) (by omega)]
          simp [set]
        | succ i =>
          rw [show p + (i + 1) = p + 1 + i by omega, h2 i (by omega)]
          simp
      · intro i hi
        rw [List.length_append, List.length_singleton] at hi
        rw [h3 i (by omega)]
        simp only [set]; rw [if_neg (by omega)]

/-- The swapping loop reverses the positions `a … b`. -/
theorem itoaReverse_spec (n a b : Nat) (hn : b - a ≤ n) (buf : Nat → Char) (i : Nat) :
    itoaReverse a b buf i = if a ≤ i ∧ i ≤ b then buf (a + b - i) else buf i := by
  induction n using Nat.strongRecOn generalizing a b buf with
  | ind n ih =>
    rw [itoaReverse]
    by_cases h : a < b
    · rw [dif_pos h]
      rw [ih (b - 1 - (a + 1)) (by omega) (a + 1) (b - 1) (le_refl _)]
      simp only [set]
      by_cases h1 : a + 1 ≤ i ∧ i ≤ b - 1
      · rw [if_pos h1, if_neg (by omega), if_neg (by omega), if_pos (by omega)]
        congr 1; omega
      · rw [if_neg h1]
        by_cases h2 : i = a
        · rw [if_pos h2, if_pos (by omega)]; congr 1; omega
        · rw [if_neg h2]
          by_cases h3 : i = b
          · rw [if_pos h3, if_pos (by omega)]; congr 1; omega
          · rw [if_neg h3, if_neg (by omega)]
    · rw [dif_neg h]
      split
      · congr 1; omega
      · rfl

/-- **C37**. The text written is the decimal representation of the number, it is terminated by a zero byte,
at most eleven bytes of the buffer are written (it has 24), and nothing else in the buffer changes. -/
theorem _root_.MZ.C37_itoa (v : Nat) (hv : v < 2 ^ 32) (buf : Nat → Char) :
    text (itoa v buf).1 (itoa v buf).2 = Nat.toDigits 10 v ∧
    (itoa v buf).2 (itoa v buf).1 = Char.ofNat 0 ∧ (itoa v buf).1 + 1 ≤ 11 ∧
    ∀ i, (itoa v buf).1 < i → (itoa v buf).2 i = buf i := by
  obtain ⟨h1, h2, h3⟩ := itoaDigits_spec v 0 buf
  have hlen : (Nat.toDigits 10 v).length ≤ 10 := by
    rw [Nat.length_toDigits_le_iff (by decide) (by decide)]; omega
  have hpos : 0 < (Nat.toDigits 10 v).length := Nat.length_toDigits_pos
  have hres : itoa v buf = ((Nat.toDigits 10 v).length, itoaReverse 0 ((Nat.toDigits 10 v).length - 1)
      (set (itoaDigits v 0 buf).2 (Nat.toDigits 10 v).length (Char.ofNat 0))) := by
    unfold itoa
    simp only [h1, Nat.zero_add]
  rw [hres]
  simp only
  have hrev := itoaReverse_spec ((Nat.toDigits 10 v).length - 1 - 0) 0 ((Nat.toDigits 10 v).length - 1) (le_refl _)
    (set (itoaDigits v 0 buf).2 (Nat.toDigits 10 v).length (Char.ofNat 0))
  refine ⟨?_, ?_, by omega, ?_⟩
  · unfold text
    apply List.ext_getElem
    · simp
    · intro i hi1 hi2
      simp only [List.getElem_map, List.getElem_range]
      rw [hrev, if_pos (by omega), set, if_neg (by omega)]
      have := h2 ((Nat.toDigits 10 v).length - 1 - i) (by omega)
      rw [Nat.zero_add] at this ⊢
      rw [this, List.getD_eq_getElem?_getD, List.getElem?_reverse (by omega)]
      rw [show (Nat.toDigits 10 v).length - 1 - ((Nat.toDigits 10 v).length - 1 - i) = i by omega]
      rw [List.getElem?_eq_getElem hi2]; rfl
  · rw [hrev, if_neg (by omega), set, if_pos rfl]
  · intro i hi
    rw [hrev, if_neg (by omega), set, if_neg (by omega), h3 i (by omega)]

example : text (itoa 4294967295 fun _ => 'x').1 (itoa 4294967295 fun _ => 'x').2 = "4294967295".toList := by
  decide +kernel

theorem basename_spec (l m : List Char) :
    (∃ a c, l = a ++ c :: basename l m ∧ (c = '/' ∨ c = '\\') ∧ ∀ d ∈ basename l m, d ≠ '/' ∧ d ≠ '\\') ∨
      (basename l m = m ∧ ∀ d ∈ l, d ≠ '/' ∧ d ≠ '\\') := by
  induction l generalizing m with
  | nil => right; simp [basename]
  | cons c l ih =>
    rw [basename]
    by_cases h : c = '/' ∨ c = '\\'
    · rw [if_pos h]
      left
      rcases ih l with ⟨a, c', h1, h2, h3⟩ | ⟨h1, h2⟩
      · exact ⟨c :: a, c', by rw [List.cons_append, ← h1], h2, h3⟩
      · refine ⟨[], c, by rw [h1]; rfl, h, by rw [h1]; exact h2⟩
    · rw [if_neg h]
      rcases ih m with ⟨a, c', h1, h2, h3⟩ | ⟨h1, h2⟩
      · exact .inl ⟨c :: a, c', by rw [List.cons_append, ← h1], h2, h3⟩
      · refine .inr ⟨h1, ?_⟩
        intro d hd
        rcases List.mem_cons.1 hd with rfl | hd
        · exact not_or.1 h
        · exact h2 d hd

/-- **C37** (file names). The name reported contains no separator, and is preceded in the path by nothing or
by a separator. -/
theorem _root_.MZ.C37_basename (path : List Char) :
    (∀ d ∈ basename path path, d ≠ '/' ∧ d ≠ '\\') ∧
    ∃ a, path = a ++ basename path path ∧ (a = [] ∨ ∃ a' c, a = a' ++ [c] ∧ (c = '/' ∨ c = '\\')) := by
  rcases basename_spec path path with ⟨a, c, h1, h2, h3⟩ | ⟨h1, h2⟩
  · exact ⟨h3, a ++ [c], by simpa using h1, .inr ⟨a, c, rfl, h2⟩⟩
  · rw [h1]; exact ⟨h2, [], rfl, .inl rfl⟩

example : basename "/a/b\\std.mzn".toList "/a/b\\std.mzn".toList = "std.mzn".toList := by decide +kernel

/-! ## Call stack -/

theorem dumpLoop_spec (stack : List Bool) : ∀ i count, i ≤ stack.length → 0 < count →
    if count ≤ (stack.take i).countP id then
      ∃ l, dumpLoop stack i count = .ok l ∧ l.length = count ∧ l.Pairwise (· > ·) ∧
        (∀ j ∈ l, j < i ∧ stack[j]? = some true) ∧
        (∀ j, j < i → stack[j]? = some true → j ∉ l → ∀ k ∈ l, j < k)
    else dumpLoop stack i count = .ub := by
  intro i
  induction i with
  | zero => intro count _ hc; simp [dumpLoop]; omega
  | succ i ih =>
    intro count hi hc
    have hlt : i < stack.length := by omega
    have htake : stack.take (i + 1) = stack.take i ++ [stack[i]] := by
      rw [List.take_succ_eq_append_getElem hlt]
    rw [htake, List.countP_append]
    rw [dumpLoop, List.getElem?_eq_getElem hlt]
    cases hb : stack[i] with
    | false =>
      simp only [List.countP_cons, List.countP_nil, id]
      have := ih count (by omega) hc
      simp only [Bool.false_eq_true, if_false, Nat.add_zero]
      split at this
      · rename_i hle
        rw [if_pos hle]
        obtain ⟨l, h1, h2, h3, h4, h5⟩ := this
        refine ⟨l, h1, h2, h3, fun j hj => ⟨by have := (h4 j hj).1; omega, (h4 j hj).2⟩, ?_⟩
        intro j hj hs hn
        by_cases hji : j = i
        · subst hji; rw [List.getElem?_eq_getElem hlt, hb] at hs; simp at hs
        · exact h5 j (by omega) hs hn
      · rename_i hle
        rw [if_neg hle]; exact this
    | true =>
      have hsi : stack[i]? = some true := by rw [List.getElem?_eq_getElem hlt, hb]
      simp only [List.countP_cons, List.countP_nil, id, if_true, Nat.zero_add]
      by_cases h1 : count - 1 = 0
      · rw [if_pos h1, if_pos (by omega)]
        refine ⟨[i], rfl, by simp; omega, by simp, ?_, ?_⟩
        · intro j hj; simp at hj; subst hj; exact ⟨by omega, hsi⟩
        · intro j hj _ hn k hk; simp at hk hn; omega
      · rw [if_neg h1]
        have := ih (count - 1) (by omega) (by omega)
        split at this
        · rename_i hle
          rw [if_pos (by omega)]
          obtain ⟨l, h1', h2, h3, h4, h5⟩ := this
          refine ⟨i :: l, by rw [h1', Res.ok_bind], by simp; omega, ?_, ?_, ?_⟩
          · exact List.pairwise_cons.2 ⟨fun j hj => (h4 j hj).1, h3⟩
          · intro j hj
            rcases List.mem_cons.1 hj with rfl | hj
            · exact ⟨by omega, hsi⟩
            · exact ⟨by have := (h4 j hj).1; omega, (h4 j hj).2⟩
          · intro j hj hs hn k hk
            rw [List.mem_cons, not_or] at hn
            rcases List.mem_cons.1 hk with rfl | hk
            · omega
            · exact h5 j (by omega) hs hn.2 k hk
        · rename_i hle
          rw [if_neg (by omega), this]; rfl

/-- **C37** (crash report, partial). With at least fifteen calls on the stack the report lists exactly fifteen
of them, innermost first, and no call that is further in is left out. The full statement would be that the
report is also correct for fewer calls; see `C37_dump_stack_ub`. -/
theorem _root_.MZ.C37_dump_stack_partial (stack : List Bool) (h : 15 ≤ stack.countP id) :
    ∃ l, dumpStack stack = .ok l ∧ l.length = 15 ∧ l.Pairwise (· > ·) ∧
      (∀ j ∈ l, stack[j]? = some true) ∧
      (∀ j, stack[j]? = some true → j ∉ l → ∀ k ∈ l, j < k) := by
  have := dumpLoop_spec stack stack.length 15 (le_refl _) (by decide)
  rw [List.take_length, if_pos h] at this
  obtain ⟨l, h1, h2, h3, h4, h5⟩ := this
  refine ⟨l, h1, h2, h3, fun j hj => (h4 j hj).2, fun j hs => h5 j ?_ hs⟩
  by_contra hc
  rw [List.getElem?_eq_none (by omega)] at hs; simp at hs

example : 15 ≤ (List.replicate 20 true).countP id := by decide

/-- With fewer than fifteen calls on the stack the loop runs past the bottom of the stack: the loop condition
is always true. -/
theorem _root_.MZ.C37_dump_stack_ub (stack : List Bool) (h : stack.countP id < 15) :
    dumpStack stack = .ub := by
  have := dumpLoop_spec stack stack.length 15 (le_refl _) (by decide)
  rw [List.take_length, if_neg (by omega)] at this
  exact this

example : ([true, false, true] : List Bool).countP id < 15 := by decide

/-! ## Versions -/

/-- `Version.Older` is a strict total order. -/
theorem Version.older_total (a b : Version) : a.Older b ∨ a = b ∨ b.Older a := by
  obtain ⟨a1, a2, a3⟩ := a; obtain ⟨b1, b2, b3⟩ := b
  simp only [Version.Older, Version.mk.injEq]; omega

/-- **C35** (refuted). The version comparison is not an order: of two different versions each can be
"less than" the other. -/
theorem _root_.MZ.C35_lt_not_an_order :
    ∃ a b : Version, a.lt b = true ∧ b.lt a = true ∧ b.Older a :=
  ⟨⟨2, 0, 5⟩, ⟨1, 9, 9⟩, by decide, by decide, by simp [Version.Older]⟩

/-- **C35** (refuted). `<=` is not total: a newer version can be rejected in both directions. -/
theorem _root_.MZ.C35_le_not_total :
    ∃ a b : Version, a.Older b ∧ a.le b = false ∧ b.le a = false :=
  ⟨⟨1, 9, 9⟩, ⟨2, 0, 5⟩, by simp [Version.Older], by decide, by decide⟩

/-- **C35** (partial). An older version is always recognised by `<`; the converse fails
(`C35_lt_not_an_order`). Exactly: `<` holds if some component is smaller. -/
theorem _root_.MZ.C35_lt_partial (a b : Version) :
    (a.Older b → a.lt b = true) ∧
    (a.lt b = true ↔ a.major < b.major ∨ a.minor < b.minor ∨ a.patch < b.patch) := by
  have h2 : a.lt b = true ↔ a.major < b.major ∨ a.minor < b.minor ∨ a.patch < b.patch := by
    unfold Version.lt
    split
    · simp [*]
    · split
      · simp [*]
      · split <;> simp [*]
  refine ⟨fun h => h2.2 ?_, h2⟩
  unfold Version.Older at h; omega

/-- **C35** (partial). `<=` accepts no newer version; it is the componentwise order, and hence reflexive,
transitive and antisymmetric, but not total (`C35_le_not_total`). -/
theorem _root_.MZ.C35_le_partial (a b c : Version) :
    (a.le b = true → a.Older b ∨ a = b) ∧ a.le a = true ∧
    (a.le b = true → b.le c = true → a.le c = true) ∧ (a.le b = true → b.le a = true → a = b) ∧
    (a.le b = true ↔ ¬ b.lt a = true) := by
  have h2 : ∀ a b : Version, a.le b = true ↔ a.major ≤ b.major ∧ a.minor ≤ b.minor ∧ a.patch ≤ b.patch := by
    intro a b
    unfold Version.le
    split
    · simp; omega
    · split
      · simp; omega
      · split
        · simp; omega
        · simp; omega
  obtain ⟨a1, a2, a3⟩ := a; obtain ⟨b1, b2, b3⟩ := b; obtain ⟨c1, c2, c3⟩ := c
  simp only [h2, (C35_lt_partial _ _).2, Version.Older, Version.mk.injEq]
  omega

/-- **C35**. Within one major and minor version the two comparisons are right. -/
theorem _root_.MZ.C35_same_series_partial (a b : Version) (h : a.major = b.major) (h' : a.minor = b.minor) :
    (a.lt b = true ↔ a.Older b) ∧ (a.le b = true ↔ a.Older b ∨ a = b) ∧ (a.eq b = true ↔ a = b) := by
  have h1 := (C35_lt_partial a b).2
  have h2 := (C35_le_partial a b a).2.2.2.2
  have h3 := (C35_lt_partial b a).2
  refine ⟨?_, ?_, ?_⟩
  · rw [h1]; unfold Version.Older; omega
  · rw [h2, h3]
    obtain ⟨a1, a2, a3⟩ := a; obtain ⟨b1, b2, b3⟩ := b
    simp only [Version.Older, Version.mk.injEq] at *
    omega
  · obtain ⟨a1, a2, a3⟩ := a; obtain ⟨b1, b2, b3⟩ := b
    simp [Version.eq, and_assoc]

/-- Equality of versions is equality of the components. -/
theorem _root_.MZ.C35_eq (a b : Version) : a.eq b = true ↔ a = b := by
  obtain ⟨a1, a2, a3⟩ := a; obtain ⟨b1, b2, b3⟩ := b
  simp [Version.eq, and_assoc]

theorem splitDot_append (a r : List Char) (h : '.' ∉ a) : splitDot (a ++ '.' :: r) = (a, some r) := by
  induction a with
  | nil => simp [splitDot]
  | cons c t ih =>
    rw [List.mem_cons, not_or] at h
    rw [List.cons_append, splitDot, if_neg (fun e => h.1 e.symm), ih h.2]

theorem splitDot_none (a : List Char) (h : '.' ∉ a) : splitDot a = (a, none) := by
  induction a with
  | nil => simp [splitDot]
  | cons c t ih =>
    rw [List.mem_cons, not_or] at h
    rw [splitDot, if_neg (fun e => h.1 e.symm), ih h.2]

theorem dot_not_mem (n : Nat) : '.' ∉ Nat.toDigits 10 n := by
  intro h
  exact absurd ((toDigits_digitString n).2 _ h) (by decide)

theorem parseComponent_toDigits (n : Nat) (h : n ≤ 4294967295) : parseComponent (Nat.toDigits 10 n) = n := by
  unfold parseComponent
  rw [if_neg (by simp [Nat.toDigits_ne_nil]), C36_roundtrip n h]

/-- **C35** (text). A printed version is read back as the same version. -/
theorem _root_.MZ.C35_roundtrip (a : Version) (h1 : a.major ≤ 4294967295) (h2 : a.minor ≤ 4294967295)
    (h3 : a.patch ≤ 4294967295) : parseVersion (printVersion a) = a := by
  unfold parseVersion printVersion
  rw [show Nat.toDigits 10 a.major ++ ['.'] ++ Nat.toDigits 10 a.minor ++ ['.'] ++ Nat.toDigits 10 a.patch =
    Nat.toDigits 10 a.major ++ '.' :: (Nat.toDigits 10 a.minor ++ '.' :: Nat.toDigits 10 a.patch) by simp]
  rw [splitDot_append _ _ (dot_not_mem _)]
  simp only
  rw [splitDot_append _ _ (dot_not_mem _)]
  simp only
  rw [splitDot_none _ (dot_not_mem _), parseComponent_toDigits _ h1, parseComponent_toDigits _ h2,
    parseComponent_toDigits _ h3]

/-- **C35** (text). Missing components count as zero, and text that is no number counts as zero. -/
theorem _root_.MZ.C35_missing (n m : Nat) (h : n ≤ 4294967295) (h' : m ≤ 4294967295) :
    parseVersion (Nat.toDigits 10 n) = ⟨n, 0, 0⟩ ∧
    parseVersion (Nat.toDigits 10 n ++ '.' :: Nat.toDigits 10 m) = ⟨n, m, 0⟩ := by
  unfold parseVersion
  rw [splitDot_none _ (dot_not_mem _), splitDot_append _ _ (dot_not_mem _)]
  simp only
  rw [splitDot_none _ (dot_not_mem _)]
  simp only
  rw [parseComponent_toDigits _ h, parseComponent_toDigits _ h']
  exact ⟨rfl, rfl⟩

example : parseVersion "2.8.5".toList = ⟨2, 8, 5⟩ := by decide +kernel

end Utils
end MZ
