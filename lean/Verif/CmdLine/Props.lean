import Verif.CmdLine.Model
/-!
# C34: splitting and joining command lines
-/
namespace MZ
namespace CmdLine

/-- Characters that the joiner writes as a C escape although the splitter does not know escapes inside
quotes. -/
def Special (c : Char) : Prop :=
  c = bell ∨ c = backspace ∨ c = formFeed ∨ c = '\n' ∨ c = '\r' ∨ c = '\t' ∨ c = vtab

instance (c : Char) : Decidable (Special c) := by unfold Special; infer_instance

/-- Words for which the round trip works: no special character, and every backslash is followed by a
character other than a backslash or a double quote. -/
def Tame : List Char → Prop
  | [] => True
  | ['\\'] => False
  | '\\' :: c :: w => c ≠ '\\' ∧ c ≠ '"' ∧ ¬ Special c ∧ Tame w
  | c :: w => ¬ Special c ∧ Tame w

theorem escape_plain {c : Char} (h : ¬ Special c) (h1 : c ≠ '"') (h2 : c ≠ '\\') : escape c = [c] := by
  unfold Special at h
  simp only [not_or] at h
  obtain ⟨a, b, d, e, f, g, i⟩ := h
  simp [escape, a, b, d, e, f, g, i, h1, h2]

theorem escape_quote : escape '"' = ['\\', '"'] := by decide
theorem escape_bs : escape '\\' = ['\\', '\\'] := by decide

/-- Inside quotes, the escaped text of a tame word followed by the closing quote is read back. -/
theorem parse_word : ∀ (w : List Char), Tame w → ∀ (cur rest : List Char),
    parseGo (w.flatMap escape ++ '"' :: rest) cur true false = parseGo rest (cur ++ w) false false
  | [], _, cur, rest => by simp [parseGo]
  | c :: w, h, cur, rest => by
    by_cases hb : c = '\\'
    · subst hb
      cases w with
      | nil => simp [Tame] at h
      | cons d w =>
        simp only [Tame] at h
        obtain ⟨h1, h2, h3, h4⟩ := h
        have ih := parse_word w h4 (cur ++ ['\\'] ++ [d]) rest
        simp only [List.flatMap_cons, escape_bs, escape_plain h3 h2 h1, List.cons_append, List.nil_append]
        simp only [parseGo]
        simp [h1, h2]
        simpa using ih
    · have h' : ¬ Special c ∧ Tame w := by
        unfold Tame at h
        split at h
        · simp at *
        · simp_all
        · simp_all
        · rename_i heq
          simp only [List.cons.injEq] at heq
          rw [heq.1, heq.2]; exact h
      by_cases hq : c = '"'
      · subst hq
        have ih := parse_word w h'.2 (cur ++ ['"']) rest
        simp only [List.flatMap_cons, escape_quote, List.cons_append, List.nil_append]
        simp only [parseGo]
        simpa using ih
      · have ih := parse_word w h'.2 (cur ++ [c]) rest
        simp only [List.flatMap_cons, escape_plain h'.1 hq hb, List.cons_append, List.nil_append]
        simp only [parseGo]
        simpa [hb, hq] using ih

/-- Splitting a joined command line gives the words back, for any number of words, as long as the words
are tame. Missing (hence `_partial`): words with control characters, trailing or doubled backslashes, and a
backslash before a quote (see the counterexamples below), and the empty list of words. -/
theorem _root_.MZ.C34_roundtrip_partial : ∀ (ws : List (List Char)), ws ≠ [] → (∀ w ∈ ws, Tame w) →
    parse (combine ws) = ws
  | [], h, _ => absurd rfl h
  | [w], _, h => by
    unfold parse combine quote
    have := parse_word w (h w (by simp)) [] []
    simp only [List.cons_append, List.nil_append]
    simp only [parseGo]
    simpa [parseGo] using this
  | w :: w2 :: ws, _, h => by
    have ih := C34_roundtrip_partial (w2 :: ws) (by simp) (fun v hv => h v (by simp [hv]))
    unfold parse at ih ⊢
    have := parse_word w (h w (by simp)) [] (' ' :: combine (w2 :: ws))
    simp only [combine, quote, List.cons_append, List.nil_append, List.append_assoc]
    simp only [parseGo]
    simp only [List.nil_append, parseGo] at this
    simp at this ⊢
    rw [this, ih]

/-- A word that ends in a backslash (such as a Windows directory) swallows the rest of the line. -/
theorem _root_.MZ.C34_backslash_lost :
    parse (combine [['a', '\\'], ['b']]) = ["a\" b".toList] := by decide

/-- A line feed in a word comes back as a backslash and an `n`. -/
theorem _root_.MZ.C34_newline_lost : parse (combine [['\n']]) = [['\\', 'n']] := by decide

/-- Two backslashes in a row come back as one. -/
theorem _root_.MZ.C34_double_backslash_lost :
    parse (combine [['\\', '\\', 'x']]) = [['\\', 'x']] := by decide

/-- Words without blanks, quotes and backslashes, separated by single blanks, are split at the blanks. -/
theorem _root_.MZ.C34_plain_words : ∀ (ws : List (List Char)), ws ≠ [] →
    (∀ w ∈ ws, ∀ c ∈ w, c ≠ ' ' ∧ c ≠ '"' ∧ c ≠ '\\') → parse ((ws.intersperse [' ']).flatten) = ws := by
  have word : ∀ (w : List Char), (∀ c ∈ w, c ≠ ' ' ∧ c ≠ '"' ∧ c ≠ '\\') → ∀ cur rest,
      parseGo (w ++ rest) cur false false = parseGo rest (cur ++ w) false false := by
    intro w
    induction w with
    | nil => intro _ cur rest; simp
    | cons c w ih =>
      intro h cur rest
      obtain ⟨h1, h2, h3⟩ := h c (by simp)
      simp only [List.cons_append, parseGo]
      simp only [h1, h2, h3, if_false]
      rw [if_neg (by simp), ih (fun c hc => h c (by simp [hc]))]
      simp
  intro ws
  induction ws with
  | nil => intro h; exact absurd rfl h
  | cons w ws ih =>
    intro _ h
    cases ws with
    | nil =>
      unfold parse
      have := word w (h w (by simp)) [] []
      simpa [parseGo] using this
    | cons w2 ws =>
      have ih := ih (by simp) (fun v hv => h v (by simp [hv]))
      unfold parse at ih ⊢
      have := word w (h w (by simp)) [] (' ' :: ((w2 :: ws).intersperse [' ']).flatten)
      rw [List.intersperse_cons_cons]
      simp only [List.flatten_cons, List.singleton_append]
      rw [this]
      simp only [parseGo]
      simp [ih]

example : Tame ['"', 'a', '\\', 'd', '"'] :=
  ⟨by decide, by decide, by decide, by decide, by decide, by decide, trivial⟩
example : parse (combine ["say \"hi\"".toList, "C:\\dir\\file".toList]) = ["say \"hi\"".toList, "C:\\dir\\file".toList] := by
  decide

end CmdLine
end MZ
