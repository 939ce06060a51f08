import Verif.Options.Model
import Verif.Utils.Spec
import Verif.Linear.Lemmas
/-!
# C45: command-line options; C46: splitting a text into words
-/
namespace MZ
namespace Options
open Utils

/-- Ways in which the current item is an occurrence of the option `k`, and what results from it. -/
inductive Occurs {V : Type} (k : List Char) (read : Option (List Char → Option V)) (optional : Bool)
    (argv : List (List Char)) (i : Nat) : Nat → Option V → Prop
  /-- A flag: the item is the name. -/
  | flag : read = none → argv[i]? = some k → Occurs k read optional argv i i none
  /-- The value is the next item. -/
  | next (rd a v) : read = some rd → argv[i]? = some k → argv[i + 1]? = some a → rd a = some v →
      Occurs k read optional argv i (i + 1) (some v)
  /-- The value follows a name of at most two characters directly. -/
  | joined (rd a v) : read = some rd → k.length ≤ 2 → a ≠ [] → argv[i]? = some (k ++ a) → rd a = some v →
      Occurs k read optional argv i i (some v)
  /-- An optional value is missing, or is no value of the type. -/
  | missing (rd) : read = some rd → optional = true → argv[i]? = some k →
      (∀ a, argv[i + 1]? = some a → rd a = none) → Occurs k read optional argv i i none
  | unreadable (rd a) : read = some rd → optional = true → k.length ≤ 2 → a ≠ [] →
      argv[i]? = some (k ++ a) → rd a = none → Occurs k read optional argv i i none

theorem tryNames_spec {V : Type} (read : Option (List Char → Option V)) (optional : Bool)
    (argv : List (List Char)) (i : Nat) (arg : List Char) (harg : argv[i]? = some arg) (names : List (List Char)) :
    (∀ (o : Outcome V), tryNames read optional argv i arg names = o →
      (o.found = false → o.i = i ∧ o.stored = none) ∧
      (o.found = true → ∃ k ∈ names, Occurs k read optional argv i o.i o.stored)) := by
  induction names with
  | nil => rintro o rfl; simp [tryNames]
  | cons k ks ih =>
    rintro o rfl
    have hrec : tryNames read optional argv i arg (k :: ks) = tryNames read optional argv i arg ks →
        ((tryNames read optional argv i arg (k :: ks)).found = false →
          (tryNames read optional argv i arg (k :: ks)).i = i ∧
          (tryNames read optional argv i arg (k :: ks)).stored = none) ∧
        ((tryNames read optional argv i arg (k :: ks)).found = true →
          ∃ k' ∈ k :: ks, Occurs k' read optional argv i (tryNames read optional argv i arg (k :: ks)).i
            (tryNames read optional argv i arg (k :: ks)).stored) := by
      intro h
      rw [h]
      obtain ⟨h1, h2⟩ := ih _ rfl
      refine ⟨h1, fun hf => ?_⟩
      obtain ⟨k', hk', ho⟩ := h2 hf
      exact ⟨k', by simp [hk'], ho⟩
    by_cases hm : ((2 < k.length ∨ read.isNone) ∧ arg ≠ k) ∨ arg.take k.length ≠ k
    · exact hrec (by cases read <;> rw [tryNames, if_pos hm])
    · have hm' := hm
      rw [not_or, not_and_or, not_or] at hm
      obtain ⟨hm1, hm2⟩ := hm
      simp only [ne_eq, Decidable.not_not] at hm1 hm2
      have hsplit : arg = k ++ arg.drop k.length := by
        conv_lhs => rw [← List.take_append_drop k.length arg, hm2]
      by_cases hlen : k.length < arg.length
      · have hne : arg.drop k.length ≠ [] := by
          intro h; rw [List.drop_eq_nil_iff] at h; omega
        have hnk : arg ≠ k := fun h => by rw [h] at hlen; omega
        cases hread : read with
        | none =>
          subst hread
          exact hrec (by rw [tryNames, if_neg hm', if_pos hlen])
        | some rd =>
          subst hread
          have hk2 : k.length ≤ 2 := by
            rcases hm1 with h | h
            · omega
            · exact absurd h hnk
          have heq : tryNames (some rd) optional argv i arg (k :: ks) =
              match rd (arg.drop k.length) with
              | none => ⟨optional, i, none⟩
              | some v => ⟨true, i, some v⟩ := by
            rw [tryNames, if_neg hm', if_pos hlen]; rfl
          rw [heq]
          cases hr : rd (arg.drop k.length) with
          | none =>
            refine ⟨fun _ => ⟨rfl, rfl⟩, fun hf => ⟨k, by simp, ?_⟩⟩
            exact .unreadable rd (arg.drop k.length) rfl hf hk2 hne (by rw [harg]; exact congrArg some hsplit) hr
          | some v =>
            refine ⟨fun hf => by simp at hf, fun _ => ⟨k, by simp, ?_⟩⟩
            exact .joined rd (arg.drop k.length) v rfl hk2 hne (by rw [harg]; exact congrArg some hsplit) hr
      · have hk : arg = k := by
          rw [hsplit, List.drop_eq_nil_of_le (by omega), List.append_nil]
        rw [hk] at harg
        cases hread : read with
        | none =>
          subst hread
          have heq : tryNames (none : Option (List Char → Option V)) optional argv i arg (k :: ks) =
              ⟨true, i, none⟩ := by
            rw [tryNames, if_neg hm', if_neg hlen]
          rw [heq]
          exact ⟨fun hf => by simp at hf, fun _ => ⟨k, by simp, .flag rfl harg⟩⟩
        | some rd =>
          subst hread
          have heq : tryNames (some rd) optional argv i arg (k :: ks) =
              match argv[i + 1]? with
              | none => ⟨optional, i, none⟩
              | some a =>
                match rd a with
                | none => ⟨optional, i, none⟩
                | some v => ⟨true, i + 1, some v⟩ := by
            rw [tryNames, if_neg hm', if_neg hlen]; rfl
          rw [heq]
          cases ha : argv[i + 1]? with
          | none =>
            refine ⟨fun _ => ⟨rfl, rfl⟩, fun hf => ⟨k, by simp, ?_⟩⟩
            exact .missing rd rfl hf harg (by rw [ha]; simp)
          | some a =>
            simp only
            cases hr : rd a with
            | none =>
              refine ⟨fun _ => ⟨rfl, rfl⟩, fun hf => ⟨k, by simp, ?_⟩⟩
              refine .missing rd rfl hf harg ?_
              intro a' h; rw [ha] at h; cases h; exact hr
            | some v =>
              exact ⟨fun hf => by simp at hf, fun _ => ⟨k, by simp, .next rd a v rfl harg ha hr⟩⟩

/-- **C45** (soundness). If an option is reported as found, then the current item is an occurrence of one of
its names and the value stored and the new position are those of that occurrence; if it is not found, the
position is unchanged and nothing is stored. -/
theorem _root_.MZ.C45_option_sound {V : Type} (names : List (List Char)) (read : Option (List Char → Option V))
    (optional : Bool) (argv : List (List Char)) (i : Nat) :
    ((getOption names read optional argv i).found = false →
      (getOption names read optional argv i).i = i ∧ (getOption names read optional argv i).stored = none) ∧
    ((getOption names read optional argv i).found = true →
      ∃ k ∈ names, Occurs k read optional argv i (getOption names read optional argv i).i
        (getOption names read optional argv i).stored) := by
  cases h : argv[i]? with
  | none => unfold getOption; rw [h]; simp
  | some arg =>
    have : getOption names read optional argv i = tryNames read optional argv i arg names := by
      unfold getOption; rw [h]
    rw [this]
    exact tryNames_spec read optional argv i arg h names _ rfl

/-- **C45** (completeness, flags). A flag is found whenever the current item is one of its names. -/
theorem _root_.MZ.C45_flag_complete {V : Type} (names : List (List Char)) (optional : Bool)
    (argv : List (List Char)) (i : Nat) (k : List Char) (hk : k ∈ names) (h : argv[i]? = some k) :
    getOption (V := V) names none optional argv i = ⟨true, i, none⟩ := by
  unfold getOption; rw [h]; simp only
  induction names with
  | nil => simp at hk
  | cons k' ks ih =>
    rw [tryNames]
    by_cases he : k = k'
    · subst he
      rw [if_neg (by simp)]; simp
    · have hk' : k ∈ ks := by
        rcases List.mem_cons.1 hk with h | h
        · exact absurd h he
        · exact h
      rw [if_pos (.inl ⟨.inr rfl, he⟩)]
      exact ih hk'

/-- **C45** (completeness, values). An option with a value is found, with its value, if the current item is one
of its names, the next item is a value of the type, and no other name of at most two characters is a proper
beginning of the item. -/
theorem _root_.MZ.C45_value_complete {V : Type} (names : List (List Char)) (rd : List Char → Option V)
    (optional : Bool) (argv : List (List Char)) (i : Nat) (k a : List Char) (v : V) (hk : k ∈ names)
    (h : argv[i]? = some k) (ha : argv[i + 1]? = some a) (hv : rd a = some v)
    (hno : ∀ k' ∈ names, k'.length ≤ 2 → k' ≠ k → ¬ k' <+: k) :
    getOption names (some rd) optional argv i = ⟨true, i + 1, some v⟩ := by
  unfold getOption; rw [h]; simp only
  induction names with
  | nil => simp at hk
  | cons k' ks ih =>
    rw [tryNames]
    by_cases he : k = k'
    · subst he
      rw [if_neg (by simp)]
      simp only [Nat.lt_irrefl, if_false]
      rw [ha]; simp only; rw [hv]
    · have hk' : k ∈ ks := by
        rcases List.mem_cons.1 hk with h | h
        · exact absurd h he
        · exact h
      have hne : ((2 < k'.length ∨ (some rd).isNone) ∧ k ≠ k') ∨ k.take k'.length ≠ k' := by
        by_cases hl : 2 < k'.length
        · exact .inl ⟨.inl hl, he⟩
        · right
          intro ht
          exact hno k' (by simp) (by omega) (fun e => he e.symm) ⟨k.drop k'.length, by
            conv_rhs => rw [← List.take_append_drop k'.length k, ht]⟩
      rw [if_pos hne]
      exact ih hk' fun k'' hk'' => hno k'' (by simp [hk''])

/-- **C45** (completeness, joined values): `-Ggecode`. -/
theorem _root_.MZ.C45_joined_complete {V : Type} (rd : List Char → Option V) (optional : Bool)
    (argv : List (List Char)) (i : Nat) (k a : List Char) (v : V) (hk : k.length ≤ 2) (ha : a ≠ [])
    (h : argv[i]? = some (k ++ a)) (hv : rd a = some v) (names : List (List Char)) :
    getOption (k :: names) (some rd) optional argv i = ⟨true, i, some v⟩ := by
  unfold getOption; rw [h]; simp only
  have hl : 0 < a.length := List.length_pos_of_ne_nil ha
  rw [tryNames, if_neg (by simp; omega), if_pos (by simp; omega)]
  simp [hv]

example : getOption (V := Int) ["-v".toList, "--verbose".toList] none false ["--verbose".toList] 0 = ⟨true, 0, none⟩ := by
  decide +kernel
example : getOption ["-G".toList] (some some) false ["-Ggecode".toList] 0 = ⟨true, 0, some "gecode".toList⟩ := by
  decide +kernel
example : getOption ["-G".toList, "--globals-dir".toList] (some some) false ["--globals-dir".toList, "std".toList] 0 =
    ⟨true, 1, some "std".toList⟩ := by decide +kernel

end Options

namespace Utils

theorem isSpace_blank (c : Char) : isSpace c = true ↔ Blank c := by
  simp [isSpace, Blank, or_assoc]

theorem nextWord_blank (s : List Char) (h : ∀ c ∈ s, Blank c) : nextWord s = none := by
  unfold nextWord
  have : s.dropWhile isSpace = [] := by
    induction s with
    | nil => rfl
    | cons a t ih =>
      rw [List.dropWhile_cons, if_pos ((isSpace_blank a).2 (h a (by simp)))]
      exact ih fun c hc => h c (by simp [hc])
  simp [this]

theorem dropBlank (s r : List Char) (h : ∀ c ∈ s, Blank c) : (s ++ r).dropWhile isSpace = r.dropWhile isSpace := by
  induction s with
  | nil => rfl
  | cons a t ih =>
    rw [List.cons_append, List.dropWhile_cons, if_pos ((isSpace_blank a).2 (h a (by simp)))]
    exact ih fun c hc => h c (by simp [hc])

theorem spanWord (w r : List Char) (h : ∀ c ∈ w, ¬ Blank c) (hr : ∀ c, r.head? = some c → Blank c) :
    (w ++ r).takeWhile (!isSpace ·) = w ∧ (w ++ r).dropWhile (!isSpace ·) = r := by
  induction w with
  | nil =>
    cases r with
    | nil => simp
    | cons a t =>
      have := (isSpace_blank a).2 (hr a rfl)
      simp [List.takeWhile_cons, List.dropWhile_cons, this]
  | cons a t ih =>
    have ha : isSpace a = false := by
      have := h a (by simp); rw [← isSpace_blank] at this; simpa using this
    have := ih fun c hc => h c (by simp [hc])
    simp [List.takeWhile_cons, List.dropWhile_cons, ha, this.1, this.2]

theorem nextWord_word (s w r : List Char) (hs : ∀ c ∈ s, Blank c) (hw : w ≠ []) (h : ∀ c ∈ w, ¬ Blank c)
    (hr : ∀ c, r.head? = some c → Blank c) : nextWord (s ++ w ++ r) = some (w, r) := by
  obtain ⟨a, t, rfl⟩ := List.exists_cons_of_ne_nil hw
  have ha : isSpace a = false := by
    have := h a (by simp); rw [← isSpace_blank] at this; simpa using this
  have hd : (s ++ (a :: t) ++ r).dropWhile isSpace = (a :: t) ++ r := by
    rw [List.append_assoc, dropBlank _ _ hs]
    simp [List.dropWhile_cons, ha]
  unfold nextWord
  simp only [hd]
  rw [if_neg (by simp)]
  obtain ⟨h1, h2⟩ := spanWord (a :: t) r h hr
  rw [h1, h2]

theorem splitWords_spec {s : List Char} {ws : List (List Char)} (hw : Words s ws) :
    ∀ n buf, s.length < n → splitWords n s buf = ws ++ [ws.getLastD buf] := by
  induction hw with
  | done s h =>
    intro n buf hn
    cases n with
    | zero => omega
    | succ n => rw [splitWords, nextWord_blank s h]; rfl
  | last s w hs hne hw =>
    intro n buf hn
    cases n with
    | zero => omega
    | succ n =>
      have := nextWord_word s w [] hs hne hw (by simp)
      rw [List.append_nil] at this
      rw [splitWords, this]
      simp only
      have hl : 0 < w.length := List.length_pos_of_ne_nil hne
      cases n with
      | zero => rw [List.length_append] at hn; omega
      | succ n => rw [splitWords, nextWord_blank [] (by simp)]; rfl
  | cons s w b r ws hs hne hw hb _ ih =>
    intro n buf hn
    cases n with
    | zero => omega
    | succ n =>
      rw [splitWords, nextWord_word s w (b :: r) hs hne hw (by simp; exact hb)]
      simp only
      have hl : 0 < w.length := List.length_pos_of_ne_nil hne
      rw [ih n w (by simp at hn ⊢; omega)]
      cases ws with
      | nil => rfl
      | cons x xs => simp [List.getLastD_eq_getLast?, List.getLast?_cons]

/-- **C46** (refuted). Splitting a text into words yields the words of the text *followed by the last word once
more* (or by one empty word, if there is none). -/
theorem _root_.MZ.C46_split_repeats_last {s : List Char} {ws : List (List Char)} (h : Words s ws) :
    split s = ws ++ [ws.getLastD []] :=
  splitWords_spec h _ _ (by omega)

example : Words "a bc".toList ["a".toList, "bc".toList] := by
  refine .cons [] ['a'] ' ' ['b', 'c'] _ (by simp) (by simp) (by simp [Blank]) (by simp [Blank]) ?_
  exact .last [' '] ['b', 'c'] (by simp [Blank]) (by simp) (by simp [Blank])

/-- **C46** (refuted). So it never yields exactly the words. -/
theorem _root_.MZ.C46_split_wrong {s : List Char} {ws : List (List Char)} (h : Words s ws) : split s ≠ ws := by
  rw [C46_split_repeats_last h]
  intro e
  have := congrArg List.length e
  simp at this

/-- **C46** (partial). All words but the last entry are right. The full statement would be `split s = ws`. -/
theorem _root_.MZ.C46_split_partial {s : List Char} {ws : List (List Char)} (h : Words s ws) :
    (split s).dropLast = ws := by
  rw [C46_split_repeats_last h]; simp

/-- **C46**. `beginswith` tests for a beginning. -/
theorem _root_.MZ.C46_beginswith (s t : List Char) : beginswith s t = true ↔ ∃ r, s = t ++ r := by
  unfold beginswith
  rw [beq_iff_eq]
  constructor
  · intro h; exact ⟨s.drop t.length, by conv_lhs => rw [← List.take_append_drop t.length s, h]⟩
  · rintro ⟨r, rfl⟩; simp

end Utils
end MZ
