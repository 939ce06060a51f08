import Verif.Json.ParseSpec
import Verif.Json.ParseFails
import Verif.Ranges.Props

/-!
# JSON data is read as written (C53)
-/

namespace MZ
namespace Json

/-! ## Tokens -/

theorem readToken_ws {ws : List Char} (h : ∀ c ∈ ws, c = ' ' ∨ c = '\t' ∨ c = '\n' ∨ c = '\r') (r : List Char) :
    readToken (ws ++ r) = readToken r := by
  induction ws with
  | nil => rfl
  | cons c ws ih =>
    have hc : isWs c = true := by
      rcases h c (by simp) with rfl | rfl | rfl | rfl <;> rfl
    rw [List.cons_append, readToken, hc, if_pos rfl]
    exact ih (fun x hx => h x (by simp [hx]))

theorem readExp_digits (ds : List Char) (h : ∀ c ∈ ds, '0' ≤ c ∧ c ≤ '9') (r acc : List Char) :
    readExp (ds ++ r) acc = readExp r (acc ++ ds) := by
  induction ds generalizing acc with
  | nil => simp
  | cons c ds ih =>
    rw [List.cons_append, readExp, if_pos ((isDigit_iff c).2 (h c (by simp))), ih (fun x hx => h x (by simp [hx]))]
    simp

theorem readFloat_digits (ds : List Char) (h : ∀ c ∈ ds, '0' ≤ c ∧ c ≤ '9') (r acc : List Char) :
    readFloat (ds ++ r) acc = readFloat r (acc ++ ds) := by
  induction ds generalizing acc with
  | nil => simp
  | cons c ds ih =>
    obtain ⟨_, h2, h3, _⟩ := digit_ne (h c (by simp))
    rw [List.cons_append, readFloat, if_neg (by tauto), if_pos ((isDigit_iff c).2 (h c (by simp))),
      ih (fun x hx => h x (by simp [hx]))]
    simp

theorem readExp_end {rest acc : List Char} (h : EndsNumber rest) : readExp rest acc = .ok (.float acc, rest) := by
  obtain ⟨c, r, rfl, h1, _⟩ := h
  rw [readExp, if_neg (by rw [isDigit_iff]; exact h1)]

theorem readFloat_end {rest acc : List Char} (h : EndsNumber rest) : readFloat rest acc = .ok (.float acc, rest) := by
  obtain ⟨c, r, rfl, h1, _, h3, h4⟩ := h
  rw [readFloat, if_neg (by tauto), if_neg (by rw [isDigit_iff]; exact h1)]

theorem readExpStart_text {e : Char} {x ds : List Char} (hd : Digits ds) (hx : x = e :: ds ∨ x = e :: '-' :: ds)
    {r : List Char} (hr : EndsNumber r) (acc : List Char) :
    readExpStart ((x ++ r).tail) (acc ++ [e]) = .ok (.float (acc ++ x), r) := by
  obtain ⟨h0, h1⟩ := hd
  cases ds with
  | nil => exact absurd rfl h0
  | cons d ds =>
    have hdig := (isDigit_iff d).2 (h1 d (by simp))
    have hne : d ≠ '-' := (digit_ne (h1 d (by simp))).2.2.2.1
    rcases hx with rfl | rfl
    · simp only [List.cons_append, List.tail_cons]
      rw [readExpStart.eq_def]
      simp only
      rw [if_neg hne, if_pos hdig, readExp_digits ds (fun x hx => h1 x (by simp [hx])), readExp_end hr]
      simp
    · simp only [List.cons_append, List.tail_cons]
      rw [readExpStart.eq_def]
      simp only [if_true]
      rw [if_pos hdig, readExp_digits ds (fun x hx => h1 x (by simp [hx])), readExp_end hr]
      simp

theorem readInt_exp {x : List Char} (hx : ExpText x) {r : List Char} (hr : EndsNumber r) (acc : List Char) :
    readInt (x ++ r) acc = .ok (.float (acc ++ x), r) := by
  obtain ⟨e, ds, he, hd, hx⟩ := hx
  have key := readExpStart_text hd hx hr acc
  have hd' : e ≠ '.' := by rcases he with rfl | rfl <;> decide
  have hcons : x ++ r = e :: (x ++ r).tail := by rcases hx with rfl | rfl <;> rfl
  rw [hcons, readInt, if_neg hd', if_pos he, key]

theorem readFloat_exp {x : List Char} (hx : ExpText x) {r : List Char} (hr : EndsNumber r) (acc : List Char) :
    readFloat (x ++ r) acc = .ok (.float (acc ++ x), r) := by
  obtain ⟨e, ds, he, hd, hx⟩ := hx
  have key := readExpStart_text hd hx hr acc
  have hcons : x ++ r = e :: (x ++ r).tail := by rcases hx with rfl | rfl <;> rfl
  rw [hcons, readFloat, if_pos he, key]

theorem readToken_intText (neg : Bool) {ds : List Char} (hd : Digits ds) (r : List Char) :
    readToken (intText neg ds ++ r) = readInt r (intText neg ds) := by
  obtain ⟨h0, h1⟩ := hd
  cases neg with
  | true =>
    simp only [intText, if_true, List.cons_append]
    rw [readToken_num _ (Or.inr rfl), readInt_digits ds h1]
    rfl
  | false =>
    cases ds with
    | nil => exact absurd rfl h0
    | cons c ds =>
      simp only [intText, Bool.false_eq_true, if_false, List.cons_append]
      rw [readToken_num _ (Or.inl (h1 c (by simp))), readInt_digits ds (fun x hx => h1 x (by simp [hx]))]
      rfl

theorem readToken_float {t : List Char} (h : FloatText t) {r : List Char} (hr : EndsNumber r) :
    readToken (t ++ r) = .ok (.float t, r) := by
  obtain ⟨neg, ds, hd, h⟩ := h
  rcases h with ⟨fs, hf, rfl | ⟨x, hx, rfl⟩⟩ | ⟨x, hx, rfl⟩
  · rw [List.append_assoc, readToken_intText neg hd, List.cons_append, readInt, if_pos rfl,
      readFloat_digits fs hf.2, readFloat_end hr]
    simp
  · rw [List.append_assoc, List.append_assoc, readToken_intText neg hd, List.cons_append, readInt, if_pos rfl,
      readFloat_digits fs hf.2, readFloat_exp hx hr]
    simp
  · rw [List.append_assoc, readToken_intText neg hd, readInt_exp hx hr]

theorem readToken_spell {t : JTok} {text : List Char} (h : SpellTok t text) (r : List Char)
    (hn : isNumTok t = true → EndsNumber r) : readToken (text ++ r) = .ok (t, r) := by
  cases h with
  | listOpen => simp [readToken, isWs]
  | listClose => simp [readToken, isWs]
  | objOpen => simp [readToken, isWs]
  | objClose => simp [readToken, isWs]
  | comma => simp [readToken, isWs]
  | colon => simp [readToken, isWs]
  | null => simp [readToken, isWs]
  | tru => simp [readToken, isWs]
  | fls => simp [readToken, isWs]
  | int neg ds hd h => exact (C22_iff_partial neg ds r hd (hn rfl)).2 h
  | float t h => exact readToken_float h (hn rfl)
  | str es h =>
    have := C21_strings_partial es r h
    simpa using this

theorem Spells.tok {t : JTok} {ts : List JTok} {text rest : List Char} (h : Spells (t :: ts) text rest) :
    ∃ r, readToken text = .ok (t, r) ∧ Spells ts r rest := by
  cases h with
  | cons ws hws t tx ht ts r rest hn hs =>
    refine ⟨r, ?_, hs⟩
    rw [List.append_assoc, readToken_ws hws, readToken_spell ht r hn]

theorem Spells.length {ts : List JTok} {text rest : List Char} (h : Spells ts text rest) :
    ts.length + rest.length ≤ text.length := by
  induction h with
  | nil => simp
  | cons ws hws t tx ht ts r rest hn hs ih =>
    have : 0 < tx.length := by
      cases ht <;> try simp
      · rename_i neg ds hd h
        obtain ⟨h0, _⟩ := hd
        cases neg <;> simp [intText]
        exact List.length_pos_iff.2 h0
      · rename_i h
        obtain ⟨neg, ds, hd, h⟩ := h
        rcases h with ⟨fs, hf, rfl | ⟨x, hx, rfl⟩⟩ | ⟨x, ⟨e, es, _, _, rfl | rfl⟩, rfl⟩ <;>
          simp
    simp only [List.length_cons, List.length_append]
    omega

theorem expect_tok {t : JTok} {ts : List JTok} {text rest : List Char} (h : Spells (t :: ts) text rest) :
    ∃ r, expectToken t text = .ok r ∧ Spells ts r rest := by
  obtain ⟨r, h1, h2⟩ := h.tok
  exact ⟨r, by unfold expectToken; rw [h1, Res.ok_bind, if_pos rfl], h2⟩

theorem expect_str {s : List Char} {ts : List JTok} {text rest : List Char} (h : Spells (.str s :: ts) text rest) :
    ∃ r, expectString text = .ok (s, r) ∧ Spells ts r rest := by
  obtain ⟨r, h1, h2⟩ := h.tok
  exact ⟨r, by unfold expectString; rw [h1, Res.ok_bind], h2⟩

/-! ## Sets -/

theorem setLoop_sep (b : Bool) (ts : List JTok) (n : Nat) (ti : Option TI) (k : SetKind) (es : List JE)
    (rs : List (Num × Num)) {text rest : List Char}
    (h : Spells ((if b then [] else [.comma]) ++ ts) text rest) (l : Nat) (hn : (if b then 0 else 1) + l ≤ n) :
    ∃ m r, l ≤ m ∧ Spells ts r rest ∧ parseSetLoop n ti k es rs text = parseSetLoop m ti k es rs r := by
  cases b with
  | true => exact ⟨n, text, by simpa using hn, h, rfl⟩
  | false =>
    simp only [Bool.false_eq_true, if_false, List.cons_append, List.nil_append] at h hn
    obtain ⟨r, h1, h2⟩ := h.tok
    cases n with
    | zero => omega
    | succ n =>
      refine ⟨n, r, by omega, h2, ?_⟩
      rw [parseSetLoop, h1, Res.ok_bind]

theorem parseSetLoop_spec (l : List SetItem) : ∀ (n : Nat) (ti : Option TI) (k : SetKind) (rs : List (Num × Num))
    (ts : List JTok) (text rest : List Char), (k = .none ∨ k = .int) →
    Spells (toksS l ++ ts) text rest → (toksS l).length ≤ n →
    ∃ r, Spells ts r rest ∧ parseSetLoop n ti k [] rs text =
      .ok (buildSet (if l.isEmpty then k else .int) [] (rs ++ l.map SetItem.bounds), r) := by
  induction l with
  | nil =>
    intro n ti k rs ts text rest hk h hn
    cases n with
    | zero => simp [toksS] at hn
    | succ n =>
      simp only [toksS, List.cons_append, List.nil_append] at h
      obtain ⟨r1, h1, h⟩ := h.tok
      obtain ⟨r2, h2, h⟩ := expect_tok h
      refine ⟨r2, h, ?_⟩
      rw [parseSetLoop, h1, Res.ok_bind]
      simp only
      rw [h2, Res.ok_bind]
      simp
  | cons it l ih =>
    intro n ti k rs ts text rest hk h hn
    have hk' : (if k ≠ SetKind.float then SetKind.int else k) = .int := by
      rcases hk with rfl | rfl <;> rfl
    have hk1 : ¬ (k = .str ∨ k = .obj) := by
      rcases hk with rfl | rfl <;> simp
    have hk2 : ¬ (k ≠ .none ∧ k ≠ .int ∧ k ≠ .float) := by
      rcases hk with rfl | rfl <;> simp
    cases n with
    | zero => cases it <;> simp [toksS] at hn
    | succ n =>
      have fin : ∀ (p : Num × Num), p = it.bounds →
          ∀ (text : List Char), Spells ((if l.isEmpty then [] else [.comma]) ++ (toksS l ++ ts)) text rest →
          (if l.isEmpty then 0 else 1) + (toksS l).length ≤ n →
          ∃ r, Spells ts r rest ∧ parseSetLoop n ti .int [] (rs ++ [p]) text =
            .ok (buildSet .int [] (rs ++ (it :: l).map SetItem.bounds), r) := by
        intro p hp text h hn
        obtain ⟨m, r2, hm, h, e⟩ := setLoop_sep l.isEmpty _ n ti .int [] (rs ++ [p]) h _ hn
        obtain ⟨r3, h3, e3⟩ := ih m ti .int (rs ++ [p]) ts r2 rest (Or.inr rfl) h hm
        refine ⟨r3, h3, ?_⟩
        rw [e, e3, hp]
        simp
      cases it with
      | one i =>
        simp only [toksS, List.cons_append, List.append_assoc] at h
        simp only [toksS, List.cons_append, List.length_cons, List.length_append] at hn
        obtain ⟨r1, h1, h⟩ := h.tok
        obtain ⟨r, h2, e⟩ := fin (.int i, .int i) rfl r1 h (by
          revert hn; cases l.isEmpty <;> simp <;> omega)
        refine ⟨r, h2, ?_⟩
        rw [parseSetLoop, h1, Res.ok_bind]
        simp only [if_neg hk1, hk']
        rw [e]
        simp
      | range a b =>
        simp only [toksS, List.cons_append, List.append_assoc, List.nil_append] at h
        simp only [toksS, List.cons_append, List.length_cons, List.length_append, List.nil_append] at hn
        obtain ⟨r1, h1, h⟩ := h.tok
        obtain ⟨r2, h2, h⟩ := h.tok
        obtain ⟨r3, h3, h⟩ := expect_tok h
        obtain ⟨r4, h4, h⟩ := h.tok
        obtain ⟨r5, h5, h⟩ := expect_tok h
        obtain ⟨r, h6, e⟩ := fin (.int a, .int b) rfl r5 h (by
          revert hn; cases l.isEmpty <;> simp <;> omega)
        refine ⟨r, h6, ?_⟩
        rw [parseSetLoop, h1, Res.ok_bind]
        simp only [if_neg hk2]
        rw [h2, Res.ok_bind]
        simp only [rangeBound, Res.ok_bind, hk']
        rw [h3, Res.ok_bind, h4, Res.ok_bind]
        simp only [Res.ok_bind]
        rw [h5, Res.ok_bind]
        simp only [ne_eq, reduceCtorEq, not_false_eq_true, if_true]
        rw [e]
        simp

/-! ## Values -/

theorem strExp_eq (ti : Option TI) (s : List Char) : strExp ti s = strAs ti s := by
  cases ti with
  | none => rfl
  | some t => simp [strExp, strAs, TI.idLike]

theorem finish_inner (ti : Option TI) (k : Nat) (l : List JE) :
    finishArray ti (deeper ti k) l = .ok (innerAs ti (deeper ti k) l) := by
  cases ti with
  | none => rfl
  | some t =>
    show (if k + 1 ≥ t.ranges.length ∧ t.isSet = true then Res.ok (JE.exprSet l)
      else if t.ranges ≠ [] ∧ k + 1 = 0 then coerceFull t l else .ok (.arr l)) =
      .ok (if t.isSet = true ∧ t.ranges.length ≤ k + 1 then .exprSet l else .arr l)
    by_cases h : t.isSet = true ∧ t.ranges.length ≤ k + 1
    · rw [if_pos ⟨h.2, h.1⟩, if_pos h]
    · rw [if_neg (fun h' => h ⟨h'.2, h'.1⟩), if_neg h, if_neg (by simp)]

theorem deeper_eq (ti : Option TI) (k : Nat) : (if ti.isNone then 0 else k + 1) = deeper ti k := by
  cases ti <;> rfl

/-- One pass of the array loop over a separator. -/
theorem arrLoop_sep (s : JVals) (ts : List JTok) (n : Nat) (ti : Option TI) (k : Nat) (es : List JE)
    {text rest : List Char} (h : Spells (s.sep ++ ts) text rest) (l : Nat) (hn : s.sep.length + l ≤ n) :
    ∃ m r, l ≤ m ∧ Spells ts r rest ∧ parseArrayLoop n ti k es text = parseArrayLoop m ti k es r := by
  cases s with
  | nil => exact ⟨n, text, by simpa [JVals.sep] using hn, h, rfl⟩
  | cons v s =>
    simp only [JVals.sep, List.cons_append, List.nil_append, List.length_cons, List.length_nil] at h hn
    obtain ⟨r, h1, h2⟩ := h.tok
    cases n with
    | zero => omega
    | succ n =>
      refine ⟨n, r, by omega, h2, ?_⟩
      rw [parseArrayLoop, h1, Res.ok_bind]

/-- The object loop on a set. -/
theorem objLoop_set (l : List SetItem) (n : Nat) (ti : Option TI) (ts : List JTok) (text rest : List Char)
    (h : Spells (.str "set".toList :: .colon :: .listOpen :: (toksS l ++ ts)) text rest)
    (hn : (toksS l).length + 3 ≤ n) :
    ∃ r, Spells ts r rest ∧ parseObjectLoop n ti [] text = .ok (setAs l, r) := by
  cases n with
  | zero => omega
  | succ n =>
    obtain ⟨r1, h1, h⟩ := expect_str h
    obtain ⟨r2, h2, h⟩ := expect_tok h
    obtain ⟨r3, h3, h⟩ := expect_tok h
    obtain ⟨r, h4, e⟩ := parseSetLoop_spec l n ti .none [] ts r3 rest (Or.inl rfl) h (by omega)
    refine ⟨r, h4, ?_⟩
    rw [parseObjectLoop, h1, Res.ok_bind]
    simp only
    rw [h2, Res.ok_bind]
    simp only [if_true, ne_eq, not_true_eq_false, if_false]
    unfold parseSet
    rw [h3, Res.ok_bind, e]
    simp [setAs]

mutual

/-- The elements of a list. -/
theorem arrLoop_val (v : JVal) (ti : Option TI) (k : Nat) (hp : Plain ti v) (es : List JE) (n : Nat)
    (ts : List JTok) (text rest : List Char) (h : Spells (toks v ++ ts) text rest) (m : Nat)
    (hn : (toks v).length + m ≤ n) :
    ∃ n' r, m ≤ n' ∧ Spells ts r rest ∧
      parseArrayLoop n ti k es text = parseArrayLoop n' ti k (es ++ [den ti k v]) r := by
  cases n with
  | zero => cases v <;> simp [toks] at hn
  | succ n =>
    cases v with
    | null =>
      simp only [toks, List.cons_append, List.nil_append, List.length_cons, List.length_nil] at h hn
      obtain ⟨r, h1, h⟩ := h.tok
      refine ⟨n, r, by omega, h, ?_⟩
      rw [parseArrayLoop, h1, Res.ok_bind]; rfl
    | bool b =>
      simp only [toks, List.cons_append, List.nil_append, List.length_cons, List.length_nil] at h hn
      obtain ⟨r, h1, h⟩ := h.tok
      refine ⟨n, r, by omega, h, ?_⟩
      rw [parseArrayLoop, h1, Res.ok_bind]; rfl
    | int i =>
      simp only [toks, List.cons_append, List.nil_append, List.length_cons, List.length_nil] at h hn
      obtain ⟨r, h1, h⟩ := h.tok
      refine ⟨n, r, by omega, h, ?_⟩
      rw [parseArrayLoop, h1, Res.ok_bind]; rfl
    | float t =>
      simp only [toks, List.cons_append, List.nil_append, List.length_cons, List.length_nil] at h hn
      obtain ⟨r, h1, h⟩ := h.tok
      refine ⟨n, r, by omega, h, ?_⟩
      rw [parseArrayLoop, h1, Res.ok_bind]; rfl
    | str s =>
      simp only [toks, List.cons_append, List.nil_append, List.length_cons, List.length_nil] at h hn
      obtain ⟨r, h1, h⟩ := h.tok
      refine ⟨n, r, by omega, h, ?_⟩
      rw [parseArrayLoop, h1, Res.ok_bind, den, ← strExp_eq]
    | list l =>
      simp only [toks, List.cons_append, List.length_cons] at h hn
      obtain ⟨r, h1, h⟩ := h.tok
      obtain ⟨r', h2, e⟩ := arrLoop_vals l ti (deeper ti k) hp [] n ts r rest h (by omega)
      refine ⟨n, r', by omega, h2, ?_⟩
      rw [parseArrayLoop, h1, Res.ok_bind]
      simp only [deeper_eq]
      rw [e, List.nil_append, finish_inner, Res.ok_bind, Res.ok_bind, den]
    | obj f =>
      simp only [toks, List.cons_append, List.length_cons] at h hn
      obtain ⟨r, h1, h⟩ := h.tok
      obtain ⟨r', h2, e⟩ := objLoop_fields f ti hp.2 hp.1 [] n ts r rest h (by omega)
      refine ⟨n, r', by omega, h2, ?_⟩
      rw [parseArrayLoop, h1, Res.ok_bind]
      simp only
      rw [e, Res.ok_bind, den, List.nil_append]
    | set l =>
      simp only [toks, List.cons_append, List.nil_append, List.length_cons] at h hn
      obtain ⟨r, h1, h⟩ := h.tok
      obtain ⟨r', h2, e⟩ := objLoop_set l n ti ts r rest h (by omega)
      refine ⟨n, r', by omega, h2, ?_⟩
      rw [parseArrayLoop, h1, Res.ok_bind]
      simp only
      rw [e, Res.ok_bind, den]

theorem arrLoop_vals (l : JVals) (ti : Option TI) (k : Nat) (hp : PlainL ti l) (es : List JE) (n : Nat)
    (ts : List JTok) (text rest : List Char) (h : Spells (toksL l ++ ts) text rest)
    (hn : (toksL l).length ≤ n) :
    ∃ r, Spells ts r rest ∧ parseArrayLoop n ti k es text =
      (finishArray ti k (es ++ denL ti k l) >>= fun a => .ok (a, r)) := by
  cases l with
  | nil =>
    cases n with
    | zero => simp [toksL] at hn
    | succ n =>
      simp only [toksL, List.cons_append, List.nil_append] at h
      obtain ⟨r, h1, h⟩ := h.tok
      refine ⟨r, h, ?_⟩
      rw [parseArrayLoop, h1, Res.ok_bind]
      simp [denL]
  | cons v l =>
    simp only [toksL, List.append_assoc, List.length_append] at h hn
    obtain ⟨n1, r1, hm, h, e1⟩ := arrLoop_val v ti k hp.1 es n _ text rest h _ hn
    obtain ⟨n2, r2, hm2, h, e2⟩ := arrLoop_sep l _ n1 ti k _ h _ hm
    obtain ⟨r, h3, e3⟩ := arrLoop_vals l ti k hp.2 _ n2 ts r2 rest h hm2
    refine ⟨r, h3, ?_⟩
    rw [e1, e2, e3]
    simp [denL]

theorem objLoop_fields (f : JFields) (ti : Option TI) (hp : PlainF ti f) (h0 : f ≠ .nil)
    (fs : List (List Char × JE)) (n : Nat)
    (ts : List JTok) (text rest : List Char) (h : Spells (toksF f ++ ts) text rest)
    (hn : (toksF f).length ≤ n) :
    ∃ r, Spells ts r rest ∧ parseObjectLoop n ti fs text = .ok (.record (fs ++ denF f), r) := by
  cases f with
  | nil => exact absurd rfl h0
  | cons key v f =>
    cases n with
    | zero => simp [toksF] at hn
    | succ n =>
      simp only [toksF, List.cons_append, List.append_assoc, List.length_cons, List.length_append] at h hn
      obtain ⟨r1, h1, h⟩ := expect_str h
      obtain ⟨r2, h2, h⟩ := expect_tok h
      obtain ⟨r3, h, e3⟩ := exp_val v hp.2.1 n _ r2 rest h (by omega)
      have hk1 : key ≠ "set".toList := hp.1.1
      have hk2 : ¬ ((ti.map TI.enumObj) = some true ∧ (key = ['e'] ∨ key = ['i'] ∨ key = ['c'])) := by
        rintro ⟨h, h'⟩
        cases ti with
        | none => simp at h
        | some t =>
          simp only [Option.map_some, TI.enumObj, Option.some.injEq, Bool.or_eq_true, decide_eq_true_eq] at h
          have := hp.1.2 t rfl (by tauto)
          tauto
      rw [parseObjectLoop, h1, Res.ok_bind]
      simp only
      rw [h2, Res.ok_bind, if_neg hk1, if_neg hk2, e3, Res.ok_bind]
      simp only
      cases f with
      | nil =>
        simp only [JFields.sep, toksF, List.nil_append, List.cons_append] at h
        obtain ⟨r4, h4, h⟩ := h.tok
        refine ⟨r4, h, ?_⟩
        rw [h4, Res.ok_bind]
        simp [denF]
      | cons key' v' f' =>
        simp only [JFields.sep, List.cons_append, List.nil_append, List.length_cons, List.length_nil] at h hn
        obtain ⟨r4, h4, h⟩ := h.tok
        obtain ⟨r5, h5, e5⟩ := objLoop_fields (.cons key' v' f') ti hp.2.2 (by simp) (fs ++ [(key, den none 0 v)])
          n ts r4 rest h (by omega)
        refine ⟨r5, h5, ?_⟩
        rw [h4, Res.ok_bind]
        simp only
        rw [e5]
        simp [denF]

/-- Values without declared type. -/
theorem exp_val (v : JVal) (hp : Plain none v) (n : Nat) (ts : List JTok) (text rest : List Char)
    (h : Spells (toks v ++ ts) text rest) (hn : (toks v).length ≤ n) :
    ∃ r, Spells ts r rest ∧ parseExp n none text = .ok (den none 0 v, r) := by
  cases n with
  | zero => cases v <;> simp [toks] at hn
  | succ n =>
    cases v with
    | null =>
      simp only [toks, List.cons_append, List.nil_append] at h
      obtain ⟨r, h1, h⟩ := h.tok
      refine ⟨r, h, ?_⟩
      rw [parseExp, h1, Res.ok_bind]; rfl
    | bool b =>
      simp only [toks, List.cons_append, List.nil_append] at h
      obtain ⟨r, h1, h⟩ := h.tok
      refine ⟨r, h, ?_⟩
      rw [parseExp, h1, Res.ok_bind]; rfl
    | int i =>
      simp only [toks, List.cons_append, List.nil_append] at h
      obtain ⟨r, h1, h⟩ := h.tok
      refine ⟨r, h, ?_⟩
      rw [parseExp, h1, Res.ok_bind]; rfl
    | float t =>
      simp only [toks, List.cons_append, List.nil_append] at h
      obtain ⟨r, h1, h⟩ := h.tok
      refine ⟨r, h, ?_⟩
      rw [parseExp, h1, Res.ok_bind]; rfl
    | str s =>
      simp only [toks, List.cons_append, List.nil_append] at h
      obtain ⟨r, h1, h⟩ := h.tok
      refine ⟨r, h, ?_⟩
      rw [parseExp, h1, Res.ok_bind]; rfl
    | list l =>
      simp only [toks, List.cons_append, List.length_cons] at h hn
      obtain ⟨r, h1, h⟩ := h.tok
      obtain ⟨r', h2, e⟩ := arrLoop_vals l none 0 hp [] n ts r rest h (by omega)
      refine ⟨r', h2, ?_⟩
      rw [parseExp, h1, Res.ok_bind]
      simp only [Option.map_none, reduceCtorEq, if_false]
      rw [e]
      rfl
    | obj f =>
      simp only [toks, List.cons_append, List.length_cons] at h hn
      obtain ⟨r, h1, h⟩ := h.tok
      obtain ⟨r', h2, e⟩ := objLoop_fields f none hp.2 hp.1 [] n ts r rest h (by omega)
      refine ⟨r', h2, ?_⟩
      rw [parseExp, h1, Res.ok_bind]
      simp only
      rw [e, den, List.nil_append]
    | set l =>
      simp only [toks, List.cons_append, List.nil_append, List.length_cons] at h hn
      obtain ⟨r, h1, h⟩ := h.tok
      obtain ⟨r', h2, e⟩ := objLoop_set l n none ts r rest h (by omega)
      refine ⟨r', h2, ?_⟩
      rw [parseExp, h1, Res.ok_bind]
      simp only
      rw [e, den]

end

/-! ## Documents -/

theorem enumLoop_strings (t : TI) (he : t.enum = true) (l : JVals) (hl : l.strings = true) : ∀ (lits : List JE) (n : Nat)
    (ts : List JTok) (text rest : List Char), Spells (toksL l ++ ts) text rest → (toksL l).length ≤ n →
    ∃ r, Spells ts r rest ∧ parseEnumDefLoop n [] lits text =
      .ok (.call "enumFromConstructors".toList [.arr [.exprSet (lits ++ denL (some t) 0 l)]], r) := by
  induction l using JVals.strings.induct with
  | case1 =>
    intro lits n ts text rest h hn
    cases n with
    | zero => simp [toksL] at hn
    | succ n =>
      simp only [toksL, List.cons_append, List.nil_append] at h
      obtain ⟨r, h1, h⟩ := h.tok
      refine ⟨r, h, ?_⟩
      rw [parseEnumDefLoop, h1, Res.ok_bind]
      simp [denL]
  | case2 s l ih =>
    intro lits n ts text rest h hn
    cases n with
    | zero => simp [toksL, toks] at hn
    | succ n =>
      simp only [toksL, toks, List.cons_append, List.nil_append, List.append_assoc, List.length_cons,
        List.length_append] at h hn
      obtain ⟨r, h1, h⟩ := h.tok
      have hd : den (some t) 0 (.str s) = .id s := by simp [den, strAs, he]
      rw [parseEnumDefLoop, h1, Res.ok_bind]
      simp only
      cases l with
      | nil =>
        obtain ⟨r', h2, e⟩ := ih (by simpa [JVals.strings] using hl) (lits ++ [.id s]) n ts r rest h
          (by simpa [JVals.sep] using hn)
        refine ⟨r', h2, ?_⟩
        rw [e]
        simp [denL, hd]
      | cons v l =>
        simp only [JVals.sep, List.cons_append, List.nil_append, List.length_cons, List.length_nil] at h hn
        obtain ⟨r2, h2, h⟩ := h.tok
        cases n with
        | zero => omega
        | succ n =>
          obtain ⟨r', h3, e⟩ := ih (by simpa [JVals.strings] using hl) (lits ++ [.id s]) n ts r2 rest h (by omega)
          refine ⟨r', h3, ?_⟩
          rw [parseEnumDefLoop, h2, Res.ok_bind]
          simp only
          rw [e]
          simp [denL, hd]
  | case3 v l h => simp [JVals.strings] at hl

theorem starts_nested (t : TI) (l : JVals) (hr : 2 ≤ t.ranges.length) (h : l.nested = true) :
    startsNested (denL (some t) 0 l) = true := by
  cases l with
  | nil => simp [JVals.nested] at h
  | cons v l =>
    cases v <;> simp only [JVals.nested, Bool.false_eq_true] at h
    · rw [denL, startsNested, den, innerAs, if_neg (by simp only [deeper]; omega)]
      rfl
    · rw [denL, startsNested, den]
      rfl

theorem starts_flat (ti : Option TI) (l : JVals) (h : l.nested = false) :
    startsNested (denL ti 0 l) = false := by
  cases l with
  | nil => rfl
  | cons v l =>
    cases v <;> simp only [JVals.nested, Bool.true_eq_false, reduceCtorEq] at h <;> rw [denL, startsNested, den] <;>
      try rfl
    · unfold strAs
      split
      · rfl
      · split <;> rfl
    · rename_i s
      cases s <;> rfl

theorem indexSets_eq (t : TI) :
    t.ranges.map (fun d => d.getD (.intSet [⟨.fin 1, .posInf⟩])) = indexSets t := by
  unfold indexSets
  congr 1
  funext d
  cases d <;> rfl

theorem coerce_flat (t : TI) (l : JVals) (hr : t.ranges ≠ []) (hl : l ≠ .nil)
    (h1 : t.ranges.length = 1 ∨ l.nested = false) :
    coerceFull t (denL (some t) 0 l) = .ok (.call ("array".toList ++ Nat.toDigits 10 t.ranges.length ++ ['d'])
      (indexSets t ++ [.arr (denL (some t) 0 l)])) := by
  have h0 : denL (some t) 0 l ≠ [] := by
    cases l with
    | nil => exact absurd rfl hl
    | cons v l => simp [denL]
  unfold coerceFull
  rw [if_neg h0, coerceArray, if_neg h0, if_neg (by
    rcases h1 with h1 | h1
    · omega
    · rw [starts_flat _ _ h1]; simp), Res.ok_bind, wrapIndex, if_neg hr,
    if_pos (show (JE.arr (denL (some t) 0 l)).ndims = 1 from rfl), indexSets_eq]

theorem coerce_nested (t : TI) (l : JVals) (shape : List Nat) (f : List JE) (hr : 2 ≤ t.ranges.length)
    (hl : l.nested = true) (hs : shape.length = t.ranges.length) (hf : Rect shape (denL (some t) 0 l) f)
    (hz : 0 ∉ shape.dropLast) :
    coerceFull t (denL (some t) 0 l) = .ok (.call "array_index_shift".toList (indexSets t ++ [.arrN shape f])) := by
  have h0 : denL (some t) 0 l ≠ [] := by
    cases l with
    | nil => simp [JVals.nested] at hl
    | cons v l => simp [denL]
  have hr' : t.ranges ≠ [] := by
    intro h
    rw [h] at hr
    simp at hr
  unfold coerceFull
  rw [if_neg h0, C20_rect t.ranges.length _ f shape hr hs (starts_nested t l hr hl) hf hz, Res.ok_bind, wrapIndex,
    if_neg hr', if_neg (by simp only [JE.ndims]; omega), indexSets_eq]

theorem exp_single (ti : Option TI) (v : JVal) (hv : v.isList = false) (hp : Plain ti v) (n : Nat)
    (ts : List JTok) (text rest : List Char)
    (h : Spells (toks v ++ ts) text rest) (hn : (toks v).length ≤ n) :
    ∃ r, Spells ts r rest ∧ parseExp n ti text = .ok (den ti 0 v, r) := by
  cases n with
  | zero => cases v <;> simp [toks] at hn
  | succ n =>
    cases v with
    | null =>
      simp only [toks, List.cons_append, List.nil_append] at h
      obtain ⟨r, h1, h⟩ := h.tok
      refine ⟨r, h, ?_⟩
      rw [parseExp, h1, Res.ok_bind]; rfl
    | bool b =>
      simp only [toks, List.cons_append, List.nil_append] at h
      obtain ⟨r, h1, h⟩ := h.tok
      refine ⟨r, h, ?_⟩
      rw [parseExp, h1, Res.ok_bind]; rfl
    | int i =>
      simp only [toks, List.cons_append, List.nil_append] at h
      obtain ⟨r, h1, h⟩ := h.tok
      refine ⟨r, h, ?_⟩
      rw [parseExp, h1, Res.ok_bind]; rfl
    | float t =>
      simp only [toks, List.cons_append, List.nil_append] at h
      obtain ⟨r, h1, h⟩ := h.tok
      refine ⟨r, h, ?_⟩
      rw [parseExp, h1, Res.ok_bind]; rfl
    | str s =>
      simp only [toks, List.cons_append, List.nil_append] at h
      obtain ⟨r, h1, h⟩ := h.tok
      refine ⟨r, h, ?_⟩
      rw [parseExp, h1, Res.ok_bind, den, ← strExp_eq]
    | list l => simp [JVal.isList] at hv
    | obj f =>
      simp only [toks, List.cons_append, List.length_cons] at h hn
      obtain ⟨r, h1, h⟩ := h.tok
      obtain ⟨r', h2, e⟩ := objLoop_fields f ti hp.2 hp.1 [] n ts r rest h (by omega)
      refine ⟨r', h2, ?_⟩
      rw [parseExp, h1, Res.ok_bind]
      simp only
      rw [e, den, List.nil_append]
    | set l =>
      simp only [toks, List.cons_append, List.nil_append, List.length_cons] at h hn
      obtain ⟨r, h1, h⟩ := h.tok
      obtain ⟨r', h2, e⟩ := objLoop_set l n ti ts r rest h (by omega)
      refine ⟨r', h2, ?_⟩
      rw [parseExp, h1, Res.ok_bind]
      simp only
      rw [e, den]

theorem exp_list (ti : Option TI) (l : JVals) (he : (ti.map TI.enum) ≠ some true) (hp : PlainL ti l) (n : Nat)
    (ts : List JTok) (text rest : List Char)
    (h : Spells (toks (.list l) ++ ts) text rest) (hn : (toks (.list l)).length ≤ n) :
    ∃ r, Spells ts r rest ∧ parseExp n ti text = (finishArray ti 0 (denL ti 0 l) >>= fun a => .ok (a, r)) := by
  cases n with
  | zero => simp [toks] at hn
  | succ n =>
    simp only [toks, List.cons_append, List.length_cons] at h hn
    obtain ⟨r, h1, h⟩ := h.tok
    obtain ⟨r', h2, e⟩ := arrLoop_vals l ti 0 hp [] n ts r rest h (by omega)
    refine ⟨r', h2, ?_⟩
    rw [parseExp, h1, Res.ok_bind]
    simp only
    rw [if_neg he, e, List.nil_append]

theorem exp_top (ti : Option TI) (v : JVal) (e : JE) (he : TopMeans ti v e) (hp : Plain ti v) (n : Nat)
    (ts : List JTok) (text rest : List Char)
    (h : Spells (toks v ++ ts) text rest) (hn : (toks v).length ≤ n) :
    ∃ r, Spells ts r rest ∧ parseExp n ti text = .ok (e, r) := by
  cases he with
  | single _ _ hv => exact exp_single ti v hv hp n ts text rest h hn
  | untyped l =>
    obtain ⟨r, h1, e⟩ := exp_list none l (by simp) hp n ts text rest h hn
    exact ⟨r, h1, e⟩
  | enum t l he hl =>
    cases n with
    | zero => simp [toks] at hn
    | succ n =>
      simp only [toks, List.cons_append, List.length_cons] at h hn
      obtain ⟨r, h1, h⟩ := h.tok
      obtain ⟨r', h2, e⟩ := enumLoop_strings t he l hl [] n ts r rest h (by omega)
      refine ⟨r', h2, ?_⟩
      rw [parseExp, h1, Res.ok_bind]
      simp only [Option.map_some, he, if_true]
      rw [e, List.nil_append]
  | set t l he hs hr =>
    obtain ⟨r, h1, e⟩ := exp_list (some t) l (by simp [he]) hp n ts text rest h hn
    refine ⟨r, h1, ?_⟩
    rw [e, finishArray, if_pos ⟨by simp [hr], hs⟩, Res.ok_bind]
  | list t l he hs hr =>
    obtain ⟨r, h1, e⟩ := exp_list (some t) l (by simp [he]) hp n ts text rest h hn
    refine ⟨r, h1, ?_⟩
    rw [e, finishArray, if_neg (by simp [hs]), if_neg (by simp [hr]), Res.ok_bind]
  | empty t he hr =>
    obtain ⟨r, h1, e⟩ := exp_list (some t) .nil (by simp [he]) hp n ts text rest h hn
    refine ⟨r, h1, ?_⟩
    have : ¬ (0 ≥ t.ranges.length ∧ t.isSet = true) := by
      rintro ⟨h, _⟩
      exact hr (List.length_eq_zero_iff.1 (by omega))
    rw [e, finishArray, if_neg this, if_pos ⟨hr, rfl⟩]
    rfl
  | flat t l he hr hl h1 =>
    obtain ⟨r, h2, e⟩ := exp_list (some t) l (by simp [he]) hp n ts text rest h hn
    refine ⟨r, h2, ?_⟩
    have : ¬ (0 ≥ t.ranges.length ∧ t.isSet = true) := by
      rintro ⟨h, _⟩
      exact hr (List.length_eq_zero_iff.1 (by omega))
    rw [e, finishArray, if_neg this, if_pos ⟨hr, rfl⟩, coerce_flat t l hr hl h1, Res.ok_bind]
  | nested t l shape f he hr hl hs hf hz =>
    obtain ⟨r, h2, e⟩ := exp_list (some t) l (by simp [he]) hp n ts text rest h hn
    refine ⟨r, h2, ?_⟩
    have hr' : t.ranges ≠ [] := by
      intro h
      rw [h] at hr
      simp at hr
    rw [e, finishArray, if_neg (by omega), if_pos ⟨hr', rfl⟩, coerce_nested t l shape f hr hl hs hf hz, Res.ok_bind]

theorem modelLoop_spec (known : List Char → Option TI) (f : JFields) : ∀ (hp : ∀ m ∈ f.toList, Plain (known m.1) m.2)
    (h0 : f ≠ .nil) (new : List (List Char × JE)), Means known f.toList new → ∀ (asg : List (List Char × JE)) (n : Nat)
    (ts : List JTok) (text rest : List Char), Spells (toksF f ++ ts) text rest → (toksF f).length ≤ n →
    ∃ r, Spells ts r rest ∧ parseModelLoop n known asg text = .ok (asg ++ new, r) := by
  induction f using JFields.toList.induct with
  | case1 => intro _ h0; exact absurd rfl h0
  | case2 key v f ih =>
    intro hp _ new hm asg n ts text rest h hn
    cases n with
    | zero => simp [toksF] at hn
    | succ n =>
      simp only [toksF, List.cons_append, List.append_assoc, List.length_cons, List.length_append] at h hn
      rw [JFields.toList] at hm hp
      obtain ⟨e, new', hte, hm', hnew⟩ : ∃ e new', TopMeans (known key) v e ∧ Means known f.toList new' ∧
          (if key.head? ≠ some '_' ∧ (known key).isSome = true then asg ++ [(key, e)] else asg) ++ new' =
            asg ++ new := by
        cases hm with
        | use _ _ e _ a hk hd he h => exact ⟨e, a, he, h, by rw [if_pos ⟨hk, hd⟩]; simp⟩
        | skip _ _ e _ a hk he h =>
          refine ⟨e, new, he, h, ?_⟩
          rw [if_neg]
          rintro ⟨h1, h2⟩
          rcases hk with hk | hk
          · exact h1 hk
          · simp [hk] at h2
      obtain ⟨r1, h1, h⟩ := expect_str h
      obtain ⟨r2, h2, h⟩ := expect_tok h
      obtain ⟨r3, h, e3⟩ := exp_top (known key) v e hte (hp (key, v) (by simp)) n _ r2 rest h (by omega)
      rw [parseModelLoop, h1, Res.ok_bind]
      simp only
      rw [h2, Res.ok_bind, e3, Res.ok_bind]
      simp only
      cases f with
      | nil =>
        simp only [JFields.sep, toksF, List.nil_append, List.cons_append] at h
        obtain ⟨r4, h4, h⟩ := h.tok
        refine ⟨r4, h, ?_⟩
        rw [h4, Res.ok_bind]
        simp only [JFields.toList] at hm'
        cases hm'
        rw [List.append_nil] at hnew
        simp only [hnew]
      | cons key' v' f' =>
        simp only [JFields.sep, List.cons_append, List.nil_append, List.length_cons, List.length_nil] at h hn
        obtain ⟨r4, h4, h⟩ := h.tok
        obtain ⟨r5, h5, e5⟩ := ih (fun m hm => hp m (by simp [hm])) (by simp) new' hm'
          (if key.head? ≠ some '_' ∧ (known key).isSome = true then asg ++ [(key, e)] else asg) n ts r4 rest h
          (by omega)
        refine ⟨r5, h5, ?_⟩
        rw [h4, Res.ok_bind]
        simp only
        rw [e5, hnew]

theorem setAs_mem (l : List SetItem) (hl : l ≠ []) : ∃ R, setAs l = .intSet R ∧ Normal R ∧
    ∀ x, Mem x R ↔ ∃ it ∈ l, match it with
      | .one i => x = i
      | .range a b => a ≤ x ∧ x ≤ b := by
  have key : ∀ (l : List SetItem) (res : List Range), Normal res →
      Normal ((l.map SetItem.bounds).foldl (fun res p =>
        match p with
        | (.int a, .int b) => Ranges.union (IntSet.ofBounds (.fin a) (.fin b)) res
        | _ => res) res) ∧
      ∀ x, Mem x ((l.map SetItem.bounds).foldl (fun res p =>
        match p with
        | (.int a, .int b) => Ranges.union (IntSet.ofBounds (.fin a) (.fin b)) res
        | _ => res) res) ↔ Mem x res ∨ ∃ it ∈ l, match it with
          | .one i => x = i
          | .range a b => a ≤ x ∧ x ≤ b := by
    intro l
    induction l with
    | nil => intro res h; simp [h]
    | cons it l ih =>
      intro res h
      cases it with
      | one i =>
        have h1 := C05_of_bounds (.fin i) (.fin i) (by simp) (by simp)
        have h2 := C06_union _ res h1.1 h
        have h3 := ih _ h2.1
        refine ⟨h3.1, fun x => ?_⟩
        refine (h3.2 x).trans ?_
        rw [h2.2, h1.2, Ext.fin_le_fin, Ext.fin_le_fin]
        simp only [List.mem_cons, exists_eq_or_imp]
        constructor
        · rintro ((h | h) | h)
          · exact Or.inr (Or.inl (by omega))
          · exact Or.inl h
          · exact Or.inr (Or.inr h)
        · rintro (h | h | h)
          · exact Or.inl (Or.inr h)
          · exact Or.inl (Or.inl (by omega))
          · exact Or.inr h
      | range a b =>
        have h1 := C05_of_bounds (.fin a) (.fin b) (by simp) (by simp)
        have h2 := C06_union _ res h1.1 h
        have h3 := ih _ h2.1
        refine ⟨h3.1, fun x => ?_⟩
        refine (h3.2 x).trans ?_
        rw [h2.2, h1.2, Ext.fin_le_fin, Ext.fin_le_fin]
        simp only [List.mem_cons, exists_eq_or_imp]
        tauto
  have hn : Normal ([] : List Range) := by
    have := (C05_of_bounds (.fin 1) (.fin 0) (by simp) (by simp)).1
    simpa [IntSet.ofBounds] using this
  have h := key l [] hn
  refine ⟨_, ?_, h.1, fun x => (h.2 x).trans ?_⟩
  · unfold setAs
    rw [if_neg (by simpa using hl)]
    rfl
  · simp [Mem]

end Json

open Json

/-- **C53 (JSON data is read as written).**  Let `text` be a spelling of a JSON document, that is an
object whose members are the parameters, with any white space between the tokens.  If the members
mean the assignments `asg` for the declared types, then reading the text yields exactly these. -/
theorem C53_document_partial (known : List Char → Option TI) (doc : JFields) (asg : List (List Char × JE))
    (text ws : List Char) (hs : Spells (.objOpen :: toksF doc) text ws)
    (hws : ∀ c ∈ ws, c = ' ' ∨ c = '\t' ∨ c = '\n' ∨ c = '\r')
    (h0 : doc ≠ .nil) (hp : ∀ m ∈ doc.toList, Plain (known m.1) m.2) (hm : Means known doc.toList asg) :
    parseData known text = .ok asg := by
  have hlen := hs.length
  obtain ⟨r, h1, h⟩ := expect_tok hs
  obtain ⟨r', h2, e⟩ := modelLoop_spec known doc hp h0 asg hm [] (text.length + 1) [] r ws (by simpa using h)
    (by simp only [List.length_cons] at hlen; omega)
  unfold parseData
  rw [h1, Res.ok_bind, e, Res.ok_bind]
  cases h2
  have : readToken ws = .ok (.eof, []) := by
    have := readToken_ws hws []
    rw [List.append_nil] at this
    rw [this]
    rfl
  simp only
  rw [this, Res.ok_bind, if_pos rfl, List.nil_append]

/-- **C53, sets.**  The set a value `{"set": [...]}` stands for contains exactly the numbers listed
and those within the ranges listed, in the canonical representation. -/
theorem C53_set (l : List SetItem) (hl : l ≠ []) : ∃ R, setAs l = .intSet R ∧ Normal R ∧
    ∀ x, Mem x R ↔ ∃ it ∈ l, match it with
      | .one i => x = i
      | .range a b => a ≤ x ∧ x ≤ b := setAs_mem l hl

/-- Non-vacuity: a document with a number, an ignored member and a list, and a nested array. -/
example : parseData (fun _ => some exampleArr) "{ \"_\" : null ,\n \"a\":[1, -2]} ".toList =
    .ok [(['a'], .call "array1d".toList [.intSet [⟨.fin 1, .posInf⟩], .arr [.int 1, .int (-2)]])] := by
  have key : ∀ (c : Char), c = '_' ∨ c = 'a' → SpellTok (.str [c]) ['"', c, '"'] := by
    intro c hc
    have h4 : ∀ d : Char, 0x10000 ≤ d.toNat → [c] ≠ utf8 d := by
      intro d hd e
      have := congrArg List.length e
      rw [utf8_ge d hd] at this
      simp at this
    exact SpellTok.str [([c], [c])] (by
      simp only [List.mem_singleton, forall_eq]
      refine ⟨.plain c ?_ ?_, ?_, ?_, ?_, fun d hd e => absurd e (h4 d hd)⟩ <;> rcases hc with rfl | rfl <;> simp)
  have ws1 : ∀ c ∈ [' '], c = ' ' ∨ c = '\t' ∨ c = '\n' ∨ c = '\r' := by simp
  have ws2 : ∀ c ∈ ['\n', ' '], c = ' ' ∨ c = '\t' ∨ c = '\n' ∨ c = '\r' := by simp
  have ws0 : ∀ c ∈ ([] : List Char), c = ' ' ∨ c = '\t' ∨ c = '\n' ∨ c = '\r' := by simp
  refine C53_document_partial _ (.cons ['_'] .null (.cons ['a'] (.list (.cons (.int 1) (.cons (.int (-2)) .nil))) .nil))
    _ _ [' '] ?_ ws1 (by simp) ?_ ?_
  · exact .cons [] ws0 _ _ .objOpen _ _ _ (by simp [isNumTok])
      (.cons [' '] ws1 _ _ (key '_' (Or.inl rfl)) _ _ _ (by simp [isNumTok])
      (.cons [' '] ws1 _ _ .colon _ _ _ (by simp [isNumTok])
      (.cons [' '] ws1 _ _ .null _ _ _ (by simp [isNumTok])
      (.cons [' '] ws1 _ _ .comma _ _ _ (by simp [isNumTok])
      (.cons ['\n', ' '] ws2 _ _ (key 'a' (Or.inr rfl)) _ _ _ (by simp [isNumTok])
      (.cons [] ws0 _ _ .colon _ _ _ (by simp [isNumTok])
      (.cons [] ws0 _ _ .listOpen _ _ _ (by simp [isNumTok])
      (.cons [] ws0 _ _ (.int false ['1'] ⟨by decide, by decide⟩ (by decide)) _ _ _ (fun _ => ⟨',', _, rfl, by decide⟩)
      (.cons [] ws0 _ _ .comma _ _ _ (by simp [isNumTok])
      (.cons [' '] ws1 _ _ (.int true ['2'] ⟨by decide, by decide⟩ (by decide)) _ _ _ (fun _ => ⟨']', _, rfl, by decide⟩)
      (.cons [] ws0 _ _ .listClose _ _ _ (by simp [isNumTok])
      (.cons [] ws0 _ _ .objClose _ [' '] _ (by simp [isNumTok]) (.nil [' '])))))))))))))
  · simp [JFields.toList, Plain, PlainL]
  · exact .skip _ _ _ _ _ (Or.inl rfl) (.single _ _ rfl)
      (.use _ _ _ _ _ (by simp) rfl (.flat exampleArr _ rfl (by simp [exampleArr]) (by simp) (Or.inl rfl)) .nil)

/-- Non-vacuity: a two-dimensional array. -/
example : TopMeans (some ⟨false, .int, false, [none, none]⟩)
    (.list (.cons (.list (.cons (.int 1) (.cons (.int 2) .nil))) (.cons (.list (.cons (.int 3) (.cons (.int 4) .nil))) .nil)))
    (.call "array_index_shift".toList [.intSet [⟨.fin 1, .posInf⟩], .intSet [⟨.fin 1, .posInf⟩],
      .arrN [2, 2] [.int 1, .int 2, .int 3, .int 4]]) :=
  .nested _ _ [2, 2] _ rfl (by simp) rfl rfl
    ⟨rfl, [[.int 1, .int 2], [.int 3, .int 4]], [[.int 1, .int 2], [.int 3, .int 4]], rfl,
      .cons ⟨rfl, rfl⟩ (.cons ⟨rfl, rfl⟩ .nil), rfl⟩ (by decide)

end MZ
