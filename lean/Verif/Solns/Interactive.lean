import Verif.Solns.Props

/-!
# Interactive solvers: text outside the markers is shown as it arrives (C55)

Model of `Solns2OutInteractive`, `include/minizinc/solns2out.hh:221-239`, `lib/solns2out.cpp:757-828`.
-/

namespace MZ
namespace Solns

/-- What the wrapper does: show a character, or hand a line to the processor of solutions. -/
inductive Item where
  | char (c : Char)
  | line (l : Text)
  deriving DecidableEq

/-- The markers of the solver's configuration and the state, `include/minizinc/solns2out.hh:221-232`. -/
structure ISt where
  /-- `_linePart` -/
  linePart : Text := []
  /-- `_echoed` -/
  echoed : Nat := 0
  /-- `_inSolution` -/
  inSol : Bool := false
  out : List Item := []
  deriving DecidableEq

/-- `processCompleteLine`, `lib/solns2out.cpp:766-793`.  `_linePart` and `_echoed` are reset afterwards,
`:822-823`.  What the inner processor does with a line is C31 and C32. -/
def completeLine (b e : Text) (s : ISt) (line : Text) : ISt :=
  let rest := line.drop s.echoed
  let marker := stripCR rest
  if s.inSol = false then
    if marker = b then ⟨[], 0, true, s.out⟩
    else ⟨[], 0, false, s.out ++ rest.map .char ++ [.char '\n']⟩
  else if marker = e then ⟨[], 0, false, s.out⟩
  else ⟨[], 0, true, s.out ++ [.line rest]⟩

/-- The incomplete line at the end of a chunk, `lib/solns2out.cpp:806-818`, with `is_marker_prefix`, `:761-763`. -/
def partialLine (b : Text) (s : ISt) : ISt :=
  if s.inSol = false then
    let remainder := s.linePart.drop s.echoed
    if remainder ≠ [] ∧ ¬ remainder <+: b then
      { s with out := s.out ++ remainder.map .char, echoed := s.linePart.length }
    else s
  else s

/-- The loop of `feedRawDataChunk`, `lib/solns2out.cpp:801-825`. -/
def ifeedLines (b e : Text) (s : ISt) : List Text → ISt
  | [] => s
  | [l] => partialLine b { s with linePart := s.linePart ++ l }
  | l :: ls => ifeedLines b e (completeLine b e s (s.linePart ++ l)) ls

/-- `Solns2OutInteractive::feedRawDataChunk`, `lib/solns2out.cpp:795-828`. -/
def ifeed (b e : Text) (s : ISt) (data : Text) : ISt :=
  ifeedLines b e s (getlines (data.takeWhile (· ≠ '\x00')))

/-! ## Specification -/

/-- What should happen to the lines: lines between the markers are handed on, all others are shown. -/
def expected (b e : Text) : Bool → List Text → List Item
  | _, [] => []
  | false, l :: ls => if stripCR l = b then expected b e true ls
      else l.map .char ++ [.char '\n'] ++ expected b e false ls
  | true, l :: ls => if stripCR l = e then expected b e false ls else [.line l] ++ expected b e true ls

/-- The line does not end with the begin marker, unless it is the begin marker; and the begin marker is not
followed by a carriage return. -/
def Plain (b : Text) (l : Text) : Prop :=
  (∀ p r, l = p ++ r → p ≠ [] → stripCR r ≠ b) ∧ (stripCR l = b → l = b)

/-! ## Character by character -/

def istep (b e : Text) (s : ISt) (c : Char) : ISt :=
  if c = '\n' then completeLine b e s s.linePart else { s with linePart := s.linePart ++ [c] }

theorem completeLine_linePart (b e : Text) (s : ISt) (l : Text) (t : Text) :
    completeLine b e { s with linePart := t } l = completeLine b e s l := rfl

theorem ifeedLines_chars (b e : Text) (d : Text) : ∀ s : ISt,
    ifeedLines b e s (getlines d) = partialLine b (d.foldl (istep b e) s) := by
  induction d with
  | nil => intro s; simp [getlines, ifeedLines]
  | cons c cs ih =>
    intro s
    rw [getlines, List.foldl_cons]
    by_cases hc : c = '\n'
    · rw [if_pos hc, istep, if_pos hc, ← ih]
      obtain ⟨l, ls, h⟩ : ∃ l ls, getlines cs = l :: ls := by
        cases h : getlines cs with
        | nil => exact absurd h (getlines_ne cs)
        | cons l ls => exact ⟨l, ls, rfl⟩
      rw [h, ifeedLines, List.append_nil]
      simp
    · rw [if_neg hc, istep, if_neg hc, ← ih]
      cases h : getlines cs with
      | nil => exact absurd h (getlines_ne cs)
      | cons l ls =>
        cases ls with
        | nil => simp [ifeedLines, List.append_assoc]
        | cons l' ls =>
          simp only [ifeedLines]
          rw [completeLine_linePart, List.append_assoc]
          rfl

/-! ## The eager output does not change the result -/

/-- The state without eager output, and the state with it. -/
structure Rel (b : Text) (s t : ISt) : Prop where
  line : t.linePart = s.linePart
  sol : t.inSol = s.inSol
  canon : s.echoed = 0
  out : t.out = s.out ++ (s.linePart.take t.echoed).map .char
  le : t.echoed ≤ s.linePart.length
  none : s.inSol = true → t.echoed = 0
  begun : 0 < t.echoed → ¬ s.linePart <+: b

theorem Rel.partial {b : Text} {s t : ISt} (h : Rel b s t) : Rel b s (partialLine b t) := by
  unfold partialLine
  split
  · rename_i hs
    simp only
    split
    · rename_i hr
      refine ⟨h.line, h.sol, h.canon, ?_, ?_, ?_, ?_⟩
      · simp only
        rw [h.out, h.line, List.append_assoc, ← List.map_append, List.take_append_drop, List.take_of_length_le (Nat.le_refl _)]
      · simp only; rw [h.line]
      · intro h2; rw [← h.sol, hs] at h2; exact absurd h2 (by decide)
      · intro _ h2
        by_cases h0 : 0 < t.echoed
        · exact h.begun h0 h2
        · have h0 : t.echoed = 0 := by omega
          rw [h0, List.drop_zero, h.line] at hr
          exact hr.2 h2
    · exact h
  · exact h

theorem Rel.char {b e : Text} {s t : ISt} (h : Rel b s t) {c : Char} (hc : c ≠ '\n') :
    Rel b (istep b e s c) (istep b e t c) := by
  rw [istep, istep, if_neg hc, if_neg hc]
  refine ⟨by simp only; rw [h.line], h.sol, h.canon, ?_, ?_, h.none, ?_⟩
  · simp only
    rw [h.out, List.take_append_of_le_length h.le]
  · simp only; rw [List.length_append]; have := h.le; omega
  · intro h0 h2
    exact h.begun h0 ((List.prefix_append _ _).trans h2)

theorem Rel.newline {b e : Text} {s t : ISt} (h : Rel b s t) (hp : Plain b s.linePart) :
    Rel b (istep b e s '\n') (istep b e t '\n') := by
  have key : istep b e t '\n' = istep b e s '\n' := by
    rw [istep, istep, if_pos rfl, if_pos rfl, h.line]
    unfold completeLine
    simp only
    rw [h.canon, h.sol, h.out]
    cases hs : s.inSol with
    | true =>
      rw [h.none hs]
      simp
    | false =>
      by_cases h0 : t.echoed = 0
      · rw [h0]; simp
      · have h1 : stripCR (s.linePart.drop t.echoed) ≠ b := by
          refine hp.1 (s.linePart.take t.echoed) _ (List.take_append_drop _ _).symm ?_
          intro h2
          have := congrArg List.length h2
          rw [List.length_take, List.length_nil] at this
          have := h.le
          omega
        have h2 : stripCR (s.linePart.drop 0) ≠ b := by
          rw [List.drop_zero]
          intro h2
          exact h.begun (by omega) (by rw [hp.2 h2])
        rw [if_neg h1, if_neg h2]
        simp only [List.drop_zero, if_true, List.append_assoc]
        rw [← List.append_assoc (List.map _ _), ← List.map_append, List.take_append_drop]
  rw [key]
  rw [istep, if_pos rfl, completeLine]
  repeat' split
  all_goals exact ⟨rfl, rfl, rfl, by simp, by simp, fun _ => rfl, fun h => absurd h (Nat.lt_irrefl 0)⟩

/-- The lines that will be completed are plain. -/
def Ok (b : Text) : Text → Text → Prop
  | _, [] => True
  | cur, c :: cs => if c = '\n' then Plain b cur ∧ Ok b [] cs else Ok b (cur ++ [c]) cs

theorem istep_newline (b e : Text) (s : ISt) : (istep b e s '\n').linePart = [] := by
  rw [istep, if_pos rfl, completeLine]
  repeat' split
  all_goals rfl

theorem rel_chars {b e : Text} (d rest : Text) : ∀ (s t : ISt), Rel b s t → Ok b s.linePart (d ++ rest) →
    Rel b (d.foldl (istep b e) s) (d.foldl (istep b e) t) ∧ Ok b (d.foldl (istep b e) s).linePart rest := by
  induction d with
  | nil => intro s t h hp; exact ⟨h, hp⟩
  | cons c d ih =>
    intro s t h hp
    rw [List.foldl_cons, List.foldl_cons]
    rw [List.cons_append, Ok] at hp
    by_cases hc : c = '\n'
    · subst hc
      rw [if_pos rfl] at hp
      exact ih _ _ (h.newline hp.1) (by rw [istep_newline]; exact hp.2)
    · rw [if_neg hc] at hp
      refine ih _ _ (h.char hc) ?_
      rw [istep, if_neg hc]
      exact hp

theorem rel_stream {b e : Text} (cs : List Text) : ∀ (s t : ISt), Rel b s t → Ok b s.linePart cs.flatten →
    (∀ c ∈ cs, '\x00' ∉ c) → Rel b (cs.flatten.foldl (istep b e) s) (cs.foldl (ifeed b e) t) := by
  induction cs with
  | nil => intro s t h _ _; exact h
  | cons c cs ih =>
    intro s t h hp h0
    rw [List.flatten_cons, List.foldl_append, List.foldl_cons]
    rw [List.flatten_cons] at hp
    obtain ⟨h1, h2⟩ := rel_chars (e := e) c cs.flatten s t h hp
    have hc : c.takeWhile (· ≠ '\x00') = c := by
      have := h0 c (by simp)
      clear * - this
      induction c with
      | nil => rfl
      | cons a c ih =>
        rw [List.mem_cons, not_or] at this
        rw [List.takeWhile_cons, if_pos (by simpa using fun h => this.1 h.symm), ih this.2]
    refine ih _ _ ?_ h2 (fun d hd => h0 d (List.mem_cons_of_mem _ hd))
    rw [ifeed, hc, ifeedLines_chars]
    exact h1.partial

theorem run_line {b e : Text} (l : Text) (hn : '\n' ∉ l) : ∀ s : ISt,
    (l ++ ['\n']).foldl (istep b e) s = completeLine b e s (s.linePart ++ l) := by
  induction l with
  | nil => intro s; simp [istep]
  | cons c l ih =>
    intro s
    rw [List.mem_cons, not_or] at hn
    rw [List.cons_append, List.foldl_cons, istep, if_neg (fun h => hn.1 h.symm), ih hn.2, completeLine_linePart]
    simp

theorem run_lines {b e : Text} (ls : List Text) (hn : ∀ l ∈ ls, '\n' ∉ l) : ∀ s : ISt, s.linePart = [] → s.echoed = 0 →
    (((ls.map (· ++ ['\n'])).flatten).foldl (istep b e) s).out = s.out ++ expected b e s.inSol ls ∧
    (((ls.map (· ++ ['\n'])).flatten).foldl (istep b e) s).linePart = [] ∧
    (((ls.map (· ++ ['\n'])).flatten).foldl (istep b e) s).echoed = 0 := by
  induction ls with
  | nil => intro s h1 h2; simp [expected, h1, h2]
  | cons l ls ih =>
    intro s h1 h2
    rw [List.map_cons, List.flatten_cons, List.foldl_append, run_line l (hn l (by simp)), h1, List.nil_append]
    have hls : ∀ l ∈ ls, '\n' ∉ l := fun l hl => hn l (List.mem_cons_of_mem _ hl)
    unfold completeLine
    simp only [h2, List.drop_zero]
    cases hs : s.inSol with
    | false =>
      rw [if_pos rfl, expected]
      split
      · exact ih hls _ rfl rfl
      · obtain ⟨i1, i2⟩ := ih hls ⟨[], 0, false, s.out ++ l.map .char ++ [.char '\n']⟩ rfl rfl
        rw [i1]
        exact ⟨by simp, i2⟩
    | true =>
      rw [if_neg (by decide), expected]
      split
      · exact ih hls _ rfl rfl
      · obtain ⟨i1, i2⟩ := ih hls ⟨[], 0, true, s.out ++ [.line l]⟩ rfl rfl
        rw [i1]
        exact ⟨by simp, i2⟩

theorem ok_lines {b : Text} (ls : List Text) (h : ∀ l ∈ ls, '\n' ∉ l ∧ Plain b l) :
    Ok b [] (ls.map (· ++ ['\n'])).flatten := by
  have one : ∀ (l rest cur : Text), '\n' ∉ l → Plain b (cur ++ l) → Ok b [] rest → Ok b cur (l ++ ['\n'] ++ rest) := by
    intro l rest
    induction l with
    | nil => intro cur _ h1 h2; rw [List.append_nil] at h1; simpa [Ok] using ⟨h1, h2⟩
    | cons c l ih =>
      intro cur hn h1 h2
      rw [List.mem_cons, not_or] at hn
      rw [List.cons_append, List.cons_append, Ok, if_neg (fun h => hn.1 h.symm)]
      exact ih _ hn.2 (by simpa using h1) h2
  induction ls with
  | nil => trivial
  | cons l ls ih =>
    rw [List.map_cons, List.flatten_cons]
    have hl := h l (by simp)
    exact one l _ [] hl.1 (by simpa using hl.2) (ih (fun l hl => h l (List.mem_cons_of_mem _ hl)))

end Solns

open Solns

/-- C55: the lines between the markers are handed to the processor of solutions and all other text is shown, in
order, whatever the chunks are.  Missing: lines that end with the begin marker without being equal to it
(`C55_prompt_fails`), begin markers followed by a carriage return (`C55_carriage_return_fails`). -/
theorem C55_chunks_partial (b e : Text) (ls cs : List Text) (hc : cs.flatten = (ls.map (· ++ ['\n'])).flatten)
    (h : ∀ l ∈ ls, '\n' ∉ l ∧ '\x00' ∉ l) (hp : ∀ l ∈ ls, Plain b l) :
    (cs.foldl (ifeed b e) {}).out = expected b e false ls := by
  have h0 : ∀ c ∈ cs, '\x00' ∉ c := by
    intro c hcc hx
    have : '\x00' ∈ cs.flatten := List.mem_flatten.2 ⟨c, hcc, hx⟩
    rw [hc, List.mem_flatten] at this
    obtain ⟨l', hl', hx'⟩ := this
    rw [List.mem_map] at hl'
    obtain ⟨l, hl, rfl⟩ := hl'
    rw [List.mem_append] at hx'
    rcases hx' with hx' | hx'
    · exact (h l hl).2 hx'
    · exact absurd hx' (by decide)
  have r0 : Rel b {} {} := ⟨rfl, rfl, rfl, rfl, Nat.le_refl _, fun _ => rfl, fun h => absurd h (Nat.lt_irrefl 0)⟩
  have r := rel_stream (e := e) cs {} {} r0
    (by show Ok b [] _; rw [hc]; exact ok_lines ls (fun l hl => ⟨(h l hl).1, hp l hl⟩)) h0
  obtain ⟨i1, i2, i3⟩ := run_lines (b := b) (e := e) ls (fun l hl => (h l hl).1) {} rfl rfl
  rw [hc] at r
  have := r.out
  rw [i1, i2] at this
  simpa using this

/-- C55: text that is not finished by a newline is shown at once, unless it may become the begin marker. -/
theorem C55_prompt (b e : Text) (s : ISt) (hs : s.inSol = false) (hl : s.linePart = []) (he : s.echoed = 0)
    (p : Text) (hn : '\n' ∉ p) (h0 : '\x00' ∉ p) :
    (ifeed b e s p).out = s.out ++ (if p <+: b then [] else p.map .char) := by
  have hc : p.takeWhile (· ≠ '\x00') = p := by
    clear hn
    induction p with
    | nil => rfl
    | cons a c ih =>
      rw [List.mem_cons, not_or] at h0
      rw [List.takeWhile_cons, if_pos (by simpa using fun h => h0.1 h.symm), ih h0.2]
  have hf : ∀ s : ISt, p.foldl (istep b e) s = { s with linePart := s.linePart ++ p } := by
    clear hc h0
    induction p with
    | nil => intro s; simp
    | cons c p ih =>
      intro s
      rw [List.mem_cons, not_or] at hn
      rw [List.foldl_cons, istep, if_neg (fun h => hn.1 h.symm), ih hn.2]
      simp
  rw [ifeed, hc, ifeedLines_chars, hf, hl, List.nil_append, partialLine, if_pos hs]
  simp only [he, List.drop_zero]
  by_cases hpe : p = []
  · subst hpe; simp
  · by_cases hpb : p <+: b <;> simp [hpe, hpb]

/-- C55 fails: a prompt and the marker behind it are treated differently, depending on the chunks. -/
theorem C55_prompt_fails : ∃ (b e : Text) (cs cs' : List Text), cs.flatten = cs'.flatten ∧
    (cs.foldl (ifeed b e) {}).inSol = true ∧ (cs'.foldl (ifeed b e) {}).inSol = false :=
  ⟨"<begin>".toList, "<end>".toList, ["> ".toList, "<begin>\n".toList], ["> <begin>\n".toList], by decide +kernel⟩

/-- C55 fails: a carriage return is tolerated behind the marker unless it is the end of a chunk. -/
theorem C55_carriage_return_fails : ∃ (b e : Text) (cs cs' : List Text), cs.flatten = cs'.flatten ∧
    (cs.foldl (ifeed b e) {}).inSol = true ∧ (cs'.foldl (ifeed b e) {}).inSol = false :=
  ⟨"<begin>".toList, "<end>".toList, ["<begin>\r\n".toList], ["<begin>\r".toList, "\n".toList], by decide +kernel⟩

/-- The text that was shown, and the lines that were handed on, in an example. -/
example : (["he".toList, "llo\n<be".toList, "gin>\nx=1;\n<end>\n? ".toList, "\n".toList].foldl
      (ifeed "<begin>".toList "<end>".toList) {}).out =
    "hello\n".toList.map .char ++ [.line "x=1;".toList] ++ "? \n".toList.map .char := by decide +kernel

/-- Ordinary lines are plain. -/
example : Plain "<begin>".toList "<begin>".toList ∧ Plain "<begin>".toList "hello".toList := by
  have key : ∀ l : Text, (∀ i : Fin l.length, stripCR (l.drop (i.val + 1)) ≠ "<begin>".toList) →
      (stripCR l = "<begin>".toList → l = "<begin>".toList) → Plain "<begin>".toList l := by
    intro l h1 h2
    refine ⟨fun p r hl hp => ?_, h2⟩
    have hlen : 0 < p.length := List.length_pos_iff.2 hp
    have := h1 ⟨p.length - 1, by rw [hl, List.length_append]; omega⟩
    have e1 : p.length - 1 + 1 = p.length := by omega
    simp only [e1] at this
    rw [hl, List.drop_left] at this
    exact this
  exact ⟨key _ (by decide +kernel) (by decide +kernel), key _ (by decide +kernel) (by decide +kernel)⟩

end MZ
