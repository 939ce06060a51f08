import Verif.Solns.Model

/-!
# Processing the output of a solver: chunks, solutions, status (C31, C32)
-/

namespace MZ
namespace Solns

variable (o : Opts) (e : Eval)

/-! ## Chunks -/

/-- One character. -/
def stepChar (s : St) (c : Char) : St :=
  if s.failed then s
  else if c = '\n' then processLine o e { s with linePart := [] } s.linePart
  else { s with linePart := s.linePart ++ [c] }

theorem getlines_ne (d : Text) : getlines d ≠ [] := by
  cases d with
  | nil => simp [getlines]
  | cons c cs =>
    rw [getlines]
    split
    · simp
    · split <;> simp

theorem feedLines_failed {s : St} (h : s.failed = true) : ∀ ls, feedLines o e s ls = s
  | [] => rfl
  | [l] => by rw [feedLines, if_pos h]
  | l :: l' :: ls => by rw [feedLines, if_pos h]; simp

theorem foldl_failed {s : St} (h : s.failed = true) (d : Text) : d.foldl (stepChar o e) s = s := by
  induction d with
  | nil => rfl
  | cons c cs ih => rw [List.foldl_cons, stepChar, if_pos h, ih]

theorem feedLines_cons2 {s : St} (h : s.failed = false) (l : Text) {ls} (hl : ls ≠ []) :
    feedLines o e s (l :: ls) = feedLines o e (processLine o e { s with linePart := [] } (s.linePart ++ l)) ls := by
  cases ls with
  | nil => exact absurd rfl hl
  | cons a b => rw [feedLines]; simp [h]; simp

theorem feedLines_char {s : St} (h : s.failed = false) (c : Char) (l : Text) (ls : List Text) :
    feedLines o e s ((c :: l) :: ls) = feedLines o e { s with linePart := s.linePart ++ [c] } (l :: ls) := by
  cases ls with
  | nil => simp [feedLines, h]
  | cons a b =>
    rw [feedLines_cons2 o e h _ (by simp),
      feedLines_cons2 o e (s := { s with linePart := s.linePart ++ [c] }) h _ (by simp)]
    simp

/-- Feeding a chunk handles its characters one by one. -/
theorem feedLines_chars (d : Text) : ∀ s : St, feedLines o e s (getlines d) = d.foldl (stepChar o e) s := by
  induction d with
  | nil =>
    intro s
    simp only [getlines, feedLines, List.append_nil, List.foldl_nil]
    split <;> rfl
  | cons c cs ih =>
    intro s
    cases h : s.failed with
    | true => rw [feedLines_failed o e h, foldl_failed o e h]
    | false =>
      rw [List.foldl_cons, stepChar, if_neg (by simp [h]), getlines]
      by_cases hc : c = '\n'
      · rw [if_pos hc, if_pos hc, feedLines_cons2 o e h _ (getlines_ne cs), ih, List.append_nil]
      · rw [if_neg hc, if_neg hc]
        cases hg : getlines cs with
        | nil => exact absurd hg (getlines_ne cs)
        | cons l ls =>
          simp only
          rw [feedLines_char o e h, ← hg, ih]

/-- The state without the raw output. -/
def St.noRaw (s : St) : St := { s with raw := [] }

theorem evalOutput_raw (s : St) (r : Text) : evalOutput o e { s with raw := r } = { evalOutput o e s with raw := r } := by
  unfold evalOutput
  cases e.render s.solution with
  | none => rfl
  | some t => simp only; repeat' (first | rfl | split)

theorem evalStatus_raw (st) (s : St) (r : Text) : evalStatus o st { s with raw := r } = { evalStatus o st s with raw := r } := by
  unfold evalStatus
  simp only
  split <;> rfl

theorem flush_raw (s : St) (r : Text) : flushStatistics e { s with raw := r } = { flushStatistics e s with raw := r } := by
  unfold flushStatistics
  simp only
  split
  · rfl
  · cases e.statistics s.stats <;> rfl

theorem other_raw (l) (s : St) (r : Text) : otherLine o e { s with raw := r } l = { otherLine o e s l with raw := r } := by
  unfold otherLine
  simp only
  split
  · cases commentMsg o e s.stats l <;> rfl
  · rfl

theorem process_raw (l) (s : St) (r : Text) : processLine o e { s with raw := r } l = { processLine o e s l with raw := r } := by
  unfold processLine
  simp only [flush_raw, other_raw, evalOutput_raw, evalStatus_raw]
  split
  · rfl
  · split
    · rfl
    · split
      · split
        · rfl
        · split <;> rfl
      · rfl

theorem step_raw (c) (s : St) (r : Text) : stepChar o e { s with raw := r } c = { stepChar o e s c with raw := r } := by
  unfold stepChar
  simp only
  have := process_raw o e s.linePart { s with linePart := [] } r
  simp only at this
  rw [this]
  split
  · rfl
  · split <;> rfl

theorem fold_raw (d : Text) : ∀ (s : St) (r : Text),
    d.foldl (stepChar o e) { s with raw := r } = { d.foldl (stepChar o e) s with raw := r } := by
  induction d with
  | nil => intro s r; rfl
  | cons c cs ih => intro s r; rw [List.foldl_cons, List.foldl_cons, step_raw, ih]

theorem fold_keeps_raw (d : Text) (s : St) : (d.foldl (stepChar o e) s).raw = s.raw := by
  have := fold_raw o e d s s.raw
  have h2 : ({ s with raw := s.raw } : St) = s := rfl
  rw [h2] at this
  rw [this]

theorem takeWhile_noNul {d : Text} (h : '\x00' ∉ d) : d.takeWhile (· ≠ '\x00') = d := by
  induction d with
  | nil => rfl
  | cons c cs ih =>
    rw [List.mem_cons, not_or] at h
    rw [List.takeWhile_cons, if_pos (by simpa using fun hh => h.1 (Eq.symm hh)), ih h.2]

theorem feed_eq {s : St} {d : Text} (h : '\x00' ∉ d) :
    feed o e s d = if (d.foldl (stepChar o e) s).failed then d.foldl (stepChar o e) s
      else { d.foldl (stepChar o e) s with raw := s.raw ++ (if o.raw then d else []) } := by
  rw [feed]
  simp only [takeWhile_noNul h, feedLines_chars, fold_keeps_raw]

theorem feedAll_eq (cs : List Text) : ∀ s : St, '\x00' ∉ cs.flatten →
    (feedAll o e s cs).noRaw = (cs.flatten.foldl (stepChar o e) s).noRaw ∧
    ((feedAll o e s cs).failed = false → s.failed = false →
      (feedAll o e s cs).raw = s.raw ++ (if o.raw then cs.flatten else [])) := by
  induction cs with
  | nil => intro s _; exact ⟨rfl, fun _ _ => by simp [feedAll]⟩
  | cons d cs ih =>
    intro s h
    rw [List.flatten_cons] at h
    have h1 : '\x00' ∉ d := fun hh => h (List.mem_append_left _ hh)
    have h2 : '\x00' ∉ cs.flatten := fun hh => h (List.mem_append_right _ hh)
    rw [feedAll, List.foldl_cons, List.flatten_cons, List.foldl_append]
    have e2 : ∀ x, cs.foldl (fun s d => if s.failed then s else feed o e s d) x = feedAll o e x cs := fun _ => rfl
    rw [e2]
    cases hs : s.failed with
    | true =>
      simp only [if_true]
      obtain ⟨i1, i2⟩ := ih s h2
      refine ⟨?_, fun _ hh => by simp at hh⟩
      rw [i1, foldl_failed o e hs d]
    | false =>
      simp only [Bool.false_eq_true, if_false]
      rw [feed_eq o e h1]
      cases hf : (d.foldl (stepChar o e) s).failed with
      | true =>
        simp only [if_true]
        obtain ⟨i1, i2⟩ := ih (d.foldl (stepChar o e) s) h2
        refine ⟨i1, fun hh _ => ?_⟩
        have : (feedAll o e (d.foldl (stepChar o e) s) cs).failed = true := by
          have h3 := congrArg St.failed i1
          simp only [St.noRaw] at h3
          rw [h3, foldl_failed o e hf, hf]
        rw [this] at hh
        exact absurd hh (by decide)
      | false =>
        simp only [Bool.false_eq_true, if_false]
        obtain ⟨i1, i2⟩ := ih { d.foldl (stepChar o e) s with raw := s.raw ++ (if o.raw then d else []) } h2
        refine ⟨?_, fun hh _ => ?_⟩
        · rw [i1, fold_raw]; rfl
        · rw [i2 hh hf]
          simp only [List.append_assoc]
          split <;> simp

end Solns

open Solns

/-- C31: the same stream, divided into chunks in two ways, leads to the same state: the same output, the same
solutions, the same status, the same unfinished line.  The raw output is also the same unless an exception was
thrown.  Missing: streams with NUL characters (`C31_nul_fails`). -/
theorem C31_chunks_partial (o : Opts) (e : Eval) (s : St) (cs cs' : List Text) (h : cs.flatten = cs'.flatten)
    (hn : '\x00' ∉ cs.flatten) :
    ({ feedAll o e s cs with raw := [] } : St) = { feedAll o e s cs' with raw := [] } ∧
    (s.failed = false → (feedAll o e s cs).failed = false → (feedAll o e s cs).raw = (feedAll o e s cs').raw) := by
  obtain ⟨h1, h2⟩ := feedAll_eq o e cs s hn
  obtain ⟨h3, h4⟩ := feedAll_eq o e cs' s (h ▸ hn)
  have h5 : (feedAll o e s cs).noRaw = (feedAll o e s cs').noRaw := by rw [h1, h3, h]
  refine ⟨h5, fun hs hf => ?_⟩
  have hf' : (feedAll o e s cs').failed = false := by
    have := congrArg St.failed h5
    simp only [St.noRaw] at this
    rw [← this, hf]
  rw [h2 hf hs, h4 hf' hs, h]

/-- C31: the raw output is the stream. -/
theorem C31_raw (o : Opts) (e : Eval) (cs : List Text) (hn : '\x00' ∉ cs.flatten) (ho : o.raw = true)
    (hf : (feedAll o e (init o) cs).failed = false) : (feedAll o e (init o) cs).raw = cs.flatten := by
  rw [(feedAll_eq o e cs (init o) hn).2 hf rfl, ho]
  simp [init]

namespace Solns

theorem foldl_line (o : Opts) (e : Eval) (l : Text) (h : '\n' ∉ l) : ∀ s : St, s.failed = false →
    (l ++ ['\n']).foldl (stepChar o e) s = processLine o e { s with linePart := [] } (s.linePart ++ l) := by
  induction l with
  | nil => intro s hs; simp [stepChar, hs]
  | cons c cs ih =>
    intro s hs
    rw [List.mem_cons, not_or] at h
    rw [List.cons_append, List.foldl_cons, stepChar, if_neg (by simp [hs]), if_neg (fun hh => h.1 hh.symm), ih h.2]
    · simp
    · exact hs

theorem processLine_linePart (o : Opts) (e : Eval) (s : St) (l : Text) : (processLine o e s l).linePart = s.linePart := by
  unfold processLine evalOutput evalStatus otherLine flushStatistics
  simp only
  repeat' (first | rfl | split)

theorem foldl_lines (o : Opts) (e : Eval) (ls : List Text) (h : ∀ l ∈ ls, '\n' ∉ l) : ∀ s : St, s.linePart = [] →
    ((ls.map (· ++ ['\n'])).flatten).foldl (stepChar o e) s = ls.foldl (processLine o e) s := by
  induction ls with
  | nil => intro s _; rfl
  | cons l ls ih =>
    intro s hs
    rw [List.map_cons, List.flatten_cons, List.foldl_append, List.foldl_cons]
    cases hf : s.failed with
    | true =>
      have : processLine o e s l = s := by rw [processLine, if_pos hf]
      rw [foldl_failed o e hf, this]
      exact ih (fun x hx => h x (List.mem_cons_of_mem _ hx)) s hs
    | false =>
      rw [foldl_line o e l (h l (by simp)) s hf, hs, List.nil_append]
      have e1 : ({ s with linePart := [] } : St) = s := by rw [← hs]
      rw [e1]
      exact ih (fun x hx => h x (List.mem_cons_of_mem _ hx)) _ (by rw [processLine_linePart, hs])

end Solns

/-- C31: a stream of complete lines, in any chunks, is processed line by line. -/
theorem C31_lines (o : Opts) (e : Eval) (ls : List Text) (cs : List Text) (h : ∀ l ∈ ls, '\n' ∉ l ∧ '\x00' ∉ l)
    (hc : cs.flatten = (ls.map (· ++ ['\n'])).flatten) :
    ({ feedAll o e (init o) cs with raw := [] } : St) = ls.foldl (processLine o e) (init o) := by
  have hn : '\x00' ∉ cs.flatten := by
    rw [hc]
    simp only [List.mem_flatten, List.mem_map, not_exists, not_and, forall_exists_index, and_imp]
    rintro x l hl rfl hx
    simp only [List.mem_append, List.mem_singleton, Char.reduceEq, or_false] at hx
    exact (h l hl).2 hx
  have h1 := (feedAll_eq o e cs (init o) hn).1
  rw [hc, foldl_lines o e ls (fun l hl => (h l hl).1) _ rfl] at h1
  rw [St.noRaw] at h1
  rw [h1, St.noRaw]
  have h2 := foldl_lines o e ls (fun l hl => (h l hl).1) (init o) rfl
  have h3 := fold_keeps_raw o e ((ls.map (· ++ ['\n'])).flatten) (init o)
  rw [h2] at h3
  rw [show ([] : Text) = (ls.foldl (processLine o e) (init o)).raw from h3.symm]

/-- C31 fails for NUL characters: the rest of the chunk is lost, so that a separate chunk is treated
differently. -/
theorem C31_nul_fails : ∃ (o : Opts) (e : Eval) (cs cs' : List Text), cs.flatten = cs'.flatten ∧
    (feedAll o e (init o) cs).status ≠ (feedAll o e (init o) cs').status :=
  ⟨{}, ⟨some, fun _ => [], some, fun _ => [], true⟩, ["\x00".toList, "==========\n".toList], ["\x00==========\n".toList],
    by decide +kernel, by decide +kernel⟩

end MZ
