import Verif.Solns.Props

/-!
# Processing the output of a solver: every solution once, every status message (C32)
-/

namespace MZ
namespace Solns

/-! ## Specification -/

/-- The lines that are looked at: the first lines can be ignored, and a carriage return at the end of a line
is not part of it. -/
def effective (ignore : Nat) (lines : List Text) : List Text :=
  (lines.drop ignore).map (fun l => if l.getLast? = some '\r' then l.dropLast else l)

/-- The line announces a solution. -/
abbrev isSeparator (l : Text) : Prop := l = "----------".toList

/-- The status a line announces. -/
def statusOf (l : Text) : Option Status :=
  ([("==========", Status.opt), ("=====UNSATISFIABLE=====", .unsat), ("=====UNBOUNDED=====", .unbnd),
    ("=====UNSATorUNBOUNDED=====", .unsatorunbnd), ("=====UNKNOWN=====", .unknown), ("=====ERROR=====", .error)].find?
      (fun p => decide (p.1.toList = l))).map (·.2)

/-- The texts of the solutions announced by the lines: for each separator, the other lines since the
previous one. -/
def texts (acc : Text) : List Text → List Text
  | [] => []
  | l :: ls =>
    if isSeparator l then acc :: texts [] ls
    else if (statusOf l).isSome then texts acc ls
    else texts (acc ++ l ++ ['\n']) ls

/-- The first occurrences. -/
def firsts : List Text → List Text
  | [] => []
  | t :: l => t :: (firsts l).filter (· ≠ t)

/-- The solutions that were printed. -/
def printed (l : List Piece) : List Text :=
  l.filterMap (fun p => match p with | .solution t => some t | _ => none)

/-- The status messages that were printed. -/
def statuses (l : List Piece) : List Status :=
  l.filterMap (fun p => match p with | .status s => some s | _ => none)

/-- Solutions (`some`) and commas (`none`) that were printed. -/
def commas (l : List Piece) : List (Option Text) :=
  l.filterMap (fun p => match p with | .solution t => some (some t) | .comma => some none | _ => none)

/-- The last status announced: a solution, or a status message. -/
def lastStatus (s : Status) (lines : List Text) : Status :=
  lines.foldl (fun s l => if isSeparator l then .sat else (statusOf l).getD s) s

/-! ## Markers -/

theorem marker_spec (l : Text) : marker l = if isSeparator l then some .sat else statusOf l := by
  unfold marker isSeparator statusOf
  by_cases h1 : l = "==========".toList
  · subst h1; decide +kernel
  by_cases h2 : l = "----------".toList
  · subst h2; decide +kernel
  by_cases h3 : l = "=====UNSATISFIABLE=====".toList
  · subst h3; decide +kernel
  by_cases h4 : l = "=====UNBOUNDED=====".toList
  · subst h4; decide +kernel
  by_cases h5 : l = "=====UNSATorUNBOUNDED=====".toList
  · subst h5; decide +kernel
  by_cases h6 : l = "=====UNKNOWN=====".toList
  · subst h6; decide +kernel
  by_cases h7 : l = "=====ERROR=====".toList
  · subst h7; decide +kernel
  rw [if_neg h1, if_neg h2, if_neg h3, if_neg h4, if_neg h5, if_neg h6, if_neg h7, if_neg h2]
  have f : ∀ t : Text, l ≠ t → decide (t = l) = false := fun t h => decide_eq_false (fun hh => h hh.symm)
  simp only [List.find?_cons, f _ h1, f _ h3, f _ h4, f _ h5, f _ h6, f _ h7, List.find?_nil, Option.map_none]

theorem statusOf_ne_sat (l : Text) : statusOf l ≠ some .sat := by
  intro h
  rw [statusOf, Option.map_eq_some_iff] at h
  obtain ⟨p, hp, h2⟩ := h
  have := List.mem_of_find?_eq_some hp
  revert h2
  have h3 : ∀ p ∈ [("==========", Status.opt), ("=====UNSATISFIABLE=====", .unsat), ("=====UNBOUNDED=====", .unbnd),
    ("=====UNSATorUNBOUNDED=====", .unsatorunbnd), ("=====UNKNOWN=====", .unknown), ("=====ERROR=====", .error)],
    p.2 ≠ .sat := by decide +kernel
  exact h3 p this

/-! ## The set of solutions -/

theorem textLt_irrefl (t : Text) : textLt t t = false := by
  induction t with
  | nil => rfl
  | cons a s ih => simp [textLt, ih]

theorem textLt_trans : ∀ {a b c : Text}, textLt a b = true → textLt b c = true → textLt a c = true
  | _, _, [], _, h => by cases ‹Text› <;> simp [textLt] at h
  | _, [], _ :: _, h, _ => by cases ‹Text› <;> simp [textLt] at h
  | [], _ :: _, _ :: _, _, _ => rfl
  | a :: s, b :: t, c :: u, h1, h2 => by
    simp only [textLt, Bool.or_eq_true, decide_eq_true_eq, Bool.and_eq_true] at *
    rcases h1 with h1 | ⟨rfl, h1⟩
    · rcases h2 with h2 | ⟨rfl, h2⟩
      · exact .inl (Char.lt_trans h1 h2)
      · exact .inl h1
    · rcases h2 with h2 | ⟨rfl, h2⟩
      · exact .inl h2
      · exact .inr ⟨rfl, textLt_trans h1 h2⟩

theorem textLt_total : ∀ (a b : Text), textLt a b = false → a ≠ b → textLt b a = true
  | [], [], _, h => absurd rfl h
  | [], _ :: _, h, _ => by simp [textLt] at h
  | _ :: _, [], _, _ => rfl
  | a :: s, b :: t, h1, h2 => by
    simp only [textLt, Bool.or_eq_false_iff, Bool.or_eq_true, decide_eq_true_eq, decide_eq_false_iff_not, Bool.and_eq_true,
      Bool.and_eq_false_iff] at *
    by_cases h : b < a
    · exact .inl h
    · have h := Char.le_antisymm (Char.not_lt.1 h) (Char.not_lt.1 h1.1)
      subst h
      refine .inr ⟨rfl, textLt_total s t ?_ (fun hh => h2 (by rw [hh]))⟩
      rcases h1.2 with h3 | h3
      · exact absurd rfl h3
      · exact h3

def SortedSet (l : List Text) : Prop := l.Pairwise (fun a b => textLt a b = true)

theorem insertSol_mem (t : Text) (l : List Text) (x : Text) : x ∈ (insertSol t l).1 ↔ x = t ∨ x ∈ l := by
  induction l with
  | nil => simp [insertSol]
  | cons u l ih =>
    rw [insertSol]
    split
    · simp
    · split
      · rename_i h; subst h; simp
      · simp only [List.mem_cons, ih]; tauto

theorem insertSol_sorted (t : Text) (l : List Text) (h : SortedSet l) : SortedSet (insertSol t l).1 := by
  induction l with
  | nil => simp [insertSol, SortedSet]
  | cons u l ih =>
    rw [SortedSet, List.pairwise_cons] at h
    rw [insertSol]
    split
    · rename_i hlt
      rw [SortedSet, List.pairwise_cons]
      refine ⟨?_, List.pairwise_cons.2 h⟩
      intro x hx
      rcases List.mem_cons.1 hx with rfl | hx
      · exact hlt
      · exact textLt_trans hlt (h.1 x hx)
    · split
      · exact List.pairwise_cons.2 h
      · rename_i h1 h2
        simp only
        rw [SortedSet, List.pairwise_cons]
        refine ⟨?_, ih h.2⟩
        intro x hx
        rcases (insertSol_mem t l x).1 hx with rfl | hx
        · exact textLt_total _ _ (by simpa using h1) h2
        · exact h.1 x hx

theorem insertSol_new (t : Text) (l : List Text) (h : SortedSet l) : (insertSol t l).2 = true ↔ t ∉ l := by
  induction l with
  | nil => simp [insertSol]
  | cons u l ih =>
    rw [SortedSet, List.pairwise_cons] at h
    rw [insertSol]
    split
    · rename_i hlt
      simp only [List.mem_cons, not_or, true_iff]
      refine ⟨?_, ?_⟩
      · rintro rfl; rw [textLt_irrefl] at hlt; exact absurd hlt (by decide)
      · intro hm
        have := textLt_trans hlt (h.1 t hm)
        rw [textLt_irrefl] at this
        exact absurd this (by decide)
    · split
      · rename_i h2; subst h2; simp
      · rename_i h2
        simp only [List.mem_cons, not_or]
        rw [ih h.2]
        tauto

/-! ## Lines -/

variable {o : Opts} {e : Eval}

theorem printed_append (a b) : printed (a ++ b) = printed a ++ printed b := List.filterMap_append
theorem statuses_append (a b) : statuses (a ++ b) = statuses a ++ statuses b := List.filterMap_append
theorem commas_append (a b) : commas (a ++ b) = commas a ++ commas b := List.filterMap_append

theorem printed_report (r) : printed (reportPieces r) = [] := by unfold reportPieces; split <;> rfl
theorem statuses_report (r) : statuses (reportPieces r) = [] := by unfold reportPieces; split <;> rfl
theorem commas_report (r) : commas (reportPieces r) = [] := by unfold reportPieces; split <;> rfl
theorem printed_comma (b) : printed (commaIf o b) = [] := by unfold commaIf; split <;> rfl
theorem statuses_comma (b) : statuses (commaIf o b) = [] := by unfold commaIf; split <;> rfl

/-- What does not change when statistics are flushed, or comments are printed. -/
def Same (s s' : St) : Prop :=
  s'.sols = s.sols ∧ s'.nSolns = s.nSolns ∧ s'.status = s.status ∧ s'.ignore = s.ignore ∧
    printed s'.out = printed s.out ∧ statuses s'.out = statuses s.out ∧ commas s'.out = commas s.out

theorem flush_same (s : St) : Same s (flushStatistics e s) ∧ (flushStatistics e s).solution = s.solution := by
  unfold flushStatistics
  split
  · exact ⟨⟨rfl, rfl, rfl, rfl, rfl, rfl, rfl⟩, rfl⟩
  · split
    · exact ⟨⟨rfl, rfl, rfl, rfl, rfl, rfl, rfl⟩, rfl⟩
    · refine ⟨⟨rfl, rfl, rfl, rfl, ?_, ?_, ?_⟩, rfl⟩
      · simp [printed_append]; simp [printed]
      · simp [statuses_append]; simp [statuses]
      · simp [commas_append]; simp [commas]

theorem other_same (s : St) (l : Text) :
    Same s (otherLine o e s l) ∧ (otherLine o e s l).solution = s.solution ++ l ++ ['\n'] := by
  unfold otherLine
  simp only
  split
  · split
    · exact ⟨⟨rfl, rfl, rfl, rfl, rfl, rfl, rfl⟩, rfl⟩
    · refine ⟨⟨rfl, rfl, rfl, rfl, ?_, ?_, ?_⟩, rfl⟩
      · simp [printed_append]; simp [printed]
      · simp [statuses_append]; simp [statuses]
      · simp [commas_append]; simp [commas]
  · exact ⟨⟨rfl, rfl, rfl, rfl, rfl, rfl, rfl⟩, rfl⟩

theorem process_failed {s : St} (h : s.failed = true) (l) : processLine o e s l = s := by
  rw [processLine, if_pos h]

theorem run_failed {s : St} (h : s.failed = true) (ls : List Text) : ls.foldl (processLine o e) s = s := by
  induction ls with
  | nil => rfl
  | cons l ls ih => rw [List.foldl_cons, process_failed h, ih]

/-- The three kinds of lines. -/
theorem process_cases {s : St} (h : s.failed = false) (hi : s.ignore = 0) (l : Text) :
    (isSeparator (stripCR l) ∧ ((processLine o e s l).failed = true ∨ processLine o e s l = evalOutput o e (flushStatistics e s))) ∨
    (¬ isSeparator (stripCR l) ∧ ∃ st, statusOf (stripCR l) = some st ∧
      ((processLine o e s l).failed = true ∨ processLine o e s l = evalStatus o st (flushStatistics e s))) ∨
    (¬ isSeparator (stripCR l) ∧ statusOf (stripCR l) = none ∧ processLine o e s l = otherLine o e s (stripCR l)) := by
  have e1 : processLine o e s l = match marker (stripCR l) with
      | some st => if (flushStatistics e s).failed then flushStatistics e s
          else if st = .sat then evalOutput o e (flushStatistics e s) else evalStatus o st (flushStatistics e s)
      | none => otherLine o e s (stripCR l) := by
    rw [processLine, if_neg (by simp [h])]
    simp only
    rw [if_neg (by omega)]
    rfl
  rw [e1, marker_spec]
  by_cases hs : isSeparator (stripCR l)
  · left
    refine ⟨hs, ?_⟩
    rw [if_pos hs]
    simp only
    split
    · left; assumption
    · right; rfl
  · rw [if_neg hs]
    cases hst : statusOf (stripCR l) with
    | none => right; right; exact ⟨hs, rfl, rfl⟩
    | some st =>
      right; left
      refine ⟨hs, st, rfl, ?_⟩
      simp only
      split
      · left; assumption
      · right
        rw [if_neg (fun hh => statusOf_ne_sat (stripCR l) (by rw [hst, hh]))]

theorem effective_succ (n l ls) : effective (n + 1) (l :: ls) = effective n ls := by simp [effective]
theorem effective_zero (l ls) : effective 0 (l :: ls) = stripCR l :: effective 0 ls := by
  simp [effective, stripCR]
theorem effective_nil (n) : effective n [] = [] := by simp [effective]

/-- The evaluation of a solution. -/
theorem evalOutput_cases (s : St) :
    (evalOutput o e s).failed = true ∨ ∃ t, e.render s.solution = some t ∧
      (evalOutput o e s).solution = [] ∧ (evalOutput o e s).status = .sat ∧ (evalOutput o e s).ignore = s.ignore ∧
      (evalOutput o e s).failed = s.failed ∧
      statuses (evalOutput o e s).out = statuses s.out ∧
      ((o.unique || o.canonicalize) = false → (evalOutput o e s).sols = s.sols) ∧
      ((o.unique || o.canonicalize) = true → (evalOutput o e s).sols = (insertSol t s.sols).1) ∧
      (((o.unique || o.canonicalize) = true ∧ (insertSol t s.sols).2 = false →
          (evalOutput o e s).nSolns = s.nSolns ∧ printed (evalOutput o e s).out = printed s.out ∧
            commas (evalOutput o e s).out = commas s.out)) ∧
      (¬ ((o.unique || o.canonicalize) = true ∧ (insertSol t s.sols).2 = false) →
          (evalOutput o e s).nSolns = s.nSolns + 1 ∧
          printed (evalOutput o e s).out = printed s.out ++ (if o.canonicalize then [] else [t]) ∧
          commas (evalOutput o e s).out = commas s.out ++ (if o.canonicalize then [] else
            commas (commaIf o (decide (0 < s.nSolns))) ++ [some t])) := by
  unfold evalOutput
  cases hr : e.render s.solution with
  | none => left; rfl
  | some t =>
    right
    refine ⟨t, rfl, ?_⟩
    simp only
    cases hu : (o.unique || o.canonicalize) with
    | false =>
      have hc : o.canonicalize = false := by revert hu; cases o.canonicalize <;> simp
      rw [hc]; simp only [if_neg Bool.false_ne_true, if_pos trivial]
      refine ⟨by trivial, by trivial, by trivial, by trivial, ?_, fun _ => by trivial, fun h => absurd h (by decide), fun h => absurd h.1 (by decide), fun _ => ⟨by trivial, ?_, ?_⟩⟩
      · simp [statuses_append, statuses_report, statuses_comma]; simp [statuses]
      · simp [printed_append, printed_report, printed_comma]; simp [printed]
      · simp [commas_append, commas_report]; simp [commas]
    | true =>
      simp only [if_pos trivial]
      cases hn : (insertSol t s.sols).2 with
      | false =>
        simp only [if_neg Bool.false_ne_true]
        exact ⟨by trivial, by trivial, by trivial, by trivial, by trivial, fun h => absurd h (by decide), fun _ => by trivial, fun _ => ⟨by trivial, by trivial, by trivial⟩,
          fun h => absurd ⟨by trivial, by trivial⟩ h⟩
      | true =>
        simp only [if_pos trivial]
        cases hc : o.canonicalize with
        | true =>
          simp only [if_pos trivial]
          refine ⟨by trivial, by trivial, by trivial, by trivial, ?_, fun h => absurd h (by decide), fun _ => by trivial, fun h => absurd h.2 (by decide), fun _ => ⟨by trivial, ?_, ?_⟩⟩
          · simp [statuses_append, statuses_report]
          · simp [printed_append, printed_report]
          · simp [commas_append, commas_report]
        | false =>
          simp only [if_neg Bool.false_ne_true]
          refine ⟨by trivial, by trivial, by trivial, by trivial, ?_, fun h => absurd h (by decide), fun _ => by trivial, fun h => absurd h.2 (by decide), fun _ => ⟨by trivial, ?_, ?_⟩⟩
          · simp [statuses_append, statuses_report, statuses_comma]; simp [statuses]
          · simp [printed_append, printed_report, printed_comma]; simp [printed]
          · simp [commas_append, commas_report]; simp [commas]

/-- What a run does to the parts of the state that do not depend on the options. -/
theorem run_common (ls : List Text) : ∀ s : St, (ls.foldl (processLine o e) s).failed = false →
    (∃ rs, (texts s.solution (effective s.ignore ls)).mapM e.render = some rs) ∧
    (ls.foldl (processLine o e) s).status = lastStatus s.status (effective s.ignore ls) ∧
    statuses (ls.foldl (processLine o e) s).out = statuses s.out ++ (effective s.ignore ls).filterMap statusOf := by
  induction ls with
  | nil => intro s _; simp [effective_nil, texts, lastStatus]
  | cons l ls ih =>
    intro s hf
    rw [List.foldl_cons] at hf ⊢
    have hs : s.failed = false := by
      by_contra h
      rw [Bool.not_eq_false] at h
      rw [process_failed h, run_failed h, h] at hf
      exact absurd hf (by decide)
    have hp : (processLine o e s l).failed = false := by
      by_contra h
      rw [Bool.not_eq_false] at h
      rw [run_failed h, h] at hf
      exact absurd hf (by decide)
    cases hi : s.ignore with
    | succ n =>
      have : processLine o e s l = { s with ignore := n } := by
        rw [processLine, if_neg (by simp [hs])]
        simp only
        rw [if_pos (by omega), hi]; rfl
      rw [effective_succ]
      rw [this] at hf ⊢
      exact ih _ hf
    | zero =>
      rw [effective_zero]
      have hfl := flush_same (e := e) s
      rcases process_cases (o := o) (e := e) hs hi l with ⟨h1, h2⟩ | ⟨h1, st, h2, h3⟩ | ⟨h1, h2, h3⟩
      · rcases h2 with h2 | h2
        · rw [h2] at hp; exact absurd hp (by decide)
        · rcases evalOutput_cases (o := o) (e := e) (flushStatistics e s) with h3 | ⟨t, h3, h4, h5, h6, h7, h8, -⟩
          · rw [h2, h3] at hp; exact absurd hp (by decide)
          · obtain ⟨⟨rs, i1⟩, i2, i3⟩ := ih _ hf
            rw [h2, h4, h6, hfl.1.2.2.2.1, hi] at i1
            rw [h2, h5, h6, hfl.1.2.2.2.1, hi] at i2
            rw [h2, h6, h8, hfl.1.2.2.2.1, hi, hfl.1.2.2.2.2.2.1] at i3
            rw [hfl.2] at h3
            refine ⟨⟨t :: rs, ?_⟩, ?_, ?_⟩
            · rw [texts, if_pos h1, List.mapM_cons, h3, i1]; rfl
            · rw [h2, i2, lastStatus, lastStatus, List.foldl_cons, if_pos h1]
            · have : statusOf (stripCR l) = none := by
                rw [show stripCR l = "----------".toList from h1]; decide +kernel
              rw [h2, i3, List.filterMap_cons, this]
      · rcases h3 with h3 | h3
        · rw [h3] at hp; exact absurd hp (by decide)
        · obtain ⟨⟨rs, i1⟩, i2, i3⟩ := ih _ hf
          have hc : statuses (finalPieces o true s.sols) = [] := by
            have : ∀ b l, statuses (finalPieces o b l) = [] := by
              intro b l
              induction l generalizing b with
              | nil => rfl
              | cons t l ih =>
                rw [finalPieces, statuses_append, statuses_append, statuses_comma, ih]
                rfl
            exact this _ _
          have k1 : (evalStatus o st (flushStatistics e s)).solution = s.solution := by
            unfold evalStatus; simp only; split <;> exact hfl.2
          have k2 : (evalStatus o st (flushStatistics e s)).ignore = 0 := by
            unfold evalStatus; simp only; split <;> exact hfl.1.2.2.2.1.trans hi
          have k3 : statuses (evalStatus o st (flushStatistics e s)).out = statuses s.out ++ [st] := by
            have k4 : statuses [Piece.status st] = [st] := rfl
            unfold evalStatus; simp only
            split
            · simp only [statuses_append, hfl.1.1, hc, hfl.1.2.2.2.2.2.1, List.append_nil, k4]
            · simp only [statuses_append, hfl.1.2.2.2.2.2.1, k4]
          have k4 : (evalStatus o st (flushStatistics e s)).status = st := by
            unfold evalStatus; simp only
          rw [h3, k1, k2] at i1
          rw [h3, k2, k4] at i2
          rw [h3, k2, k3] at i3
          refine ⟨⟨rs, ?_⟩, ?_, ?_⟩
          · rw [texts, if_neg h1, h2]; exact i1
          · rw [h3, i2, lastStatus, lastStatus, List.foldl_cons, if_neg h1, h2]; rfl
          · rw [h3, i3, List.filterMap_cons, h2]; simp
      · obtain ⟨⟨rs, i1⟩, i2, i3⟩ := ih _ hf
        have hot := other_same (o := o) (e := e) s (stripCR l)
        rw [h3, hot.2, hot.1.2.2.2.1, hi] at i1
        rw [h3, hot.1.2.2.1, hot.1.2.2.2.1, hi] at i2
        rw [h3, hot.1.2.2.2.1, hot.1.2.2.2.2.2.1, hi] at i3
        refine ⟨⟨rs, ?_⟩, ?_, ?_⟩
        · rw [texts, if_neg h1, h2]; exact i1
        · rw [h3, i2, lastStatus, lastStatus, List.foldl_cons, if_neg h1, h2]; rfl
        · rw [h3, i3, List.filterMap_cons, h2]


theorem run_step {ls : List Text} {s : St} {l : Text} (hf : ((l :: ls).foldl (processLine o e) s).failed = false) :
    s.failed = false ∧ (processLine o e s l).failed = false := by
  rw [List.foldl_cons] at hf
  have hs : s.failed = false := by
    by_contra h
    rw [Bool.not_eq_false] at h
    rw [process_failed h, run_failed h, h] at hf
    exact absurd hf (by decide)
  refine ⟨hs, ?_⟩
  by_contra h
  rw [Bool.not_eq_false] at h
  rw [run_failed h, h] at hf
  exact absurd hf (by decide)

/-- Induction over a run that does not fail, one kind of line at a time. -/
theorem run_induct {P : St → List Text → St → Prop}
    (nil : ∀ s, P s [] s)
    (sol : ∀ s t ls s', e.render s.solution = some t → P (evalOutput o e s) ls s' → (evalOutput o e s).failed = false →
      P s ("----------".toList :: ls) s')
    (status : ∀ s l st ls s', ¬ isSeparator l → statusOf l = some st → P (evalStatus o st s) ls s' → P s (l :: ls) s')
    (other : ∀ s l ls s', ¬ isSeparator l → statusOf l = none → P (otherLine o e s l) ls s' → P s (l :: ls) s')
    (flush : ∀ s ls s', P (flushStatistics e s) ls s' → P s ls s')
    (ignore : ∀ s n ls s', P { s with ignore := n } ls s' ↔ P s ls s') :
    ∀ (ls : List Text) (s : St), (ls.foldl (processLine o e) s).failed = false →
      P s (effective s.ignore ls) (ls.foldl (processLine o e) s) := by
  intro ls
  induction ls with
  | nil => intro s _; rw [effective_nil]; exact nil s
  | cons l ls ih =>
    intro s hf
    obtain ⟨hs, hp⟩ := run_step hf
    rw [List.foldl_cons] at hf ⊢
    cases hi : s.ignore with
    | succ n =>
      have : processLine o e s l = { s with ignore := n } := by
        rw [processLine, if_neg (by simp [hs])]
        simp only
        rw [if_pos (by omega), hi]; rfl
      rw [effective_succ]
      rw [this] at hf ⊢
      exact (ignore s n _ _).1 (ih _ hf)
    | zero =>
      rw [effective_zero]
      have hfl := flush_same (e := e) s
      have i := ih _ hf
      rcases process_cases (o := o) (e := e) hs hi l with ⟨h1, h2⟩ | ⟨h1, st, h2, h3⟩ | ⟨h1, h2, h3⟩
      · rcases h2 with h2 | h2
        · rw [h2] at hp; exact absurd hp (by decide)
        · rcases evalOutput_cases (o := o) (e := e) (flushStatistics e s) with h3 | ⟨t, h3, h4, h5, h6, h7, h8, -⟩
          · rw [h2, h3] at hp; exact absurd hp (by decide)
          · rw [h2, h6, hfl.1.2.2.2.1, hi] at i
            rw [h2] at hp ⊢
            rw [show stripCR l = "----------".toList from h1]
            exact flush _ _ _ (sol _ t _ _ h3 i hp)
      · rcases h3 with h3 | h3
        · rw [h3] at hp; exact absurd hp (by decide)
        · have k2 : (evalStatus o st (flushStatistics e s)).ignore = 0 := by
            unfold evalStatus; simp only; split <;> exact hfl.1.2.2.2.1.trans hi
          rw [h3, k2] at i
          rw [h3]
          exact flush _ _ _ (status _ _ st _ _ h1 h2 i)
      · have hot := other_same (o := o) (e := e) s (stripCR l)
        rw [h3, hot.1.2.2.2.1, hi] at i
        rw [h3]
        exact other _ _ _ _ h1 h2 i

theorem texts_sep (acc ls) : texts acc ("----------".toList :: ls) = acc :: texts [] ls := by
  rw [texts, if_pos rfl]

theorem texts_status {l st} (acc ls) (h1 : ¬ isSeparator l) (h : statusOf l = some st) : texts acc (l :: ls) = texts acc ls := by
  rw [texts, if_neg h1, h]; rfl

theorem texts_other {l} (acc ls) (h1 : ¬ isSeparator l) (h : statusOf l = none) :
    texts acc (l :: ls) = texts (acc ++ l ++ ['\n']) ls := by
  rw [texts, if_neg h1, h]; rfl

theorem mapM_cons_eq {f : Text → Option Text} {a t l rs} (h : f a = some t) :
    (a :: l).mapM f = some rs ↔ ∃ rs', l.mapM f = some rs' ∧ rs = t :: rs' := by
  rw [List.mapM_cons, h]
  cases l.mapM f with
  | none => simp
  | some r => simp [eq_comm]

theorem filter_firsts (p : Text → Bool) (l : List Text) : (firsts l).filter p = firsts (l.filter p) := by
  induction l with
  | nil => rfl
  | cons t l ih =>
    rw [firsts, List.filter_cons, List.filter_cons]
    cases hp : p t with
    | true =>
      simp only [if_true]
      rw [firsts, ← ih, List.filter_filter, List.filter_filter]
      congr 1
      apply List.filter_congr
      intro x _
      rw [Bool.and_comm]
    | false =>
      simp only [Bool.false_eq_true, if_false]
      rw [← ih, List.filter_filter]
      apply List.filter_congr
      intro x _
      by_cases hx : x = t
      · subst hx; simp [hp]
      · simp [hx]

/-- With uniqueness, without canonical order. -/
theorem run_unique (hu : o.unique = true) (hc : o.canonicalize = false) (ls : List Text) (s : St)
    (hf : (ls.foldl (processLine o e) s).failed = false) : SortedSet s.sols → ∀ rs,
    (texts s.solution (effective s.ignore ls)).mapM e.render = some rs →
    printed (ls.foldl (processLine o e) s).out = printed s.out ++ firsts (rs.filter (· ∉ s.sols)) ∧
    (ls.foldl (processLine o e) s).nSolns = s.nSolns + (firsts (rs.filter (· ∉ s.sols))).length := by
  refine run_induct (o := o) (e := e) (P := fun s ls s' => SortedSet s.sols → ∀ rs,
    (texts s.solution ls).mapM e.render = some rs →
      printed s'.out = printed s.out ++ firsts (rs.filter (· ∉ s.sols)) ∧
      s'.nSolns = s.nSolns + (firsts (rs.filter (· ∉ s.sols))).length) ?_ ?_ ?_ ?_ ?_ ?_ ls s hf
  · intro s _ rs h
    simp only [texts, List.mapM_nil] at h
    have : rs = [] := by simpa using h.symm
    subst this
    simp [firsts]
  · intro s t ls s' hr hP hfe hsort rs h
    rw [texts_sep, mapM_cons_eq hr] at h
    obtain ⟨rs', h, rfl⟩ := h
    rcases evalOutput_cases (o := o) (e := e) s with h3 | ⟨t', h3, h4, h5, h6, h7, h8, -, h9, h10, h11⟩
    · rw [h3] at hfe; exact absurd hfe (by decide)
    · rw [hr] at h3
      cases h3
      have hor : (o.unique || o.canonicalize) = true := by rw [hu]; rfl
      have h9 := h9 hor
      have hs' : SortedSet (evalOutput o e s).sols := by rw [h9]; exact insertSol_sorted t _ hsort
      rw [h4] at hP
      obtain ⟨p1, p2⟩ := hP hs' rs' h
      have hnew := insertSol_new t s.sols hsort
      have hmem : ∀ x, x ∈ (evalOutput o e s).sols ↔ x = t ∨ x ∈ s.sols := by
        intro x; rw [h9]; exact insertSol_mem t _ x
      by_cases ht : t ∈ s.sols
      · have hn : (insertSol t s.sols).2 = false := by
          cases hh : (insertSol t s.sols).2 with
          | false => rfl
          | true => exact absurd ht (hnew.1 hh)
        obtain ⟨q1, q2, -⟩ := h10 ⟨hor, hn⟩
        have e1 : rs'.filter (· ∉ (evalOutput o e s).sols) = (t :: rs').filter (· ∉ s.sols) := by
          rw [List.filter_cons, if_neg (by simpa using ht)]
          apply List.filter_congr
          intro x _
          simp only [hmem, not_or]
          by_cases hx : x = t
          · subst hx; simp [ht]
          · simp [hx]
        rw [p1, p2, q1, q2, e1]
        exact ⟨rfl, rfl⟩
      · obtain ⟨q1, q2, -⟩ := h11 (fun hh => by rw [hnew.2 ht] at hh; exact absurd hh.2 (by decide))
        rw [hc] at q2
        simp only [Bool.false_eq_true, if_false] at q2
        have e1 : firsts ((t :: rs').filter (· ∉ s.sols)) = t :: firsts (rs'.filter (· ∉ (evalOutput o e s).sols)) := by
          rw [List.filter_cons, if_pos (by simpa using ht), firsts, filter_firsts, List.filter_filter]
          congr 2
          apply List.filter_congr
          intro x _
          simp only [hmem, not_or]
          by_cases hx : x = t <;> simp [hx]
        rw [p1, p2, q1, q2, e1]
        refine ⟨by simp, ?_⟩
        rw [List.length_cons]; omega
  · intro s l st ls s' h1 h2 hP hsort rs h
    rw [texts_status _ _ h1 h2] at h
    have e1 : evalStatus o st s = { s with out := s.out ++ [.status st], status := st, statusPrinted := true } := by
      unfold evalStatus; simp [hc]
    rw [e1] at hP
    obtain ⟨p1, p2⟩ := hP hsort rs h
    rw [p1, p2]
    refine ⟨?_, rfl⟩
    simp only [printed_append]
    simp [printed]
  · intro s l ls s' h1 h2 hP hsort rs h
    have hot := other_same (o := o) (e := e) s l
    rw [texts_other _ _ h1 h2] at h
    rw [hot.2, hot.1.1] at hP
    obtain ⟨p1, p2⟩ := hP hsort rs h
    rw [p1, p2, hot.1.2.1, hot.1.2.2.2.2.1]
    exact ⟨rfl, rfl⟩
  · intro s ls s' hP hsort rs h
    have hot := flush_same (e := e) s
    rw [hot.2, hot.1.1] at hP
    obtain ⟨p1, p2⟩ := hP hsort rs h
    rw [p1, p2, hot.1.2.1, hot.1.2.2.2.2.1]
    exact ⟨rfl, rfl⟩
  · intro s n ls s'; exact Iff.rfl


/-- Without uniqueness. -/
theorem run_all (hu : o.unique = false) (hc : o.canonicalize = false) (ls : List Text) (s : St)
    (hf : (ls.foldl (processLine o e) s).failed = false) : ∀ rs,
    (texts s.solution (effective s.ignore ls)).mapM e.render = some rs →
    printed (ls.foldl (processLine o e) s).out = printed s.out ++ rs ∧
    (ls.foldl (processLine o e) s).nSolns = s.nSolns + rs.length := by
  refine run_induct (o := o) (e := e) (P := fun s ls s' => ∀ rs,
    (texts s.solution ls).mapM e.render = some rs →
      printed s'.out = printed s.out ++ rs ∧ s'.nSolns = s.nSolns + rs.length) ?_ ?_ ?_ ?_ ?_ ?_ ls s hf
  · intro s rs h
    simp only [texts, List.mapM_nil] at h
    have : rs = [] := by simpa using h.symm
    subst this
    simp
  · intro s t ls s' hr hP hfe rs h
    rw [texts_sep, mapM_cons_eq hr] at h
    obtain ⟨rs', h, rfl⟩ := h
    rcases evalOutput_cases (o := o) (e := e) s with h3 | ⟨t', h3, h4, h5, h6, h7, h8, h9, -, h10, h11⟩
    · rw [h3] at hfe; exact absurd hfe (by decide)
    · rw [hr] at h3
      cases h3
      have hor : (o.unique || o.canonicalize) = false := by rw [hu, hc]; rfl
      rw [h4] at hP
      obtain ⟨p1, p2⟩ := hP rs' h
      obtain ⟨q1, q2, -⟩ := h11 (fun hh => by rw [hor] at hh; exact absurd hh.1 (by decide))
      rw [hc] at q2
      simp only [Bool.false_eq_true, if_false] at q2
      rw [p1, p2, q1, q2]
      refine ⟨by simp, ?_⟩
      rw [List.length_cons]; omega
  · intro s l st ls s' h1 h2 hP rs h
    rw [texts_status _ _ h1 h2] at h
    have e1 : evalStatus o st s = { s with out := s.out ++ [.status st], status := st, statusPrinted := true } := by
      unfold evalStatus; simp [hc]
    rw [e1] at hP
    obtain ⟨p1, p2⟩ := hP rs h
    rw [p1, p2]
    refine ⟨?_, rfl⟩
    simp only [printed_append]
    simp [printed]
  · intro s l ls s' h1 h2 hP rs h
    have hot := other_same (o := o) (e := e) s l
    rw [texts_other _ _ h1 h2] at h
    rw [hot.2] at hP
    obtain ⟨p1, p2⟩ := hP rs h
    rw [p1, p2, hot.1.2.1, hot.1.2.2.2.2.1]
    exact ⟨rfl, rfl⟩
  · intro s ls s' hP rs h
    have hot := flush_same (e := e) s
    rw [hot.2] at hP
    obtain ⟨p1, p2⟩ := hP rs h
    rw [p1, p2, hot.1.2.1, hot.1.2.2.2.2.1]
    exact ⟨rfl, rfl⟩
  · intro s n ls s'; exact Iff.rfl

/-- With canonical order, before the first status message. -/
theorem run_canon (hc : o.canonicalize = true) (ls : List Text) (s : St)
    (hf : (ls.foldl (processLine o e) s).failed = false) : SortedSet s.sols →
    (∀ l ∈ effective s.ignore ls, statusOf l = none) → ∀ rs,
    (texts s.solution (effective s.ignore ls)).mapM e.render = some rs →
    printed (ls.foldl (processLine o e) s).out = printed s.out ∧ SortedSet (ls.foldl (processLine o e) s).sols ∧
    ∀ x, x ∈ (ls.foldl (processLine o e) s).sols ↔ x ∈ s.sols ∨ x ∈ rs := by
  refine run_induct (o := o) (e := e) (P := fun s ls s' => SortedSet s.sols → (∀ l ∈ ls, statusOf l = none) → ∀ rs,
    (texts s.solution ls).mapM e.render = some rs →
      printed s'.out = printed s.out ∧ SortedSet s'.sols ∧ ∀ x, x ∈ s'.sols ↔ x ∈ s.sols ∨ x ∈ rs) ?_ ?_ ?_ ?_ ?_ ?_ ls s hf
  · intro s hs _ rs h
    simp only [texts, List.mapM_nil] at h
    have : rs = [] := by simpa using h.symm
    subst this
    exact ⟨rfl, hs, by simp⟩
  · intro s t ls s' hr hP hfe hsort hno rs h
    rw [texts_sep, mapM_cons_eq hr] at h
    obtain ⟨rs', h, rfl⟩ := h
    rcases evalOutput_cases (o := o) (e := e) s with h3 | ⟨t', h3, h4, h5, h6, h7, h8, -, h9, h10, h11⟩
    · rw [h3] at hfe; exact absurd hfe (by decide)
    · rw [hr] at h3
      cases h3
      have hor : (o.unique || o.canonicalize) = true := by rw [hc]; simp
      have h9 := h9 hor
      have hs' : SortedSet (evalOutput o e s).sols := by rw [h9]; exact insertSol_sorted t _ hsort
      rw [h4] at hP
      obtain ⟨p1, p2, p3⟩ := hP hs' (fun l hl => hno l (List.mem_cons_of_mem _ hl)) rs' h
      refine ⟨?_, p2, ?_⟩
      · rw [p1]
        by_cases hn : (insertSol t s.sols).2 = false
        · exact (h10 ⟨hor, hn⟩).2.1
        · have := (h11 (fun hh => hn hh.2)).2.1
          rw [hc] at this
          simpa using this
      · intro x
        rw [p3, h9, insertSol_mem, List.mem_cons]
        tauto
  · intro s l st ls s' h1 h2 hP _ hno rs h
    rw [hno l (by simp)] at h2
    exact absurd h2 (by simp)
  · intro s l ls s' h1 h2 hP hsort hno rs h
    have hot := other_same (o := o) (e := e) s l
    rw [texts_other _ _ h1 h2] at h
    rw [hot.2, hot.1.1] at hP
    obtain ⟨p1, p2, p3⟩ := hP hsort (fun l hl => hno l (List.mem_cons_of_mem _ hl)) rs h
    exact ⟨by rw [p1, hot.1.2.2.2.2.1], p2, p3⟩
  · intro s ls s' hP hsort hno rs h
    have hot := flush_same (e := e) s
    rw [hot.2, hot.1.1] at hP
    obtain ⟨p1, p2, p3⟩ := hP hsort hno rs h
    exact ⟨by rw [p1, hot.1.2.2.2.2.1], p2, p3⟩
  · intro s n ls s'; exact Iff.rfl

theorem printed_final (b l) : printed (finalPieces o b l) = l := by
  induction l generalizing b with
  | nil => rfl
  | cons t l ih =>
    rw [finalPieces, printed_append, printed_append, printed_comma, ih]
    rfl

/-! ## Invariants of all runs, with or without exceptions -/

theorem process_invariant {I : St → Prop} (h1 : ∀ s, I s → I (flushStatistics e s))
    (h2 : ∀ s, I s → I (evalOutput o e s)) (h3 : ∀ s st, I s → I (evalStatus o st s))
    (h4 : ∀ s l, I s → I (otherLine o e s l)) (h5 : ∀ s n, I s → I { s with ignore := n }) (ls : List Text) :
    ∀ s, I s → I (ls.foldl (processLine o e) s) := by
  induction ls with
  | nil => intro s h; exact h
  | cons l ls ih =>
    intro s h
    rw [List.foldl_cons]
    refine ih _ ?_
    unfold processLine
    simp only
    split
    · exact h
    · split
      · exact h5 _ _ h
      · split
        · split
          · exact h1 _ h
          · split
            · exact h2 _ (h1 _ h)
            · exact h3 _ _ (h1 _ h)
        · exact h4 _ _ h

/-- Solutions are printed once. -/
def Once (s : St) : Prop := SortedSet s.sols ∧ (printed s.out).Nodup ∧ ∀ x ∈ printed s.out, x ∈ s.sols

theorem once_of_same {s s' : St} (h : Once s) (hs : Same s s') : Once s' := by
  obtain ⟨h1, -, -, -, h2, -⟩ := hs
  rw [Once, h1, h2]
  exact h

theorem evalOutput_none {s : St} (h : e.render s.solution = none) : evalOutput o e s = { s with failed := true } := by
  unfold evalOutput
  rw [h]

theorem evalOutput_some {s : St} {t} (h : e.render s.solution = some t) :
    (evalOutput o e s).failed = s.failed := by
  unfold evalOutput
  rw [h]
  simp only
  repeat' (first | rfl | split)

theorem once_step (hu : o.unique = true) (hc : o.canonicalize = false) (s : St) (h : Once s) : Once (evalOutput o e s) := by
  obtain ⟨hs, hn, hm⟩ := h
  cases hr : e.render s.solution with
  | none => rw [evalOutput_none hr]; exact ⟨hs, hn, hm⟩
  | some t =>
    have hor : (o.unique || o.canonicalize) = true := by rw [hu]; rfl
    have key : ∀ t, (evalOutput o e s).sols = (insertSol t s.sols).1 →
        ((insertSol t s.sols).2 = false → printed (evalOutput o e s).out = printed s.out) →
        ((insertSol t s.sols).2 = true → printed (evalOutput o e s).out = printed s.out ++ [t]) → Once (evalOutput o e s) := by
      intro t k1 k2 k3
      refine ⟨by rw [k1]; exact insertSol_sorted t _ hs, ?_, ?_⟩
      · cases hi : (insertSol t s.sols).2 with
        | false => rw [k2 hi]; exact hn
        | true =>
          rw [k3 hi, List.nodup_append]
          refine ⟨hn, by simp, ?_⟩
          intro a ha b hb
          rw [List.mem_singleton] at hb
          subst hb
          rintro rfl
          exact (insertSol_new _ _ hs).1 hi (hm _ ha)
      · intro x hx
        rw [k1, insertSol_mem]
        cases hi : (insertSol t s.sols).2 with
        | false => rw [k2 hi] at hx; exact .inr (hm x hx)
        | true =>
          rw [k3 hi, List.mem_append, List.mem_singleton] at hx
          rcases hx with hx | hx
          · exact .inr (hm x hx)
          · exact .inl hx
    have hs0 : evalOutput o e s = { evalOutput o e { s with failed := false } with failed := s.failed } := by
      unfold evalOutput
      simp only [hr]
      repeat' (first | rfl | split)
    rcases evalOutput_cases (o := o) (e := e) { s with failed := false } with h3 | ⟨t', h3, h4, h5, h6, h7, h8, -, h9, h10, h11⟩
    · rw [evalOutput_some (s := { s with failed := false }) hr] at h3
      exact absurd h3 (by simp)
    · refine key t' ?_ ?_ ?_
      · rw [hs0]; exact h9 hor
      · intro hi; rw [hs0]; exact (h10 ⟨hor, hi⟩).2.1
      · intro hi
        rw [hs0]
        have := (h11 (fun hh => by rw [hi] at hh; exact absurd hh.2 (by decide))).2.1
        rw [hc] at this
        simpa using this

/-- The separator between solutions. -/
def withCommas (o : Opts) (l : List Text) : List (Option Text) :=
  if o.comma = [] then l.map some else (l.map some).intersperse none

def Commas (o : Opts) (s : St) : Prop :=
  s.nSolns = (printed s.out).length ∧ commas s.out = withCommas o (printed s.out)

theorem intersperse_snoc {α} (x a : α) (l : List α) :
    (l ++ [a]).intersperse x = l.intersperse x ++ (if l = [] then [] else [x]) ++ [a] := by
  induction l with
  | nil => rfl
  | cons b l ih =>
    cases l with
    | nil => rfl
    | cons c l =>
      rw [List.cons_append, List.cons_append, List.intersperse_cons₂, ← List.cons_append, ih]
      simp

theorem commas_step (hc : o.canonicalize = false) (s : St) (h : Commas o s) : Commas o (evalOutput o e s) := by
  cases hr : e.render s.solution with
  | none => rw [evalOutput_none hr]; exact h
  | some t =>
    have hs0 : evalOutput o e s = { evalOutput o e { s with failed := false } with failed := s.failed } := by
      unfold evalOutput
      simp only [hr]
      repeat' (first | rfl | split)
    rcases evalOutput_cases (o := o) (e := e) { s with failed := false } with h3 | ⟨t', h3, h4, h5, h6, h7, h8, -, h9, h10, h11⟩
    · rw [evalOutput_some (s := { s with failed := false }) hr] at h3
      exact absurd h3 (by simp)
    · rw [hs0]
      obtain ⟨i1, i2⟩ := h
      by_cases hn : (o.unique || o.canonicalize) = true ∧ (insertSol t' s.sols).2 = false
      · obtain ⟨q1, q2, q3⟩ := h10 hn
        rw [Commas]
        simp only
        rw [q1, q2, q3]
        exact ⟨i1, i2⟩
      · obtain ⟨q1, q2, q3⟩ := h11 hn
        rw [hc] at q2 q3
        simp only [Bool.false_eq_true, if_false] at q2 q3
        rw [Commas]
        simp only
        rw [q1, q2, q3, i1, i2]
        refine ⟨by simp, ?_⟩
        unfold withCommas commaIf
        by_cases hcm : o.comma = []
        · rw [if_pos hcm, if_pos hcm, hcm, List.map_append]
          simp only [ne_eq, not_true_eq_false, decide_false, Bool.false_and, Bool.false_eq_true, if_false]
          rfl
        · rw [if_neg hcm, if_neg hcm, List.map_append, List.map_cons, List.map_nil, intersperse_snoc, List.append_assoc]
          congr 2
          by_cases hp : printed s.out = []
          · rw [hp]; simp [commas]
          · have : 0 < (printed s.out).length := List.length_pos_iff.2 hp
            have k1 : (decide (o.comma ≠ []) && decide (0 < (printed s.out).length)) = true := by simp [hcm, this]
            rw [if_pos k1, if_neg (by simpa using hp)]
            rfl

theorem run_final (hc : o.canonicalize = true) (ls : List Text) (s : St)
    (hf : (ls.foldl (processLine o e) s).failed = false) : SortedSet s.sols →
    ∀ pre x st, effective s.ignore ls = pre ++ [x] → (∀ l ∈ pre, statusOf l = none) → statusOf x = some st → ∀ rs,
    (texts s.solution pre).mapM e.render = some rs →
    ∃ L, printed (ls.foldl (processLine o e) s).out = printed s.out ++ L ∧ SortedSet L ∧
      ∀ t, t ∈ L ↔ t ∈ s.sols ∨ t ∈ rs := by
  refine (run_induct (o := o) (e := e) (P := fun s ls s' => (ls = [] → printed s'.out = printed s.out) ∧
    (SortedSet s.sols →
    ∀ pre x st, ls = pre ++ [x] → (∀ l ∈ pre, statusOf l = none) → statusOf x = some st → ∀ rs,
    (texts s.solution pre).mapM e.render = some rs →
    ∃ L, printed s'.out = printed s.out ++ L ∧ SortedSet L ∧
      ∀ t, t ∈ L ↔ t ∈ s.sols ∨ t ∈ rs)) ?_ ?_ ?_ ?_ ?_ ?_ ls s hf).2
  · intro s
    refine ⟨fun _ => rfl, fun _ pre x st h => ?_⟩
    simp at h
  · intro s t ls s' hr hP hfe
    refine ⟨fun h => absurd h (by simp), ?_⟩
    intro hsort pre x st hpre hno hx rs h
    have hsep : statusOf "----------".toList = none := by decide +kernel
    cases pre with
    | nil =>
      rw [List.nil_append, List.cons.injEq] at hpre
      rw [← hpre.1, hsep] at hx
      exact absurd hx (by simp)
    | cons y pre =>
      rw [List.cons_append, List.cons.injEq] at hpre
      obtain ⟨rfl, hpre⟩ := hpre
      rw [texts_sep, mapM_cons_eq hr] at h
      obtain ⟨rs', h, rfl⟩ := h
      rcases evalOutput_cases (o := o) (e := e) s with h3 | ⟨t', h3, h4, h5, h6, h7, h8, -, h9, h10, h11⟩
      · rw [h3] at hfe; exact absurd hfe (by decide)
      · rw [hr] at h3
        cases h3
        have hor : (o.unique || o.canonicalize) = true := by rw [hc]; simp
        have h9 := h9 hor
        have hs' : SortedSet (evalOutput o e s).sols := by rw [h9]; exact insertSol_sorted t _ hsort
        rw [h4] at hP
        obtain ⟨L, p1, p2, p3⟩ := hP.2 hs' pre x st hpre (fun l hl => hno l (List.mem_cons_of_mem _ hl)) hx rs' h
        refine ⟨L, ?_, p2, ?_⟩
        · rw [p1]
          congr 1
          by_cases hn : (insertSol t s.sols).2 = false
          · exact (h10 ⟨hor, hn⟩).2.1
          · have := (h11 (fun hh => hn hh.2)).2.1
            rw [hc] at this
            simpa using this
        · intro y
          rw [p3, h9, insertSol_mem, List.mem_cons]
          tauto
  · intro s l st' ls s' h1 h2 hP
    refine ⟨fun h => absurd h (by simp), ?_⟩
    intro hsort pre x st hpre hno hx rs h
    cases pre with
    | cons y pre =>
      rw [List.cons_append, List.cons.injEq] at hpre
      have := hno y (by simp)
      rw [← hpre.1, h2] at this
      exact absurd this (by simp)
    | nil =>
      rw [List.nil_append, List.cons.injEq] at hpre
      have hrs : rs = [] := by simpa [texts] using h.symm
      subst hrs
      refine ⟨s.sols, ?_, hsort, by simp⟩
      rw [hP.1 hpre.2]
      have e1 : evalStatus o st' s = { s with out := (s.out ++ finalPieces o true s.sols) ++ [.status st'], status := st', statusPrinted := true } := by
        unfold evalStatus; simp [hc]
      rw [e1]
      simp only [printed_append, printed_final]
      simp [printed]
  · intro s l ls s' h1 h2 hP
    have hot := other_same (o := o) (e := e) s l
    refine ⟨fun h => absurd h (by simp), ?_⟩
    intro hsort pre x st hpre hno hx rs h
    cases pre with
    | nil =>
      rw [List.nil_append, List.cons.injEq] at hpre
      rw [← hpre.1, h2] at hx
      exact absurd hx (by simp)
    | cons y pre =>
      rw [List.cons_append, List.cons.injEq] at hpre
      obtain ⟨rfl, hpre⟩ := hpre
      rw [texts_other _ _ h1 h2] at h
      rw [hot.2, hot.1.1, hot.1.2.2.2.2.1] at hP
      exact hP.2 hsort pre x st hpre (fun l hl => hno l (List.mem_cons_of_mem _ hl)) hx rs h
  · intro s ls s' hP
    have hot := flush_same (e := e) s
    rw [hot.2, hot.1.1, hot.1.2.2.2.2.1] at hP
    exact hP
  · intro s n ls s'; exact Iff.rfl

end Solns

open Solns

/-- C32: with uniqueness (the default), the printed solutions are the first occurrences of the solutions the
solver announced, in order; the solution counter is their number. -/
theorem C32_unique (o : Opts) (e : Eval) (hu : o.unique = true) (hc : o.canonicalize = false) (ls : List Text)
    (hf : (ls.foldl (processLine o e) (init o)).failed = false) :
    ∃ rs, (texts [] (effective o.ignoreLines ls)).mapM e.render = some rs ∧
      printed (ls.foldl (processLine o e) (init o)).out = firsts rs ∧
      (ls.foldl (processLine o e) (init o)).nSolns = (firsts rs).length := by
  obtain ⟨⟨rs, h⟩, -⟩ := run_common ls (init o) hf
  refine ⟨rs, h, ?_⟩
  have := run_unique hu hc ls (init o) hf List.Pairwise.nil rs h
  have e1 : rs.filter (fun x => decide (x ∉ (init o).sols)) = rs := by
    rw [List.filter_eq_self]
    intro x _
    simp [init]
  rw [e1] at this
  simpa [init, printed] using this

/-- C32: with uniqueness, no solution is printed twice, even if an exception ends the run. -/
theorem C32_once (o : Opts) (e : Eval) (hu : o.unique = true) (hc : o.canonicalize = false) (ls : List Text) :
    (printed (ls.foldl (processLine o e) (init o)).out).Nodup := by
  have h0 : Once (init o) := ⟨List.Pairwise.nil, List.nodup_nil, fun x hx => by simp [init, printed] at hx⟩
  refine (process_invariant (o := o) (e := e) (I := Once) ?_ ?_ ?_ ?_ ?_ ls _ h0).2.1
  · exact fun s h => once_of_same h (flush_same s).1
  · exact fun s h => once_step hu hc s h
  · intro s st h
    have e1 : evalStatus o st s = { s with out := s.out ++ [.status st], status := st, statusPrinted := true } := by
      unfold evalStatus; simp [hc]
    rw [e1, Once]
    have k1 : printed [Piece.status st] = [] := rfl
    simp only [printed_append]
    rw [k1, List.append_nil]
    exact h
  · exact fun s l h => once_of_same h (other_same s l).1
  · exact fun s n h => h

/-- C32: without uniqueness every announced solution is printed. -/
theorem C32_all (o : Opts) (e : Eval) (hu : o.unique = false) (hc : o.canonicalize = false) (ls : List Text)
    (hf : (ls.foldl (processLine o e) (init o)).failed = false) :
    ∃ rs, (texts [] (effective o.ignoreLines ls)).mapM e.render = some rs ∧
      printed (ls.foldl (processLine o e) (init o)).out = rs ∧
      (ls.foldl (processLine o e) (init o)).nSolns = rs.length := by
  obtain ⟨⟨rs, h⟩, -⟩ := run_common ls (init o) hf
  refine ⟨rs, h, ?_⟩
  have := run_all hu hc ls (init o) hf rs h
  simpa [init, printed] using this

/-- C32: the separator given with `--solution-comma` is printed between solutions. -/
theorem C32_commas (o : Opts) (e : Eval) (hc : o.canonicalize = false) (ls : List Text) :
    let out := (ls.foldl (processLine o e) (init o)).out
    commas out = if o.comma = [] then (printed out).map some else ((printed out).map some).intersperse none := by
  have h0 : Commas o (init o) := ⟨rfl, by unfold withCommas; split <;> rfl⟩
  refine (process_invariant (o := o) (e := e) (I := Commas o) ?_ ?_ ?_ ?_ ?_ ls _ h0).2
  · intro s h
    have := (flush_same (e := e) s).1
    rw [Commas, this.2.1, this.2.2.2.2.1, this.2.2.2.2.2.2]; exact h
  · exact fun s h => commas_step hc s h
  · intro s st h
    have e1 : evalStatus o st s = { s with out := s.out ++ [.status st], status := st, statusPrinted := true } := by
      unfold evalStatus; simp [hc]
    rw [e1, Commas]
    simp only [printed_append, commas_append]
    have k1 : printed [Piece.status st] = [] := rfl
    have k2 : commas [Piece.status st] = [] := rfl
    rw [k1, k2, List.append_nil, List.append_nil]
    exact h
  · intro s l h
    have := (other_same (o := o) (e := e) s l).1
    rw [Commas, this.2.1, this.2.2.2.2.1, this.2.2.2.2.2.2]; exact h
  · exact fun s n h => h

/-- C32: with canonical order nothing is printed before the first status message. -/
theorem C32_canonical_held (o : Opts) (e : Eval) (hc : o.canonicalize = true) (ls : List Text)
    (hno : ∀ x ∈ effective o.ignoreLines ls, statusOf x = none)
    (hf : (ls.foldl (processLine o e) (init o)).failed = false) :
    printed (ls.foldl (processLine o e) (init o)).out = [] := by
  obtain ⟨⟨rs, h⟩, -⟩ := run_common ls (init o) hf
  exact (run_canon hc ls (init o) hf List.Pairwise.nil hno rs h).1

/-- C32: with canonical order, if there is one status message and it is the last line, the solutions are printed
once each, in increasing order. -/
theorem C32_canonical_partial (o : Opts) (e : Eval) (hc : o.canonicalize = true) (ls pre : List Text) (x : Text) (st : Status)
    (hls : effective o.ignoreLines ls = pre ++ [x])
    (hno : ∀ l ∈ pre, statusOf l = none) (hx : statusOf x = some st) (rs : List Text)
    (hrs : (texts [] pre).mapM e.render = some rs)
    (hf : (ls.foldl (processLine o e) (init o)).failed = false) :
    (printed (ls.foldl (processLine o e) (init o)).out).Pairwise (fun a b => textLt a b = true) ∧
    ∀ t, t ∈ printed (ls.foldl (processLine o e) (init o)).out ↔ t ∈ rs := by
  obtain ⟨L, h1, h2, h3⟩ := run_final hc ls (init o) hf List.Pairwise.nil pre x st hls hno hx rs hrs
  have h1 : printed (ls.foldl (processLine o e) (init o)).out = L := h1
  rw [h1]
  refine ⟨h2, fun t => (h3 t).trans ?_⟩
  simp [init]

/-- C32: the final status is the last one announced, and every status message is printed, in order. -/
theorem C32_status (o : Opts) (e : Eval) (ls : List Text)
    (hf : (ls.foldl (processLine o e) (init o)).failed = false) :
    (ls.foldl (processLine o e) (init o)).status = lastStatus .unknown (effective o.ignoreLines ls) ∧
    statuses (ls.foldl (processLine o e) (init o)).out = (effective o.ignoreLines ls).filterMap statusOf := by
  obtain ⟨-, h1, h2⟩ := run_common ls (init o) hf
  exact ⟨h1, by simpa [init, statuses] using h2⟩

/-- The order in which canonical solutions are printed is a strict total order. -/
theorem C32_order (a b c : Text) : textLt a a = false ∧ (textLt a b = true → textLt b c = true → textLt a c = true) ∧
    (a ≠ b → textLt a b = true ∨ textLt b a = true) := by
  refine ⟨textLt_irrefl a, textLt_trans, fun h => ?_⟩
  cases hh : textLt a b with
  | true => exact .inl rfl
  | false => exact .inr (textLt_total a b hh h)

/-- What `firsts` are: the same elements, without repetition, in the order of their first occurrences. -/
theorem C32_firsts (l : List Text) : (firsts l).Nodup ∧ (∀ t, t ∈ firsts l ↔ t ∈ l) ∧ (firsts l).Sublist l := by
  induction l with
  | nil => exact ⟨List.nodup_nil, fun _ => Iff.rfl, .slnil⟩
  | cons t l ih =>
    obtain ⟨h1, h2, h3⟩ := ih
    refine ⟨?_, ?_, ?_⟩
    · rw [firsts, List.nodup_cons]
      exact ⟨by simp, h1.filter _⟩
    · intro x
      rw [firsts, List.mem_cons, List.mem_cons, List.mem_filter, h2]
      by_cases hx : x = t <;> simp [hx]
    · rw [firsts]
      exact (List.filter_sublist.trans h3).cons_cons t

namespace Solns

/-- An output model that prints the text of the solution. -/
def echo : Eval where
  render := some
  check := fun _ => []
  statistics := fun _ => some []
  core := fun _ => []
  isSat := true

def sampleLines : List Text :=
  ["x=2;".toList, "----------".toList, "x=1;".toList, "----------\r".toList, "x=2;".toList, "----------".toList,
    "==========".toList]

end Solns

/-- C32: if two status messages arrive, canonical order prints the solutions twice. -/
theorem C32_canonical_repeat_fails :
    ∃ ls : List Text, (printed (ls.foldl (processLine { canonicalize := true } echo) (init { canonicalize := true })).out) =
      ["x=1;\n".toList, "x=1;\n".toList] :=
  ⟨["x=1;".toList, "----------".toList, "=====UNKNOWN=====".toList, "==========".toList], by decide +kernel⟩

example : (sampleLines.foldl (processLine {} echo) (init {})).failed = false ∧
    printed (sampleLines.foldl (processLine {} echo) (init {})).out = ["x=2;\n".toList, "x=1;\n".toList] ∧
    statuses (sampleLines.foldl (processLine {} echo) (init {})).out = [.opt] := by decide +kernel

example : let o : Opts := { unique := false, comma := ",".toList }
    (sampleLines.foldl (processLine o echo) (init o)).failed = false ∧
    commas (sampleLines.foldl (processLine o echo) (init o)).out =
      [some "x=2;\n".toList, none, some "x=1;\n".toList, none, some "x=2;\n".toList] := by decide +kernel

example : let o : Opts := { canonicalize := true }
    (sampleLines.foldl (processLine o echo) (init o)).failed = false ∧
    printed (sampleLines.foldl (processLine o echo) (init o)).out = ["x=1;\n".toList, "x=2;\n".toList] ∧
    effective 0 sampleLines = effective 0 sampleLines.dropLast ++ ["==========".toList] ∧
    (∀ l ∈ effective 0 sampleLines.dropLast, statusOf l = none) ∧ statusOf "==========".toList = some .opt := by decide +kernel

end MZ
