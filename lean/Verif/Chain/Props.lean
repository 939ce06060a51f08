import Verif.Chain.LeProps

/-!
# C42: chain compression keeps the solutions

The optimiser replaces `x → y`, `y → C` by `x → C`, and `p ≤ n`, `a·n + … ≤ c` by `a·p + … ≤ c`, when the middle
variable occurs nowhere else.  Seen from the variables that are not eliminated, the solutions stay the same.
-/

namespace MZ
open Chain
open Linear (Atom SortedIdx)

/-- Compressing chains of implications, whatever order the entries are visited in: an assignment of the output variables
extends to a solution of the compressed model iff it extends to a solution of the original one.  *Partial*: for runs in
which no clause comes to hold a negative literal twice and no half-reified call has its control variable among its other
arguments; without these conditions it does not hold, see `C42_imp_duplicate_fails` and `C42_imp_control_fails`. -/
theorem C42_imp_partial (I : Interp) (S : Sig) (keep : Nat → Bool) (items : List Item) (s' : State) (hI : I.Respects S)
    (hc : Clean S (start items)) (hd : Declared (start items)) (hr : Run S keep (start items) s') (σ : Nat → Bool) :
    (start items).Extends I keep σ ↔ s'.Extends I keep σ :=
  run_sol hI hr (start_sound hc) hc hd σ

/-- One compression: a variable that is not to be kept is eliminated.  Solutions stay solutions, and every solution of
the result is a solution of the original but for the value of this variable. -/
theorem C42_imp_step (I : Interp) (S : Sig) (keep : Nat → Bool) (s s' : State) (e : Nat × Nat) (hI : I.Respects S)
    (hs : Sound s) (hc : Clean S s) (hd : Declared s) (h : iteration S keep s e = .next s') :
    ∃ y, keep y = false ∧ (∀ σ, s.Sol I σ → s'.Sol I σ) ∧ ∀ σ, s'.Sol I σ → ∃ b, s.Sol I (setv σ y b) :=
  step_sol hI hs hc hd h

/-- The multimap stays sound, so that the next step may be taken. -/
theorem C42_imp_sound (S : Sig) (keep : Nat → Bool) (s s' : State) (e : Nat × Nat) (hs : Sound s) (he : e ∈ s.track)
    (hc : Clean S s') (h : iteration S keep s e = .next s') : Sound s' := step_sound hs he hc h

/-- No cast fails and no array is accessed out of bounds, as long as the multimap is sound and there is no
`exists([])`. -/
theorem C42_imp_defined (S : Sig) (keep : Nat → Bool) (s : State) (e : Nat × Nat) (hs : Sound s) (he : e ∈ s.track)
    (hx : ∀ y b, some (.existsD y [] b) ∉ s.items) : iteration S keep s e ≠ .ub := by
  intro h
  obtain ⟨it, h1, h2⟩ := hs.mem e.1 e.2 he
  unfold iteration at h
  split at h
  · rename_i y x hi
    split at h
    · split at h
      · cases h
      · dsimp only at h
        split at h
        · rename_i hn
          refine compressAll_defined _ _ (todo_nodup hs.nodup y) ?_ hn
          intro i hi
          obtain ⟨it, a, b⟩ := hs.mem y i (mem_todo.1 hi)
          exact ⟨it, a, effect_defined b (fun c hc => hx y c (by rw [← hc]; exact List.mem_of_getElem? a))⟩
        · cases h
    · cases h
  · cases h
  · rename_i h3 h4
    exact h4 it h1

/-- Compressing chains of inequalities, whatever order the entries are visited in and however `std::sort` orders equal
terms: an assignment of the output variables extends to a solution of the compressed model iff it extends to a solution
of the original one.  *Partial*: for runs in which the replacing variable does not already occur in the inequality;
otherwise see `C42_le_sign_fails`. -/
theorem C42_le_partial (I : LInterp) (E : LEnv) (hE : ∀ ts, SortedIdx ts (E.sorter ts)) (hI : LRespects I E.sig)
    (items : List LItem) (s' : LState) (hn : Normalised (startLe items)) (hr : RunLe E (startLe items) s')
    (ρ : Atom → Int) : (startLe items).Extends I E ρ ↔ s'.Extends I E ρ :=
  runLe_sol hE hI hr (startLe_sound hn) hn ρ

/-- One compression of an inequality; here the replacing variable may occur already. -/
theorem C42_le_step (I : LInterp) (E : LEnv) (hE : ∀ ts, SortedIdx ts (E.sorter ts)) (hI : LRespects I E.sig)
    (s s' : LState) (e : Nat × Nat) (hs : LSound s) (hn : Normalised s) (he : e ∈ s.track)
    (h : iterationLe E s e = .next s') :
    ∃ y, E.keep y = false ∧ (∀ ρ, s.Sol I E ρ → s'.Sol I E ρ) ∧ ∀ ρ, s'.Sol I E ρ → ∃ b, s.Sol I E (setl ρ y b) :=
  stepLe_sol hE hI hs hn he h

/-- If the compression finds the model inconsistent, it has no solution. -/
theorem C42_le_unsat (I : LInterp) (E : LEnv) (hE : ∀ ts, SortedIdx ts (E.sorter ts)) (s : LState) (e : Nat × Nat)
    (hs : LSound s) (hn : Normalised s) (he : e ∈ s.track) (h : iterationLe E s e = .unsat) (ρ : Atom → Int) :
    ¬ s.Sol I E ρ := stepLe_unsat hE hs hn he h ρ

/-! ## Where it does not hold -/

namespace Chain

/-- `w → x`, `x → y`, `x ∧ y → a`, and one more use of `x`; `w`, `x`, `y`, `a` are 0 to 3. -/
def dupItems : List Item := [.clause [1] [0], .clause [2] [1], .clause [3] [2, 1], .other 0]
def dupSig : Sig := ⟨fun _ => [], fun _ => [1]⟩
def dupKeep : Nat → Bool := fun v => decide (v = 0 ∨ v = 3)
def dupMid : State :=
  ⟨[some (.clause [1] [0]), none, none, some (.other 0), some (.clause [3] [1, 1])], [(0, 0), (1, 4), (1, 4)]⟩

/-- `x → y` and `pred_imp(y, y)`, where the predicate holds if its argument is false; `x`, `y` are 0 and 1. -/
def ctlItems : List Item := [.clause [1] [0], .imp 0 1]
def ctlSig : Sig := ⟨fun _ => [1], fun _ => []⟩
def ctlKeep : Nat → Bool := fun v => decide (v = 0)
def ctlInterp : Interp := ⟨fun _ σ => σ 1 = false, fun _ _ => True⟩
def ctlEnd : State := ⟨[none, some (.imp 0 0)], [(0, 1)]⟩

/-- `w ≤ p`, `p ≤ n` and `2n - 5p + q ≤ 0`; `w`, `p`, `n`, `q` are 0 to 3, all in `0..10`. -/
def leItems : List LItem :=
  [.lin [(1, .id 0), (-1, .id 1)] 0, .lin [(1, .id 1), (-1, .id 2)] 0,
   .lin [(2, .id 2), (-5, .id 1), (1, .id 3)] 0]
/-- A sorter that the kernel can evaluate where it is needed. -/
def leSorter (ts : List (Int × Atom)) : List Nat :=
  if ts = [(2, .id 1), (-5, .id 1), (1, .id 3)] then [0, 1, 2]
  else if ts = [(-3, .id 0), (1, .id 3)] then [0, 1]
  else if ts = [(2, .id 1), (1, .id 3)] then [0, 1]
  else Linear.sortIdx ts
theorem leSorter_sorted (ts : List (Int × Atom)) : SortedIdx ts (leSorter ts) := by
  unfold leSorter
  split
  · rename_i h; subst h; exact ⟨by decide, by decide⟩
  · split
    · rename_i h; subst h; exact ⟨by decide, by decide⟩
    · split
      · rename_i h; subst h; exact ⟨by decide, by decide⟩
      · exact Linear.sortIdx_sorted ts
def leEnv : LEnv where
  sig := ⟨fun _ => [], fun _ => none⟩
  dom := fun _ => some [⟨.fin 0, .fin 10⟩]
  keep := fun v => decide (v = 0 ∨ v = 3)
  sorter := leSorter
def leMid : LState :=
  ⟨[some (.lin [(1, .id 0), (-1, .id 1)] 0), none, some (.lin [(-3, .id 1), (1, .id 3)] 0)],
    [(0, 0), (3, 2), (1, 2)]⟩
def leEnd : LState :=
  ⟨[none, none, some (.lin [(-3, .id 0), (1, .id 3)] 0)], [(3, 2), (0, 2)]⟩

end Chain

/-- A clause may come to hold a variable twice; it is then stored twice, is counted as two occurrences, and is processed
twice, the second time after it has been removed. -/
theorem C42_imp_duplicate_fails :
    ∃ (S : Sig) (keep : Nat → Bool) (items : List Item) (s1 : State) (e1 e2 : Nat × Nat),
      Clean S (start items) ∧ Declared (start items) ∧ e1 ∈ (start items).track ∧
      iteration S keep (start items) e1 = .next s1 ∧ e2 ∈ s1.track ∧ iteration S keep s1 e2 = .ub := by
  refine ⟨dupSig, dupKeep, dupItems, dupMid, (1, 1), (0, 0), ⟨?_, ?_⟩, ?_, by decide, ?_, by decide, ?_⟩
  · intro p b h; simp [start, dupItems] at h
  · intro pos neg h
    simp only [start, dupItems, List.map_cons, List.map_nil, List.mem_cons, Option.some.injEq, Item.clause.injEq,
      List.not_mem_nil, or_false, reduceCtorEq] at h
    rcases h with ⟨-, rfl⟩ | ⟨-, rfl⟩ | ⟨-, rfl⟩ <;> decide
  · intro i j it jt y h1 h2 h3 h4
    have : ∀ (k : Nat) (kt : Item), (start dupItems).items[k]? = some (some kt) → kt.declares = none := by
      intro k kt hk
      have := List.mem_of_getElem? hk
      simp only [start, dupItems, List.map_cons, List.map_nil, List.mem_cons, Option.some.injEq,
        List.not_mem_nil, or_false] at this
      rcases this with rfl | rfl | rfl | rfl <;> rfl
    rw [this i it h1] at h3
    cases h3
  · rfl
  · rfl

/-- Compression may add solutions if a half-reified call has its control variable as another argument: `y` is replaced
as the control only, but counted as one occurrence. -/
theorem C42_imp_control_fails :
    ∃ (I : Interp) (S : Sig) (keep : Nat → Bool) (items : List Item) (s' : State) (e : Nat × Nat) (σ : Nat → Bool),
      I.Respects S ∧ e ∈ (start items).track ∧ iteration S keep (start items) e = .next s' ∧
      s'.Extends I keep σ ∧ ¬ (start items).Extends I keep σ := by
  refine ⟨ctlInterp, ctlSig, ctlKeep, ctlItems, ctlEnd, (0, 0), fun v => decide (v = 0), ⟨?_, ?_⟩, by decide, rfl,
    ⟨fun v => decide (v = 0), fun _ _ => rfl, ?_⟩, ?_⟩
  · intro n σ τ h hσ
    simp only [ctlInterp, ctlSig, List.mem_singleton, forall_eq] at h hσ ⊢
    rw [← h]; exact hσ
  · intro n σ τ _ _; trivial
  · intro it hit
    simp only [ctlEnd, List.mem_cons, Option.some.injEq, List.not_mem_nil, or_false, reduceCtorEq, false_or] at hit
    subst hit
    intro _
    rfl
  · rintro ⟨τ, h1, h2⟩
    have h0 : τ 0 = true := h1 0 (by decide)
    have ha := h2 (.clause [1] [0]) (by simp [start, ctlItems])
    have hb := h2 (.imp 0 1) (by simp [start, ctlItems])
    simp only [Item.Holds, List.mem_singleton, exists_eq_left, h0, reduceCtorEq, or_false] at ha
    have := hb ha
    simp only [ctlInterp] at this
    rw [ha] at this
    cases this

/-- `y → y` with one more occurrence of `y`: the loop goes on with the same iterator, for ever. -/
theorem C42_imp_loop_fails :
    ∃ (S : Sig) (keep : Nat → Bool) (items : List Item) (e : Nat × Nat),
      Clean S (start items) ∧ e ∈ (start items).track ∧ iteration S keep (start items) e = .loop := by
  refine ⟨⟨fun _ => [], fun _ => [0]⟩, fun _ => false, [.clause [0] [0], .other 0], (0, 0), ⟨?_, ?_⟩, by decide, rfl⟩
  · intro p b h; simp [start] at h
  · intro pos neg h
    simp only [start, List.map_cons, List.map_nil, List.mem_cons, Option.some.injEq, Item.clause.injEq,
      List.not_mem_nil, or_false, reduceCtorEq] at h
    rw [h.2]; decide

/-- Two compressions of inequalities lose a solution: after the first, `-3p + q ≤ 0` is stored under `p` although the
coefficient is negative, and so `p` is replaced by the smaller `w`. -/
theorem C42_le_sign_fails :
    ∃ (I : LInterp) (E : LEnv) (items : List LItem) (s1 s2 : LState) (e1 e2 : Nat × Nat) (ρ : Atom → Int),
      (∀ ts, SortedIdx ts (E.sorter ts)) ∧ LRespects I E.sig ∧ Normalised (startLe items) ∧
      e1 ∈ (startLe items).track ∧ iterationLe E (startLe items) e1 = .next s1 ∧ e2 ∈ s1.track ∧
      iterationLe E s1 e2 = .next s2 ∧ (startLe items).Extends I E ρ ∧ ¬ s2.Extends I E ρ := by
  refine ⟨fun _ _ => True, leEnv, leItems, leMid, leEnd, (1, 1), (0, 0),
    fun a => if a = .id 3 then 3 else 0, leSorter_sorted, fun _ _ _ _ _ _ => trivial, ?_, by decide, ?_,
    by decide, ?_, ⟨fun a => if a = .id 3 then 3 else if a = .id 0 then 0 else 1, ?_, ?_, ?_⟩, ?_⟩
  · intro ts c h
    simp only [startLe, leItems, List.map_cons, List.map_nil, List.mem_cons, Option.some.injEq, LItem.lin.injEq,
      List.not_mem_nil, or_false] at h
    rcases h with ⟨rfl, -⟩ | ⟨rfl, -⟩ | ⟨rfl, -⟩ <;> simp
  · decide +kernel
  · decide +kernel
  · intro v hv
    simp only [leEnv, decide_eq_true_eq] at hv
    rcases hv with rfl | rfl <;> simp
  · intro v l hl
    simp only [leEnv, Option.some.injEq] at hl
    subst hl
    refine ⟨_, List.mem_singleton.2 rfl, ?_⟩
    dsimp only
    split
    · simp [Range.Mem]
    · split <;> simp [Range.Mem]
  · intro it hit
    simp only [startLe, leItems, List.map_cons, List.map_nil, List.mem_cons, Option.some.injEq,
      List.not_mem_nil, or_false] at hit
    rcases hit with rfl | rfl | rfl <;> simp [LItem.Holds, Linear.sum, Linear.Atom.eval]
  · rintro ⟨τ, h1, -, h2⟩
    have h3 := h1 3 (by decide)
    have h0 := h1 0 (by decide)
    have := h2 (.lin [(-3, .id 0), (1, .id 3)] 0) (by simp [leEnd])
    simp [LItem.Holds, Linear.sum, Linear.Atom.eval, h3, h0] at this

/-! ## The hypotheses are satisfiable -/

namespace Chain

/-- `x → y`, `y → (a ∨ b)` and `y → c`, with `x`, `y`, `a`, `b`, `c` = 0 to 4. -/
def exItems : List Item := [.clause [1] [0], .clause [2, 3] [1], .clause [4] [1]]
def exSig : Sig := ⟨fun _ => [], fun _ => []⟩
def exKeep : Nat → Bool := fun v => decide (v ≠ 1)
def exEnd : State :=
  ⟨[none, none, none, some (.clause [2, 3] [0]), some (.clause [4] [0])], [(0, 3), (0, 4)]⟩

theorem exClean : Clean exSig exEnd := by
  refine ⟨?_, ?_⟩
  · intro p b h; simp [exEnd] at h
  · intro pos neg h
    simp only [exEnd, List.mem_cons, Option.some.injEq, Item.clause.injEq,
      List.not_mem_nil, or_false, reduceCtorEq, false_or] at h
    rcases h with ⟨-, rfl⟩ | ⟨-, rfl⟩ <;> decide

/-- Both implications are compressed. -/
example : Run exSig exKeep (start exItems) exEnd :=
  .step _ exEnd _ (0, 0) (by decide) rfl exClean (.done _)

example : Clean exSig (start exItems) := by
  refine ⟨?_, ?_⟩
  · intro p b h; simp [start, exItems] at h
  · intro pos neg h
    simp only [start, exItems, List.map_cons, List.map_nil, List.mem_cons, Option.some.injEq, Item.clause.injEq,
      List.not_mem_nil, or_false] at h
    rcases h with ⟨-, rfl⟩ | ⟨-, rfl⟩ | ⟨-, rfl⟩ <;> decide

/-- `p ≤ n` and `2n + q ≤ 7`: becomes `2p + q ≤ 7`. -/
def exLeItems : List LItem := [.lin [(1, .id 1), (-1, .id 2)] 0, .lin [(2, .id 2), (1, .id 3)] 7]
def exLeEnv : LEnv := { leEnv with keep := fun v => decide (v ≠ 2) }
def exLeEnd : LState := ⟨[none, some (.lin [(2, .id 1), (1, .id 3)] 7)], [(3, 1), (1, 1)]⟩

example : RunLe exLeEnv (startLe exLeItems) exLeEnd := by
  refine .step _ exLeEnd _ (1, 0) 2 1 (by decide) (by decide +kernel) (by decide +kernel) ?_ (.done _)
  intro i ts c hi hit
  have : i = 1 := by
    simp only [startLe, exLeItems] at hi
    revert hi
    have : ((2, i) ∈ ([(1, 0), (2, 1), (3, 1)] : List (Nat × Nat)) → i = 1) := by simp
    exact this
  subst this
  simp only [startLe, exLeItems, List.map_cons, List.map_nil, List.getElem?_cons_succ, List.getElem?_cons_zero,
    Option.some.injEq, LItem.lin.injEq] at hit
  rw [← hit.1]
  decide

end Chain
end MZ
