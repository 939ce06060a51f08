import Verif.IntVal.Model
/-!
# The trail (lib/gc.cpp 684–702) and the collector's lock (352–378)
-/
namespace MZ
namespace GCTrail

/-- gc.cpp 92–98 `TItem`: a mark, or a location with the value to restore. -/
inductive TItem where
  | mark
  | entry (l v : Nat)

/-- Memory and trail (last entry first). -/
structure State where
  mem : Nat → Nat
  trail : List TItem

def State.set (s : State) (l v : Nat) : State := { s with mem := fun x => if x = l then v else s.mem x }

/-- gc.cpp 693–698: the loop of `GC::untrail`. `back()` of an empty trail is undefined. -/
def undo : List TItem → (Nat → Nat) → Res State
  | [], _ => .ub
  | .mark :: t, m => .ok ⟨m, t⟩
  | .entry l v :: t, m => undo t fun x => if x = l then v else m x

/-- What a client does: `GC::mark` (684–688), `GC::trail` of the current value of a location (689–692, as in
`VarDecl::trail`, ast.cpp), an assignment, `GC::untrail` (693–702). -/
inductive Op where
  | mark
  | trail (l : Nat)
  | write (l v : Nat)
  | untrail

def step (s : State) : Op → Res State
  | .mark => .ok { s with trail := .mark :: s.trail }
  | .trail l => .ok { s with trail := .entry l (s.mem l) :: s.trail }
  | .write l v => .ok (s.set l v)
  | .untrail => undo s.trail s.mem

def run : State → List Op → Res State
  | s, [] => .ok s
  | s, o :: os => do
    let s ← step s o
    run s os

/-! ## Specification: a mark takes a copy of the whole memory, undoing brings that copy back -/

structure Spec where
  mem : Nat → Nat
  copies : List (Nat → Nat)

def specStep (s : Spec) : Op → Option Spec
  | .mark => some { s with copies := s.mem :: s.copies }
  | .trail _ => some s
  | .write l v => some { s with mem := fun x => if x = l then v else s.mem x }
  | .untrail =>
    match s.copies with
    | [] => none
    | c :: cs => some ⟨c, cs⟩

def specRun : Spec → List Op → Option Spec
  | s, [] => some s
  | s, o :: os => (specStep s o).bind fun s => specRun s os

/-- The discipline of the clients: under a mark, a location is only written after it has been put on the trail since that
mark. The first argument lists, for every open mark, the locations trailed since. -/
def Disciplined : List (List Nat) → List Op → Prop
  | _, [] => True
  | ls, .mark :: os => Disciplined ([] :: ls) os
  | l :: ls, .trail x :: os => Disciplined ((x :: l) :: ls) os
  | [], .trail _ :: os => Disciplined [] os
  | l :: ls, .write x _ :: os => x ∈ l ∧ Disciplined (l :: ls) os
  | [], .write _ _ :: os => Disciplined [] os
  | _ :: ls, .untrail :: os => Disciplined ls os
  | [], .untrail :: _ => False

/-! ## Proof -/

/-- The entries since the last mark, and what is below. -/
inductive Level (copy : Nat → Nat) : List Nat → (Nat → Nat) → List TItem → List TItem → Prop
  | base {below : List TItem} {mem : Nat → Nat} : mem = copy → Level copy [] mem (.mark :: below) below
  | entry {ls : List Nat} {mem mem' : Nat → Nat} {t below : List TItem} {l v : Nat} :
      Level copy ls mem' t below → (mem' = fun x => if x = l then v else mem x) → Level copy (l :: ls) mem (.entry l v :: t) below

theorem Level.undo {copy ls mem t below} (h : Level copy ls mem t below) : undo t mem = .ok ⟨copy, below⟩ := by
  induction h with
  | base h => rw [GCTrail.undo, h]
  | entry _ e ih => rw [GCTrail.undo, ← e, ih]

theorem Level.write {copy ls mem t below} (h : Level copy ls mem t below) {l v : Nat} (hl : l ∈ ls) :
    Level copy ls (fun x => if x = l then v else mem x) t below := by
  induction h with
  | base h => simp at hl
  | @entry ls mem mem' t below k w h e ih =>
    by_cases hk : l = k
    · subst hk
      refine .entry h ?_
      rw [e]
      funext x
      by_cases hx : x = l <;> simp [hx]
    · have hl' : l ∈ ls := by
        rcases List.mem_cons.1 hl with h' | h'
        · exact absurd h' hk
        · exact h'
      refine .entry (ih hl') ?_
      rw [e]
      funext x
      by_cases hx : x = l
      · subst hx; simp [hk]
      · simp [hx]

/-- The trail agrees with the copies, level by level. -/
inductive Rel : (Nat → Nat) → List TItem → List (Nat → Nat) → List (List Nat) → Prop
  | bottom {mem t} : Rel mem t [] []
  | level {mem t below c cs l ls} : Level c l mem t below → Rel c below cs ls → Rel mem t (c :: cs) (l :: ls)

theorem run_ok : ∀ (os : List Op) (s : State) (cs : List (Nat → Nat)) (ls : List (List Nat)), Rel s.mem s.trail cs ls →
    Disciplined ls os → ∃ s' c', run s os = .ok s' ∧ specRun ⟨s.mem, cs⟩ os = some c' ∧ s'.mem = c'.mem := by
  intro os
  induction os with
  | nil => intro s cs ls _ _; exact ⟨s, _, rfl, rfl, rfl⟩
  | cons o os ih =>
    intro s cs ls r d
    cases o with
    | mark =>
      have := ih { s with trail := .mark :: s.trail } (s.mem :: cs) ([] :: ls) (.level (.base rfl) r) d
      simpa [run, step, specRun, specStep] using this
    | trail l =>
      cases r with
      | bottom =>
        have := ih { s with trail := .entry l (s.mem l) :: s.trail } [] [] .bottom d
        simpa [run, step, specRun, specStep] using this
      | @level _ _ below c cs lv ls h r =>
        have := ih { s with trail := .entry l (s.mem l) :: s.trail } (c :: cs) ((l :: lv) :: ls) (.level (.entry h (by
          funext x
          by_cases hx : x = l <;> simp [hx])) r) d
        simpa [run, step, specRun, specStep] using this
    | write l v =>
      cases r with
      | bottom =>
        have := ih (s.set l v) [] [] .bottom d
        simpa [run, step, specRun, specStep, State.set] using this
      | @level _ _ below c cs lv ls h r =>
        have := ih (s.set l v) (c :: cs) (lv :: ls) (.level (h.write d.1) r) d.2
        simpa [run, step, specRun, specStep, State.set] using this
    | untrail =>
      cases r with
      | bottom => exact absurd d (by simp [Disciplined])
      | @level _ _ below c cs lv ls h r =>
        have := ih ⟨c, below⟩ cs ls r d
        simpa [run, step, specRun, specStep, h.undo] using this

/-- **C28**. Whatever disciplined sequence of marks, trailed writes and undos is performed, the memory is always what it
would be if every mark copied the whole memory and every undo brought the last copy back. -/
theorem _root_.MZ.C28_trail (mem : Nat → Nat) (os : List Op) (d : Disciplined [] os) :
    ∃ s c, run ⟨mem, []⟩ os = .ok s ∧ specRun ⟨mem, []⟩ os = some c ∧ s.mem = c.mem :=
  run_ok os ⟨mem, []⟩ [] [] .bottom d

/-- Nesting depth reached by a sequence, starting at `n`; `none` if more marks are undone than were set. -/
def depth : Nat → List Op → Option Nat
  | n, [] => some n
  | n, .mark :: os => depth (n + 1) os
  | 0, .untrail :: _ => none
  | n + 1, .untrail :: os => depth n os
  | n, _ :: os => depth n os

theorem spec_balanced : ∀ (os : List Op) (s : Spec) (above below : List (Nat → Nat)) (n : Nat), s.copies = above ++ below →
    depth above.length os = some n → ∃ s' above', specRun s os = some s' ∧ s'.copies = above' ++ below ∧ above'.length = n := by
  intro os
  induction os with
  | nil =>
    intro s above below n h hd
    simp [depth] at hd
    exact ⟨s, above, rfl, h, hd⟩
  | cons o os ih =>
    intro s above below n h hd
    cases o with
    | mark =>
      simp only [depth] at hd
      have := ih { s with copies := s.mem :: s.copies } (s.mem :: above) below n (by simp [h]) (by simpa using hd)
      simpa [specRun, specStep] using this
    | trail l =>
      have hd' : depth above.length os = some n := by
        cases hl : above.length <;> rw [hl] at hd <;> simpa [depth] using hd
      simpa [specRun, specStep] using ih s above below n h hd'
    | write l v =>
      have hd' : depth above.length os = some n := by
        cases hl : above.length <;> rw [hl] at hd <;> simpa [depth] using hd
      have := ih { s with mem := fun x => if x = l then v else s.mem x } above below n h hd'
      simpa [specRun, specStep] using this
    | untrail =>
      cases above with
      | nil => simp [depth] at hd
      | cons a above =>
        simp only [List.length_cons, depth] at hd
        have := ih ⟨a, above ++ below⟩ above below n rfl hd
        simpa [specRun, specStep, h] using this

theorem specRun_append (os os' : List Op) : ∀ s, specRun s (os ++ os') = (specRun s os).bind fun s => specRun s os' := by
  induction os with
  | nil => intro s; rfl
  | cons o os ih =>
    intro s
    simp only [List.cons_append, specRun]
    cases specStep s o with
    | none => rfl
    | some s => simpa using ih s

/-- **C28**. Undoing to a mark restores the memory as it was when the mark was set, whatever (well nested) has been done in
between. -/
theorem _root_.MZ.C28_restore (mem : Nat → Nat) (before os : List Op) (d : Disciplined [] (before ++ .mark :: os ++ [.untrail]))
    (n : depth 0 os = some 0) :
    ∃ s s', run ⟨mem, []⟩ before = .ok s ∧ run ⟨mem, []⟩ (before ++ .mark :: os ++ [.untrail]) = .ok s' ∧ s'.mem = s.mem := by
  obtain ⟨s', c', e', ec', h'⟩ := C28_trail mem _ d
  have dis : Disciplined [] before := by
    have gen : ∀ (os os' : List Op) (ls : List (List Nat)), Disciplined ls (os ++ os') → Disciplined ls os := by
      intro os
      induction os with
      | nil => intro os' ls _; cases ls <;> simp [Disciplined]
      | cons o os ih =>
        intro os' ls h
        cases o <;> cases ls <;> simp only [List.cons_append, Disciplined] at h ⊢
        · exact ih _ _ h
        · exact ih _ _ h
        · exact ih _ _ h
        · exact ih _ _ h
        · exact ih _ _ h
        · exact ⟨h.1, ih _ _ h.2⟩
        · exact ih _ _ h
    rw [List.append_assoc] at d
    exact gen _ _ _ d
  obtain ⟨s, c, e, ec, h⟩ := C28_trail mem _ dis
  refine ⟨s, s', e, e', ?_⟩
  rw [h', h]
  rw [List.append_assoc, specRun_append, ec] at ec'
  simp only [List.cons_append, specRun, specStep, Option.bind_some] at ec'
  rw [specRun_append] at ec'
  obtain ⟨c2, above, e2, h2, hl⟩ := spec_balanced os ⟨c.mem, c.mem :: c.copies⟩ [] (c.mem :: c.copies) 0 rfl (by simpa using n)
  rw [e2] at ec'
  have : above = [] := List.length_eq_zero_iff.1 hl
  subst this
  simp only [List.nil_append] at h2
  simp only [Option.bind_some, specRun, specStep, h2] at ec'
  simp at ec'
  rw [← ec']

/-- Non-vacuity: nested marks, a location written twice, and one written at two levels. -/
example : Disciplined [] ([.write 1 5] ++ .mark :: [.trail 1, .write 1 6, .write 1 7, .mark, .trail 1, .trail 2, .write 1 8, .write 2 3,
    .untrail] ++ [.untrail]) := by
  simp [Disciplined]

/-- The discipline is needed: a location that is written without having been trailed keeps its value. -/
theorem _root_.MZ.C28_untrailed_write_stays :
    ∃ s, run ⟨fun _ => 0, []⟩ [.mark, .write 1 5, .untrail] = .ok s ∧ s.mem 1 = 5 := ⟨_, rfl, rfl⟩

/-- An undo can be skipped: `eval_comp_array` (eval_par.hh 179–258) sets its mark without a guard, and when the body throws
`ResultUndefinedError` (caught around the sides of every comparison, eval_par.cpp 1452–1525) its mark stays on the trail. The
undo of an enclosing `let` (`LetPushBindings`, ast.hh 1563–1568) then only reaches the comprehension's mark: with location 1 the
variable of the `let` and location 2 the generator of the comprehension, the value of the variable before the `let` is lost. -/
theorem _root_.MZ.C28_exception_skips_undo :
    ∃ s, run ⟨fun _ => 0, []⟩ [.mark, .trail 1, .write 1 5, .mark, .trail 2, .write 2 7, /- exception -/ .untrail] = .ok s ∧
      s.mem 1 = 5 ∧ s.mem 2 = 0 := ⟨_, rfl, rfl, rfl⟩

/-! ## The lock -/

/-- gc.cpp 352–378 and the fields they use. -/
structure Lock where
  count : Nat
  alloced : Nat
  threshold : Nat

/-- Operations; `collected` is the outcome of a collection (memory in use afterwards) if there is one, `big` whether the
threshold is raised by half. `alloc` stands for an allocation of that many bytes (422–430). -/
inductive LOp where
  | lock (after : Nat) (big : Bool)
  | lockNoGC
  | unlock
  | trigger (after : Nat) (big : Bool)
  | alloc (bytes : Nat)

/-- gc.cpp 315 `_min_gcThreshold`. -/
def minThreshold : Nat := 10240

/-- 203–229: the new threshold. -/
def collectL (s : Lock) (after : Nat) (big : Bool) : Lock :=
  { s with alloced := after, threshold := if big then max minThreshold (after * 3 / 2) else max minThreshold after }

/-- Returns whether a collection took place. -/
def stepL (s : Lock) : LOp → Res (Bool × Lock)
  | .lock after big =>
    if s.count = 0 ∧ s.alloced > s.threshold then
      let s := collectL s after big
      .ok (true, { s with count := s.count + 1 })
    else .ok (false, { s with count := s.count + 1 })
  | .lockNoGC => .ok (false, { s with count := s.count + 1 })
  | .unlock => if s.count = 0 then .ub else .ok (false, { s with count := s.count - 1 })
  | .trigger after big => if s.count = 0 then .ok (true, collectL s after big) else .ok (false, s)
  | .alloc b => if s.count = 0 then .ub else .ok (false, { s with alloced := s.alloced + b })

/-- The collections of a run, one flag per operation. -/
def runL : Lock → List LOp → Res (List Bool × Lock)
  | s, [] => .ok ([], s)
  | s, o :: os => do
    let (c, s) ← stepL s o
    let (cs, s) ← runL s os
    .ok (c :: cs, s)

/-- Locks held after a sequence of operations, starting with `n`; `none` if there is an `unlock` too many. -/
def held : Nat → List LOp → Option Nat
  | n, [] => some n
  | n, .lock _ _ :: os => held (n + 1) os
  | n, .lockNoGC :: os => held (n + 1) os
  | 0, .unlock :: _ => none
  | n + 1, .unlock :: os => held n os
  | n, .trigger _ _ :: os => held n os
  | n, .alloc _ :: os => held n os

/-- **C29**. As long as the lock taken first has not been released, in any nesting of further locks, no operation runs a
collection: not locking, not triggering, not allocating. None of them fails. -/
theorem _root_.MZ.C29_locked (os : List LOp) : ∀ (s : Lock) (n k : Nat), s.count = n + 1 → held n os = some k →
    ∃ cs s', runL s os = .ok (cs, s') ∧ (∀ c ∈ cs, c = false) ∧ s'.count = k + 1 := by
  induction os with
  | nil =>
    intro s n k h e
    simp [held] at e
    exact ⟨[], s, rfl, by simp, by omega⟩
  | cons o os ih =>
    intro s n k h e
    have go : ∀ s1 n1, stepL s o = .ok (false, s1) → s1.count = n1 + 1 → held n1 os = some k →
        ∃ cs s', runL s (o :: os) = .ok (cs, s') ∧ (∀ c ∈ cs, c = false) ∧ s'.count = k + 1 := by
      intro s1 n1 e1 h1 e2
      obtain ⟨cs, s', e3, h3, h4⟩ := ih s1 n1 k h1 e2
      refine ⟨false :: cs, s', ?_, ?_, h4⟩
      · simp [runL, e1, e3]
      · intro c hc
        rcases List.mem_cons.1 hc with h | h
        · exact h
        · exact h3 c h
    cases o with
    | lock a b =>
      refine go { s with count := s.count + 1 } (n + 1) ?_ (by simp [h]) (by cases n <;> simpa [held] using e)
      simp [stepL, h]
    | lockNoGC =>
      exact go { s with count := s.count + 1 } (n + 1) (by simp [stepL]) (by simp [h]) (by cases n <;> simpa [held] using e)
    | unlock =>
      cases n with
      | zero => simp [held] at e
      | succ n =>
        refine go { s with count := s.count - 1 } n ?_ (by simp [h]) (by simpa [held] using e)
        simp [stepL, h]
    | trigger a b =>
      exact go s n (by simp [stepL, h]) h (by cases n <;> simpa [held] using e)
    | alloc b =>
      exact go { s with alloced := s.alloced + b } n (by simp [stepL, h]) h (by cases n <;> simpa [held] using e)

/-- **C29**. Every collection of any run happens while no lock is held. -/
theorem _root_.MZ.C29_collection_unlocked {s s' : Lock} {o : LOp} (h : stepL s o = .ok (true, s')) : s.count = 0 := by
  cases o <;> simp only [stepL] at h
  · split at h
    · rename_i hc; exact hc.1
    · simp at h
  · simp at h
  · split at h <;> simp at h
  · split at h
    · assumption
    · simp at h
  · split at h <;> simp at h

/-- **C29**. A collection that is due runs when the outermost lock is taken, and afterwards none is due: locking again
without having allocated does not collect again. -/
theorem _root_.MZ.C29_due (s : Lock) (after : Nat) (big : Bool) (h : s.count = 0) (due : s.alloced > s.threshold) :
    ∃ s', stepL s (.lock after big) = .ok (true, s') ∧ s'.count = 1 ∧ s'.alloced ≤ s'.threshold ∧ minThreshold ≤ s'.threshold := by
  refine ⟨{ collectL s after big with count := 1 }, by simp [stepL, h, due, collectL], rfl, ?_⟩
  simp only [collectL]
  split <;> omega

/-- Non-vacuity. -/
example : ∃ cs s', runL ⟨0, 20000, 10240⟩ [.lock 5000 true, .alloc 30000, .lock 0 false, .trigger 0 true, .unlock, .unlock, .lock 100 false]
    = .ok (cs, s') ∧ cs = [true, false, false, false, false, false, true] := ⟨_, _, rfl, by decide⟩

end GCTrail
end MZ
