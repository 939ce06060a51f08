import Verif.Let.Flatten
/-!
# C71: let expressions
-/
namespace MZ
namespace Let
open BoolFlat (BCtx Cmp)

/-- The position of an expression by its context. -/
def polOf : BCtx → Pol
  | .root => .pos
  | .pos => .pos
  | .neg => .neg
  | .mix => .both

theorem polOf_dn (c : BCtx) : polOf c.dn = (polOf c).flip := by cases c <;> rfl

theorem polOf_up (c : BCtx) : polOf c.up = polOf c := by cases c <;> rfl

mutual
theorem flatI_some : ∀ (t : IE) (c : BCtx) (st : St), (flatI c t st).isSome ↔ t.FreePos (polOf c)
  | .lit _, c, st => by simp [flatI, IE.FreePos]
  | .var _, c, st => by simp [flatI, IE.FreePos]
  | .add s t, c, st => by
    simp only [flatI, IE.FreePos]
    have h1 := flatI_some s c st
    cases e1 : flatI c s st with
    | none => rw [e1] at h1; simp at h1; simp [h1]
    | some p =>
      rw [e1] at h1
      have h2 := flatI_some t c p.1
      cases e2 : flatI c t p.1 with
      | none => rw [e2] at h2; simp at h2; simp [h2, e2]
      | some q => rw [e2] at h2; simp at h1 h2; simp [h1, h2, e2]
  | .div s t, c, st => by
    simp only [flatI, IE.FreePos]
    have h1 := flatI_some s c st
    cases e1 : flatI c s st with
    | none => rw [e1] at h1; simp at h1; simp [h1]
    | some p =>
      rw [e1] at h1
      have h2 := flatI_some t c p.1
      cases e2 : flatI c t p.1 with
      | none => rw [e2] at h2; simp at h2; simp [h2, e2]
      | some q => rw [e2] at h2; simp at h1 h2; simp [h1, h2, e2]
  | .let_ its t, c, st => by
    simp only [flatI, IE.FreePos]
    have h1 := flatItems_some its c st
    cases e1 : flatItems c its st with
    | none => rw [e1] at h1; simp at h1; simp [h1]
    | some p =>
      rw [e1] at h1
      have h2 := flatI_some t c p.1
      cases e2 : flatI c t p.1 with
      | none => rw [e2] at h2; simp at h2; simp [h2, e2]
      | some q => rw [e2] at h2; simp at h1 h2; simp [h1, h2, e2]

theorem flatB_some : ∀ (e : BE) (c : BCtx) (neg tru : Bool) (st : St), (flatB c neg tru e st).isSome ↔ e.FreePos (polOf c)
  | .var _, c, neg, tru, st => by simp [flatB, BE.FreePos]
  | .cmp o s t, c, neg, tru, st => by
    simp only [flatB, BE.FreePos]
    have h1 := flatI_some s c st
    cases e1 : flatI c s st with
    | none => rw [e1] at h1; simp at h1; simp [h1]
    | some p =>
      rw [e1] at h1
      have h2 := flatI_some t c p.1
      cases e2 : flatI c t p.1 with
      | none => rw [e2] at h2; simp at h2; simp [h2, e2]
      | some q => rw [e2] at h2; simp at h1 h2; simp [h1, h2, e2]
  | .not e, c, neg, tru, st => by
    simp only [flatB, BE.FreePos]
    rw [flatB_some e c.dn (!neg) tru st, polOf_dn]
  | .and x y, c, neg, tru, st => by
    simp only [flatB, BE.FreePos]
    by_cases ht : (tru && !neg) = true
    · rw [if_pos ht]
      have h1 := flatB_some x c false true st
      cases e1 : flatB c false true x st with
      | none => rw [e1] at h1; simp at h1; simp [h1]
      | some p =>
        rw [e1] at h1
        have h2 := flatB_some y c false true p.1
        cases e2 : flatB c false true y p.1 with
        | none => rw [e2] at h2; simp at h2; simp [h2, e2]
        | some q => rw [e2] at h2; simp at h1 h2; simp [h1, h2, e2]
    · rw [if_neg ht]
      have h1 := flatB_some x c neg false st
      cases e1 : flatB c neg false x st with
      | none => rw [e1] at h1; simp at h1; simp [h1]
      | some p =>
        rw [e1] at h1
        have h2 := flatB_some y c neg false p.1
        cases e2 : flatB c neg false y p.1 with
        | none => rw [e2] at h2; simp at h2; simp [h2, e2]
        | some q => rw [e2] at h2; simp at h1 h2; simp [h1, h2, e2]
  | .or x y, c, neg, tru, st => by
    simp only [flatB, BE.FreePos]
    by_cases ht : (tru && neg) = true
    · rw [if_pos ht]
      have h1 := flatB_some x c true true st
      cases e1 : flatB c true true x st with
      | none => rw [e1] at h1; simp at h1; simp [h1]
      | some p =>
        rw [e1] at h1
        have h2 := flatB_some y c true true p.1
        cases e2 : flatB c true true y p.1 with
        | none => rw [e2] at h2; simp at h2; simp [h2, e2]
        | some q => rw [e2] at h2; simp at h1 h2; simp [h1, h2, e2]
    · rw [if_neg ht]
      have h1 := flatB_some x c.up neg false st
      rw [polOf_up] at h1
      cases e1 : flatB c.up neg false x st with
      | none => rw [e1] at h1; simp at h1; simp [h1]
      | some p =>
        rw [e1] at h1
        have h2 := flatB_some y c.up neg false p.1
        rw [polOf_up] at h2
        cases e2 : flatB c.up neg false y p.1 with
        | none => rw [e2] at h2; simp at h2; simp [h2, e2]
        | some q => rw [e2] at h2; simp at h1 h2; simp [h1, h2, e2]
  | .iff x y, c, neg, tru, st => by
    simp only [flatB, BE.FreePos]
    have h1 := flatB_some x .mix false false st
    cases e1 : flatB .mix false false x st with
    | none => rw [e1] at h1; simp [polOf] at h1; simp [h1]
    | some p =>
      rw [e1] at h1
      have h2 := flatB_some y .mix false false p.1
      cases e2 : flatB .mix false false y p.1 with
      | none => rw [e2] at h2; simp [polOf] at h2; simp [h2, e2]
      | some q => rw [e2] at h2; simp [polOf] at h1 h2; simp [h1, h2, e2]
  | .let_ its e, c, neg, tru, st => by
    simp only [flatB, BE.FreePos]
    have h1 := flatItems_some its c st
    cases e1 : flatItems c its st with
    | none => rw [e1] at h1; simp at h1; simp [h1]
    | some p =>
      rw [e1] at h1
      simp at h1
      by_cases hc : c = .root
      · subst hc
        have h2 := flatB_some e .root false true p.1
        cases e2 : flatB .root false true e p.1 with
        | none => rw [e2] at h2; simp at h2; simp [h2, e2]
        | some q => rw [e2] at h2; simp at h2; simp [h1, h2, e2]
      · have h2 := flatB_some e c false false p.1
        simp only [hc, if_false]
        cases e2 : flatB c false false e p.1 with
        | none => rw [e2] at h2; simp at h2; simp [h2, e2]
        | some q => rw [e2] at h2; simp at h2; simp [h1, h2, e2]

theorem flatItems_some : ∀ (its : Items) (c : BCtx) (st : St), (flatItems c its st).isSome ↔ its.FreePos (polOf c)
  | .nil, c, st => by simp [flatItems, Items.FreePos]
  | .dcl x t d r, c, st => by
    simp only [flatItems, Items.FreePos]
    have h1 := flatI_some t c st
    cases e1 : flatI c t st with
    | none => rw [e1] at h1; simp at h1; simp [h1]
    | some p =>
      obtain ⟨st1, a, b⟩ := p
      rw [e1] at h1
      simp at h1
      cases d with
      | none =>
        have h2 := flatItems_some r c (setFl st1 x a)
        cases e2 : flatItems c r (setFl st1 x a) with
        | none => rw [e2] at h2; simp at h2; simp [h2, e2]
        | some q => rw [e2] at h2; simp at h2; simp [h1, h2, e2]
      | some dom =>
        have h2 := flatItems_some r c (setFl (out (decide (c = .root)) st1 (.mem a dom)).1 x a)
        cases e2 : flatItems c r (setFl (out (decide (c = .root)) st1 (.mem a dom)).1 x a) with
        | none => rw [e2] at h2; simp at h2; simp [h2, e2]
        | some q => rw [e2] at h2; simp at h2; simp [h1, h2, e2]
  | .dclB x e r, c, st => by
    simp only [flatItems, Items.FreePos]
    have h1 := flatB_some e .mix false false st
    cases e1 : flatB .mix false false e st with
    | none => rw [e1] at h1; simp [polOf] at h1; simp [h1]
    | some p =>
      rw [e1] at h1
      have h2 := flatItems_some r c (setFl p.1 x p.2)
      cases e2 : flatItems c r (setFl p.1 x p.2) with
      | none => rw [e2] at h2; simp at h2; simp [h2, e2]
      | some q => rw [e2] at h2; simp [polOf] at h1; simp at h2; simp [h1, h2, e2]
  | .free x d r, c, st => by
    simp only [flatItems, Items.FreePos]
    have h2 := flatItems_some r c (setFl (mk st (.free d)).1 x (mk st (.free d)).2)
    by_cases hc : c = .neg ∨ c = .mix
    · rw [if_pos hc]
      rcases hc with rfl | rfl <;> simp [polOf]
    · rw [if_neg hc]
      have hp : polOf c = .pos := by cases c <;> simp_all [polOf]
      cases e2 : flatItems c r (setFl (mk st (.free d)).1 x (mk st (.free d)).2) with
      | none => rw [e2] at h2; simp at h2; simp [h2, e2]
      | some q => rw [e2] at h2; simp at h2; simp [hp, h2, e2]; rw [← hp]; exact h2
  | .con e r, c, st => by
    simp only [flatItems, Items.FreePos]
    by_cases hc : c = .root
    · rw [if_pos hc]
      subst hc
      have h1 := flatB_some e .root false true st
      cases e1 : flatB .root false true e st with
      | none => rw [e1] at h1; simp at h1; simp [h1]
      | some p =>
        rw [e1] at h1
        simp at h1
        have h2 := flatItems_some r .root p.1
        simp [h1, h2]
    · rw [if_neg hc]
      have h1 := flatB_some e c false false st
      cases e1 : flatB c false false e st with
      | none => rw [e1] at h1; simp at h1; simp [h1]
      | some p =>
        rw [e1] at h1
        simp at h1
        have h2 := flatItems_some r c p.1
        cases e2 : flatItems c r p.1 with
        | none => rw [e2] at h2; simp at h2; simp [h2, e2]
        | some q => rw [e2] at h2; simp at h2; simp [h1, h2, e2]
end

/-- The flat model before a constraint is flattened: the variables of the model. -/
def start (n : Nat) : St := ⟨List.replicate n .glob, [], fun x => if x < n then .var x else .lit 0⟩

theorem wf_start (n : Nat) : WF (start n) := by
  refine ⟨?_, by simp [start], ?_⟩
  · intro k d h
    simp only [start, List.getElem?_replicate] at h
    split at h
    · cases h; trivial
    · cases h
  · intro x
    simp only [start]
    split
    · simpa [Atom.Lt]
    · trivial

theorem ok_start (n : Nat) (σ : Nat → Int) : Ok σ (start n) := by
  refine ⟨fun k d h => ?_, by simp [start]⟩
  simp only [start, List.getElem?_replicate] at h
  split at h
  · cases h; trivial
  · cases h

/-- A constraint is true for values of the variables of the model exactly if these are part of a solution of its flat model. -/
theorem _root_.MZ.C71_let {n : Nat} {e : BE} {st' : St} {a : Atom} (hf : e.Fine)
    (h : flatB .root false true e (start n) = some (st', a)) (ρ : Nat → Int) (hρ : ∀ x, n ≤ x → ρ x = 0) :
    e.True ρ ↔ ∃ σ, Ok σ st' ∧ ∀ x < n, σ x = ρ x := by
  have hp := flatB_spec e .root false true (start n) st' a (wf_start n) hf ⟨fun _ => ⟨rfl, rfl⟩, by simp, by simp⟩ h
  have henv : ∀ σ : Nat → Int, (∀ x < n, σ x = ρ x) → Env (start n) σ ρ := by
    intro σ hs x
    simp only [start]
    split
    · rename_i hx; exact hs x hx
    · rename_i hx; exact (hρ x (by omega)).symm
  constructor
  · intro ht
    obtain ⟨σ, h1, h2, _⟩ := hp.yes ρ ρ (ok_start n ρ) (henv ρ fun _ _ => rfl) ht (fun _ => rfl)
    exact ⟨σ, h2, fun x hx => h1 x (by simpa [start] using hx)⟩
  · rintro ⟨σ, h1, h2⟩
    refine hp.sound (by simp) σ ρ h1 (henv σ h2) ?_
    rw [hp.one rfl]
    simp [Inner, Atom.tr, Atom.val]

/-- The flattening reports an error exactly if there is a local variable without a right-hand side that is not in a positive position. -/
theorem _root_.MZ.C71_free (n : Nat) (e : BE) : (∃ r, flatB .root false true e (start n) = some r) ↔ e.FreePos .pos := by
  rw [← Option.isSome_iff_exists]
  exact flatB_some e .root false true (start n)

/-- In any context, the flattening changes neither the flat variables of declarations nor the flat model that is there, and the solutions
of the flat model stay solutions if the result is not bound. -/
theorem _root_.MZ.C71_restore {c : BCtx} {neg : Bool} {e : BE} {st st' : St} {a : Atom} (hw : WF st) (hf : e.Fine) (hc : c ≠ .root)
    (h : flatB c neg false e st = some (st', a)) :
    st'.fl = st.fl ∧ st.decls <+: st'.decls ∧ ∀ σ, Ok σ st → ∃ σ', (∀ k < st.decls.length, σ' k = σ k) ∧ Ok σ' st' := by
  have hp := flatB_spec e c neg false st st' a hw hf ⟨fun e => absurd e hc, by simp, by simp⟩ h
  exact ⟨hp.fl, hp.grow.decls, fun σ ho => hp.total ho⟩

/-- `false \/ let { var {}: x } in true`-like: with an empty domain of a local variable under a disjunction, the constraint is true but the
flat model has no solution. -/
def emptyDom : BE := .or (.cmp .eq (.lit 0) (.lit 0)) (.let_ (.free 1 [] .nil) (.cmp .eq (.lit 0) (.lit 0)))

theorem _root_.MZ.C71_empty_fails : ∃ st' a, flatB .root false true emptyDom (start 0) = some (st', a) ∧
    emptyDom.True (fun _ => 0) ∧ ¬ ∃ σ, Ok σ st' := by
  refine ⟨_, _, rfl, ?_, ?_⟩
  · left
    exact ⟨0, 0, rfl, rfl, by decide⟩
  · rintro ⟨σ, h, _⟩
    have := h 2 (.free []) rfl
    simp [Def.Holds] at this

/-- `constraint let { var {1,2,3}: y; var {1,2,3}: z = 6 div x; constraint x <= y } in y + z = 5`, with `x` a variable of the model. -/
def ex1 : BE := .let_ (.free 1 [1, 2, 3] (.dcl 2 (.div (.lit 6) (.var 0)) (some [1, 2, 3]) (.con (.cmp .lq (.var 0) (.var 1)) .nil)))
  (.cmp .eq (.add (.var 1) (.var 2)) (.lit 5))

example : ex1.Fine ∧ ex1.FreePos .pos := by simp [ex1, BE.Fine, BE.FreePos, Items.Fine, Items.FreePos, IE.Fine, IE.FreePos, Items.names]

/-- Under a negation it is an error. -/
example : ¬ (BE.not ex1).FreePos .pos := by simp [ex1, BE.FreePos, Items.FreePos, Pol.flip]

/-- It is true for `x = 2` with `y = 2` and `z = 3`. -/
example : ex1.True (upd (fun _ => 0) 0 2) := by
  refine ⟨_, ⟨2, by decide, 3, ⟨6, 2, rfl, ?_, by decide, by decide⟩, by simp, ⟨2, 2, ?_, ?_, by decide⟩, rfl⟩,
    5, 5, ⟨2, 3, ?_, ?_, by decide⟩, rfl, by decide⟩ <;> simp [IE.Val, upd]

/-- It is false for `x = 1`, where `z` would be 6. -/
example : ¬ ex1.True (upd (fun _ => 0) 0 1) := by
  rintro ⟨ρ', ⟨v, hv, w, ⟨a, b, ha, hb, _, hw⟩, hd, _⟩, _⟩
  have hb : b = 1 := by simpa [IE.Val, upd] using hb
  have ha : a = 6 := ha
  subst ha hb
  have := hd _ rfl
  rw [hw] at this
  exact absurd this (by decide)

/-- A let under a negation: `not (let { int: z = 6 div x } in 2 <= z)` is true for `x = 0`. -/
def ex2 : BE := .not (.let_ (.dcl 1 (.div (.lit 6) (.var 0)) none .nil) (.cmp .lq (.lit 2) (.var 1)))

example : ex2.Fine ∧ ex2.FreePos .pos := by simp [ex2, BE.Fine, BE.FreePos, Items.Fine, Items.FreePos, IE.Fine, IE.FreePos, Items.names]

example : ex2.True (fun _ => 0) := by
  rintro ⟨ρ', ⟨v, ⟨a, b, ha, hb, h0, _⟩, _⟩, _⟩
  exact h0 hb

example : ¬ ex2.True (fun x => if x = 0 then 2 else 0) := by
  simp only [ex2, BE.True, not_not]
  refine ⟨_, ⟨3, ⟨6, 2, rfl, rfl, by decide, by decide⟩, by simp, rfl⟩, 2, 3, rfl, ?_, by decide⟩
  simp [IE.Val, upd]

example : ∃ r, flatB .root false true ex2 (start 1) = some r := (C71_free 1 ex2).mpr (by
  simp [ex2, BE.FreePos, Items.FreePos, IE.FreePos])

end Let
end MZ
