import Verif.BoolOpt.Spec

/-!
# Every step of the Boolean simplification keeps the solutions (C39)
-/

namespace MZ
namespace BoolOpt

theorem agrees_set {σ : Asg} {f : Var → Option Bool} {v : Var} {b : Bool} (h : f v = none ∨ f v = some b) :
    Agrees σ (set f v b) ↔ Agrees σ f ∧ σ v = b := by
  constructor
  · intro hs
    refine ⟨fun w c hw => ?_, hs v b (by simp [set])⟩
    by_cases hv : w = v
    · subst hv
      rcases h with h | h
      · rw [h] at hw; exact absurd hw (by simp)
      · rw [h] at hw; cases hw; exact hs _ _ (by simp [set])
    · exact hs w c (by simp [set, hv, hw])
  · rintro ⟨h1, h2⟩ w c hw
    unfold set at hw
    by_cases hv : w = v
    · rw [if_pos hv] at hw; cases hw; rw [hv]; exact h2
    · rw [if_neg hv] at hw; exact h1 w c hw

theorem after_same {σ : Asg} {dom rhs} {it : Item} : After σ (same dom rhs it) ↔ Before σ dom rhs it := by
  simp [After, Before, same]

theorem elemVal_eval {σ : Asg} {dom} (h : Agrees σ dom) {e : Elem} {b : Bool} (he : elemVal dom e = some b) : e.eval σ = b := by
  cases e with
  | lit x => cases he; rfl
  | var v => exact h v b he

theorem elemVal2_eval {σ : Asg} {dom rhs} (h : Agrees σ dom) (h2 : Agrees σ rhs) {e : Elem} {b : Bool}
    (he : elemVal2 dom rhs e = some b) : e.eval σ = b := by
  cases e with
  | lit x => cases he; rfl
  | var v =>
    rw [elemVal2] at he
    cases hd : dom v with
    | none => rw [hd] at he; exact h2 v b he
    | some d => rw [hd] at he; cases he; exact h v _ hd

/-- The values are right. -/
def Right (σ : Asg) (val : Elem → Option Bool) : Prop := ∀ e b, val e = some b → e.eval σ = b

/-- Literals have a value. -/
def Lits (val : Elem → Option Bool) : Prop := ∀ b, val (.lit b) = some b

theorem mem_openIn {val : Elem → Option Bool} {l : List Elem} {v : Var} : v ∈ openIn val l ↔ .var v ∈ l ∧ val (.var v) = none := by
  unfold openIn
  rw [List.mem_filterMap]
  constructor
  · rintro ⟨e, he, h⟩
    cases e with
    | lit b => simp at h
    | var w =>
      simp only at h
      split at h
      · cases h; exact ⟨he, by assumption⟩
      · simp at h
  · rintro ⟨h1, h2⟩
    exact ⟨.var v, h1, by simp [h2]⟩

/-- A connective that is decided. -/
theorem eval_subsumed {σ : Asg} {val : Elem → Option Bool} (hr : Right σ val) {c : Con} (h : subsumed val c = true) :
    c.Eval σ ↔ c.isConj = false := by
  unfold subsumed at h
  rw [List.any_eq_true] at h
  obtain ⟨p, hp, h⟩ := h
  rw [List.any_eq_true] at h
  obtain ⟨e, he, h⟩ := h
  have h := hr _ _ (of_decide_eq_true h)
  cases c with
  | conj al =>
    simp only [Con.args, List.mem_singleton] at hp
    subst hp
    simp only [Con.isConj, Bool.true_eq_false, iff_false]
    intro hh
    have := hh e he
    rw [h] at this
    exact absurd this Bool.false_ne_true
  | disj al =>
    simp only [Con.args, List.mem_singleton] at hp
    subst hp
    simp only [Con.isConj, iff_true]
    exact ⟨e, he, h⟩
  | clause p' n =>
    simp only [Con.args, List.mem_cons, List.not_mem_nil, or_false] at hp
    simp only [Con.isConj, iff_true]
    rcases hp with rfl | rfl
    · exact .inl ⟨e, he, h⟩
    · exact .inr ⟨e, he, h⟩
  | eq a b => simp [Con.args] at hp
  | id v => simp [Con.args] at hp
  | const b => simp [Con.args] at hp

theorem not_subsumed {val : Elem → Option Bool} {c : Con} (h : subsumed val c = false) :
    ∀ p ∈ c.args, ∀ e ∈ p.2, val e ≠ some (!p.1) := by
  unfold subsumed at h
  rw [List.any_eq_false] at h
  intro p hp e he hv
  have := h p hp
  rw [Bool.not_eq_true, List.any_eq_false] at this
  have := this e he
  simp [hv] at this

theorem unit_of {val : Elem → Option Bool} {c : Con} (h : subsumed val c = false) {p} (hp : p ∈ c.args) {e} (he : e ∈ p.2)
    (ho : val e ≠ none) : val e = some p.1 := by
  have := not_subsumed h p hp e he
  cases hv : val e with
  | none => exact absurd hv ho
  | some b =>
    rw [hv] at this
    cases b <;> cases hb : p.1 <;> simp_all

/-- The meaning of an array of which the decided elements have no effect. -/
theorem all_open {σ : Asg} {val : Elem → Option Bool} (hr : Right σ val) (hl : Lits val) {l : List Elem} {u : Bool}
    (hu : ∀ e ∈ l, val e ≠ none → val e = some u) :
    (∀ e ∈ l, e.eval σ = u) ↔ ∀ v ∈ openIn val l, σ v = u := by
  constructor
  · intro h v hv
    exact h _ (mem_openIn.1 hv).1
  · intro h e he
    by_cases ho : val e = none
    · cases e with
      | lit b => rw [hl] at ho; exact absurd ho (by simp)
      | var v => exact h v (mem_openIn.2 ⟨he, ho⟩)
    · exact hr _ _ (hu e he ho)

theorem ex_open {σ : Asg} {val : Elem → Option Bool} (hr : Right σ val) (hl : Lits val) {l : List Elem} {u : Bool}
    (hu : ∀ e ∈ l, val e ≠ none → val e = some (!u)) :
    (∃ e ∈ l, e.eval σ = u) ↔ ∃ v ∈ openIn val l, σ v = u := by
  have := all_open hr hl hu
  constructor
  · rintro ⟨e, he, h⟩
    by_contra hc
    have h2 := this.2 (fun v hv => by
      by_contra hh
      exact hc ⟨v, hv, by cases hs : σ v <;> cases u <;> simp_all⟩) e he
    rw [h] at h2
    cases u <;> simp at h2
  · rintro ⟨v, hv, h⟩
    exact ⟨_, (mem_openIn.1 hv).1, h⟩

theorem eval_open {σ : Asg} {val : Elem → Option Bool} (hr : Right σ val) (hl : Lits val) {c : Con} (hc : c.args ≠ [])
    (h : subsumed val c = false) :
    c.Eval σ ↔ if c.isConj then ∀ p ∈ openElems val c, σ p.2 = true
      else ∃ p ∈ openElems val c, σ p.2 = decide (p.1 = 0) := by
  have hu : ∀ p ∈ c.args, ∀ e ∈ p.2, val e ≠ none → val e = some p.1 := fun p hp e he ho => unit_of h hp he ho
  cases c with
  | conj al =>
    simp only [Con.Eval, Con.isConj, if_true, openElems]
    rw [all_open hr hl (hu (true, al) (by simp [Con.args]))]
    simp
  | disj al =>
    simp only [Con.Eval, Con.isConj, Bool.false_eq_true, if_false, openElems]
    rw [ex_open hr hl (hu (false, al) (by simp [Con.args]))]
    simp
  | clause p n =>
    simp only [Con.Eval, Con.isConj, Bool.false_eq_true, if_false, openElems]
    rw [ex_open hr hl (hu (false, p) (by simp [Con.args])), ex_open hr hl (hu (true, n) (by simp [Con.args]))]
    simp only [List.mem_append, List.mem_map]
    constructor
    · rintro (⟨v, hv, h⟩ | ⟨v, hv, h⟩)
      · exact ⟨(0, v), .inl ⟨v, hv, rfl⟩, by simpa using h⟩
      · exact ⟨(1, v), .inr ⟨v, hv, rfl⟩, by simpa using h⟩
    · rintro ⟨q, ⟨v, hv, rfl⟩ | ⟨v, hv, rfl⟩, h⟩
      · exact .inl ⟨v, hv, by simpa using h⟩
      · exact .inr ⟨v, hv, by simpa using h⟩
  | eq a b => simp [Con.args] at hc
  | id v => simp [Con.args] at hc
  | const b => simp [Con.args] at hc

theorem open_none {dom} {c : Con} {i w} (h : (i, w) ∈ openElems (elemVal dom) c) : dom w = none := by
  cases c with
  | conj al =>
    simp only [openElems, List.mem_map, Prod.mk.injEq] at h
    obtain ⟨v, hv, -, rfl⟩ := h
    exact (mem_openIn.1 hv).2
  | disj al =>
    simp only [openElems, List.mem_map, Prod.mk.injEq] at h
    obtain ⟨v, hv, -, rfl⟩ := h
    exact (mem_openIn.1 hv).2
  | clause p n =>
    simp only [openElems, List.mem_append, List.mem_map, Prod.mk.injEq] at h
    rcases h with ⟨v, hv, -, rfl⟩ | ⟨v, hv, -, rfl⟩
    · exact (mem_openIn.1 hv).2
    · exact (mem_openIn.1 hv).2
  | eq a b => simp [openElems] at h
  | id v => simp [openElems] at h
  | const b => simp [openElems] at h

theorem lits_elemVal (dom) : Lits (elemVal dom) := fun _ => rfl
theorem lits_elemVal2 (dom rhs) : Lits (elemVal2 dom rhs) := fun _ => rfl

/-! ## The steps -/

theorem after_keep {σ : Asg} {dom rhs it} : After σ ⟨dom, rhs, some it, false, none⟩ ↔ Agrees σ dom ∧ Agrees σ rhs ∧ it.Holds σ := by
  simp [After]

theorem after_drop {σ : Asg} {dom rhs} : After σ ⟨dom, rhs, none, false, none⟩ ↔ Agrees σ dom ∧ Agrees σ rhs := by
  simp [After]

theorem after_fail {σ : Asg} {dom rhs it u} : After σ ⟨dom, rhs, it, true, u⟩ ↔ False := by
  simp [After]

theorem after_unify {σ : Asg} {dom rhs a b} : After σ ⟨dom, rhs, none, false, some (a, b)⟩ ↔
    Agrees σ dom ∧ Agrees σ rhs ∧ σ a = σ b := by
  simp [After]

theorem decided_ok {σ : Asg} {dom rhs} {it : Item} {b : Bool}
    (h : Agrees σ dom → Agrees σ rhs → (it.expr.Eval σ ↔ b = true)) :
    After σ (decided dom rhs it b) ↔ Before σ dom rhs it := by
  unfold decided Before
  cases it with
  | con c =>
    cases b with
    | true =>
      simp only [if_true]
      rw [after_drop]
      constructor
      · rintro ⟨h1, h2⟩; exact ⟨h1, h2, (h h1 h2).2 rfl⟩
      · rintro ⟨h1, h2, -⟩; exact ⟨h1, h2⟩
    | false =>
      simp only [Bool.false_eq_true, if_false]
      rw [after_fail, false_iff]
      rintro ⟨h1, h2, h3⟩
      exact absurd ((h h1 h2).1 h3) (by decide)
  | defn v c =>
    simp only
    cases hd : dom v with
    | none =>
      simp only
      rw [after_keep, agrees_set (.inl hd)]
      constructor
      · rintro ⟨⟨h1, h2⟩, h3, h4⟩; exact ⟨h1, h3, h4⟩
      · rintro ⟨h1, h3, h4⟩
        refine ⟨⟨h1, ?_⟩, h3, h4⟩
        have := h h1 h3
        have h4 : σ v = true ↔ c.Eval σ := h4
        rw [show (Item.defn v c).expr = c from rfl, ← h4] at this
        cases b <;> cases hs : σ v <;> simp_all
    | some d =>
      simp only
      by_cases hdb : d = b
      · rw [if_pos hdb, after_keep]
      · rw [if_neg hdb, after_fail, false_iff]
        rintro ⟨h1, h3, h4⟩
        have := h h1 h3
        have h4 : σ v = true ↔ c.Eval σ := h4
        rw [show (Item.defn v c).expr = c from rfl, ← h4, h1 v d hd] at this
        cases b <;> cases d <;> simp_all

theorem simplifyEq_ok {σ : Asg} {dom rhs} {it : Item} {a b : Elem} (hit : it.expr = .eq a b) :
    After σ (simplifyEq dom rhs it a b) ↔ Before σ dom rhs it := by
  unfold simplifyEq
  simp only
  have hp : ∀ p : Elem × Elem, p = (if elemVal dom a = none then (b, a) else (a, b)) →
      (it.expr.Eval σ ↔ p.1.eval σ = p.2.eval σ) := by
    intro p hp
    rw [hit, hp]
    split
    · exact eq_comm
    · exact Iff.rfl
  generalize hq : (if elemVal dom a = none then (b, a) else (a, b)) = p
  have hp := hp p hq.symm
  clear hq hit
  obtain ⟨x, y⟩ := p
  simp only at hp ⊢
  cases hx : elemVal dom x with
  | none => exact after_same
  | some bx =>
    simp only
    have ex := fun h => elemVal_eval (σ := σ) h hx
    cases it with
    | con c =>
      simp only [Item.expr] at hp
      cases hy : elemVal dom y with
      | none =>
        cases y with
        | lit z => cases hy
        | var w =>
          have hw : dom w = none := hy
          simp only [After, Before]
          rw [agrees_set (.inl hw)]
          simp only [Option.mem_def, reduceCtorEq, false_implies, implies_true, and_true, true_and]
          constructor
          · rintro ⟨⟨h1, h2⟩, h3⟩
            refine ⟨h1, h3, hp.2 ?_⟩
            rw [ex h1, Elem.eval, h2]
          · rintro ⟨h1, h3, h4⟩
            have := hp.1 h4
            rw [ex h1, Elem.eval] at this
            exact ⟨⟨h1, this.symm⟩, h3⟩
      | some by_ =>
        have ey := fun h => elemVal_eval (σ := σ) h hy
        simp only
        split
        · rename_i hne
          simp only [After, Before, Bool.true_eq_false, false_and, false_iff]
          rintro ⟨h1, h3, h4⟩
          have := hp.1 h4
          rw [ex h1, ey h1] at this
          exact hne this
        · rename_i hne
          rw [not_not] at hne
          simp only [After, Before, Option.mem_def, reduceCtorEq, false_implies, implies_true, and_true, true_and]
          constructor
          · rintro ⟨h1, h3⟩
            exact ⟨h1, h3, hp.2 (by rw [ex h1, ey h1, hne])⟩
          · rintro ⟨h1, h3, -⟩; exact ⟨h1, h3⟩
    | defn v c =>
      simp only [Item.expr] at hp ⊢
      cases hd : dom v with
      | none => exact after_same
      | some d =>
        cases d with
        | true =>
          cases hy : elemVal dom y with
          | none =>
            cases y with
            | lit z => cases hy
            | var w =>
              have hw : dom w = none := hy
              simp only [After, Before]
              rw [agrees_set (.inl hw)]
              simp only [Option.mem_def, reduceCtorEq, false_implies, implies_true, and_true, true_and, Option.some.injEq,
                forall_eq']
              constructor
              · rintro ⟨⟨h1, h2⟩, h3, h4⟩
                exact ⟨h1, h3, h4⟩
              · rintro ⟨h1, h3, h4⟩
                have h5 : σ v = true ↔ c.Eval σ := h4
                have := hp.1 (h5.1 (h1 _ _ hd))
                rw [ex h1, Elem.eval] at this
                exact ⟨⟨h1, this.symm⟩, h3, h4⟩
          | some by_ =>
            have ey := fun h => elemVal_eval (σ := σ) h hy
            simp only
            split
            · rename_i hne
              simp only [After, Before, Bool.true_eq_false, false_and, false_iff]
              rintro ⟨h1, h3, h4⟩
              have h5 : σ v = true ↔ c.Eval σ := h4
              have := hp.1 (h5.1 (h1 _ _ hd))
              rw [ex h1, ey h1] at this
              exact hne this
            · exact after_same
        | false =>
          cases hy : elemVal dom y with
          | none =>
            cases y with
            | lit z => cases hy
            | var w =>
              have hw : dom w = none := hy
              simp only [After, Before]
              rw [agrees_set (.inl hw)]
              simp only [Option.mem_def, reduceCtorEq, false_implies, implies_true, and_true, true_and, Option.some.injEq,
                forall_eq']
              constructor
              · rintro ⟨⟨h1, h2⟩, h3, h4⟩
                exact ⟨h1, h3, h4⟩
              · rintro ⟨h1, h3, h4⟩
                have h5 : σ v = true ↔ c.Eval σ := h4
                rw [h1 _ _ hd, hp, ex h1, Elem.eval] at h5
                refine ⟨⟨h1, ?_⟩, h3, h4⟩
                cases bx <;> cases hs : σ w <;> simp_all
          | some by_ =>
            have ey := fun h => elemVal_eval (σ := σ) h hy
            simp only
            split
            · exact after_same
            · rename_i hne
              rw [not_not] at hne
              simp only [After, Before, Bool.true_eq_false, false_and, false_iff]
              rintro ⟨h1, h3, h4⟩
              have h5 : σ v = true ↔ c.Eval σ := h4
              rw [h1 _ _ hd, hp, ex h1, ey h1, hne] at h5
              simp at h5

theorem item_holds {σ : Asg} {it : Item} {d : Bool}
    (hd : match it with | .con _ => d = true | .defn v _ => σ v = d) :
    it.Holds σ ↔ (it.expr.Eval σ ↔ d = true) := by
  cases it with
  | con c => simp only at hd; subst hd; simp [Item.Holds, Item.expr]
  | defn v c =>
    simp only at hd
    simp only [Item.Holds, Item.expr, hd]
    exact ⟨Iff.symm, Iff.symm⟩

theorem simplifyFew_ok {σ : Asg} {dom rhs} {it : Item} {c : Con} (hit : it.expr = c) (hc : c.args ≠ []) :
    After σ (simplifyFew dom rhs it c) ↔ Before σ dom rhs it := by
  unfold simplifyFew
  cases hs : subsumed (elemVal dom) c with
  | true =>
    rw [if_pos rfl]
    refine decided_ok (fun h1 _ => ?_)
    rw [hit, eval_subsumed (fun e b he => elemVal_eval h1 he) hs]
    simp
  | false =>
    rw [if_neg Bool.false_ne_true]
    have hop := fun h1 => eval_open (σ := σ) (fun e b he => elemVal_eval h1 he) (lits_elemVal dom) hc hs
    rcases ho : openElems (elemVal dom) c with _ | ⟨⟨i, w⟩, _ | ⟨q, l⟩⟩
    · have hd : ∀ h1 : Agrees σ dom, it.expr.Eval σ ↔ c.isConj = true := by
        intro h1
        rw [hit, hop h1, ho]
        cases c.isConj <;> simp
      have h0 := decided_ok (σ := σ) (dom := dom) (rhs := rhs) (it := it) (b := c.isConj) (fun h1 _ => hd h1)
      simp only
      cases it with
      | con c' => exact h0
      | defn v c' =>
        simp only
        rw [← h0]
        split
        · exact Iff.rfl
        · rename_i hf
          unfold decided at hf ⊢
          simp only at hf ⊢
          simp only [Item.expr] at hit hd
          subst hit
          cases hv : dom v with
          | none =>
            simp only [hv] at hf ⊢
            rw [after_drop, after_keep, agrees_set (.inl hv)]
            constructor
            · rintro ⟨⟨h1, h2⟩, h3⟩
              refine ⟨⟨h1, h2⟩, h3, ?_⟩
              show σ v = true ↔ _
              rw [h2]
              exact (hd h1).symm
            · rintro ⟨h1, h2, -⟩; exact ⟨h1, h2⟩
          | some d =>
            simp only [hv] at hf ⊢
            by_cases hdb : d = c'.isConj
            · rw [if_pos hdb, after_drop, after_keep]
              constructor
              · rintro ⟨h1, h2⟩
                refine ⟨h1, h2, ?_⟩
                show σ v = true ↔ _
                rw [h1 v d hv, hdb]
                exact (hd h1).symm
              · rintro ⟨h1, h2, -⟩; exact ⟨h1, h2⟩
            · rw [if_neg hdb] at hf; exact absurd rfl hf
    · have hw : dom w = none := open_none (c := c) (i := i) (by rw [ho]; simp)
      have hi : c.isConj = true → i = 0 := by
        intro hh
        cases c with
        | conj al =>
          have : (i, w) ∈ openElems (elemVal dom) (.conj al) := by rw [ho]; simp
          simp only [openElems, List.mem_map, Prod.mk.injEq] at this
          obtain ⟨v, -, h, -⟩ := this
          exact h.symm
        | _ => simp [Con.isConj] at hh
      have hd : ∀ h1 : Agrees σ dom, it.expr.Eval σ ↔ σ w = decide (i = 0) := by
        intro h1
        rw [hit, hop h1, ho]
        cases hcj : c.isConj with
        | true => simp [hi hcj]
        | false => simp
      simp only
      cases it with
      | con c' =>
        simp only
        rw [after_keep, agrees_set (.inl hw)]
        constructor
        · rintro ⟨⟨h1, h2⟩, h3, h4⟩; exact ⟨h1, h3, h4⟩
        · rintro ⟨h1, h3, h4⟩; exact ⟨⟨h1, (hd h1).1 h4⟩, h3, h4⟩
      | defn v c' =>
        simp only
        cases hv : dom v with
        | some d =>
          simp only
          rw [after_keep, agrees_set (.inl hw)]
          constructor
          · rintro ⟨⟨h1, h2⟩, h3, h4⟩; exact ⟨h1, h3, h4⟩
          · rintro ⟨h1, h3, h4⟩
            refine ⟨⟨h1, ?_⟩, h3, h4⟩
            have h5 : σ v = true ↔ c'.Eval σ := h4
            rw [show c'.Eval σ ↔ _ from hd h1, h1 v d hv] at h5
            cases d with
            | true => simpa using h5
            | false =>
              simp only [Bool.false_eq_true, false_iff] at h5
              simp only [Bool.false_eq_true, if_false]
              cases hsw : σ w <;> by_cases h0 : i = 0 <;> simp_all
        | none =>
          simp only
          split
          · rename_i h0
            rw [after_unify]
            constructor
            · rintro ⟨h1, h2, h3⟩
              refine ⟨h1, h2, ?_⟩
              show σ v = true ↔ c'.Eval σ
              rw [show c'.Eval σ ↔ _ from hd h1, h3, h0]
              simp
            · rintro ⟨h1, h2, h3⟩
              refine ⟨h1, h2, ?_⟩
              have h5 : σ v = true ↔ c'.Eval σ := h3
              rw [show c'.Eval σ ↔ _ from hd h1, h0] at h5
              cases hsv : σ v <;> cases hsw : σ w <;> simp_all
          · exact after_same
    · exact after_same

theorem simplifyClause_ok {σ : Asg} {dom rhs} {it : Item} {vd isTrue p n} (hit : it.expr = .clause p n)
    (hd : dom vd = some isTrue) (hm : (Con.clause p n).mentions vd = true) :
    After σ (simplifyClause dom rhs it vd isTrue p n) ↔ Before σ dom rhs it := by
  have hdec : (if isTrue then p else n).any (fun e => decide (e = .var vd)) = true →
      (After σ (decided dom rhs it true) ↔ Before σ dom rhs it) := by
    intro h
    refine decided_ok (fun h1 _ => ?_)
    rw [hit]
    simp only [iff_true]
    rw [List.any_eq_true] at h
    obtain ⟨e, he, h⟩ := h
    have h := of_decide_eq_true h
    subst h
    have hv := h1 _ _ hd
    cases isTrue with
    | true => exact .inl ⟨_, he, hv⟩
    | false => exact .inr ⟨_, he, hv⟩
  unfold simplifyClause
  simp only
  have hmm : (Elem.var vd ∈ p ∨ Elem.var vd ∈ n) := by
    simpa [Con.mentions, Con.args] using hm
  split
  · rename_i it' al other c x y hal hoth
    split
    · rename_i hx
      have hy : y = .var vd := by
        cases isTrue with
        | true =>
          simp only [if_true] at hal hoth
          subst hal hoth
          rcases hmm with h | h
          · rw [List.mem_singleton] at h; exact absurd h.symm hx
          · rw [List.mem_singleton] at h; exact h.symm
        | false =>
          simp only [Bool.false_eq_true, if_false] at hal hoth
          subst hal hoth
          rcases hmm with h | h
          · rw [List.mem_singleton] at h; exact h.symm
          · rw [List.mem_singleton] at h; exact absurd h.symm hx
      have key : ∀ h1 : Agrees σ dom, c.Eval σ ↔ x.eval σ = isTrue := by
        intro h1
        have hv := h1 _ _ hd
        rw [show c = Con.clause p n from hit]
        cases isTrue with
        | true =>
          simp only [if_true] at hal hoth
          subst hal hoth
          simp [Con.Eval, hy, Elem.eval, hv]
        | false =>
          simp only [Bool.false_eq_true, if_false] at hal hoth
          subst hal hoth
          simp [Con.Eval, hy, Elem.eval, hv]
      cases x with
      | lit b =>
        simp only
        split
        · rename_i hb
          rw [after_drop]
          constructor
          · rintro ⟨h1, h2⟩; exact ⟨h1, h2, (key h1).2 hb⟩
          · rintro ⟨h1, h2, -⟩; exact ⟨h1, h2⟩
        · rename_i hb
          rw [after_fail, false_iff]
          rintro ⟨h1, h2, h3⟩
          exact hb ((key h1).1 h3)
      | var w =>
        simp only
        cases hw : dom w with
        | none =>
          simp only
          rw [after_keep, agrees_set (.inl hw)]
          constructor
          · rintro ⟨⟨h1, h2⟩, h3, h4⟩; exact ⟨h1, h3, h4⟩
          · rintro ⟨h1, h3, h4⟩; exact ⟨⟨h1, (key h1).1 h4⟩, h3, h4⟩
        | some d =>
          simp only
          split
          · rename_i hb
            rw [after_drop]
            constructor
            · rintro ⟨h1, h2⟩; exact ⟨h1, h2, (key h1).2 ((h1 w d hw).trans hb)⟩
            · rintro ⟨h1, h2, -⟩; exact ⟨h1, h2⟩
          · rename_i hb
            rw [after_fail, false_iff]
            rintro ⟨h1, h2, h3⟩
            exact hb ((h1 w d hw).symm.trans ((key h1).1 h3))
    · rename_i hx
      rw [not_not] at hx
      refine hdec ?_
      rw [hal, hx]
      simp
  · by_cases h : (if isTrue then p else n).any (fun e => decide (e = .var vd)) = true
    · rw [if_pos h]; exact hdec h
    · rw [if_neg h]; exact after_same

theorem simplifyConn_ok {σ : Asg} {dom rhs} {it : Item} {vd isTrue} (count : Int) (hd : dom vd = some isTrue)
    {c : Con} (hit : it.expr = c) (ha : c.args ≠ []) :
    After σ (simplifyConn dom rhs it vd isTrue count c) ↔ Before σ dom rhs it := by
  unfold simplifyConn
  cases hm : c.mentions vd with
  | false => rw [if_pos rfl]; exact after_same
  | true =>
    rw [if_neg (by decide)]
    split
    · rename_i al
      refine decided_ok (fun h1 _ => ?_)
      rw [hit]
      simp only [iff_true]
      have : Elem.var vd ∈ al := by simpa [Con.mentions, Con.args] using hm
      exact ⟨_, this, h1 _ _ hd⟩
    · rename_i al
      refine decided_ok (fun h1 _ => ?_)
      rw [hit]
      simp only [Bool.false_eq_true, iff_false]
      have : Elem.var vd ∈ al := by simpa [Con.mentions, Con.args] using hm
      intro hh
      have := hh _ this
      rw [Elem.eval, h1 _ _ hd] at this
      exact absurd this (by decide)
    · split
      · exact simplifyFew_ok hit ha
      · split
        · exact simplifyClause_ok hit hd hm
        · exact after_same

/-- `simplify_bool_constraint` keeps the solutions. -/
theorem simplifyBool_ok {σ : Asg} {dom rhs} {it : Item} {vd isTrue} (count : Int) (hd : dom vd = some isTrue)
    (hid : ∀ w, it.expr = .id w → w = vd) :
    After σ (simplifyBool dom rhs it vd isTrue count) ↔ Before σ dom rhs it := by
  unfold simplifyBool
  cases he : it.expr with
  | id w =>
    have hw := hid w he
    subst hw
    cases it with
    | con c => exact after_same
    | defn v c =>
      simp only
      have he : c = .id w := he
      cases hv : dom v with
      | none =>
        simp only
        rw [after_keep, agrees_set (.inl hv)]
        constructor
        · rintro ⟨⟨h1, h2⟩, h3, h4⟩; exact ⟨h1, h3, h4⟩
        · rintro ⟨h1, h3, h4⟩
          refine ⟨⟨h1, ?_⟩, h3, h4⟩
          have h5 : σ v = true ↔ c.Eval σ := h4
          rw [he, Con.Eval, h1 _ _ hd] at h5
          cases hs : σ v <;> cases isTrue <;> simp_all
      | some d =>
        simp only [hd, Option.some.injEq]
        rw [if_neg (by cases isTrue <;> decide)]
        exact after_same
  | const b =>
    simp only
    split
    · rename_i hb
      rw [Bool.and_eq_true] at hb
      cases it with
      | defn v c => exact absurd hb.2 (by simp [Item.isCon])
      | con c =>
        have he : c = .const b := he
        rw [after_drop, Before, he]
        simp [Item.Holds, Con.Eval, hb.1]
    · exact after_same
  | eq a b =>
    simp only
    split
    · exact simplifyEq_ok he
    · exact after_same
  | conj al => exact simplifyConn_ok count hd he (by simp [Con.args])
  | disj al => exact simplifyConn_ok count hd he (by simp [Con.args])
  | clause p n => exact simplifyConn_ok count hd he (by simp [Con.args])

end BoolOpt
end MZ
