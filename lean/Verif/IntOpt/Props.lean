import Verif.IntOpt.Spec
import Verif.Linear.FlattenProps

/-!
# C57: a simplification step keeps the solutions
-/

namespace MZ
namespace IntOpt

variable {I : Interp} {σ : Asg} {st : Decls}

theorem ok_idom {x : Nat} {D : List Range} (h : st.Ok I σ) (hD : Mem (σ.i x) D) :
    Decls.Ok I σ { st with idom := upd st.idom x D } := by
  refine ⟨fun y E hy => ?_, h.2.1, h.2.2.1, h.2.2.2⟩
  simp only [upd] at hy
  split at hy
  · rename_i e; subst e; cases hy; exact hD
  · exact h.1 y E hy

theorem idom_ok {x : Nat} {D : List Range} (h : Decls.Ok I σ { st with idom := upd st.idom x D })
    (ho : ∀ E, st.idom x = some E → Mem (σ.i x) D → Mem (σ.i x) E) : st.Ok I σ ∧ Mem (σ.i x) D := by
  have hx : Mem (σ.i x) D := h.1 x D (by simp [upd])
  refine ⟨⟨fun y E hy => ?_, h.2.1, h.2.2.1, h.2.2.2⟩, hx⟩
  by_cases e : y = x
  · subst e; exact ho E hy hx
  · exact h.1 y E (by simp [upd, e, hy])

theorem ok_bdom {v : Nat} {b : Bool} (h : st.Ok I σ) (hb : σ.b v = b) :
    Decls.Ok I σ { st with bdom := upd st.bdom v b } := by
  refine ⟨h.1, fun y E hy => ?_, h.2.2.1, h.2.2.2⟩
  simp only [upd] at hy
  split at hy
  · rename_i e; subst e; cases hy; exact hb
  · exact h.2.1 y E hy

theorem bdom_ok {v : Nat} {b : Bool} (h : Decls.Ok I σ { st with bdom := upd st.bdom v b })
    (ho : ∀ c, st.bdom v = some c → c = b) : st.Ok I σ ∧ σ.b v = b := by
  have hx : σ.b v = b := h.2.1 v b (by simp [upd])
  refine ⟨⟨h.1, fun y E hy => ?_, h.2.2.1, h.2.2.2⟩, hx⟩
  by_cases e : y = v
  · subst e; rw [hx, ho E hy]
  · exact h.2.1 y E (by simp [upd, e, hy])

theorem ok_irhs {x : Nat} {r : IRhs} (h : st.Ok I σ) (hr : r.Eval I σ (σ.i x)) :
    Decls.Ok I σ { st with irhs := upd st.irhs x r } := by
  refine ⟨h.1, h.2.1, fun y E hy => ?_, h.2.2.2⟩
  simp only [upd] at hy
  split at hy
  · rename_i e; subst e; cases hy; exact hr
  · exact h.2.2.1 y E hy

theorem irhs_val {x : Nat} {r : IRhs} (h : Decls.Ok I σ { st with irhs := upd st.irhs x r }) : r.Eval I σ (σ.i x) :=
  h.2.2.1 x r (by simp [upd])

theorem irhs_ok {x : Nat} {r : IRhs} (h : Decls.Ok I σ { st with irhs := upd st.irhs x r })
    (ho : ∀ q, st.irhs x = some q → q.Eval I σ (σ.i x)) : st.Ok I σ := by
  refine ⟨h.1, h.2.1, fun y E hy => ?_, h.2.2.2⟩
  by_cases e : y = x
  · subst e; exact ho E hy
  · exact h.2.2.1 y E (by simp [upd, e, hy])

theorem ok_brhs {v : Nat} {r : BRhs} (h : st.Ok I σ) (hr : r.Eval I σ (σ.b v)) :
    Decls.Ok I σ { st with brhs := upd st.brhs v r } := by
  refine ⟨h.1, h.2.1, h.2.2.1, fun y E hy => ?_⟩
  simp only [upd] at hy
  split at hy
  · rename_i e; subst e; cases hy; exact hr
  · exact h.2.2.2 y E hy

theorem brhs_val {v : Nat} {r : BRhs} (h : Decls.Ok I σ { st with brhs := upd st.brhs v r }) : r.Eval I σ (σ.b v) :=
  h.2.2.2 v r (by simp [upd])

theorem brhs_ok {v : Nat} {r : BRhs} (h : Decls.Ok I σ { st with brhs := upd st.brhs v r })
    (ho : ∀ q, st.brhs v = some q → q.Eval I σ (σ.b v)) : st.Ok I σ := by
  refine ⟨h.1, h.2.1, h.2.2.1, fun y E hy => ?_⟩
  by_cases e : y = v
  · subst e; exact ho E hy
  · exact h.2.2.2 y E (by simp [upd, e, hy])

/-! ## The truth of the item -/

/-- What the declarations say about the constraint of an item that must hold. -/
theorem holds_of_true {it : Item} {c : Con} (hc : it.call st = some c) (ht : isTrue st it = true)
    (h : Before I σ st it) : c.Eval I σ := by
  cases it with
  | con d => simp only [Item.call, Option.some.injEq] at hc; subst hc; exact h.2 _ rfl
  | idecl x => simp [Item.call] at hc
  | bdecl v =>
    simp only [isTrue, decide_eq_true_eq] at ht
    simp only [Item.call] at hc
    split at hc
    · rename_i d hd
      cases hc
      exact (h.1.2.2.2 v _ hd).1 (h.1.2.1 v _ ht)
    · cases hc

theorem not_of_false {it : Item} {c : Con} (hc : it.call st = some c) (ht : isFalse st it = true)
    (h : Before I σ st it) : ¬c.Eval I σ := by
  cases it with
  | con d => simp [isFalse] at ht
  | idecl x => simp [Item.call] at hc
  | bdecl v =>
    simp only [isFalse, decide_eq_true_eq] at ht
    simp only [Item.call] at hc
    split at hc
    · rename_i d hd
      cases hc
      intro hh
      have := (h.1.2.2.2 v _ hd).2 hh
      rw [h.1.2.1 v _ ht] at this
      cases this
    · cases hc

theorem same_ok {it : Item} : After I σ (same st it) ↔ Before I σ st it := by
  simp [After, same, Before]

theorem failed_ok {it : Item} (h : ¬Before I σ st it) : After I σ (failed st it) ↔ Before I σ st it := by
  simp [After, failed, h]

/-- Closing an item whose constraint is known to be true or false. -/
theorem close_ok {it : Item} {c : Con} {b : Bool} (hc : it.call st = some c)
    (ht : if b then isTrue st it = true else isFalse st it = true) :
    Before I σ st it ↔ (Decls.Ok I σ (close st it b) ∧ (c.Eval I σ ↔ b = true)) := by
  constructor
  · intro h
    have hcb : c.Eval I σ ↔ b = true := by
      cases b with
      | true => simp only [if_true] at ht; simp [holds_of_true hc ht h]
      | false =>
        simp only [Bool.false_eq_true, if_false] at ht
        simp [not_of_false hc ht h]
    refine ⟨?_, hcb⟩
    cases it with
    | con d => exact h.1
    | idecl x => exact h.1
    | bdecl v =>
      refine ok_brhs h.1 ?_
      have : st.bdom v = some b := by cases b <;> simpa [isTrue, isFalse] using ht
      exact h.1.2.1 v b this
  · rintro ⟨h, hcb⟩
    cases it with
    | con d =>
      refine ⟨h, fun e he => ?_⟩
      simp only [Item.kept, Option.some.injEq] at he
      simp only [Item.call, Option.some.injEq] at hc
      subst he; subst hc
      cases b with
      | true => exact hcb.2 rfl
      | false => simp [isFalse] at ht
    | idecl x => simp [Item.call] at hc
    | bdecl v =>
      refine ⟨brhs_ok h ?_, fun e he => by simp [Item.kept] at he⟩
      intro q hq
      have hv : σ.b v = b := brhs_val h
      simp only [Item.call, hq] at hc
      cases q with
      | lit _ => cases hc
      | con d =>
        cases hc
        simp only [BRhs.Eval, hv]
        exact hcb.symm

/-- Replacing the right hand side of a reified constraint whose truth is known. -/
theorem decide_ok {v : Nat} {c : Con} {b : Bool} (hc : st.brhs v = some (.con c)) (hd : st.bdom v = none)
    (hcb : st.Ok I σ → (c.Eval I σ ↔ b = true))
    (hcb' : Decls.Ok I σ { st with bdom := upd st.bdom v b, brhs := upd st.brhs v (.lit b) } → (c.Eval I σ ↔ b = true)) :
    st.Ok I σ ↔ Decls.Ok I σ { st with bdom := upd st.bdom v b, brhs := upd st.brhs v (.lit b) } := by
  constructor
  · intro h
    have hv : σ.b v = b := by
      have := h.2.2.2 v _ hc
      simp only [BRhs.Eval] at this
      rw [hcb h] at this
      cases hb : σ.b v <;> cases b <;> simp_all
    exact ok_brhs (st := { st with bdom := upd st.bdom v b }) (ok_bdom h hv) hv
  · intro h
    have e := hcb' h
    have hv : σ.b v = b := brhs_val (st := { st with bdom := upd st.bdom v b }) h
    refine (bdom_ok (brhs_ok (st := { st with bdom := upd st.bdom v b }) h ?_) (fun c hc => by rw [hd] at hc; cases hc)).1
    intro q hq
    change st.brhs v = some q at hq
    rw [hc] at hq
    cases hq
    simp only [BRhs.Eval, hv]
    exact e.symm

/-! ## Equality -/

theorem eqPar_ok {it : Item} {c : Con} {e : Bool} (hc : it.call st = some c) (he : c.Eval I σ ↔ e = true) :
    After I σ (eqPar st it e) ↔ Before I σ st it := by
  unfold eqPar
  split
  · rename_i h
    cases it with
    | con d =>
      simp only [Item.call, Option.some.injEq] at hc
      subst hc
      have : e = true := by simpa [isTrue, isFalse] using h
      simp [After, Before, Item.kept, he, this]
    | bdecl v => exact same_ok
    | idecl v => exact same_ok
  · split
    · rename_i h
      refine failed_ok fun hb => ?_
      simp only [Bool.or_eq_true, Bool.and_eq_true, Bool.not_eq_true'] at h
      rcases h with ⟨ht, h⟩ | ⟨ht, h⟩
      · have := he.1 (holds_of_true hc ht hb)
        rw [h] at this; cases this
      · exact not_of_false hc ht hb (he.2 h)
    · rename_i h1 h2
      cases it with
      | con d => exact same_ok
      | idecl x => exact same_ok
      | bdecl v =>
        have hd : st.bdom v = none := by
          cases hd : st.bdom v with
          | none => rfl
          | some b => cases b <;> cases e <;> simp [isTrue, isFalse, hd] at h1 h2
        have hc' : st.brhs v = some (.con c) := by
          simp only [Item.call] at hc
          split at hc
          · rename_i hh; cases hc; exact hh
          · cases hc
        have := decide_ok (I := I) (σ := σ) hc' hd (fun _ => he) (fun _ => he)
        simp only [After, Before, Item.kept]
        simp only [reduceCtorEq, false_implies, implies_true, and_true, true_and]
        exact this.symm

theorem mem_single (a d : Int) : Mem a [⟨.fin d, .fin d⟩] ↔ a = d := by
  simp [Mem, Range.Mem]; omega

theorem call_close {it : Item} {c : Con} (st' : Decls) (hc : it.call st = some c) (h : st'.brhs = st.brhs) :
    it.call st' = some c := by
  cases it with
  | con d => exact hc
  | idecl x => exact hc
  | bdecl v => simp only [Item.call, h] at hc ⊢; exact hc

theorem isTrue_congr {it : Item} (st' : Decls) (h : st'.bdom = st.bdom) : isTrue st' it = isTrue st it := by
  cases it <;> simp [isTrue, h]

theorem isFalse_congr {it : Item} (st' : Decls) (h : st'.bdom = st.bdom) : isFalse st' it = isFalse st it := by
  cases it <;> simp [isFalse, h]

theorem close_idom (st : Decls) (it : Item) (b : Bool) : (close st it b).idom = st.idom := by cases it <;> rfl

theorem close_bdom (st : Decls) (it : Item) (b : Bool) : (close st it b).bdom = st.bdom := by cases it <;> rfl

theorem after_simple {st' : Decls} : After I σ { st := st' } ↔ st'.Ok I σ := by
  simp [After]

/-- An item whose constraint is known to be true or false is absorbed by the declarations. -/
theorem absorb_ok {it : Item} {c : Con} {b : Bool} (st' : Decls) (hc : it.call st = some c)
    (ht : if b then isTrue st it = true else isFalse st it = true)
    (h1 : st'.brhs = st.brhs) (h2 : st'.bdom = st.bdom)
    (hf : st.Ok I σ → (c.Eval I σ ↔ b = true) → st'.Ok I σ)
    (hb : st'.Ok I σ → st.Ok I σ)
    (hv : (∀ x D, st'.idom x = some D → Mem (σ.i x) D) → (c.Eval I σ ↔ b = true)) :
    After I σ { st := close st' it b } ↔ Before I σ st it := by
  rw [after_simple]
  have ht' : if b then isTrue st' it = true else isFalse st' it = true := by
    rw [isTrue_congr st' h2, isFalse_congr st' h2]; exact ht
  have k' := close_ok (I := I) (σ := σ) (call_close st' hc h1) ht'
  have k := close_ok (I := I) (σ := σ) hc ht
  constructor
  · intro h
    have hcb := hv (by rw [← close_idom st' it b]; exact h.1)
    have hbef := k'.2 ⟨h, hcb⟩
    exact ⟨hb hbef.1, hbef.2⟩
  · intro h
    exact (k'.1 ⟨hf h.1 (k.1 h).2, h.2⟩).1

theorem eqIntPar_ok {it : Item} {c : Con} {x : Nat} {d : Int} (hn : st.Normal) (hc : it.call st = some c)
    (ht : isTrue st it = true) (he : c.Eval I σ ↔ σ.i x = d) :
    After I σ (eqIntPar st it x d) ↔ Before I σ st it := by
  have key : (∀ D, st.idom x = some D → Mem d D) →
      (After I σ { st := close (if st.irhs x = none then
          { st with idom := upd st.idom x [⟨.fin d, .fin d⟩], irhs := upd st.irhs x (.lit d) }
        else { st with idom := upd st.idom x [⟨.fin d, .fin d⟩] }) it true } ↔ Before I σ st it) := by
    intro hD
    have back : Decls.Ok I σ { st with idom := upd st.idom x [⟨.fin d, .fin d⟩] } → st.Ok I σ := by
      intro h
      exact (idom_ok h (fun E hE hm => by rw [(mem_single _ _).1 hm]; exact hD E hE)).1
    split
    · rename_i hr
      refine absorb_ok (b := true) _ hc (by simpa using ht) rfl rfl ?_ ?_ ?_
      · intro h hh
        have hx : σ.i x = d := he.1 (hh.2 rfl)
        exact ok_irhs (st := { st with idom := upd st.idom x [⟨.fin d, .fin d⟩] }) (ok_idom h ((mem_single _ _).2 hx)) hx
      · intro h
        refine back (irhs_ok (st := { st with idom := upd st.idom x [⟨.fin d, .fin d⟩] }) h ?_)
        intro q hq
        change st.irhs x = some q at hq
        rw [hr] at hq; cases hq
      · intro h
        simp only [iff_true]
        exact he.2 ((mem_single _ _).1 (h x _ (by simp [upd])))
    · refine absorb_ok (b := true) _ hc (by simpa using ht) rfl rfl ?_ back ?_
      · intro h hh
        exact ok_idom h ((mem_single _ _).2 (he.1 (hh.2 rfl)))
      · intro h
        simp only [iff_true]
        exact he.2 ((mem_single _ _).1 (h x _ (by simp [upd])))
  unfold eqIntPar
  cases hx : st.idom x with
  | none => exact key (fun D hD => by rw [hx] at hD; cases hD)
  | some D =>
    dsimp only
    split
    · rename_i hm
      refine key (fun E hE => ?_)
      rw [hx] at hE; cases hE
      exact (C07_contains d D (hn x D hx)).1 hm
    · rename_i hm
      refine failed_ok fun hb => hm ((C07_contains d D (hn x D hx)).2 ?_)
      rw [← he.1 (holds_of_true hc ht hb)]
      exact hb.1.1 x D hx

theorem eqBoolPar_ok {it : Item} {c : Con} {v : Nat} {d : Bool} (hc : it.call st = some c)
    (ht : isTrue st it = true) (he : c.Eval I σ ↔ σ.b v = d) :
    After I σ (eqBoolPar st it v d) ↔ Before I σ st it := by
  have key : (∀ e, st.bdom v = some e → e = d) →
      (After I σ { st := close (if st.brhs v = none then
          { st with bdom := upd st.bdom v d, brhs := upd st.brhs v (.lit d) }
        else { st with bdom := upd st.bdom v d }) it true } ↔ Before I σ st it) := by
    intro hD
    rw [after_simple]
    -- the item is still known to be true
    have hkeep : ∀ st' : Decls, st'.bdom = upd st.bdom v d → isTrue st' it = true := by
      intro st' h
      cases it with
      | con e => rfl
      | idecl x => exact ht
      | bdecl w =>
        simp only [isTrue, decide_eq_true_eq, h, upd] at ht ⊢
        split
        · rename_i e; subst e; rw [← hD _ ht]
        · exact ht
    have hne : ∀ w, it = .bdecl w → st.brhs w ≠ none := by
      rintro w rfl hw; simp [Item.call, hw] at hc
    split
    · rename_i hr
      have hcall : Item.call { st with bdom := upd st.bdom v d, brhs := upd st.brhs v (.lit d) } it = some c := by
        cases it with
        | con e => exact hc
        | idecl x => exact hc
        | bdecl w =>
          have : w ≠ v := by rintro rfl; exact hne _ rfl hr
          simp only [Item.call, upd, this, if_false] at hc ⊢; exact hc
      have k := close_ok (I := I) (σ := σ) (b := true) hcall (by simpa using hkeep _ rfl)
      constructor
      · intro h
        have hv : σ.b v = d := h.2.1 v d (by rw [close_bdom]; simp [upd])
        have hbef := k.2 ⟨h, by simp [he.2 hv]⟩
        refine ⟨(bdom_ok (brhs_ok (st := { st with bdom := upd st.bdom v d }) hbef.1 ?_) hD).1, hbef.2⟩
        intro q hq
        change st.brhs v = some q at hq
        rw [hr] at hq; cases hq
      · intro h
        have hv : σ.b v = d := he.1 (holds_of_true hc ht h)
        exact (k.1 ⟨ok_brhs (st := { st with bdom := upd st.bdom v d }) (ok_bdom h.1 hv) hv, h.2⟩).1
    · have hcall : Item.call { st with bdom := upd st.bdom v d } it = some c := call_close _ hc rfl
      have k := close_ok (I := I) (σ := σ) (b := true) hcall (by simpa using hkeep _ rfl)
      constructor
      · intro h
        have hv : σ.b v = d := h.2.1 v d (by rw [close_bdom]; simp [upd])
        have hbef := k.2 ⟨h, by simp [he.2 hv]⟩
        exact ⟨(bdom_ok hbef.1 hD).1, hbef.2⟩
      · intro h
        have hv : σ.b v = d := he.1 (holds_of_true hc ht h)
        exact (k.1 ⟨ok_bdom h.1 hv, h.2⟩).1
  unfold eqBoolPar
  cases hx : st.bdom v with
  | none => exact key (fun D hD => by rw [hx] at hD; cases hD)
  | some D =>
    dsimp only
    split
    · rename_i hm
      exact key (fun E hE => by rw [hx] at hE; cases hE; exact hm)
    · rename_i hm
      refine failed_ok fun hb => hm ?_
      rw [← he.1 (holds_of_true hc ht hb), hb.1.2.1 v D hx]

theorem unify_ok {it : Item} {c : Con} {o : Out} (hc : it.call st = some c) (ht : isTrue st it = true)
    (ho : After I σ o ↔ (Decls.Ok I σ (close st it true) ∧ c.Eval I σ)) : After I σ o ↔ Before I σ st it := by
  rw [ho, close_ok (b := true) hc (by simpa using ht)]
  simp

theorem simplifyIntEq_ok {it : Item} {a b : IArg} (hn : st.Normal) (hc : it.call st = some (.intEq a b)) :
    After I σ (simplifyIntEq st it a b) ↔ Before I σ st it := by
  unfold simplifyIntEq
  cases a with
  | var x =>
    cases b with
    | var y =>
      dsimp only
      split
      · rename_i h
        simp only [Bool.and_eq_true] at h
        exact unify_ok hc h.1 (by simp [After, Con.Eval, IArg.eval])
      · exact same_ok
    | lit k =>
      dsimp only
      split
      · rename_i h; exact eqIntPar_ok hn hc h (by simp [Con.Eval, IArg.eval])
      · exact same_ok
  | lit j =>
    cases b with
    | var y =>
      dsimp only
      split
      · rename_i h; exact eqIntPar_ok hn hc h (by simp [Con.Eval, IArg.eval, eq_comm])
      · exact same_ok
    | lit k => exact eqPar_ok hc (by simp [Con.Eval, IArg.eval])

theorem simplifyBoolEq_ok {it : Item} {a b : BArg} (hc : it.call st = some (.boolEq a b)) :
    After I σ (simplifyBoolEq st it a b) ↔ Before I σ st it := by
  unfold simplifyBoolEq
  cases a with
  | var x =>
    cases b with
    | var y =>
      dsimp only
      split
      · rename_i h
        simp only [Bool.and_eq_true] at h
        exact unify_ok hc h.1 (by simp [After, Con.Eval, BArg.eval])
      · exact same_ok
    | lit k =>
      dsimp only
      split
      · rename_i h; exact eqBoolPar_ok hc h (by simp [Con.Eval, BArg.eval])
      · exact same_ok
  | lit j =>
    cases b with
    | var y =>
      dsimp only
      split
      · rename_i h; exact eqBoolPar_ok hc h (by simp [Con.Eval, BArg.eval, eq_comm])
      · exact same_ok
    | lit k => exact eqPar_ok hc (by simp [Con.Eval, BArg.eval])

/-! ## Inequality -/

/-- The literals of a constraint are 64-bit integers. -/
def Con.Fits : Con → Prop
  | .intLe a b => (∀ k, a = .lit k → inLL k) ∧ (∀ k, b = .lit k → inLL k)
  | _ => True

theorem lePar_ok {it : Item} {c : Con} {x : Nat} {d : Int} {left : Bool} {o : Out} (hn : st.Normal)
    (hc : it.call st = some c) (ht : isTrue st it = true ∨ isFalse st it = true) (hd : inLL d)
    (he : c.Eval I σ ↔ if left then σ.i x ≤ d else d ≤ σ.i x) (ho : lePar st it x d left = .ok o) :
    After I σ o ↔ Before I σ st it := by
  unfold lePar at ho
  cases hx : st.idom x with
  | none => simp only [hx, Res.ok.injEq] at ho; subst ho; exact same_ok
  | some D =>
    simp only [hx] at ho
    have hcmp : ∀ bot : Domain.Cmp, bot = (if left then (if isTrue st it then .lq else .gr)
        else (if isTrue st it then .gq else .le)) → (bot.holds (σ.i x) d ↔ (c.Eval I σ ↔ isTrue st it = true)) := by
      intro bot hb
      subst hb
      rw [he]
      cases left <;> cases isTrue st it <;> simp [Domain.Cmp.holds]
    have htr : if isTrue st it = true then isTrue st it = true else isFalse st it = true := by
      split
      · assumption
      · rename_i h; exact ht.resolve_left h
    generalize hbot : (if left then (if isTrue st it then Domain.Cmp.lq else .gr)
        else (if isTrue st it then .gq else .le)) = bot at ho
    have hcmp := hcmp bot hbot.symm
    cases hl : Domain.limitDomain bot D (.fin d) with
    | err => rw [hl] at ho; cases ho
    | ub => rw [hl] at ho; cases ho
    | ok nd =>
      simp only [hl] at ho
      have hnd := C10_limitDomain bot D nd d (hn x D hx) hd hl
      split at ho
      · rename_i hnil
        cases ho
        refine failed_ok fun hb => ?_
        have h1 := ((close_ok hc htr).1 hb).2
        have : Mem (σ.i x) nd := (hnd.2 _).2 ⟨hb.1.1 x D hx, hcmp.2 h1⟩
        rw [hnil] at this
        simp [Mem] at this
      · cases ho
        refine absorb_ok _ hc htr rfl rfl ?_ ?_ ?_
        · intro h hh
          exact ok_idom h ((hnd.2 _).2 ⟨h.1 x D hx, hcmp.2 hh⟩)
        · intro h
          exact (idom_ok h (fun E hE hm => by rw [hx] at hE; cases hE; exact ((hnd.2 _).1 hm).1)).1
        · intro h
          exact hcmp.1 ((hnd.2 _).1 (h x nd (by simp [upd]))).2

theorem simplifyIntLe_ok {it : Item} {a b : IArg} {o : Out} (hn : st.Normal) (hc : it.call st = some (.intLe a b))
    (hf : (Con.intLe a b).Fits) (ho : simplifyIntLe st it a b = .ok o) : After I σ o ↔ Before I σ st it := by
  unfold simplifyIntLe at ho
  split at ho
  · rename_i ht
    simp only [Bool.or_eq_true] at ht
    cases a with
    | var x =>
      cases b with
      | var y => cases ho; exact same_ok
      | lit k => exact lePar_ok hn hc ht (hf.2 k rfl) (by simp [Con.Eval, IArg.eval]) ho
    | lit j =>
      cases b with
      | var y => exact lePar_ok hn hc ht (hf.1 j rfl) (by simp [Con.Eval, IArg.eval]) ho
      | lit k => cases ho; exact same_ok
  · cases ho; exact same_ok

/-! ## `bool2int` -/

theorem b2i_one (b : Bool) : b2i b = 1 ↔ b = true := by cases b <;> simp [b2i]

theorem b2iSide_var {x : Nat} {s : Side} (hn : st.Normal) (h : b2iSide st (.var x) = .ok s) :
    match s with
    | .fail => ∀ b : Bool, st.Ok I σ → σ.i x ≠ b2i b
    | .fixed b => st.Ok I σ → σ.i x = b2i b
    | .unknown => True := by
  simp only [b2iSide] at h
  cases hx : st.idom x with
  | none => simp only [hx] at h; cases h; trivial
  | some D =>
    simp only [hx] at h
    have hN := hn x D hx
    split at h
    · rename_i l u hl hu
      have hull : ∀ y, Mem y D → l ≤ .fin y ∧ .fin y ≤ u := fun y hy => by
        obtain ⟨a, b, ha, hb, h1, h2⟩ := Linear.hull_of_mem hN hy
        rw [hl] at ha; rw [hu] at hb
        cases ha; cases hb
        exact ⟨h1, h2⟩
      split at h
      · rename_i hlu
        cases h
        intro b hok he
        have hm := hull _ (hok.1 x D hx)
        rw [he] at hm
        simp only [Bool.or_eq_true, decide_eq_true_eq] at hlu
        have h01 : (0 : Int) ≤ b2i b ∧ b2i b ≤ 1 := by cases b <;> decide
        rcases hlu with h | h
        · have := lt_of_le_of_lt hm.2 h
          simp at this; omega
        · have := lt_of_lt_of_le h hm.1
          simp at this; omega
      · rename_i hlu
        split at h
        · rename_i e
          cases h
          intro hok
          have hm := hull _ (hok.1 x D hx)
          rw [← e] at hm hlu
          have hl' : l = .fin (σ.i x) := le_antisymm hm.1 hm.2
          rw [hl'] at hlu ⊢
          simp only [Bool.or_eq_true, decide_eq_true_eq, not_or] at hlu
          simp at hlu
          by_cases h1 : σ.i x = 1
          · simp [h1, b2i]
          · simp [h1, b2i]; omega
        · cases h; trivial
    · cases h

/-- The conditions under which `bool2int` is treated rightly: a constant on the integer side is 0 or 1, and the
variable there has no definition of its own. -/
def TargetOk (st : Decls) (it : Item) (b : BArg) : IArg → Prop
  | .lit k => (k = 0 ∨ k = 1) ∧ it = .con (.b2i b (.lit k))
  | .var x => (it = .idecl x ∧ st.irhs x = some (.b2i b)) ∨ (it = .con (.b2i b (.var x)) ∧ st.irhs x = none)

/-- What `Before` says about a `bool2int`. -/
theorem b2i_before {it : Item} {b : BArg} {t : IArg} (ht : TargetOk st it b t) (h : Before I σ st it) :
    t.eval σ = b2i (b.eval σ) := by
  cases t with
  | lit k => obtain ⟨-, rfl⟩ := ht; exact h.2 _ rfl
  | var x =>
    rcases ht with ⟨rfl, hr⟩ | ⟨rfl, -⟩
    · exact h.1.2.2.1 x _ hr
    · exact h.2 _ rfl

theorem b2i_back {it : Item} {b : BArg} {t : IArg} (ht : TargetOk st it b t) (hs : st.Ok I σ)
    (h : t.eval σ = b2i (b.eval σ)) : Before I σ st it := by
  refine ⟨hs, fun c hc => ?_⟩
  cases t with
  | lit k => obtain ⟨-, rfl⟩ := ht; cases hc; exact h
  | var x =>
    rcases ht with ⟨rfl, hr⟩ | ⟨rfl, -⟩
    · cases hc
    · cases hc; exact h

theorem setRhs_ok {it : Item} {b : BArg} {t : IArg} {k : Int} (ht : TargetOk st it b t) (hb : b2i (b.eval σ) = k)
    (hd : st.Ok I σ → t.eval σ = k) : Decls.Ok I σ (setRhs st t k) ↔ Before I σ st it := by
  constructor
  · intro h
    cases t with
    | lit j =>
      have h : st.Ok I σ := h
      exact b2i_back ht h (by rw [hb, hd h])
    | var x =>
      have hx : σ.i x = k := irhs_val h
      refine b2i_back ht (irhs_ok h ?_) (by rw [hb]; exact hx)
      intro q hq
      rcases ht with ⟨rfl, hr⟩ | ⟨rfl, hr⟩
      · rw [hr] at hq; cases hq; rw [← hb] at hx; exact hx
      · rw [hr] at hq; cases hq
  · intro h
    cases t with
    | lit j => exact h.1
    | var x => exact ok_irhs h.1 (hd h.1)

theorem bknown_eval {b : BArg} {c : Bool} (h : bknown st b = some c) (hs : ∀ v e, st.bdom v = some e → σ.b v = e) :
    b.eval σ = c := by
  cases b with
  | lit d => cases h; rfl
  | var v => exact hs v c h

theorem simplifyB2i_ok {it : Item} {b : BArg} {t : IArg} {o : Out} (hn : st.Normal) (ht : TargetOk st it b t)
    (ho : simplifyB2i st it b t = .ok o) : After I σ o ↔ Before I σ st it := by
  unfold simplifyB2i at ho
  cases hs : b2iSide st t with
  | err => rw [hs] at ho; cases ho
  | ub => rw [hs] at ho; cases ho
  | ok s =>
    rw [hs] at ho
    cases s with
    | fail =>
      cases ho
      refine failed_ok fun hb => ?_
      cases t with
      | lit k => simp [b2iSide] at hs
      | var x => exact b2iSide_var hn hs _ hb.1 (b2i_before ht hb)
    | fixed bv =>
      have hfix : st.Ok I σ → t.eval σ = b2i bv := by
        intro h
        cases t with
        | lit k =>
          simp only [b2iSide, Res.ok.injEq, Side.fixed.injEq] at hs
          rcases ht.1 with rfl | rfl <;> (subst hs; rfl)
        | var x => exact b2iSide_var hn hs h
      have hinj : ∀ a c : Bool, b2i a = b2i c → a = c := by decide
      dsimp only at ho
      cases b with
      | lit c =>
        dsimp only at ho
        split at ho
        · rename_i hne
          cases ho
          refine failed_ok fun hb => hne ?_
          exact hinj _ _ ((b2i_before ht hb).symm.trans (hfix hb.1))
        · rename_i heq
          have heq : c = bv := by simpa using heq
          subst heq
          have hgo : ∀ o : Out, o = { st := st } → (∀ x, it ≠ .idecl x) → (After I σ o ↔ Before I σ st it) := by
            rintro o rfl hne
            rw [after_simple]
            exact ⟨fun h => b2i_back ht h (hfix h), fun h => h.1⟩
          cases it with
          | idecl x =>
            cases ho
            rw [after_simple]
            have htx : t = .var x := by
              cases t with
              | lit k => simp [TargetOk] at ht
              | var y => simp [TargetOk] at ht; rw [ht.1]
            subst htx
            exact setRhs_ok (t := .var x) ht rfl hfix
          | con d => cases ho; exact hgo _ rfl (by simp)
          | bdecl v => cases ho; exact hgo _ rfl (by simp)
      | var v =>
        dsimp only at ho
        cases hv : st.bdom v with
        | none =>
          simp only [hv] at ho
          cases ho
          rw [after_simple]
          have ht' : TargetOk { st with bdom := upd st.bdom v bv } it (.var v) t := by
            cases t <;> exact ht
          have hback : Decls.Ok I σ { st with bdom := upd st.bdom v bv } → st.Ok I σ ∧ σ.b v = bv :=
            fun h => bdom_ok h (fun c hc => by rw [hv] at hc; cases hc)
          constructor
          · intro h
            have hbv : σ.b v = bv := by
              have : (setRhs { st with bdom := upd st.bdom v bv } t (if bv then 1 else 0)).bdom = upd st.bdom v bv := by
                cases t <;> rfl
              exact h.2.1 v bv (by rw [this]; simp [upd])
            have := (setRhs_ok (I := I) (σ := σ) (k := b2i bv) ht' (by simp [BArg.eval, hbv])
              (fun h => hfix (hback h).1)).1 h
            exact ⟨(hback this.1).1, this.2⟩
          · intro h
            have hbv : σ.b v = bv := hinj _ _ ((b2i_before ht h).symm.trans (hfix h.1))
            exact (setRhs_ok (I := I) (σ := σ) (k := b2i bv) ht' (by simp [BArg.eval, hbv])
              (fun h => hfix (hback h).1)).2 ⟨ok_bdom h.1 hbv, h.2⟩
        | some c =>
          simp only [hv] at ho
          split at ho
          · rename_i hne
            cases ho
            refine failed_ok fun hb => hne ?_
            rw [← hb.1.2.1 v c hv]
            exact hinj _ _ ((b2i_before ht hb).symm.trans (hfix hb.1))
          · rename_i heq
            have heq : c = bv := by simpa using heq
            subst heq
            cases ho
            rw [after_simple]
            constructor
            · intro h
              have hbv : σ.b v = c := by
                have : (setRhs st t (if c then 1 else 0)).bdom = st.bdom := by cases t <;> rfl
                exact h.2.1 v c (by rw [this]; exact hv)
              exact (setRhs_ok (I := I) (σ := σ) (k := b2i c) ht (by simp [BArg.eval, hbv]) hfix).1 h
            · intro h
              exact (setRhs_ok (I := I) (σ := σ) (k := b2i c) ht (by simp [BArg.eval, h.1.2.1 v c hv]) hfix).2 h
    | unknown =>
      dsimp only at ho
      cases hk : bknown st b with
      | none => simp only [hk] at ho; cases ho; exact same_ok
      | some c =>
        cases t with
        | lit k => simp [b2iSide] at hs
        | var x =>
          simp only [hk] at ho
          have hok : ∀ D, (∀ E, st.idom x = some E → Mem (b2i c) E) → D = [⟨.fin (b2i c), .fin (b2i c)⟩] →
              (After I σ ⟨{ st with irhs := upd st.irhs x (.lit (b2i c)), idom := upd st.idom x D }, it.kept, false, none, none⟩ ↔
                Before I σ st it) := by
            rintro D hm rfl
            have htx : TargetOk { st with idom := upd st.idom x [⟨.fin (b2i c), .fin (b2i c)⟩] } it b (.var x) := ht
            simp only [After, reduceCtorEq, false_implies, implies_true, and_true, true_and]
            constructor
            · rintro ⟨h, -⟩
              have hb : b.eval σ = c := bknown_eval hk h.2.1
              have := (setRhs_ok (I := I) (σ := σ) (k := b2i c) htx (by rw [hb])
                (fun h => (mem_single _ _).1 (h.1 x _ (by simp [upd])))).1 h
              refine ⟨(idom_ok this.1 ?_).1, this.2⟩
              intro E hE h1
              rw [(mem_single _ _).1 h1]; exact hm E hE
            · intro h
              have hb : b.eval σ = c := bknown_eval hk h.1.2.1
              have hx : σ.i x = b2i c := by rw [← hb]; exact b2i_before ht h
              refine ⟨?_, h.2⟩
              exact ok_irhs (st := { st with idom := upd st.idom x [⟨.fin (b2i c), .fin (b2i c)⟩] })
                (ok_idom h.1 ((mem_single _ _).2 hx)) hx
          cases hx : st.idom x with
          | none =>
            simp only [hx] at ho
            cases ho
            exact hok _ (fun E hE => by rw [hx] at hE; cases hE) rfl
          | some D =>
            simp only [hx] at ho
            change (if IntSet.contains (.fin (b2i c)) D = true then Res.ok _ else _) = _ at ho
            by_cases hm : IntSet.contains (.fin (b2i c)) D = true
            · rw [if_pos hm] at ho
              cases ho
              exact hok _ (fun E hE => by
                rw [hx] at hE; cases hE
                exact (C07_contains _ _ (hn x D hx)).1 hm) rfl
            · rw [if_neg hm] at ho
              cases ho
              refine failed_ok fun hb => hm ((C07_contains _ _ (hn x D hx)).2 ?_)
              have h1 : b.eval σ = c := bknown_eval hk hb.1.2.1
              have h2 : σ.i x = b2i c := by rw [← h1]; exact b2i_before ht hb
              have := hb.1.1 x D hx
              rw [h2] at this
              exact this

/-! ## The registry -/

theorem process_ok {it : Item} {c : Con} {s : Status} (hc : it.call st = some c) (hs : s.Right I st c) :
    After I σ (process st it s) ↔ Before I σ st it := by
  have hcall : ∀ v, it = .bdecl v → st.brhs v = some (.con c) := by
    rintro v rfl
    simp only [Item.call] at hc
    split at hc
    · rename_i hh; cases hc; exact hh
    · cases hc
  have hnone : ∀ v, it = .bdecl v → ¬isTrue st it = true → ¬isFalse st it = true → st.bdom v = none := by
    rintro v rfl h1 h2
    cases hd : st.bdom v with
    | none => rfl
    | some b => cases b <;> simp [isTrue, isFalse, hd] at h1 h2
  have old : ∀ (v : Nat) (b : Bool), st.bdom v = none →
      (∀ w e, (upd st.bdom v b) w = some e → σ.b w = e) → ∀ w e, st.bdom w = some e → σ.b w = e := by
    intro v b hv h w e hw
    refine h w e ?_
    have : w ≠ v := by rintro rfl; rw [hv] at hw; cases hw
    simp [upd, this, hw]
  cases s with
  | ok => exact same_ok
  | failed =>
    simp only [process]
    split
    · rename_i ht
      exact failed_ok fun hb => hs σ hb.1.1 hb.1.2.1 (holds_of_true hc ht hb)
    · rename_i ht
      split
      · exact same_ok
      · rename_i hf
        cases it with
        | con d => exact same_ok
        | idecl x => exact same_ok
        | bdecl v =>
          have hd := hnone v rfl ht hf
          have := decide_ok (I := I) (σ := σ) (b := false) (hcall v rfl) hd
            (fun h => by simp [hs σ h.1 h.2.1]) (fun h => by simp [hs σ h.1 (old v false hd h.2.1)])
          dsimp only
          rw [after_simple, ← this]
          simp [Before, Item.kept]
  | entailed =>
    simp only [process]
    split
    · cases it with
      | con d =>
        simp only [Item.call, Option.some.injEq] at hc; subst hc
        dsimp only
        rw [after_simple]
        exact ⟨fun h => ⟨h, fun c hc => by cases hc; exact hs σ h.1 h.2.1⟩, fun h => h.1⟩
      | idecl x => exact same_ok
      | bdecl v => exact same_ok
    · rename_i ht
      split
      · rename_i hf
        exact failed_ok fun hb => not_of_false hc hf hb (hs σ hb.1.1 hb.1.2.1)
      · rename_i hf
        cases it with
        | con d => exact same_ok
        | idecl x => exact same_ok
        | bdecl v =>
          have hd := hnone v rfl ht hf
          have := decide_ok (I := I) (σ := σ) (b := true) (hcall v rfl) hd
            (fun h => by simp [hs σ h.1 h.2.1]) (fun h => by simp [hs σ h.1 (old v true hd h.2.1)])
          dsimp only
          rw [after_simple, ← this]
          simp [Before, Item.kept]
  | rewrite d =>
    simp only [process]
    cases it with
    | con e =>
      simp only [Item.call, Option.some.injEq] at hc; subst hc
      simp only [After, Before, Item.kept, reduceCtorEq, false_implies, implies_true, and_true, true_and,
        Option.some.injEq, forall_eq']
      exact and_congr_right fun h => hs σ h.1 h.2.1
    | idecl x => exact same_ok
    | bdecl v =>
      dsimp only
      rw [after_simple]
      have hv := hcall v rfl
      simp only [Before, Item.kept, reduceCtorEq, false_implies, implies_true, and_true]
      constructor
      · intro h
        refine brhs_ok h fun q hq => ?_
        rw [hv] at hq; cases hq
        have := brhs_val h
        exact this.trans (hs σ h.1 h.2.1)
      · intro h
        exact ok_brhs h ((h.2.2.2 v _ hv).trans (hs σ h.1 h.2.1).symm)

/-! ## The theorems -/

/-- What the step needs: the domains are in normal form, literals fit, the registry is right, and a `bool2int`
meets `TargetOk`. -/
structure Fine (I : Interp) (registry : Decls → Con → Status) (st : Decls) (it : Item) : Prop where
  normal : st.Normal
  fits : ∀ c, it.call st = some c → c.Fits
  right : ∀ c, it.call st = some c → (registry st c).Right I st c
  target : ∀ b t, it = .con (.b2i b t) → TargetOk st it b t

end IntOpt

open IntOpt

/-- One call of the simplifier on a constraint or on a declaration keeps exactly the same solutions: a reported failure
means that there is none, and otherwise the new declarations, the remaining constraint and the equalities between
unified variables have the solutions of the old declarations and constraint.  For a `bool2int` constraint it is assumed
that the integer argument is 0, 1 or a variable without a definition of its own; without this the claim is false
(`C57_bool2int_constant_fails`, `C57_bool2int_defined_fails`). -/
theorem C57_step_partial (I : Interp) (registry : Decls → Con → Status) (st : Decls) (it : Item) (o : Out)
    (h : Fine I registry st it) (ho : simplify registry st it = .ok o) (σ : Asg) :
    After I σ o ↔ Before I σ st it := by
  have hgo : ∀ it', it' = it → (∀ x, it' ≠ .idecl x) → (match it'.call st with
      | none => .ok (same st it')
      | some (.intEq a b) => .ok (simplifyIntEq st it' a b)
      | some (.boolEq a b) => .ok (simplifyBoolEq st it' a b)
      | some (.intLe a b) => simplifyIntLe st it' a b
      | some (.b2i b x) =>
        match it' with
        | .con _ => simplifyB2i st it' b x
        | _ => .ok (same st it')
      | some (.other n) => .ok (process st it' (registry st (.other n))) : Res Out) = .ok o →
      (After I σ o ↔ Before I σ st it) := by
    intro it' hit hne ho'
    clear ho
    subst hit
    have ho := ho'
    clear ho'
    cases hc : it'.call st with
    | none => rw [hc] at ho; cases ho; exact same_ok
    | some c =>
      rw [hc] at ho
      cases c with
      | intEq a b => cases ho; exact simplifyIntEq_ok h.normal hc
      | boolEq a b => cases ho; exact simplifyBoolEq_ok hc
      | intLe a b => exact simplifyIntLe_ok h.normal hc (h.fits _ hc) ho
      | b2i b x =>
        cases it' with
        | con d =>
          simp only [Item.call, Option.some.injEq] at hc; subst hc
          exact simplifyB2i_ok h.normal (h.target b x rfl) ho
        | bdecl v => cases ho; exact same_ok
        | idecl v => cases ho; exact same_ok
      | other n => cases ho; exact process_ok hc (h.right _ hc)
  cases it with
  | idecl x =>
    simp only [simplify] at ho
    split at ho
    · rename_i b hb
      exact simplifyB2i_ok h.normal (t := .var x) (Or.inl ⟨rfl, hb⟩) ho
    · cases ho; exact same_ok
  | con d => exact hgo _ rfl (by simp) ho
  | bdecl v => exact hgo _ rfl (by simp) ho

/-- If the domains are not empty and the literals fit, then the simplifier does nothing undefined; it can only raise an
arithmetic error, for a comparison with the smallest or largest integer. -/
theorem C57_defined (I : Interp) (registry : Decls → Con → Status) (st : Decls) (it : Item)
    (h : Fine I registry st it) (hne : ∀ x, st.idom x ≠ some []) :
    (∃ o, simplify registry st it = .ok o) ∨
    (simplify registry st it = .err ∧ ∃ x k, (k = LMIN ∨ k = LMAX) ∧
      (it.call st = some (.intLe (.var x) (.lit k)) ∨ it.call st = some (.intLe (.lit k) (.var x)))) := by
  have hside : ∀ t, ∃ s, b2iSide st t = .ok s := by
    intro t
    cases t with
    | lit k => exact ⟨_, rfl⟩
    | var x =>
      simp only [b2iSide]
      cases hx : st.idom x with
      | none => exact ⟨_, rfl⟩
      | some D =>
        cases D with
        | nil => exact absurd hx (hne x)
        | cons r D =>
          simp only [IntSet.min?, IntSet.max?, List.head?_cons, Option.map_some, List.getLast?_cons]
          split
          · exact ⟨_, rfl⟩
          · split <;> exact ⟨_, rfl⟩
  have hb2i : ∀ b t, ∃ o, simplifyB2i st it b t = .ok o := by
    intro b t
    obtain ⟨s, hs⟩ := hside t
    simp only [simplifyB2i, hs]
    cases s with
    | fail => exact ⟨_, rfl⟩
    | fixed bv =>
      cases b with
      | lit c =>
        dsimp only
        split
        · exact ⟨_, rfl⟩
        · cases it <;> exact ⟨_, rfl⟩
      | var v =>
        dsimp only
        split
        · exact ⟨_, rfl⟩
        · split <;> exact ⟨_, rfl⟩
    | unknown =>
      dsimp only
      split
      · split
        · exact ⟨_, rfl⟩
        · by_cases hm : IntSet.contains (.fin (if (by assumption : Bool) then 1 else 0)) (by assumption) = true
          · exact ⟨_, if_pos hm⟩
          · exact ⟨_, if_neg hm⟩
      · exact ⟨_, rfl⟩
  have hle : ∀ x k left, inLL k → (∃ o, lePar st it x k left = .ok o) ∨
      (lePar st it x k left = .err ∧ (k = LMIN ∨ k = LMAX)) := by
    intro x k left hk
    unfold lePar
    cases hx : st.idom x with
    | none => exact Or.inl ⟨_, rfl⟩
    | some D =>
      dsimp only
      generalize hbot : (if left then (if isTrue st it then Domain.Cmp.lq else .gr)
        else (if isTrue st it then .gq else .le)) = bot
      have hne : bot ≠ .eq := by
        subst hbot
        cases left <;> cases isTrue st it <;> simp
      rcases C10_limitDomain_total bot D k (h.normal x D hx) hk hne with ⟨d, hd⟩ | ⟨hd, h2⟩
      · rw [hd]
        dsimp only
        left
        split <;> exact ⟨_, rfl⟩
      · rw [hd]
        exact Or.inr ⟨rfl, by rcases h2 with h2 | h2 <;> simp [h2.2]⟩
  have hgo : ∀ it', it' = it → (∃ o, (match it'.call st with
      | none => .ok (same st it')
      | some (.intEq a b) => .ok (simplifyIntEq st it' a b)
      | some (.boolEq a b) => .ok (simplifyBoolEq st it' a b)
      | some (.intLe a b) => simplifyIntLe st it' a b
      | some (.b2i b x) =>
        match it' with
        | .con _ => simplifyB2i st it' b x
        | _ => .ok (same st it')
      | some (.other n) => .ok (process st it' (registry st (.other n))) : Res Out) = .ok o) ∨
      ((match it'.call st with
      | none => .ok (same st it')
      | some (.intEq a b) => .ok (simplifyIntEq st it' a b)
      | some (.boolEq a b) => .ok (simplifyBoolEq st it' a b)
      | some (.intLe a b) => simplifyIntLe st it' a b
      | some (.b2i b x) =>
        match it' with
        | .con _ => simplifyB2i st it' b x
        | _ => .ok (same st it')
      | some (.other n) => .ok (process st it' (registry st (.other n))) : Res Out) = .err ∧
        ∃ x k, (k = LMIN ∨ k = LMAX) ∧
      (it'.call st = some (.intLe (.var x) (.lit k)) ∨ it'.call st = some (.intLe (.lit k) (.var x)))) := by
    intro it' hit
    subst hit
    cases hc : it'.call st with
    | none => exact Or.inl ⟨_, rfl⟩
    | some c =>
      cases c with
      | intEq a b => exact Or.inl ⟨_, rfl⟩
      | boolEq a b => exact Or.inl ⟨_, rfl⟩
      | other n => exact Or.inl ⟨_, rfl⟩
      | b2i b x =>
        left
        cases it' with
        | con d => exact hb2i b x
        | bdecl v => exact ⟨_, rfl⟩
        | idecl v => exact ⟨_, rfl⟩
      | intLe a b =>
        dsimp only
        have hf := h.fits _ hc
        unfold simplifyIntLe
        split
        · cases a with
          | var x =>
            cases b with
            | var y => exact Or.inl ⟨_, rfl⟩
            | lit k =>
              rcases hle x k true (hf.2 k rfl) with ho | ⟨ho, hk⟩
              · exact Or.inl ho
              · exact Or.inr ⟨ho, x, k, hk, Or.inl rfl⟩
          | lit j =>
            cases b with
            | var y =>
              rcases hle y j false (hf.1 j rfl) with ho | ⟨ho, hk⟩
              · exact Or.inl ho
              · exact Or.inr ⟨ho, y, j, hk, Or.inr rfl⟩
            | lit k => exact Or.inl ⟨_, rfl⟩
        · exact Or.inl ⟨_, rfl⟩
  cases it with
  | idecl x =>
    left
    simp only [simplify]
    split
    · exact hb2i _ _
    · exact ⟨_, rfl⟩
  | con d => exact hgo _ rfl
  | bdecl v => exact hgo _ rfl

/-- A step that does not fail leaves only domains in normal form with at least one element. -/
theorem C57_domains (I : Interp) (registry : Decls → Con → Status) (st : Decls) (it : Item) (o : Out)
    (h : Fine I registry st it) (hne : ∀ x, st.idom x ≠ some []) (ho : simplify registry st it = .ok o) :
    o.st.Normal ∧ ∀ x, o.st.idom x ≠ some [] := by
  have hsame : ∀ o : Out, o.st.idom = st.idom → o.st.Normal ∧ ∀ x, o.st.idom x ≠ some [] := by
    intro o e
    unfold Decls.Normal
    rw [e]
    exact ⟨h.normal, hne⟩
  have hupd : ∀ (o : Out) x D, o.st.idom = upd st.idom x D → MZ.Normal D → D ≠ [] →
      o.st.Normal ∧ ∀ x, o.st.idom x ≠ some [] := by
    intro o x D e hD hD'
    unfold Decls.Normal
    rw [e]
    constructor
    · intro y E hy
      simp only [upd] at hy
      split at hy
      · cases hy; exact hD
      · exact h.normal y E hy
    · intro y hy
      simp only [upd] at hy
      split at hy
      · cases hy; exact hD' rfl
      · exact hne y hy
  have hone : ∀ d : Int, MZ.Normal [⟨.fin d, .fin d⟩] := fun d =>
    ⟨fun r hr => by
      simp only [List.mem_singleton] at hr
      subst hr
      simp, List.pairwise_singleton _ _⟩
  have hb2i : ∀ b t, simplifyB2i st it b t = .ok o → o.st.Normal ∧ ∀ x, o.st.idom x ≠ some [] := by
    intro b t ho
    unfold simplifyB2i at ho
    split at ho
    · cases ho
    · cases ho
    · cases ho; exact hsame _ rfl
    · split at ho
      · split at ho
        · cases ho; exact hsame _ rfl
        · split at ho <;> (cases ho; exact hsame _ rfl)
      · split at ho
        · cases ho; exact hsame _ (by cases t <;> rfl)
        · split at ho
          · cases ho; exact hsame _ rfl
          · cases ho; exact hsame _ (by cases t <;> rfl)
    · split at ho
      · rename_i c x _ _
        dsimp only at ho
        cases hx : st.idom x with
        | none =>
          simp only [hx] at ho
          cases ho; exact hupd _ _ _ rfl (hone _) (by simp)
        | some D =>
          simp only [hx] at ho
          change (if IntSet.contains (.fin (b2i c)) D = true then Res.ok _ else _) = _ at ho
          by_cases hm : IntSet.contains (.fin (b2i c)) D = true
          · rw [if_pos hm] at ho; cases ho; exact hupd _ _ _ rfl (hone _) (by simp)
          · rw [if_neg hm] at ho; cases ho; exact hsame _ rfl
      · cases ho; exact hsame _ rfl
  have heqPar : ∀ e, (eqPar st it e).st.idom = st.idom := by
    intro e
    unfold eqPar
    split
    · cases it <;> rfl
    · split
      · rfl
      · cases it <;> rfl
  have heqI : ∀ x d, o = eqIntPar st it x d → o.st.Normal ∧ ∀ x, o.st.idom x ≠ some [] := by
    intro x d e
    subst e
    have hok : ∀ o : Out, o.st = close (if st.irhs x = none then
          { st with idom := upd st.idom x [⟨.fin d, .fin d⟩], irhs := upd st.irhs x (.lit d) }
        else { st with idom := upd st.idom x [⟨.fin d, .fin d⟩] }) it true →
        o.st.Normal ∧ ∀ x, o.st.idom x ≠ some [] := by
      intro o e
      refine hupd o x _ ?_ (hone d) (by simp)
      rw [e, close_idom]
      split <;> rfl
    unfold eqIntPar
    cases hx : st.idom x with
    | none => exact hok _ rfl
    | some D =>
      dsimp only
      split
      · exact hok _ rfl
      · exact hsame _ rfl
  have heqB : ∀ x d, (eqBoolPar st it x d).st.idom = st.idom := by
    intro x d
    unfold eqBoolPar
    cases hx : st.bdom x with
    | none =>
      dsimp only
      rw [close_idom]
      split <;> rfl
    | some c =>
      dsimp only
      split
      · dsimp only
        rw [close_idom]
        split <;> rfl
      · rfl
  have hle : ∀ x k left, inLL k → lePar st it x k left = .ok o → o.st.Normal ∧ ∀ x, o.st.idom x ≠ some [] := by
    intro x k left hk ho
    unfold lePar at ho
    cases hx : st.idom x with
    | none => simp only [hx] at ho; cases ho; exact hsame _ rfl
    | some D =>
      simp only [hx] at ho
      split at ho
      · rename_i nd hnd
        split at ho
        · cases ho; exact hsame _ rfl
        · rename_i hnil
          cases ho
          exact hupd _ x nd (by rw [close_idom]) (C10_limitDomain _ D nd k (h.normal x D hx) hk hnd).1 hnil
      · cases ho
      · cases ho
  have hproc : ∀ s, (process st it s).st.idom = st.idom := by
    intro s
    cases s <;> simp only [process] <;> (repeat' split) <;> rfl
  have hgo : ∀ it', it' = it → (match it'.call st with
      | none => .ok (same st it')
      | some (.intEq a b) => .ok (simplifyIntEq st it' a b)
      | some (.boolEq a b) => .ok (simplifyBoolEq st it' a b)
      | some (.intLe a b) => simplifyIntLe st it' a b
      | some (.b2i b x) =>
        match it' with
        | .con _ => simplifyB2i st it' b x
        | _ => .ok (same st it')
      | some (.other n) => .ok (process st it' (registry st (.other n))) : Res Out) = .ok o →
      o.st.Normal ∧ ∀ x, o.st.idom x ≠ some [] := by
    intro it' hit ho'
    clear ho
    subst hit
    have ho := ho'
    clear ho'
    cases hc : it'.call st with
    | none => rw [hc] at ho; cases ho; exact hsame _ rfl
    | some c =>
      rw [hc] at ho
      cases c with
      | intEq a b =>
        simp only [Res.ok.injEq] at ho
        unfold simplifyIntEq at ho
        cases a with
        | var x =>
          cases b with
          | var y =>
            dsimp only at ho
            split at ho
            · subst ho; exact hsame _ (close_idom _ _ _)
            · subst ho; exact hsame _ rfl
          | lit k =>
            dsimp only at ho
            split at ho
            · exact heqI _ _ ho.symm
            · subst ho; exact hsame _ rfl
        | lit j =>
          cases b with
          | var y =>
            dsimp only at ho
            split at ho
            · exact heqI _ _ ho.symm
            · subst ho; exact hsame _ rfl
          | lit k => subst ho; exact hsame _ (heqPar _)
      | boolEq a b =>
        simp only [Res.ok.injEq] at ho
        subst ho
        apply hsame
        unfold simplifyBoolEq
        cases a with
        | var x =>
          cases b with
          | var y =>
            dsimp only
            split
            · exact close_idom _ _ _
            · rfl
          | lit k =>
            dsimp only
            split
            · exact heqB _ _
            · rfl
        | lit j =>
          cases b with
          | var y =>
            dsimp only
            split
            · exact heqB _ _
            · rfl
          | lit k => exact heqPar _
      | other n => cases ho; exact hsame _ (hproc _)
      | b2i b x =>
        cases it' with
        | con d => exact hb2i b x ho
        | bdecl v => cases ho; exact hsame _ rfl
        | idecl v => cases ho; exact hsame _ rfl
      | intLe a b =>
        have hf := h.fits _ hc
        dsimp only at ho
        unfold simplifyIntLe at ho
        split at ho
        · cases a with
          | var x =>
            cases b with
            | var y => cases ho; exact hsame _ rfl
            | lit k => exact hle x k true (hf.2 k rfl) ho
          | lit j =>
            cases b with
            | var y => exact hle y j false (hf.1 j rfl) ho
            | lit k => cases ho; exact hsame _ rfl
        · cases ho; exact hsame _ rfl
  cases it with
  | idecl x =>
    simp only [simplify] at ho
    split at ho
    · exact hb2i _ _ ho
    · cases ho; exact hsame _ rfl
  | con d => exact hgo _ rfl ho
  | bdecl v => exact hgo _ rfl ho

/-- Replacing fixed variables by their values does not change the meaning of a constraint. -/
theorem C57_substitute (I : Interp) (st : Decls) (c : Con) (σ : Asg) (h : st.Ok I σ) :
    (substC st c).Eval I σ ↔ c.Eval I σ := by
  have hi : ∀ a : IArg, (substI st a).eval σ = a.eval σ := by
    intro a
    cases a with
    | lit k => rfl
    | var x =>
      simp only [substI]
      split
      · rename_i k hk
        exact (h.2.2.1 x _ hk).symm
      · split
        · rename_i l u hd
          split
          · rename_i e; subst e
            exact ((mem_single _ _).1 (h.1 x _ hd)).symm
          · rfl
        · rfl
  have hb : ∀ a : BArg, (substB st a).eval σ = a.eval σ := by
    intro a
    cases a with
    | lit k => rfl
    | var x =>
      simp only [substB]
      split
      · rename_i k hk
        exact (h.2.2.2 x _ hk).symm
      · split
        · rename_i b hd
          exact (h.2.1 x _ hd).symm
        · rfl
  cases c <;> simp [substC, Con.Eval, hi, hb]

/-- `bool2int(b, 5)` has no solution, but the simplifier removes it and makes `b` false. -/
theorem C57_bool2int_constant_fails :
    ∃ (st : Decls) (it : Item) (o : Out), simplify (fun _ _ => .ok) st it = .ok o ∧ o.fail = false ∧ o.keep = none ∧
      ∀ I : Interp, (∀ σ, ¬Before I σ st it) ∧ ∃ σ, After I σ o := by
  refine ⟨⟨fun _ => none, fun _ => none, fun _ => none, fun _ => none⟩, .con (.b2i (.var 0) (.lit 5)),
    _, rfl, rfl, rfl, fun I => ⟨?_, ⟨fun _ => 0, fun _ => false⟩, ?_⟩⟩
  · rintro σ ⟨-, h⟩
    have h5 : ∀ b : Bool, (5 : Int) ≠ b2i b := by decide
    exact h5 _ (h _ rfl)
  · rw [after_simple]
    refine ⟨?_, ?_, ?_, ?_⟩ <;> intro x a h <;> simp [setRhs, upd] at h
    exact h.2.symm

/-- For a variable that is defined by a call, `bool2int(b, x)` with a known `b` overwrites the definition: an
assignment that contradicts it becomes a solution. -/
theorem C57_bool2int_defined_fails :
    ∃ (I : Interp) (st : Decls) (it : Item) (o : Out), st.Normal ∧ simplify (fun _ _ => .ok) st it = .ok o ∧ o.fail = false ∧
      (∀ σ, ¬Before I σ st it) ∧ ∃ σ, After I σ o := by
  refine ⟨⟨fun _ _ => True, fun _ _ v => v = 0⟩,
    ⟨fun _ => some [⟨.fin 0, .fin 1⟩], fun _ => none, fun _ => some (.other 0), fun _ => none⟩,
    .con (.b2i (.lit true) (.var 0)), _, ?_, rfl, rfl, ?_, ⟨fun x => if x = 0 then 1 else 0, fun _ => false⟩, ?_⟩
  · intro x D h
    cases h
    exact ⟨by decide, by decide⟩
  · rintro σ ⟨h, h2⟩
    have h3 := h.2.2.1 0 _ rfl
    have h4 := h2 _ rfl
    simp only [Con.Eval, IArg.eval, BArg.eval, IRhs.Eval, b2i] at h3 h4
    rw [h3] at h4; simp at h4
  · refine ⟨rfl, ⟨?_, ?_, ?_, ?_⟩, ?_, ?_, ?_⟩
    · intro x D h
      by_cases e : x = 0
      · subst e; simp [upd] at h; subst h; simp [mem_single]
      · simp [upd, e] at h; subst h; simp [e, Mem, Range.Mem]
    · intro x a h; simp at h
    · intro x r h
      by_cases e : x = 0
      · subst e; simp [upd] at h; subst h; simp [IRhs.Eval]
      · simp [upd, e] at h; subst h; simp [e, IRhs.Eval]
    · intro x a h; simp at h
    · intro c h; cases h; simp [Con.Eval, IArg.eval, BArg.eval, b2i]
    · intro p h; cases h
    · intro p h; cases h

/-! ## Examples -/

/-- `b = (x ≤ 3)` with `b` false and `x ∈ 1..5`: the domain becomes `4..5`. -/
example : ∃ o, simplify (fun _ _ => .ok)
    ⟨fun x => if x = 0 then some [⟨.fin 1, .fin 5⟩] else none, fun v => if v = 0 then some false else none, fun _ => none,
      fun v => if v = 0 then some (.con (.intLe (.var 0) (.lit 3))) else none⟩ (.bdecl 0) = .ok o ∧ o.fail = false ∧
    o.st.idom 0 = some [⟨.fin 4, .fin 5⟩] ∧ o.st.brhs 0 = some (.lit false) := ⟨_, rfl, rfl, rfl, rfl⟩

example : ∃ st : Decls, (∀ I, Fine I (fun _ _ => .ok) st (.bdecl 0)) ∧ st.bdom 0 = some false ∧
    (Item.bdecl 0).call st = some (.intLe (.var 0) (.lit 3)) := by
  refine ⟨⟨fun x => if x = 0 then some [⟨.fin 1, .fin 5⟩] else none, fun v => if v = 0 then some false else none, fun _ => none,
      fun v => if v = 0 then some (.con (.intLe (.var 0) (.lit 3))) else none⟩, fun I => ⟨?_, ?_, ?_, ?_⟩, rfl, rfl⟩
  · intro x D h
    by_cases e : x = 0
    · subst e; simp at h; subst h; exact ⟨by decide, by decide⟩
    · simp [e] at h
  · intro c h
    cases h
    exact ⟨fun k hk => (by cases hk), fun k hk => by cases hk; decide⟩
  · intro c h; trivial
  · intro b t h; cases h

/-- `x = bool2int(b)` with `x ∈ 1..7`: `b` stays open here, and becomes true once `x` is fixed to 1. -/
example : ∃ o, simplify (fun _ _ => .ok)
    ⟨fun _ => some [⟨.fin 1, .fin 1⟩], fun _ => none, fun _ => some (.b2i (.var 3)), fun _ => none⟩ (.idecl 0) = .ok o ∧
    o.fail = false ∧ o.st.bdom 3 = some true ∧ o.st.irhs 0 = some (.lit 1) := ⟨_, rfl, rfl, rfl, rfl⟩

end MZ
