import Verif.BoolOpt.Props

/-!
# The remaining steps on items, unification
-/

namespace MZ
namespace BoolOpt

theorem fixAll_some {σ : Asg} : ∀ {l : List (Var × Bool)} {dom dom' : Var → Option Bool}, fixAll dom l = some dom' →
    (Agrees σ dom' ↔ Agrees σ dom ∧ ∀ p ∈ l, σ p.1 = p.2)
  | [], dom, dom', h => by simp only [fixAll, Option.some.injEq] at h; subst h; simp
  | (v, b) :: l, dom, dom', h => by
    unfold fixAll at h
    cases hv : dom v with
    | none =>
      simp only [hv] at h
      rw [fixAll_some h, agrees_set (.inl hv)]
      simp [and_assoc]
    | some d =>
      simp only [hv] at h
      split at h
      · rename_i hd
        rw [fixAll_some h]
        subst hd
        constructor
        · rintro ⟨h1, h2⟩
          refine ⟨h1, fun p hp => ?_⟩
          rcases List.mem_cons.1 hp with rfl | hp
          · exact h1 v d hv
          · exact h2 p hp
        · rintro ⟨h1, h2⟩; exact ⟨h1, fun p hp => h2 p (List.mem_cons_of_mem _ hp)⟩
      · cases h

theorem fixAll_none {σ : Asg} : ∀ {l : List (Var × Bool)} {dom : Var → Option Bool}, fixAll dom l = none →
    Agrees σ dom → ¬ ∀ p ∈ l, σ p.1 = p.2
  | [], dom, h => by simp [fixAll] at h
  | (v, b) :: l, dom, h => by
    intro h1 h2
    unfold fixAll at h
    cases hv : dom v with
    | none =>
      simp only [hv] at h
      exact fixAll_none h ((agrees_set (.inl hv)).2 ⟨h1, h2 (v, b) (by simp)⟩)
        (fun p hp => h2 p (List.mem_cons_of_mem _ hp))
    | some d =>
      simp only [hv] at h
      split at h
      · exact fixAll_none h h1 (fun p hp => h2 p (List.mem_cons_of_mem _ hp))
      · rename_i hd
        exact hd ((h1 v d hv).symm.trans (h2 (v, b) (by simp)))

theorem mem_varsOf {l : List Elem} {v : Var} : v ∈ varsOf l ↔ Elem.var v ∈ l := by
  unfold varsOf
  rw [List.mem_filterMap]
  constructor
  · rintro ⟨e, he, h⟩
    cases e with
    | lit b => cases h
    | var w => cases h; exact he
  · intro h; exact ⟨_, h, rfl⟩

/-- The right hand side of a fixed variable is propagated without changing the solutions. -/
theorem propagateRhs_ok {σ : Asg} {dom rhs} {v isTrue c} (hd : dom v = some isTrue) :
    After σ (propagateRhs dom rhs v isTrue c) ↔ Before σ dom rhs (.defn v c) := by
  have key : ∀ (l : List (Var × Bool)), (∀ h1 : Agrees σ dom, (Item.defn v c).Holds σ → ∀ p ∈ l, σ p.1 = p.2) →
      (After σ (match fixAll dom l with
        | none => ⟨dom, rhs, some (.defn v c), true, none⟩
        | some dom' => ⟨dom', rhs, some (.defn v c), false, none⟩) ↔ Before σ dom rhs (.defn v c)) := by
    intro l hl
    cases hf : fixAll dom l with
    | none =>
      simp only
      rw [after_fail, false_iff]
      rintro ⟨h1, h2, h3⟩
      exact fixAll_none hf h1 (hl h1 h3)
    | some dom' =>
      simp only
      rw [after_keep, fixAll_some hf]
      constructor
      · rintro ⟨⟨h1, -⟩, h2, h3⟩; exact ⟨h1, h2, h3⟩
      · rintro ⟨h1, h2, h3⟩; exact ⟨⟨h1, hl h1 h3⟩, h2, h3⟩
  unfold propagateRhs
  refine key _ ?_
  intro h1 h3 p hp
  have hv := h1 v _ hd
  have h3 : σ v = true ↔ c.Eval σ := h3
  rw [hv] at h3
  cases c with
  | id w =>
    simp only [List.mem_singleton] at hp
    subst hp
    simp only [Con.Eval] at h3
    cases hw : σ w <;> cases isTrue <;> simp_all
  | conj al =>
    cases isTrue with
    | false => simp at hp
    | true =>
      simp only [if_true, List.mem_map, mem_varsOf] at hp
      obtain ⟨w, hw, rfl⟩ := hp
      exact (h3.1 rfl) _ hw
  | disj al =>
    cases isTrue with
    | true => simp at hp
    | false =>
      simp only [Bool.false_eq_true, if_false, List.mem_map, mem_varsOf] at hp
      obtain ⟨w, hw, rfl⟩ := hp
      simp only [Bool.false_eq_true, false_iff] at h3
      by_contra hc
      exact h3 ⟨_, hw, by simpa [Elem.eval] using hc⟩
  | clause q n =>
    cases isTrue with
    | true => simp at hp
    | false =>
      simp only [Bool.false_eq_true, if_false, List.mem_append, List.mem_map, mem_varsOf] at hp
      simp only [Bool.false_eq_true, false_iff] at h3
      rcases hp with ⟨w, hw, rfl⟩ | ⟨w, hw, rfl⟩
      · by_contra hc
        exact h3 (.inl ⟨_, hw, by simpa [Elem.eval] using hc⟩)
      · by_contra hc
        exact h3 (.inr ⟨_, hw, by simpa [Elem.eval] using hc⟩)
  | eq a b => simp at hp
  | const b => simp at hp

/-! ### Phase 2 -/

theorem common_mem : ∀ {xs ys : List Nat}, common xs ys = true → ∃ x, x ∈ xs ∧ x ∈ ys
  | [], _, h => by simp [common] at h
  | _ :: _, [], h => by simp [common] at h
  | x :: xs, y :: ys, h => by
    unfold common at h
    split at h
    · rename_i he; exact ⟨x, by simp, by simp [he]⟩
    · split at h
      · obtain ⟨z, h1, h2⟩ := common_mem h
        exact ⟨z, List.mem_cons_of_mem _ h1, h2⟩
      · obtain ⟨z, h1, h2⟩ := common_mem h
        exact ⟨z, h1, List.mem_cons_of_mem _ h2⟩
  termination_by xs ys => xs.length + ys.length

theorem mem_insertSorted {x y : Nat} : ∀ {l : List Nat}, y ∈ insertSorted x l ↔ y = x ∨ y ∈ l
  | [] => by simp [insertSorted]
  | z :: l => by
    unfold insertSorted
    split
    · simp
    · simp only [List.mem_cons, mem_insertSorted]
      tauto

theorem mem_sort {y : Nat} : ∀ {l : List Nat}, y ∈ sort l ↔ y ∈ l
  | [] => by simp [sort]
  | z :: l => by simp [sort, mem_insertSorted, mem_sort]

theorem tautology_holds {σ : Asg} {addr : Var → Nat} (ha : Function.Injective addr) {val} {c : Con}
    (h : tautology addr val c = true) : c.Eval σ := by
  cases c with
  | clause p n =>
    obtain ⟨x, h1, h2⟩ := common_mem h
    rw [mem_sort, List.mem_map] at h1 h2
    obtain ⟨v, hv, rfl⟩ := h1
    obtain ⟨w, hw, he⟩ := h2
    have := ha he
    subst this
    rw [mem_openIn] at hv hw
    cases hs : σ w with
    | true => exact .inl ⟨_, hv.1, hs⟩
    | false => exact .inr ⟨_, hw.1, hs⟩
  | _ => simp [tautology] at h

theorem tautology_conj {addr : Var → Nat} {val} {c : Con} (h : tautology addr val c = true) : c.isConj = false := by
  cases c <;> simp_all [tautology, Con.isConj]

theorem open2_none {dom rhs} {c : Con} {i w} (h : (i, w) ∈ openElems (elemVal2 dom rhs) c) : dom w = none ∧ rhs w = none := by
  have key : elemVal2 dom rhs (.var w) = none → dom w = none ∧ rhs w = none := by
    intro h
    unfold elemVal2 at h
    cases hd : dom w with
    | none => simp only [hd] at h; exact ⟨rfl, h⟩
    | some b => simp [hd] at h
  cases c with
  | conj al =>
    simp only [openElems, List.mem_map, Prod.mk.injEq] at h
    obtain ⟨v, hv, -, rfl⟩ := h
    exact key (mem_openIn.1 hv).2
  | disj al =>
    simp only [openElems, List.mem_map, Prod.mk.injEq] at h
    obtain ⟨v, hv, -, rfl⟩ := h
    exact key (mem_openIn.1 hv).2
  | clause p n =>
    simp only [openElems, List.mem_append, List.mem_map, Prod.mk.injEq] at h
    rcases h with ⟨v, hv, -, rfl⟩ | ⟨v, hv, -, rfl⟩ <;> exact key (mem_openIn.1 hv).2
  | _ => simp [openElems] at h

theorem open_pos {val} {c : Con} {i w} (h : (i, w) ∈ openElems val c) : (i = 0 ∨ i = 1) ∧ (c.isConj = true → i = 0) := by
  cases c with
  | conj al =>
    simp only [openElems, List.mem_map, Prod.mk.injEq] at h
    obtain ⟨v, hv, rfl, rfl⟩ := h
    exact ⟨.inl rfl, fun _ => rfl⟩
  | disj al =>
    simp only [openElems, List.mem_map, Prod.mk.injEq] at h
    obtain ⟨v, hv, rfl, rfl⟩ := h
    exact ⟨.inl rfl, fun _ => rfl⟩
  | clause p n =>
    simp only [openElems, List.mem_append, List.mem_map, Prod.mk.injEq] at h
    rcases h with ⟨v, hv, rfl, rfl⟩ | ⟨v, hv, rfl, rfl⟩
    · exact ⟨.inl rfl, fun _ => rfl⟩
    · exact ⟨.inr rfl, by simp [Con.isConj]⟩
  | _ => simp [openElems] at h

/-- Phase 2 keeps the solutions. -/
theorem phase2_ok {σ : Asg} {addr : Var → Nat} (ha : Function.Injective addr) {has : Var → Bool} {dom rhs} {it : Item}
    (hr : ∀ v c, it = .defn v c → rhs v = none) (hh : ∀ v, has v = false → rhs v = none) :
    After σ (phase2 addr has dom rhs it) ↔ Before σ dom rhs it := by
  unfold phase2
  simp only
  split
  · exact after_same
  rename_i hc
  have hright : Agrees σ dom → Agrees σ rhs → Right σ (elemVal2 dom rhs) := fun h1 h2 e b he => elemVal2_eval h1 h2 he
  split
  · rename_i hs
    have hd : Agrees σ dom → Agrees σ rhs → (it.expr.Eval σ ↔ it.expr.isConj = false) := by
      intro h1 h2
      rw [Bool.or_eq_true] at hs
      rcases hs with hs | hs
      · exact eval_subsumed (hright h1 h2) hs
      · exact iff_of_true (tautology_holds ha hs) (tautology_conj hs)
    cases it with
    | con c =>
      simp only [Item.expr] at hd
      change After σ (if c.isConj = true then _ else _) ↔ _
      cases hcj : c.isConj with
      | true =>
        rw [if_pos rfl, after_fail, false_iff]
        rintro ⟨h1, h2, h3⟩
        have h3 : c.Eval σ := h3
        rw [hd h1 h2, hcj] at h3
        exact absurd h3 (by decide)
      | false =>
        rw [if_neg (by decide), after_drop]
        constructor
        · rintro ⟨h1, h2⟩; exact ⟨h1, h2, (hd h1 h2).2 hcj⟩
        · rintro ⟨h1, h2, -⟩; exact ⟨h1, h2⟩
    | defn v c =>
      simp only [Item.expr] at hd ⊢
      cases hv : dom v with
      | some d =>
        change After σ (if d = c.isConj then _ else _) ↔ _
        split
        · rename_i hdc
          rw [after_fail, false_iff]
          rintro ⟨h1, h2, h3⟩
          have h3 : σ v = true ↔ c.Eval σ := h3
          rw [hd h1 h2, h1 v d hv, hdc] at h3
          cases hcj : c.isConj <;> simp [hcj] at h3
        · exact after_same
      | none =>
        simp only
        rw [after_drop, agrees_set (.inl hv), agrees_set (.inl (hr v c rfl))]
        constructor
        · rintro ⟨⟨h1, h3⟩, h2, -⟩
          refine ⟨h1, h2, ?_⟩
          show σ v = true ↔ c.Eval σ
          rw [hd h1 h2, h3]
          cases c.isConj <;> simp
        · rintro ⟨h1, h2, h3⟩
          have h3 : σ v = true ↔ c.Eval σ := h3
          rw [hd h1 h2] at h3
          have : σ v = !c.isConj := by
            cases hs : σ v <;> cases hcj : c.isConj <;> simp_all
          exact ⟨⟨h1, this⟩, h2, this⟩
  · rename_i hs
    rw [Bool.or_eq_true, not_or, Bool.not_eq_true] at hs
    cases it with
    | defn v c =>
      simp only
      exact after_same
    | con c =>
      simp only [Item.expr] at hs hc ⊢
      rcases ho : openElems (elemVal2 dom rhs) c with _ | ⟨⟨i, w⟩, _ | ⟨q, l⟩⟩
      · exact after_same
      · simp only
        have hw := open2_none (c := c) (i := i) (w := w) (dom := dom) (rhs := rhs) (by rw [ho]; simp)
        have hpos := open_pos (c := c) (i := i) (w := w) (val := elemVal2 dom rhs) (by rw [ho]; simp)
        have hd : Agrees σ dom → Agrees σ rhs → (c.Eval σ ↔ σ w = decide (i ≠ 1)) := by
          intro h1 h2
          rw [eval_open (hright h1 h2) (lits_elemVal2 dom rhs) hc hs.1, ho]
          cases hcj : c.isConj with
          | true => simp [hpos.2 hcj]
          | false => rcases hpos.1 with h | h <;> simp [h]
        have hrs : Agrees σ (if has w then rhs else set rhs w (decide (i ≠ 1))) ∧ σ w = decide (i ≠ 1) ↔
            Agrees σ rhs ∧ σ w = decide (i ≠ 1) := by
          split
          · exact Iff.rfl
          · rw [agrees_set (.inl hw.2)]
            constructor
            · rintro ⟨⟨h1, h2⟩, -⟩; exact ⟨h1, h2⟩
            · rintro ⟨h1, h2⟩; exact ⟨⟨h1, h2⟩, h2⟩
        rw [after_drop, agrees_set (.inl hw.1)]
        constructor
        · rintro ⟨⟨h1, h3⟩, h2⟩
          have h2 := (hrs.1 ⟨h2, h3⟩).1
          exact ⟨h1, h2, (hd h1 h2).2 h3⟩
        · rintro ⟨h1, h2, h3⟩
          have h3 := (hd h1 h2).1 h3
          exact ⟨⟨h1, h3⟩, (hrs.2 ⟨h2, h3⟩).1⟩
      · exact after_same

/-! ### Phase 4 -/

theorem compact_eval {σ : Asg} {dom} (h1 : Agrees σ dom) {c : Con} (hs : subsumed (elemVal dom) c = false) :
    (c.compact dom).Eval σ ↔ c.Eval σ := by
  have hu : ∀ p ∈ c.args, ∀ e ∈ p.2, elemVal dom e ≠ none → e.eval σ = p.1 :=
    fun p hp e he ho => elemVal_eval h1 (unit_of hs hp he ho)
  have hall : ∀ (l : List Elem) (u : Bool), (u, l) ∈ c.args →
      ((∀ e ∈ compact dom l, e.eval σ = u) ↔ ∀ e ∈ l, e.eval σ = u) := by
    intro l u hl
    constructor
    · intro h e he
      by_cases ho : elemVal dom e = none
      · exact h e (List.mem_filter.2 ⟨he, by simp [ho]⟩)
      · exact hu _ hl e he ho
    · intro h e he
      exact h e (List.mem_filter.1 he).1
  have hex : ∀ (l : List Elem) (u : Bool), (!u, l) ∈ c.args →
      ((∃ e ∈ compact dom l, e.eval σ = u) ↔ ∃ e ∈ l, e.eval σ = u) := by
    intro l u hl
    have := not_congr (hall l (!u) hl)
    simp only [not_forall, exists_prop] at this
    simpa using this
  cases c with
  | conj al => exact hall al true (by simp [Con.args])
  | disj al => exact hex al true (by simp [Con.args])
  | clause p n => exact or_congr (hex p true (by simp [Con.args])) (hex n false (by simp [Con.args]))
  | _ => exact Iff.rfl

theorem empty_eval {σ : Asg} {c : Con} (hc : c.args ≠ []) (h : c.args.all (fun p => p.2.isEmpty) = true) :
    c.Eval σ ↔ c.isConj = true := by
  cases c with
  | conj al => simp [Con.args] at h; simp [Con.Eval, Con.isConj, h]
  | disj al => simp [Con.args] at h; simp [Con.Eval, Con.isConj, h]
  | clause p n => simp [Con.args] at h; simp [Con.Eval, Con.isConj, h]
  | _ => simp [Con.args] at hc

theorem compact_args {dom} {c : Con} (hc : c.args ≠ []) : (c.compact dom).args ≠ [] ∧ (c.compact dom).isConj = c.isConj := by
  cases c <;> simp_all [Con.args, Con.compact, Con.isConj]

/-- Phase 4 keeps the solutions. -/
theorem phase4_ok {σ : Asg} {dom rhs} {it : Item} (hr : ∀ v c, it = .defn v c → rhs v = none) :
    After σ (phase4 dom rhs it) ↔ Before σ dom rhs it := by
  unfold phase4
  simp only
  split
  · exact after_same
  rename_i hc
  have hdef : ∀ (b : Bool), (Agrees σ dom → (it.expr.Eval σ ↔ b = true)) →
      (After σ (match it with
        | .con _ => if b = false then ⟨dom, rhs, some it, true, none⟩ else ⟨dom, rhs, none, false, none⟩
        | .defn v _ =>
          match dom v with
          | some d => if d = !b then ⟨dom, rhs, some it, true, none⟩ else ⟨dom, set rhs v b, none, false, none⟩
          | none => ⟨set dom v b, set rhs v b, none, false, none⟩) ↔ Before σ dom rhs it) := by
    intro b hb
    cases it with
    | con c =>
      simp only [Item.expr] at hb ⊢
      split
      · rename_i h0
        rw [after_fail, false_iff]
        rintro ⟨h1, h2, h3⟩
        have := (hb h1).1 h3
        rw [h0] at this
        exact absurd this (by decide)
      · rename_i h0
        rw [after_drop]
        constructor
        · rintro ⟨h1, h2⟩; exact ⟨h1, h2, (hb h1).2 (by simpa using h0)⟩
        · rintro ⟨h1, h2, -⟩; exact ⟨h1, h2⟩
    | defn v c =>
      simp only [Item.expr] at hb ⊢
      have hrv := hr v c rfl
      have hiff : ∀ h1 : Agrees σ dom, (Item.defn v c).Holds σ ↔ σ v = b := by
        intro h1
        show (σ v = true ↔ c.Eval σ) ↔ _
        rw [hb h1]
        cases σ v <;> cases b <;> simp
      cases hv : dom v with
      | some d =>
        simp only
        split
        · rename_i h0
          rw [after_fail, false_iff]
          rintro ⟨h1, h2, h3⟩
          have := (hiff h1).1 h3
          rw [h1 v d hv, h0] at this
          exact absurd this (by cases b <;> decide)
        · rename_i h0
          rw [after_drop, agrees_set (.inl hrv)]
          constructor
          · rintro ⟨h1, h2, h3⟩; exact ⟨h1, h2, (hiff h1).2 h3⟩
          · rintro ⟨h1, h2, h3⟩; exact ⟨h1, h2, (hiff h1).1 h3⟩
      | none =>
        simp only
        rw [after_drop, agrees_set (.inl hrv), agrees_set (.inl hv)]
        constructor
        · rintro ⟨⟨h1, h3⟩, h2, -⟩; exact ⟨h1, h2, (hiff h1).2 h3⟩
        · rintro ⟨h1, h2, h3⟩; exact ⟨⟨h1, (hiff h1).1 h3⟩, h2, (hiff h1).1 h3⟩
  split
  · rename_i hs
    rw [← hdef (!it.expr.isConj) (fun h1 => by
      rw [eval_subsumed (fun e b he => elemVal_eval h1 he) hs]; simp)]
    cases it with
    | con c => cases hcj : c.isConj <;> simp [Item.expr, hcj]
    | defn v c => exact Iff.rfl
  · rename_i hs
    rw [Bool.not_eq_true] at hs
    split
    · rename_i he
      rw [← hdef it.expr.isConj (fun h1 => by
        rw [← compact_eval h1 hs, empty_eval (compact_args hc).1 he, (compact_args hc).2])]
      cases it with
      | con c => cases hcj : c.isConj <;> simp [Item.expr, hcj]
      | defn v c => exact Iff.rfl
    · cases it with
      | con c =>
        simp only
        rw [after_same]
        constructor
        · rintro ⟨h1, h2, h3⟩; exact ⟨h1, h2, (compact_eval h1 hs).1 h3⟩
        · rintro ⟨h1, h2, h3⟩; exact ⟨h1, h2, (compact_eval h1 hs).2 h3⟩
      | defn v c =>
        simp only
        rw [after_same]
        constructor
        · rintro ⟨h1, h2, h3⟩
          exact ⟨h1, h2, Iff.trans h3 (compact_eval h1 hs)⟩
        · rintro ⟨h1, h2, h3⟩
          exact ⟨h1, h2, Iff.trans h3 (compact_eval h1 hs).symm⟩

/-! ### Unification -/

theorem elem_subst {σ : Asg} {a b : Var} (h : σ a = σ b) (e : Elem) : (e.subst a b).eval σ = e.eval σ := by
  cases e with
  | lit x => rfl
  | var v =>
    show σ (if v = a then b else v) = σ v
    split
    · rename_i hv; rw [hv, h]
    · rfl

theorem con_subst {σ : Asg} {a b : Var} (h : σ a = σ b) (c : Con) : (c.subst a b).Eval σ ↔ c.Eval σ := by
  cases c with
  | conj al => simp [Con.subst, Con.Eval, elem_subst h]
  | disj al => simp [Con.subst, Con.Eval, elem_subst h]
  | clause p n => simp [Con.subst, Con.Eval, elem_subst h]
  | eq x y => simp [Con.subst, Con.Eval, elem_subst h]
  | id v =>
    show σ (if v = a then b else v) = true ↔ σ v = true
    split
    · rename_i hv; rw [hv, h]
    · rfl
  | const x => rfl

theorem item_subst {σ : Asg} {a b : Var} (h : σ a = σ b) (it : Item) : (it.subst a b).Holds σ ↔ it.Holds σ := by
  cases it with
  | con c => exact con_subst h c
  | defn v c =>
    show (σ (if v = a then b else v) = true ↔ _) ↔ (σ v = true ↔ _)
    have : σ (if v = a then b else v) = σ v := by
      split
      · rename_i hv; rw [hv, h]
      · rfl
    rw [this, con_subst h c]

theorem selfAlias_holds {σ : Asg} {it : Item} (h : it.selfAlias = true) : it.Holds σ := by
  cases it with
  | con c => simp [Item.selfAlias] at h
  | defn v c =>
    cases c with
    | id w =>
      simp only [Item.selfAlias, decide_eq_true_eq] at h
      subst h
      exact Iff.rfl
    | _ => simp [Item.selfAlias] at h

/-- The unification of two variables adds just their equality, if at most one of them has a right hand side. -/
theorem unify_sol {σ : Asg} {out : Var → Bool} {m : Model} {x y : Var} (h : ¬(m.hasRhs x = true ∧ m.hasRhs y = true)) :
    (m.unify out x y).Sol σ ↔ m.Sol σ ∧ σ x = σ y := by
  unfold Model.unify
  split
  · rename_i he; subst he; simp
  rename_i hne
  have hab : ∀ a b : Var, a ≠ b → ¬(m.hasRhs a = true ∧ m.hasRhs b = true) →
      (Model.Sol σ ⟨fun v => if v = a then none else if v = b then (if (m.dom b).isSome then m.dom b else m.dom a) else m.dom v,
        fun v => if v = a then none else if v = b then (if m.hasRhs a then m.rhs a else m.rhs b) else m.rhs v,
        ((if m.hasRhs a then m.items.filter (fun it => !it.defines b) else m.items).map (·.subst a b)).filter
          (fun it => !it.selfAlias), (a, b) :: m.eqs,
        m.failed || match m.dom a, m.dom b with | some p, some q => decide (p ≠ q) | _, _ => false⟩ ↔ m.Sol σ ∧ σ a = σ b) := by
    intro a b hne hrs
    have hfilter : (if m.hasRhs a then m.items.filter (fun it => !it.defines b) else m.items) = m.items := by
      split
      · rename_i ha
        rw [List.filter_eq_self]
        intro it hit
        have hb : m.hasRhs b = false := by
          cases hb : m.hasRhs b
          · rfl
          · exact absurd ⟨ha, hb⟩ hrs
        simp only [Model.hasRhs, Bool.or_eq_false_iff, List.any_eq_false] at hb
        simp [hb.2 it hit]
      · rfl
    rw [hfilter]
    have hitems : σ a = σ b → ((∀ it ∈ (m.items.map (·.subst a b)).filter (fun it => !it.selfAlias), it.Holds σ) ↔
        ∀ it ∈ m.items, it.Holds σ) := by
      intro he
      constructor
      · intro h it hit
        rw [← item_subst he]
        cases hs : (it.subst a b).selfAlias with
        | true => exact selfAlias_holds hs
        | false => exact h _ (List.mem_filter.2 ⟨List.mem_map_of_mem hit, by simp [hs]⟩)
      · intro h it hit
        obtain ⟨h1, -⟩ := List.mem_filter.1 hit
        obtain ⟨it', h2, rfl⟩ := List.mem_map.1 h1
        rw [item_subst he]
        exact h it' h2
    have hrhs : σ a = σ b → (Agrees σ (fun v => if v = a then none else if v = b then (if m.hasRhs a then m.rhs a else m.rhs b) else m.rhs v) ↔
        Agrees σ m.rhs) := by
      intro he
      constructor
      · intro h v c hv
        by_cases hva : v = a
        · subst hva
          have hra : m.hasRhs v = true := by simp [Model.hasRhs, hv]
          have := h b c (by simp [hne.symm, hra, hv])
          rw [he]; exact this
        · by_cases hvb : v = b
          · subst hvb
            have hrb : m.hasRhs v = true := by simp [Model.hasRhs, hv]
            have hra : m.hasRhs a = false := by
              cases ha : m.hasRhs a
              · rfl
              · exact absurd ⟨ha, hrb⟩ hrs
            exact h v c (by simp [hva, hra, hv])
          · exact h v c (by simp [hva, hvb, hv])
      · intro h v c hv
        simp only at hv
        split at hv
        · cases hv
        · split at hv
          · rename_i hvb
            split at hv
            · rw [hvb, ← he]; exact h a c hv
            · rw [hvb]; exact h b c hv
          · exact h v c hv
    have hdom : σ a = σ b → (((match m.dom a, m.dom b with | some p, some q => decide (p ≠ q) | _, _ => false) = false ∧
        Agrees σ (fun v => if v = a then none else if v = b then (if (m.dom b).isSome then m.dom b else m.dom a) else m.dom v)) ↔
        Agrees σ m.dom) := by
      intro he
      constructor
      · rintro ⟨h0, h⟩ v c hv
        by_cases hva : v = a
        · subst hva
          cases hb : m.dom b with
          | none =>
            have := h b c (by simp [hne.symm, hb, hv])
            rw [he]; exact this
          | some q =>
            simp only [hv, hb, decide_eq_false_iff_not, ne_eq, not_not] at h0
            have := h b q (by simp [hne.symm, hb])
            rw [he, this, h0]
        · by_cases hvb : v = b
          · subst hvb
            exact h v c (by simp [hva, hv])
          · exact h v c (by simp [hva, hvb, hv])
      · intro h
        refine ⟨?_, ?_⟩
        · cases ha : m.dom a with
          | none => rfl
          | some p =>
            cases hb : m.dom b with
            | none => rfl
            | some q =>
              simp only [decide_eq_false_iff_not, ne_eq, not_not]
              rw [← h a p ha, ← h b q hb, he]
        · intro v c hv
          simp only at hv
          split at hv
          · cases hv
          · split at hv
            · rename_i hvb
              split at hv
              · rw [hvb]; exact h b c hv
              · rw [hvb, ← he]; exact h a c hv
            · exact h v c hv
    unfold Model.Sol
    simp only [Bool.or_eq_false_iff, List.mem_cons, forall_eq_or_imp]
    constructor
    · rintro ⟨⟨h1, h0⟩, h2, h3, h4, h5, h6⟩
      exact ⟨⟨h1, (hdom h5).1 ⟨h0, h2⟩, (hrhs h5).1 h3, (hitems h5).1 h4, h6⟩, h5⟩
    · rintro ⟨⟨h1, h2, h3, h4, h6⟩, h5⟩
      have := (hdom h5).2 h2
      exact ⟨⟨h1, this.1⟩, this.2, (hrhs h5).2 h3, (hitems h5).2 h4, h5, h6⟩
  cases ho : out x with
  | true =>
    simp only [if_true]
    exact (hab y x (Ne.symm hne) (fun hh => h ⟨hh.2, hh.1⟩)).trans (and_congr_right (fun _ => eq_comm))
  | false =>
    simp only [Bool.false_eq_true, if_false]
    exact hab x y hne h

end BoolOpt
end MZ
