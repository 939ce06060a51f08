import Verif.Call.Basic
/-!
# Calls: expressions are flattened correctly if calls are
-/
namespace MZ
namespace Call
open BoolFlat (Cmp)
open Let (Atom Def St mk post out setFl restore Ok WF Grow Agree)

/-- The flat model has grown and the values of declarations are as before. -/
structure Step (n : Nat) (G : Prog) (s s' : S) : Prop where
  grow : Grow s.st s'.st
  inv : Inv n G s'
  fl : s'.st.fl = s.st.fl

theorem Step.trans {n : Nat} {G : Prog} {a b c : S} (h : Step n G a b) (h' : Step n G b c) : Step n G a c :=
  ⟨h.grow.trans h'.grow, h'.inv, h'.fl.trans h.fl⟩

theorem Step.refl {n : Nat} {G : Prog} {a : S} (h : Inv n G a) : Step n G a a := ⟨Grow.refl h.wf, h, rfl⟩

theorem Step.env {n : Nat} {G : Prog} {a b : S} (h : Step n G a b) {X : Nat → Prop} {σ η : Nat → Int} (he : Env X a.st.fl σ η) :
    Env X b.st.fl σ η := by rw [h.fl]; exact he

structure PI (n : Nat) (G : Prog) (X : Nat → Prop) (t : IE) (root : Bool) (s s' : S) (r b : Atom) : Prop extends Step n G s s' where
  ltr : r.Lt s'.st.decls.length
  ltb : b.Lt s'.st.decls.length
  one : root = true → b = .lit 1
  ex : ∀ σ η, Ok σ s'.st → Env X s.st.fl σ η →
    ∃ o, EvI G t (gl n σ) η o ∧ (b.tr σ ↔ o.isSome = true) ∧ ∀ v, o = some v → r.val σ = v
  ext : ∀ σ η, Ok σ s.st → Env X s.st.fl σ η → (root = true → ∃ v, EvI G t (gl n σ) η (some v)) →
    ∃ σ', Agree s.st.decls.length σ σ' ∧ Ok σ' s'.st

structure PA (n : Nat) (G : Prog) (X : Nat → Prop) (t : Args) (root : Bool) (s s' : S) (vs bs : List Atom) : Prop extends Step n G s s' where
  ltr : ∀ a ∈ vs, a.Lt s'.st.decls.length
  ltb : ∀ a ∈ bs, a.Lt s'.st.decls.length
  one : root = true → ∀ b ∈ bs, b = .lit 1
  ex : ∀ σ η, Ok σ s'.st → Env X s.st.fl σ η →
    ∃ o, EvA G t (gl n σ) η o ∧ ((∀ b ∈ bs, b.tr σ) ↔ o.isSome = true) ∧ ∀ v, o = some v → vs.map (·.val σ) = v
  ext : ∀ σ η, Ok σ s.st → Env X s.st.fl σ η → (root = true → ∃ v, EvA G t (gl n σ) η (some v)) →
    ∃ σ', Agree s.st.decls.length σ σ' ∧ Ok σ' s'.st

structure PB (n : Nat) (G : Prog) (X : Nat → Prop) (e : BE) (root : Bool) (s s' : S) (a : Atom) : Prop extends Step n G s s' where
  lt : a.Lt s'.st.decls.length
  one : root = true → a = .lit 1
  ex : ∀ σ η, Ok σ s'.st → Env X s.st.fl σ η → ∃ o, EvB G e (gl n σ) η o ∧ (a.tr σ ↔ o = true)
  ext : ∀ σ η, Ok σ s.st → Env X s.st.fl σ η → (root = true → EvB G e (gl n σ) η true) →
    ∃ σ', Agree s.st.decls.length σ σ' ∧ Ok σ' s'.st

structure PH (n : Nat) (G : Prog) (f : Nat) (vs bs : List Atom) (root : Bool) (s s' : S) (r b : Atom) : Prop extends Step n G s s' where
  ltr : r.Lt s'.st.decls.length
  ltb : b.Lt s'.st.decls.length
  one : root = true → b = .lit 1
  ex : ∀ σ, Ok σ s'.st → ∃ o, AppI G (gl n σ) f (vs.map (·.val σ)) o ∧ (b.tr σ ↔ (∀ c ∈ bs, c.tr σ) ∧ o.isSome = true) ∧
    ∀ v, o = some v → r.val σ = v
  ext : ∀ σ, Ok σ s.st → (root = true → (∀ c ∈ bs, c.tr σ) ∧ ∃ v, AppI G (gl n σ) f (vs.map (·.val σ)) (some v)) →
    ∃ σ', Agree s.st.decls.length σ σ' ∧ Ok σ' s'.st

structure PP (n : Nat) (G : Prog) (f : Nat) (vs bs : List Atom) (root : Bool) (s s' : S) (a : Atom) : Prop extends Step n G s s' where
  lt : a.Lt s'.st.decls.length
  one : root = true → a = .lit 1
  ex : ∀ σ, Ok σ s'.st → ∃ o, AppP G (gl n σ) f (vs.map (·.val σ)) o ∧ (a.tr σ ↔ (∀ c ∈ bs, c.tr σ) ∧ o = true)
  ext : ∀ σ, Ok σ s.st → (root = true → (∀ c ∈ bs, c.tr σ) ∧ AppP G (gl n σ) f (vs.map (·.val σ)) true) →
    ∃ σ', Agree s.st.decls.length σ σ' ∧ Ok σ' s'.st

/-- Calls of functions are flattened correctly. -/
def HIok (fix : Bool) (n : Nat) (G : Prog) (H : HI) : Prop :=
  ∀ root f vs bs s s' r b, Inv n G s → (∀ a ∈ vs, a.Lt s.st.decls.length) → (∀ a ∈ bs, a.Lt s.st.decls.length) →
    (fix = true ∨ ∀ a ∈ bs, a = .lit 1) → H root f vs bs s = some (s', r, b) → PH n G f vs bs root s s' r b

/-- Calls of predicates are flattened correctly. -/
def HPok (fix : Bool) (n : Nat) (G : Prog) (P : HP) : Prop :=
  ∀ root f vs bs s s' a, Inv n G s → (∀ a ∈ vs, a.Lt s.st.decls.length) → (∀ a ∈ bs, a.Lt s.st.decls.length) →
    (fix = true ∨ ∀ a ∈ bs, a = .lit 1) → P root f vs bs s = some (s', a) → PP n G f vs bs root s s' a

theorem lit1_tr (σ : Nat → Int) : (Atom.lit 1).tr σ := by simp [Atom.tr, Atom.val]

theorem both_some {α β γ : Type} (f : α → β → Option γ) (o1 : Option α) (o2 : Option β) :
    both f (some o1) (some o2) = some (o1.bind fun a => o2.bind (f a)) := by
  cases o1 <;> cases o2 <;> rfl

theorem both_inv {α β γ : Type} {f : α → β → Option γ} {a : Option (Option α)} {b : Option (Option β)} {v : γ} (h : both f a b = some (some v)) :
    ∃ x y, a = some (some x) ∧ b = some (some y) ∧ f x y = some v := by
  match a, b, h with
  | some (some x), some (some y), h => exact ⟨x, y, rfl, rfl, by simpa [both] using h⟩

theorem ev_both {G : Prog} {E t u : IE} {f : Int → Int → Option Int} (hE : ∀ A η, E.val A η = both f (t.val A η) (u.val A η))
    {g η : Nat → Int} {o1 o2 : Option Int} (h1 : EvI G t g η o1) (h2 : EvI G u g η o2) :
    EvI G E g η (o1.bind fun a => o2.bind (f a)) := by
  obtain ⟨n, h1⟩ := h1
  obtain ⟨m, h2⟩ := h2
  refine ⟨max n m, ?_⟩
  rw [hE, val_le (Nat.le_max_left n m) h1, val_le (Nat.le_max_right n m) h2, both_some]

theorem ev_both_inv {G : Prog} {E t u : IE} {f : Int → Int → Option Int} (hE : ∀ A η, E.val A η = both f (t.val A η) (u.val A η))
    {g η : Nat → Int} {v : Int} (h : EvI G E g η (some v)) :
    ∃ a b, EvI G t g η (some a) ∧ EvI G u g η (some b) ∧ f a b = some v := by
  obtain ⟨n, h⟩ := h
  rw [hE] at h
  obtain ⟨a, b, h1, h2, h3⟩ := both_inv h
  exact ⟨a, b, ⟨n, h1⟩, ⟨n, h2⟩, h3⟩

/-- Two integer expressions, one after the other. -/
structure P2 (n : Nat) (G : Prog) (X : Nat → Prop) (t u : IE) (root : Bool) (s s' : S) (a1 b1 a2 b2 : Atom) : Prop extends Step n G s s' where
  lta1 : a1.Lt s'.st.decls.length
  ltb1 : b1.Lt s'.st.decls.length
  lta2 : a2.Lt s'.st.decls.length
  ltb2 : b2.Lt s'.st.decls.length
  one : root = true → b1 = .lit 1 ∧ b2 = .lit 1
  ex : ∀ σ η, Ok σ s'.st → Env X s.st.fl σ η →
    ∃ o1 o2, EvI G t (gl n σ) η o1 ∧ (b1.tr σ ↔ o1.isSome = true) ∧ (∀ v, o1 = some v → a1.val σ = v) ∧
      EvI G u (gl n σ) η o2 ∧ (b2.tr σ ↔ o2.isSome = true) ∧ ∀ v, o2 = some v → a2.val σ = v
  ext : ∀ σ η, Ok σ s.st → Env X s.st.fl σ η → (root = true → ∃ v w, EvI G t (gl n σ) η (some v) ∧ EvI G u (gl n σ) η (some w)) →
    ∃ σ', Agree s.st.decls.length σ σ' ∧ Ok σ' s'.st

theorem PI.pair {n : Nat} {G : Prog} {X : Nat → Prop} {t u : IE} {root : Bool} {s s1 s2 : S} {a1 b1 a2 b2 : Atom} (hs : Inv n G s)
    (h1 : PI n G X t root s s1 a1 b1) (h2 : PI n G X u root s1 s2 a2 b2) : P2 n G X t u root s s2 a1 b1 a2 b2 := by
  refine ⟨h1.toStep.trans h2.toStep, h1.ltr.mono h2.grow.len, h1.ltb.mono h2.grow.len, h2.ltr, h2.ltb, fun hr => ⟨h1.one hr, h2.one hr⟩,
    fun σ η ho he => ?_, fun σ η ho he hr => ?_⟩
  · obtain ⟨o1, k1, k2, k3⟩ := h1.ex σ η (h2.grow.ok ho) he
    obtain ⟨o2, k4, k5, k6⟩ := h2.ex σ η ho (h1.env he)
    exact ⟨o1, o2, k1, k2, k3, k4, k5, k6⟩
  · obtain ⟨σ1, q1, q2⟩ := h1.ext σ η ho he (fun e => by obtain ⟨v, w, p, _⟩ := hr e; exact ⟨v, p⟩)
    obtain ⟨σ2, q3, q4⟩ := h2.ext σ1 η q2 (h1.env (he.agree hs q1)) (fun e => by
      obtain ⟨v, w, _, p⟩ := hr e
      rw [hs.gl q1]
      exact ⟨w, p⟩)
    exact ⟨σ2, q1.trans q3 h1.grow.len, q4⟩

theorem add_spec {n : Nat} {G : Prog} {X : Nat → Prop} {t u : IE} {root : Bool} {s s2 : S} {a1 b1 a2 b2 : Atom}
    (h : P2 n G X t u root s s2 a1 b1 a2 b2) :
    PI n G X (.add t u) root s (conjS root (mkS s2 (.add a1 a2)).1 [b1, b2]).1 (mkS s2 (.add a1 a2)).2
      (conjS root (mkS s2 (.add a1 a2)).1 [b1, b2]).2 := by
  have hE : ∀ A η, (IE.add t u).val A η = both (fun a b => some (a + b)) (t.val A η) (u.val A η) := fun A η => by rw [IE.val]
  obtain ⟨m1, m2, m3, m4, m5, m6⟩ := mkS_spec h.inv (d := .add a1 a2) ⟨h.lta1, h.lta2⟩
  obtain ⟨c1, c2, c3, c4, c5, c6, c7⟩ := conjS_spec m2 (cs := [b1, b2]) (by
    intro a ha
    simp only [List.mem_cons, List.not_mem_nil, or_false] at ha
    rcases ha with rfl | rfl
    · exact h.ltb1.mono m1.len
    · exact h.ltb2.mono m1.len) root
  refine ⟨(h.toStep.trans ⟨m1, m2, m3⟩).trans ⟨c1, c2, c3⟩, m4.mono c1.len, c4, c5, fun σ η ho he => ?_, fun σ η ho he hr => ?_⟩
  · obtain ⟨o1, o2, k1, k2, k3, k4, k5, k6⟩ := h.ex σ η (m1.ok (c1.ok ho)) he
    refine ⟨_, ev_both hE k1 k4, ?_, ?_⟩
    · rw [c6 σ ho]
      simp only [List.mem_cons, List.not_mem_nil, or_false, forall_eq_or_imp, forall_eq]
      rw [k2, k5]
      cases o1 <;> cases o2 <;> simp
    · intro v hv
      cases o1 with
      | none => simp at hv
      | some x =>
        cases o2 with
        | none => simp at hv
        | some y =>
          simp only [Option.bind_some, Option.some.injEq] at hv
          have := m5 σ (c1.ok ho)
          simp only [Def.Holds] at this
          rw [this, k3 x rfl, k6 y rfl, hv]
  · obtain ⟨σ1, q1, q2⟩ := h.ext σ η ho he (fun e => by
      obtain ⟨v, hv⟩ := hr e
      obtain ⟨a, b, p1, p2, _⟩ := ev_both_inv hE hv
      exact ⟨a, b, p1, p2⟩)
    obtain ⟨σ2, q3, q4⟩ := m6 σ1 _ q2 rfl
    obtain ⟨σ3, q5, q6⟩ := c7 σ2 q4 (fun e => by
      intro a ha
      simp only [List.mem_cons, List.not_mem_nil, or_false] at ha
      rcases ha with rfl | rfl
      · rw [(h.one e).1]; exact lit1_tr _
      · rw [(h.one e).2]; exact lit1_tr _)
    exact ⟨σ3, (q1.trans q3 h.grow.len).trans q5 (h.grow.trans m1).len, q6⟩

theorem div_spec {n : Nat} {G : Prog} {X : Nat → Prop} {t u : IE} {root : Bool} {s s2 : S} {a1 b1 a2 b2 : Atom} (hs : Inv n G s)
    (h : P2 n G X t u root s s2 a1 b1 a2 b2) :
    PI n G X (.div t u) root s (conjS root (mkS (mkS s2 (.div a1 a2)).1 (.ne0 a2)).1 [b1, b2, (mkS (mkS s2 (.div a1 a2)).1 (.ne0 a2)).2]).1
      (mkS s2 (.div a1 a2)).2
      (conjS root (mkS (mkS s2 (.div a1 a2)).1 (.ne0 a2)).1 [b1, b2, (mkS (mkS s2 (.div a1 a2)).1 (.ne0 a2)).2]).2 := by
  have hE : ∀ A η, (IE.div t u).val A η = both (fun a b => if b = 0 then none else some (a.tdiv b)) (t.val A η) (u.val A η) :=
    fun A η => by rw [IE.val]
  obtain ⟨m1, m2, m3, m4, m5, m6⟩ := mkS_spec h.inv (d := .div a1 a2) ⟨h.lta1, h.lta2⟩
  obtain ⟨d1, d2, d3, d4, d5, d6⟩ := mkS_spec m2 (d := .ne0 a2) (h.lta2.mono m1.len)
  obtain ⟨c1, c2, c3, c4, c5, c6, c7⟩ := conjS_spec d2 (cs := [b1, b2, (mkS (mkS s2 (.div a1 a2)).1 (.ne0 a2)).2]) (by
    intro a ha
    simp only [List.mem_cons, List.not_mem_nil, or_false] at ha
    rcases ha with rfl | rfl | rfl
    · exact h.ltb1.mono (m1.trans d1).len
    · exact h.ltb2.mono (m1.trans d1).len
    · exact d4) root
  have hd : ∀ σ, Ok σ (mkS (mkS s2 (.div a1 a2)).1 (.ne0 a2)).1.st →
      ((mkS (mkS s2 (.div a1 a2)).1 (.ne0 a2)).2.tr σ ↔ a2.val σ ≠ 0) := fun σ ho => (Let.Def.tr_iff rfl (d5 σ ho)).1
  refine ⟨((h.toStep.trans ⟨m1, m2, m3⟩).trans ⟨d1, d2, d3⟩).trans ⟨c1, c2, c3⟩, m4.mono (d1.trans c1).len, c4, c5, fun σ η ho he => ?_,
    fun σ η ho he hr => ?_⟩
  · obtain ⟨o1, o2, k1, k2, k3, k4, k5, k6⟩ := h.ex σ η (m1.ok (d1.ok (c1.ok ho))) he
    refine ⟨_, ev_both hE k1 k4, ?_, ?_⟩
    · rw [c6 σ ho]
      simp only [List.mem_cons, List.not_mem_nil, or_false, forall_eq_or_imp, forall_eq]
      rw [k2, k5, hd σ (c1.ok ho)]
      cases o1 with
      | none => simp
      | some x =>
        cases o2 with
        | none => simp
        | some y =>
          rw [k6 y rfl]
          by_cases hy : y = 0 <;> simp [hy]
    · intro v hv
      cases o1 with
      | none => simp at hv
      | some x =>
        cases o2 with
        | none => simp at hv
        | some y =>
          simp only [Option.bind_some] at hv
          split at hv
          · cases hv
          · have := m5 σ (d1.ok (c1.ok ho))
            simp only [Def.Holds] at this
            rw [this, k3 x rfl, k6 y rfl]
            simpa using hv
  · obtain ⟨σ1, q1, q2⟩ := h.ext σ η ho he (fun e => by
      obtain ⟨v, hv⟩ := hr e
      obtain ⟨a, b, p1, p2, _⟩ := ev_both_inv hE hv
      exact ⟨a, b, p1, p2⟩)
    obtain ⟨σ2, q3, q4⟩ := m6 σ1 _ q2 rfl
    obtain ⟨σ3, q5, q6⟩ : ∃ σ', Agree (mkS s2 (.div a1 a2)).1.st.decls.length σ2 σ' ∧ Ok σ' (mkS (mkS s2 (.div a1 a2)).1 (.ne0 a2)).1.st := by
      by_cases hz : a2.val σ2 ≠ 0
      · exact d6 σ2 1 q4 ((Let.Def.holds_iff rfl 1).mpr (Or.inl ⟨rfl, hz⟩))
      · exact d6 σ2 0 q4 ((Let.Def.holds_iff rfl 0).mpr (Or.inr ⟨rfl, hz⟩))
    have a13 : Agree s.st.decls.length σ σ3 := (q1.trans q3 h.grow.len).trans q5 (h.grow.trans m1).len
    obtain ⟨σ4, q7, q8⟩ := c7 σ3 q6 (fun e => by
      intro a ha
      simp only [List.mem_cons, List.not_mem_nil, or_false] at ha
      rcases ha with rfl | rfl | rfl
      · rw [(h.one e).1]; exact lit1_tr _
      · rw [(h.one e).2]; exact lit1_tr _
      · rw [hd σ3 q6]
        obtain ⟨v, hv⟩ := hr e
        obtain ⟨a, b, p1, p2, p3⟩ := ev_both_inv hE hv
        obtain ⟨o1, o2, k1, k2, k3, k4, k5, k6⟩ := h.ex σ3 η (m1.ok (d1.ok q6)) (he.agree hs a13)
        rw [hs.gl a13] at k4
        rw [k6 b (k4.uniq p2)]
        intro hz
        simp [hz] at p3)
    exact ⟨σ4, a13.trans q7 ((h.grow.trans m1).trans d1).len, q8⟩

theorem cmp_spec {n : Nat} {G : Prog} {X : Nat → Prop} {t u : IE} {root : Bool} {s s2 : S} {a1 b1 a2 b2 : Atom} (hs : Inv n G s) (o : Cmp)
    (h : P2 n G X t u root s s2 a1 b1 a2 b2) :
    PB n G X (.cmp o t u) root s (conjS root (mkS s2 (.cmp o a1 a2)).1 [b1, b2, (mkS s2 (.cmp o a1 a2)).2]).1
      (conjS root (mkS s2 (.cmp o a1 a2)).1 [b1, b2, (mkS s2 (.cmp o a1 a2)).2]).2 := by
  obtain ⟨d1, d2, d3, d4, d5, d6⟩ := mkS_spec h.inv (d := .cmp o a1 a2) ⟨h.lta1, h.lta2⟩
  obtain ⟨c1, c2, c3, c4, c5, c6, c7⟩ := conjS_spec d2 (cs := [b1, b2, (mkS s2 (.cmp o a1 a2)).2]) (by
    intro a ha
    simp only [List.mem_cons, List.not_mem_nil, or_false] at ha
    rcases ha with rfl | rfl | rfl
    · exact h.ltb1.mono d1.len
    · exact h.ltb2.mono d1.len
    · exact d4) root
  have hd : ∀ σ, Ok σ (mkS s2 (.cmp o a1 a2)).1.st → ((mkS s2 (.cmp o a1 a2)).2.tr σ ↔ o.holds (a1.val σ) (a2.val σ) = true) :=
    fun σ ho => (Let.Def.tr_iff rfl (d5 σ ho)).1
  have ev : ∀ {g η : Nat → Int} {o1 o2 : Option Int}, EvI G t g η o1 → EvI G u g η o2 →
      EvB G (.cmp o t u) g η ((o1.bind fun a => o2.map fun b => o.holds a b).getD false) := by
    rintro g η o1 o2 ⟨n, h1⟩ ⟨m, h2⟩
    refine ⟨max n m, ?_⟩
    rw [BE.val, val_le (Nat.le_max_left n m) h1, val_le (Nat.le_max_right n m) h2]
    cases o1 <;> cases o2 <;> rfl
  have inv : ∀ {g η : Nat → Int}, EvB G (.cmp o t u) g η true →
      ∃ a b, EvI G t g η (some a) ∧ EvI G u g η (some b) ∧ o.holds a b = true := by
    rintro g η ⟨n, h1⟩
    rw [BE.val] at h1
    cases e1 : t.val (G.fn g n) η with
    | none => rw [e1] at h1; simp at h1
    | some x =>
      cases e2 : u.val (G.fn g n) η with
      | none => rw [e1, e2] at h1; cases x <;> simp at h1
      | some y =>
        rw [e1, e2] at h1
        cases x with
        | none => cases y <;> simp at h1
        | some x =>
          cases y with
          | none => simp at h1
          | some y => exact ⟨x, y, ⟨n, e1⟩, ⟨n, e2⟩, by simpa using h1⟩
  refine ⟨(h.toStep.trans ⟨d1, d2, d3⟩).trans ⟨c1, c2, c3⟩, c4, c5, fun σ η ho he => ?_, fun σ η ho he hr => ?_⟩
  · obtain ⟨o1, o2, k1, k2, k3, k4, k5, k6⟩ := h.ex σ η (d1.ok (c1.ok ho)) he
    refine ⟨_, ev k1 k4, ?_⟩
    rw [c6 σ ho]
    simp only [List.mem_cons, List.not_mem_nil, or_false, forall_eq_or_imp, forall_eq]
    rw [k2, k5, hd σ (c1.ok ho)]
    cases o1 with
    | none => simp
    | some x =>
      cases o2 with
      | none => simp
      | some y => rw [k3 x rfl, k6 y rfl]; simp
  · obtain ⟨σ1, q1, q2⟩ := h.ext σ η ho he (fun e => by
      obtain ⟨a, b, p1, p2, _⟩ := inv (hr e)
      exact ⟨a, b, p1, p2⟩)
    obtain ⟨σ3, q5, q6⟩ : ∃ σ', Agree s2.st.decls.length σ1 σ' ∧ Ok σ' (mkS s2 (.cmp o a1 a2)).1.st := by
      by_cases hz : o.holds (a1.val σ1) (a2.val σ1) = true
      · exact d6 σ1 1 q2 ((Let.Def.holds_iff rfl 1).mpr (Or.inl ⟨rfl, hz⟩))
      · exact d6 σ1 0 q2 ((Let.Def.holds_iff rfl 0).mpr (Or.inr ⟨rfl, hz⟩))
    have a13 : Agree s.st.decls.length σ σ3 := q1.trans q5 h.grow.len
    obtain ⟨σ4, q7, q8⟩ := c7 σ3 q6 (fun e => by
      intro a ha
      simp only [List.mem_cons, List.not_mem_nil, or_false] at ha
      rcases ha with rfl | rfl | rfl
      · rw [(h.one e).1]; exact lit1_tr _
      · rw [(h.one e).2]; exact lit1_tr _
      · rw [hd σ3 q6]
        obtain ⟨a, b, p1, p2, p3⟩ := inv (hr e)
        obtain ⟨o1, o2, k1, k2, k3, k4, k5, k6⟩ := h.ex σ3 η (d1.ok q6) (he.agree hs a13)
        rw [hs.gl a13] at k1 k4
        rw [k3 a (k1.uniq p1), k6 b (k4.uniq p2), p3])
    exact ⟨σ4, a13.trans q7 (h.grow.trans d1).len, q8⟩

end Call
end MZ
