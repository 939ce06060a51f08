import Verif.Call.Induct
/-!
# Calls: the induction over nested calls
-/
namespace MZ
namespace Call
open BoolFlat (Cmp)
open Let (Atom Def St mk post out setFl restore Ok WF Grow Agree)

theorem paramDoms_spec {n : Nat} {G : Prog} (root : Bool) : ∀ (ps : List Param) (vs : List Atom) (s : S), Inv n G s →
    (∀ a ∈ vs, a.Lt s.st.decls.length) →
    Step n G s (paramDoms root ps vs s).1 ∧ (∀ a ∈ (paramDoms root ps vs s).2, a.Lt (paramDoms root ps vs s).1.st.decls.length) ∧
    (root = true → ∀ a ∈ (paramDoms root ps vs s).2, a = .lit 1) ∧
    (∀ σ, Ok σ (paramDoms root ps vs s).1.st → ((∀ a ∈ (paramDoms root ps vs s).2, a.tr σ) ↔ inDoms ps (vs.map (·.val σ)) = true)) ∧
    (∀ σ, Ok σ s.st → (root = true → inDoms ps (vs.map (·.val σ)) = true) →
      ∃ σ', Agree s.st.decls.length σ σ' ∧ Ok σ' (paramDoms root ps vs s).1.st)
  | [], vs, s, hs, _ => by
    simp only [paramDoms]
    exact ⟨Step.refl hs, by simp, by simp, fun σ _ => by simp [inDoms], fun σ ho _ => ⟨σ, Agree.refl _ _, ho⟩⟩
  | (x, some d) :: ps, [], s, hs, _ => by
    simp only [paramDoms]
    exact ⟨Step.refl hs, by simp, by simp, fun σ _ => by simp [inDoms], fun σ ho _ => ⟨σ, Agree.refl _ _, ho⟩⟩
  | (x, none) :: ps, [], s, hs, _ => by
    simp only [paramDoms]
    exact ⟨Step.refl hs, by simp, by simp, fun σ _ => by simp [inDoms], fun σ ho _ => ⟨σ, Agree.refl _ _, ho⟩⟩
  | (x, none) :: ps, a :: vs, s, hs, hl => by
    simp only [paramDoms]
    obtain ⟨k1, k2, k3, k4, k5⟩ := paramDoms_spec root ps vs s hs (fun b hb => hl b (List.mem_cons_of_mem _ hb))
    exact ⟨k1, k2, k3, fun σ ho => by simpa [inDoms, inDom] using k4 σ ho, fun σ ho hr => k5 σ ho (by simpa [inDoms, inDom] using hr)⟩
  | (x, some d) :: ps, a :: vs, s, hs, hl => by
    simp only [paramDoms]
    obtain ⟨c1, c2, c3, c4, c5, c6, c7⟩ := outS_spec hs (d := .mem a d) (hl a (by simp)) root (fun σ => a.val σ ∈ d) (fun σ => by simp [Let.Def.Prop?])
    obtain ⟨k1, k2, k3, k4, k5⟩ := paramDoms_spec root ps vs (outS root s (.mem a d)).1 c2
      (fun b hb => (hl b (List.mem_cons_of_mem _ hb)).mono c1.len)
    refine ⟨(Step.mk c1 c2 c3).trans k1, ?_, ?_, fun σ ho => ?_, fun σ ho hr => ?_⟩
    · intro b hb
      rcases List.mem_cons.mp hb with rfl | hb
      · exact c4.mono k1.grow.len
      · exact k2 b hb
    · intro e b hb
      rcases List.mem_cons.mp hb with rfl | hb
      · exact c5 e
      · exact k3 e b hb
    · rw [List.forall_mem_cons, c6 σ (k1.grow.ok ho), k4 σ ho]
      simp [inDoms, inDom]
    · obtain ⟨σ1, q1, q2⟩ := c7 σ ho (fun e => by have := hr e; simp [inDoms, inDom] at this; exact this.1)
      have hm : vs.map (·.val σ1) = vs.map (·.val σ) :=
        List.map_congr_left fun b hb => Let.Atom.val_agree q1 (hl b (List.mem_cons_of_mem _ hb))
      obtain ⟨σ2, q3, q4⟩ := k5 σ1 q2 (fun e => by
        rw [hm]
        have := hr e
        simp [inDoms, inDom] at this
        exact this.2)
      exact ⟨σ2, q1.trans q3 c1.len, q4⟩

theorem bindParams_spec {n : Nat} {G : Prog} : ∀ (ps : List Param) (vs : List Atom) (s : S), Inv n G s → (∀ x ∈ ps.map (·.1), n ≤ x) →
    (∀ a ∈ vs, a.Lt s.st.decls.length) →
    Inv n G (bindParams ps vs s) ∧ Grow s.st (bindParams ps vs s).st ∧ (bindParams ps vs s).st.decls = s.st.decls ∧
    (bindParams ps vs s).st.cons = s.st.cons ∧ (∀ y, y ∉ ps.map (·.1) → (bindParams ps vs s).st.fl y = s.st.fl y) ∧
    (ps.length = vs.length → ∀ σ, Env (Scope n ps) (bindParams ps vs s).st.fl σ (bind (gl n σ) ps (vs.map (·.val σ))))
  | [], vs, s, hs, _, _ => by
    simp only [bindParams]
    refine ⟨hs, Grow.refl hs.wf, trivial, trivial, fun _ _ => trivial, fun _ σ x hx => ?_⟩
    have hx : x < n := by simpa [Scope] using hx
    rw [hs.glob x hx]
    simp [bind, gl, hx, Atom.val]
  | p :: ps, [], s, hs, _, _ => by
    simp only [bindParams]
    exact ⟨hs, Grow.refl hs.wf, trivial, trivial, fun _ _ => trivial, fun h => by simp at h⟩
  | (x, d) :: ps, a :: vs, s, hs, hn, hl => by
    simp only [bindParams]
    obtain ⟨k1, k2, k3, k4, k5, k6⟩ := bindParams_spec ps vs s hs (fun y hy => hn y (by simp at hy ⊢; exact Or.inr hy))
      (fun b hb => hl b (List.mem_cons_of_mem _ hb))
    obtain ⟨j1, j2⟩ := setS_inv k1 (hn x (by simp)) (a := a) (by rw [k3]; exact hl a (by simp))
    refine ⟨j1, k2.trans j2, k3, k4, ?_, fun hl σ y hy => ?_⟩
    · intro y hy
      simp only [List.map_cons, List.mem_cons, not_or] at hy
      simp only [setS, setFl]
      rw [if_neg hy.1]
      exact k5 y hy.2
    · simp only [setS, setFl, bind, List.map_cons, upd]
      by_cases e : y = x
      · rw [if_pos e, if_pos e]
      · rw [if_neg e, if_neg e]
        refine k6 (by simpa using hl) σ y ?_
        simp only [Scope, List.map_cons, List.mem_cons] at hy ⊢
        rcases hy with hy | hy | hy
        · exact Or.inl hy
        · exact absurd hy e
        · exact Or.inr hy

theorem unbind_spec {n : Nat} {G : Prog} (fl : Nat → Atom) : ∀ (ps : List Param) (s : S), Inv n G s → (∀ x ∈ ps.map (·.1), n ≤ x) →
    (∀ x, (fl x).Lt s.st.decls.length) →
    Inv n G (unbind fl ps s) ∧ Grow s.st (unbind fl ps s).st ∧ (unbind fl ps s).st.decls = s.st.decls ∧
    (unbind fl ps s).st.cons = s.st.cons ∧ (∀ y, (unbind fl ps s).st.fl y = if y ∈ ps.map (·.1) then fl y else s.st.fl y)
  | [], s, hs, _, _ => by
    simp only [unbind]
    exact ⟨hs, Grow.refl hs.wf, trivial, trivial, fun y => by simp⟩
  | (x, d) :: ps, s, hs, hn, hl => by
    simp only [unbind]
    obtain ⟨k1, k2, k3, k4, k5⟩ := unbind_spec fl ps s hs (fun y hy => hn y (by simp at hy ⊢; exact Or.inr hy)) hl
    obtain ⟨j1, j2⟩ := setS_inv k1 (hn x (by simp)) (a := fl x) (by rw [k3]; exact hl x)
    refine ⟨j1, k2.trans j2, k3, k4, ?_⟩
    intro y
    simp only [setS, setFl, List.map_cons, List.mem_cons]
    by_cases e : y = x
    · rw [if_pos e, if_pos (Or.inl e), e]
    · rw [if_neg e, k5]
      by_cases hy : y ∈ ps.map (·.1)
      · rw [if_pos hy, if_pos (Or.inr hy)]
      · rw [if_neg hy, if_neg (fun h => h.elim e hy)]

theorem retDom_spec {n : Nat} {G : Prog} {s : S} (hs : Inv n G s) (root : Bool) (d : Option (List Int)) {r : Atom} (hr : r.Lt s.st.decls.length) :
    Step n G s (retDom root d r s).1 ∧ (∀ a ∈ (retDom root d r s).2, a.Lt (retDom root d r s).1.st.decls.length) ∧
    (root = true → ∀ a ∈ (retDom root d r s).2, a = .lit 1) ∧
    (∀ σ, Ok σ (retDom root d r s).1.st → ((∀ a ∈ (retDom root d r s).2, a.tr σ) ↔ inDom (r.val σ) d = true)) ∧
    (∀ σ, Ok σ s.st → (root = true → inDom (r.val σ) d = true) →
      ∃ σ', Agree s.st.decls.length σ σ' ∧ Ok σ' (retDom root d r s).1.st) := by
  cases d with
  | none => exact ⟨Step.refl hs, by simp [retDom], by simp [retDom], fun σ _ => by simp [retDom, inDom], fun σ ho _ => ⟨σ, Agree.refl _ _, ho⟩⟩
  | some d =>
    obtain ⟨c1, c2, c3, c4, c5, c6, c7⟩ := outS_spec hs (d := .mem r d) hr root (fun σ => r.val σ ∈ d) (fun σ => by simp [Let.Def.Prop?])
    simp only [retDom]
    refine ⟨⟨c1, c2, c3⟩, by simpa using c4, fun e => by simpa using c5 e, fun σ ho => ?_, fun σ ho h => c7 σ ho fun e => ?_⟩
    · simpa [inDom] using c6 σ ho
    · simpa [inDom] using h e

theorem result_spec {n : Nat} {G : Prog} {s : S} (hs : Inv n G s) (fix root : Bool) {bs cs : List Atom} (hb : ∀ a ∈ bs, a.Lt s.st.decls.length)
    (hc : ∀ a ∈ cs, a.Lt s.st.decls.length) (hf : fix = true ∨ ∀ a ∈ bs, a = .lit 1) :
    Step n G s (result fix root s bs cs).1.1 ∧ (result fix root s bs cs).1.2.Lt (result fix root s bs cs).1.1.st.decls.length ∧
    (result fix root s bs cs).2.Lt (result fix root s bs cs).1.1.st.decls.length ∧
    (root = true → (result fix root s bs cs).1.2 = .lit 1) ∧
    (∀ σ, Ok σ (result fix root s bs cs).1.1.st →
      ((result fix root s bs cs).1.2.tr σ ↔ (∀ a ∈ bs, a.tr σ) ∧ ∀ a ∈ cs, a.tr σ) ∧ ((result fix root s bs cs).2.tr σ ↔ ∀ a ∈ cs, a.tr σ)) ∧
    (∀ σ, Ok σ s.st → (root = true → (∀ a ∈ bs, a.tr σ) ∧ ∀ a ∈ cs, a.tr σ) →
      ∃ σ', Agree s.st.decls.length σ σ' ∧ Ok σ' (result fix root s bs cs).1.1.st) := by
  cases fix with
  | false =>
    have hb1 : ∀ a ∈ bs, a = .lit 1 := hf.resolve_left (by simp)
    obtain ⟨c1, c2, c3, c4, c5, c6, c7⟩ := conjS_spec hs (cs := bs ++ cs) (by
      intro a ha
      rcases List.mem_append.mp ha with ha | ha
      · exact hb a ha
      · exact hc a ha) root
    simp only [result, Bool.false_eq_true, if_false]
    refine ⟨⟨c1, c2, c3⟩, c4, c4, c5, fun σ ho => ⟨?_, ?_⟩, fun σ ho h => c7 σ ho fun e => ?_⟩
    · rw [c6 σ ho, List.forall_mem_append]
    · rw [c6 σ ho, List.forall_mem_append]
      exact ⟨fun h => h.2, fun h => ⟨fun a ha => by rw [hb1 a ha]; exact lit1_tr σ, h⟩⟩
    · rw [List.forall_mem_append]; exact h e
  | true =>
    obtain ⟨k1, k2, k3, k4, k5, k6, k7⟩ := conjS_spec hs (cs := cs) hc root
    obtain ⟨c1, c2, c3, c4, c5, c6, c7⟩ := conjS_spec k2 (cs := bs ++ [(conjS root s cs).2]) (by
      intro a ha
      rcases List.mem_append.mp ha with ha | ha
      · exact (hb a ha).mono k1.len
      · rw [List.mem_singleton.mp ha]; exact k4) root
    simp only [result, if_true]
    refine ⟨(Step.mk k1 k2 k3).trans ⟨c1, c2, c3⟩, c4, k4.mono c1.len, c5, fun σ ho => ⟨?_, ?_⟩, fun σ ho h => ?_⟩
    · rw [c6 σ ho, List.forall_mem_append]
      simp only [List.mem_singleton, forall_eq]
      rw [k6 σ (c1.ok ho)]
    · exact k6 σ (c1.ok ho)
    · obtain ⟨σ1, q1, q2⟩ := k7 σ ho (fun e => (h e).2)
      obtain ⟨σ2, q3, q4⟩ := c7 σ1 q2 (fun e => by
        rw [List.forall_mem_append]
        simp only [List.mem_singleton, forall_eq]
        refine ⟨fun a ha => (Let.Atom.tr_agree q1 (hb a ha)).mpr ((h e).1 a ha), ?_⟩
        rw [k5 e]; exact lit1_tr _)
      exact ⟨σ2, q1.trans q3 k1.len, q4⟩

theorem find_mem {α : Type} {k : Nat × List Atom} : ∀ {l : List ((Nat × List Atom) × α)} {v : α}, find k l = some v → (k, v) ∈ l
  | (k', w) :: r, v, h => by
    simp only [find] at h
    by_cases e : k' = k
    · rw [if_pos e] at h
      cases h
      rw [e]; simp
    · rw [if_neg e] at h
      exact List.mem_cons_of_mem _ (find_mem h)

/-! ## The meaning of a call -/

theorem appI_of {G : Prog} {g : Nat → Int} {f : Nat} {F : IFun} {vs : List Int} {o : Option Int} (hF : G.ifuns[f]? = some F)
    (hl : F.params.length = vs.length) (h : EvI G F.body g (bind g F.params vs) o) :
    AppI G g f vs (if inDoms F.params vs then o.bind fun v => if inDom v F.dom then some v else none else none) := by
  obtain ⟨m, h⟩ := h
  refine ⟨m + 1, ?_⟩
  rw [Prog.fn, hF]
  simp only
  rw [if_neg (by simp [hl]), h]

theorem appI_inv {G : Prog} {g : Nat → Int} {f : Nat} {F : IFun} {vs : List Int} {v : Int} (hF : G.ifuns[f]? = some F)
    (h : AppI G g f vs (some v)) : inDoms F.params vs = true ∧ EvI G F.body g (bind g F.params vs) (some v) ∧ inDom v F.dom = true := by
  obtain ⟨m, h⟩ := h
  cases m with
  | zero => simp [Prog.fn] at h
  | succ m =>
    rw [Prog.fn, hF] at h
    simp only at h
    by_cases hl : F.params.length ≠ vs.length
    · rw [if_pos hl] at h; cases h
    · rw [if_neg hl] at h
      cases e : F.body.val (G.fn g m) (bind g F.params vs) with
      | none => rw [e] at h; cases h
      | some o =>
        rw [e] at h
        simp only [Option.some.injEq] at h
        by_cases hd : inDoms F.params vs = true
        · rw [if_pos hd] at h
          cases o with
          | none => simp at h
          | some w =>
            simp only [Option.bind_some] at h
            by_cases hw : inDom w F.dom = true
            · rw [if_pos hw] at h
              cases h
              exact ⟨hd, ⟨m, e⟩, hw⟩
            · rw [if_neg hw] at h; cases h
        · rw [if_neg hd] at h; cases h

theorem appP_of {G : Prog} {g : Nat → Int} {f : Nat} {F : PFun} {vs : List Int} {o : Bool} (hF : G.pfuns[f]? = some F)
    (hl : F.params.length = vs.length) (h : EvB G F.body g (bind g F.params vs) o) : AppP G g f vs (inDoms F.params vs && o) := by
  obtain ⟨m, h⟩ := h
  refine ⟨m + 1, ?_⟩
  rw [Prog.pr, hF]
  simp only
  rw [if_neg (by simp [hl]), h]

theorem appP_inv {G : Prog} {g : Nat → Int} {f : Nat} {F : PFun} {vs : List Int} (hF : G.pfuns[f]? = some F)
    (h : AppP G g f vs true) : inDoms F.params vs = true ∧ EvB G F.body g (bind g F.params vs) true := by
  obtain ⟨m, h⟩ := h
  cases m with
  | zero => simp [Prog.pr] at h
  | succ m =>
    rw [Prog.pr, hF] at h
    simp only at h
    by_cases hl : F.params.length ≠ vs.length
    · rw [if_pos hl] at h; cases h
    · rw [if_neg hl] at h
      cases e : F.body.val (G.fn g m) (G.pr g m) (bind g F.params vs) with
      | none => rw [e] at h; cases h
      | some o =>
        rw [e] at h
        simp only [Option.some.injEq, Bool.and_eq_true] at h
        exact ⟨h.1, m, by rw [e, h.2]⟩

/-- A new entry for common subexpressions. -/
theorem inv_cse {n : Nat} {G : Prog} {s : S} (hs : Inv n G s) {f : Nat} {vs : List Atom} {r k : Atom} (hr : r.Lt s.st.decls.length)
    (hk : k.Lt s.st.decls.length)
    (h : ∀ σ, Ok σ s.st → ∃ o, AppI G (gl n σ) f (vs.map (·.val σ)) o ∧ (k.tr σ ↔ o.isSome = true) ∧ ∀ v, o = some v → r.val σ = v) :
    Inv n G { s with cse := ((f, vs), r, k) :: s.cse } := by
  refine ⟨hs.wf, hs.glob, ?_, hs.cseP⟩
  intro f' vs' r' b' hm
  rcases List.mem_cons.mp hm with e | hm
  · cases e; exact ⟨hr, hk, h⟩
  · exact hs.cse f' vs' r' b' hm

/-- Likewise for predicates. -/
theorem inv_cseP {n : Nat} {G : Prog} {s : S} (hs : Inv n G s) {f : Nat} {vs : List Atom} {k : Atom} (hk : k.Lt s.st.decls.length)
    (h : ∀ σ, Ok σ s.st → ∃ o, AppP G (gl n σ) f (vs.map (·.val σ)) o ∧ (k.tr σ ↔ o = true)) :
    Inv n G { s with cseP := ((f, vs), k) :: s.cseP } := by
  refine ⟨hs.wf, hs.glob, hs.cse, ?_⟩
  intro f' vs' b' hm
  rcases List.mem_cons.mp hm with e | hm
  · cases e; exact ⟨hk, h⟩
  · exact hs.cseP f' vs' b' hm

theorem ok_congr {st st' : St} (h1 : st'.decls = st.decls) (h2 : st'.cons = st.cons) (σ : Nat → Int) : Ok σ st' ↔ Ok σ st := by
  unfold Ok; rw [h1, h2]

theorem callI_ok {fix : Bool} {n : Nat} {G : Prog} (hG : G.Fine n) (hf : fix = true ∨ G.TotArgs) : ∀ m, HIok fix n G (callI fix G m)
  | 0 => by intro root f vs bs s s' r b _ _ _ _ h; simp [callI] at h
  | m + 1 => by
    intro root f vs bs s s' r b hs hv hb hbs h
    rw [callI] at h
    cases hF : G.ifuns[f]? with
    | none => rw [hF] at h; cases h
    | some F =>
      rw [hF] at h
      simp only at h
      have hFm : F ∈ G.ifuns := List.mem_of_getElem? hF
      by_cases hlen : F.params.length ≠ vs.length
      · rw [if_pos hlen] at h; cases h
      rw [if_neg hlen] at h
      have hlen : F.params.length = vs.length := Decidable.not_not.mp hlen
      cases hc : find (f, vs) s.cse with
      | some p =>
        obtain ⟨r0, b0⟩ := p
        rw [hc] at h
        simp only [Option.some.injEq, Prod.mk.injEq] at h
        obtain ⟨i1, i2, i3⟩ := hs.cse f vs r0 b0 (find_mem hc)
        obtain ⟨c1, c2, c3, c4, c5, c6, c7⟩ := conjS_spec hs (cs := bs ++ [b0]) (by
          intro a ha
          rcases List.mem_append.mp ha with ha | ha
          · exact hb a ha
          · rw [List.mem_singleton.mp ha]; exact i2) root
        obtain ⟨rfl, rfl, rfl⟩ := h
        refine ⟨⟨c1, c2, c3⟩, i1.mono c1.len, c4, c5, fun σ ho => ?_, fun σ ho hr => c7 σ ho fun e => ?_⟩
        · obtain ⟨o, k1, k2, k3⟩ := i3 σ (c1.ok ho)
          refine ⟨o, k1, ?_, k3⟩
          rw [c6 σ ho, List.forall_mem_append]
          simp only [List.mem_singleton, forall_eq]
          rw [k2]
        · obtain ⟨p1, v, p2⟩ := hr e
          obtain ⟨o, k1, k2, k3⟩ := i3 σ ho
          rw [List.forall_mem_append]
          simp only [List.mem_singleton, forall_eq]
          rw [k2, k1.uniq p2]
          exact ⟨p1, rfl⟩
      | none =>
        rw [hc] at h
        simp only at h
        obtain ⟨d1, d2, d3, d4, d5⟩ := paramDoms_spec root F.params vs s hs hv
        generalize paramDoms root F.params vs s = q1 at h d1 d2 d3 d4 d5
        obtain ⟨s1, ds⟩ := q1
        simp only at h d1 d2 d3 d4 d5
        have hv1 : ∀ a ∈ vs, a.Lt s1.st.decls.length := fun a ha => (hv a ha).mono d1.grow.len
        obtain ⟨e1, e2, e3, e4, e5, e6⟩ := bindParams_spec F.params vs s1 d1.inv (hG.inames F hFm) hv1
        generalize bindParams F.params vs s1 = s2 at h e1 e2 e3 e4 e5 e6
        cases hb0 : flatI (callI fix G m) (root || F.total) F.body s2 with
        | none => rw [hb0] at h; cases h
        | some p =>
          obtain ⟨s3, r3, b3⟩ := p
          rw [hb0] at h
          simp only at h
          have ih := flatI_spec (callI_ok hG hf m) (root || F.total) F.body _ _ _ _ _ e1 (hG.ibody F hFm) (hf.imp id fun h => h.1 F hFm) hb0
          -- the state after the domain of the result
          obtain ⟨s4, cs, hq, f1, f2, f3, f4, f5⟩ : ∃ s4 cs, (if F.total then (s3, []) else
              ((retDom root F.dom r3 s3).1, b3 :: (retDom root F.dom r3 s3).2)) = (s4, cs) ∧ Step n G s3 s4 ∧
              (∀ a ∈ cs, a.Lt s4.st.decls.length) ∧ (root = true → ∀ a ∈ cs, a = .lit 1) ∧
              (∀ σ, Ok σ s4.st → ∃ o, EvI G F.body (gl n σ) (bind (gl n σ) F.params (vs.map (·.val σ))) o ∧
                ((∀ a ∈ cs, a.tr σ) ↔ (o.bind fun v => if inDom v F.dom then some v else none).isSome = true) ∧ ∀ v, o = some v → r3.val σ = v) ∧
              (∀ σ, Ok σ s3.st → (root = true → ∃ v, EvI G F.body (gl n σ) (bind (gl n σ) F.params (vs.map (·.val σ))) (some v) ∧
                inDom v F.dom = true) → ∃ σ', Agree s3.st.decls.length σ σ' ∧ Ok σ' s4.st) := by
            by_cases ht : F.total = true
            · refine ⟨s3, [], by rw [if_pos ht], Step.refl ih.inv, by simp, by simp, fun σ ho => ?_, fun σ ho _ => ⟨σ, Agree.refl _ _, ho⟩⟩
              obtain ⟨o, k1, k2, k3⟩ := ih.ex σ _ ho (e6 hlen σ)
              refine ⟨o, k1, ?_, k3⟩
              obtain ⟨m', v, j1, j2⟩ := hG.total F hFm ht (gl n σ) (vs.map (·.val σ)) (by simp [hlen])
              rw [k1.uniq ⟨m', j1⟩]
              simp [j2]
            · have ht' : F.total = false := by simpa using ht
              obtain ⟨g1, g2, g3, g4, g5⟩ := retDom_spec ih.inv root F.dom ih.ltr
              refine ⟨_, _, by rw [if_neg ht], g1, ?_, ?_, fun σ ho => ?_, fun σ ho hr => g5 σ ho fun e => ?_⟩
              · intro a ha
                rcases List.mem_cons.mp ha with rfl | ha
                · exact ih.ltb.mono g1.grow.len
                · exact g2 a ha
              · intro e a ha
                rcases List.mem_cons.mp ha with rfl | ha
                · exact ih.one (by simp [e])
                · exact g3 e a ha
              · obtain ⟨o, k1, k2, k3⟩ := ih.ex σ _ (g1.grow.ok ho) (e6 hlen σ)
                refine ⟨o, k1, ?_, k3⟩
                rw [List.forall_mem_cons, g4 σ ho, k2]
                cases o with
                | none => simp
                | some v =>
                  rw [k3 v rfl]
                  by_cases hw : inDom v F.dom = true <;> simp [hw]
              · obtain ⟨v, p1, p2⟩ := hr e
                obtain ⟨o, k1, k2, k3⟩ := ih.ex σ _ ho (e6 hlen σ)
                rw [k3 v (k1.uniq p1)]
                exact p2
          rw [hq] at h
          simp only at h
          have g34 : Grow s1.st s4.st := (e2.trans ih.grow).trans f1.grow
          obtain ⟨r1, r2, r3', r4, r5, r6⟩ := result_spec f1.inv fix root (bs := bs) (cs := ds ++ cs)
            (fun a ha => (hb a ha).mono (d1.grow.trans g34).len)
            (by
              intro a ha
              rcases List.mem_append.mp ha with ha | ha
              · exact (d2 a ha).mono g34.len
              · exact f2 a ha) hbs
          generalize result fix root s4 bs (ds ++ cs) = q2 at h r1 r2 r3' r4 r5 r6
          obtain ⟨⟨s5, b5⟩, k5⟩ := q2
          simp only at h r1 r2 r3' r4 r5 r6
          have gall : Grow s.st s5.st := (d1.grow.trans g34).trans r1.grow
          -- the meaning of the call
          have mean : ∀ σ, Ok σ s5.st → ∃ o, AppI G (gl n σ) f (vs.map (·.val σ)) o ∧ ((∀ a ∈ ds ++ cs, a.tr σ) ↔ o.isSome = true) ∧
              ∀ v, o = some v → r3.val σ = v := by
            intro σ ho
            obtain ⟨o, k1, k2, k3⟩ := f4 σ (r1.grow.ok ho)
            refine ⟨_, appI_of hF (by simp [hlen]) k1, ?_, ?_⟩
            · rw [List.forall_mem_append, d4 σ (g34.ok (r1.grow.ok ho)), k2]
              by_cases hd : inDoms F.params (vs.map (·.val σ)) = true <;> simp [hd]
            · intro v hv
              by_cases hd : inDoms F.params (vs.map (·.val σ)) = true
              · rw [if_pos hd] at hv
                cases o with
                | none => simp at hv
                | some w =>
                  simp only [Option.bind_some] at hv
                  by_cases hw : inDom w F.dom = true
                  · rw [if_pos hw] at hv
                    rw [k3 w rfl]
                    simpa using hv
                  · rw [if_neg hw] at hv; cases hv
              · rw [if_neg hd] at hv; cases hv
          have hr3 : r3.Lt s5.st.decls.length := ih.ltr.mono (f1.grow.trans r1.grow).len
          have hinv : Inv n G { s5 with cse := ((f, vs), r3, k5) :: s5.cse } := by
            refine inv_cse r1.inv hr3 r3' fun σ ho => ?_
            obtain ⟨o, k1, k2, k3⟩ := mean σ ho
            refine ⟨o, k1, ?_, k3⟩
            rw [(r5 σ ho).2, k2]
          obtain ⟨u1, u2, u3, u4, u5⟩ := unbind_spec s.st.fl F.params _ hinv (hG.inames F hFm) (fun x => (hs.wf.fl x).mono gall.len)
          simp only [Option.some.injEq, Prod.mk.injEq] at h
          obtain ⟨h1, rfl, rfl⟩ := h
          rw [h1] at u1 u2 u3 u4 u5
          have ok5 : ∀ σ, Ok σ s'.st ↔ Ok σ s5.st := fun σ => ok_congr u3 u4 σ
          refine ⟨⟨gall.trans u2, u1, ?_⟩, by rw [u3]; exact hr3, by rw [u3]; exact r2, r4, fun σ ho => ?_, fun σ ho hr => ?_⟩
          · funext y
            rw [u5]
            by_cases hy : y ∈ F.params.map (·.1)
            · rw [if_pos hy]
            · rw [if_neg hy]
              show s5.st.fl y = _
              rw [r1.fl, f1.fl, ih.fl, e5 y hy, d1.fl]
          · obtain ⟨o, k1, k2, k3⟩ := mean σ ((ok5 σ).mp ho)
            refine ⟨o, k1, ?_, k3⟩
            rw [(r5 σ ((ok5 σ).mp ho)).1, k2]
          · -- an extension
            obtain ⟨σ1, q1, q2⟩ := d5 σ ho (fun e => by obtain ⟨_, v, p⟩ := hr e; exact (appI_inv hF p).1)
            have hm1 : vs.map (·.val σ1) = vs.map (·.val σ) := List.map_congr_left fun b hb => Let.Atom.val_agree q1 (hv b hb)
            have hmean : root = true → ∃ v, EvI G F.body (gl n σ) (bind (gl n σ) F.params (vs.map (·.val σ))) (some v) ∧
                inDom v F.dom = true := by
              intro e
              obtain ⟨_, v, p⟩ := hr e
              exact ⟨v, (appI_inv hF p).2⟩
            obtain ⟨σ2, q3, q4⟩ := ih.ext σ1 _ ((ok_congr e3 e4 σ1).mpr q2) (e6 hlen σ1) (fun e => by
              rw [hs.gl q1, hm1]
              by_cases er : root = true
              · obtain ⟨v, p, _⟩ := hmean er; exact ⟨v, p⟩
              · have ht : F.total = true := by simpa [er] using e
                obtain ⟨m', v, j1, j2⟩ := hG.total F hFm ht (gl n σ) (vs.map (·.val σ)) (by simp [hlen])
                exact ⟨v, m', j1⟩)
            rw [e3] at q3
            have a2 : Agree s.st.decls.length σ σ2 := q1.trans q3 d1.grow.len
            have hm2 : vs.map (·.val σ2) = vs.map (·.val σ) := List.map_congr_left fun b hb => Let.Atom.val_agree a2 (hv b hb)
            obtain ⟨σ3, q5, q6⟩ := f5 σ2 q4 (fun e => by rw [hs.gl a2, hm2]; exact hmean e)
            have a3 : Agree s.st.decls.length σ σ3 := a2.trans q5 (d1.grow.trans (e2.trans ih.grow)).len
            obtain ⟨σ4, q7, q8⟩ := r6 σ3 q6 (fun e => by
              refine ⟨fun a ha => (Let.Atom.tr_agree a3 (hb a ha)).mpr ((hr e).1 a ha), ?_⟩
              intro a ha
              rcases List.mem_append.mp ha with ha | ha
              · rw [d3 e a ha]; exact lit1_tr _
              · rw [f3 e a ha]; exact lit1_tr _)
            exact ⟨σ4, a3.trans q7 (d1.grow.trans g34).len, (ok5 σ4).mpr q8⟩

theorem callP_ok {fix : Bool} {n : Nat} {G : Prog} (hG : G.Fine n) (hf : fix = true ∨ G.TotArgs) : ∀ m, HPok fix n G (callP fix G m)
  | 0 => by intro root f vs bs s s' b _ _ _ _ h; simp [callP] at h
  | m + 1 => by
    intro root f vs bs s s' b hs hv hb hbs h
    rw [callP] at h
    cases hF : G.pfuns[f]? with
    | none => rw [hF] at h; cases h
    | some F =>
      rw [hF] at h
      simp only at h
      have hFm : F ∈ G.pfuns := List.mem_of_getElem? hF
      by_cases hlen : F.params.length ≠ vs.length
      · rw [if_pos hlen] at h; cases h
      rw [if_neg hlen] at h
      have hlen : F.params.length = vs.length := Decidable.not_not.mp hlen
      cases hc : find (f, vs) s.cseP with
      | some b0 =>
        rw [hc] at h
        simp only [Option.some.injEq] at h
        obtain ⟨i2, i3⟩ := hs.cseP f vs b0 (find_mem hc)
        obtain ⟨c1, c2, c3, c4, c5, c6, c7⟩ := conjS_spec hs (cs := bs ++ [b0]) (by
          intro a ha
          rcases List.mem_append.mp ha with ha | ha
          · exact hb a ha
          · rw [List.mem_singleton.mp ha]; exact i2) root
        rw [h] at c1 c2 c3 c4 c5 c6 c7
        refine ⟨⟨c1, c2, c3⟩, c4, c5, fun σ ho => ?_, fun σ ho hr => c7 σ ho fun e => ?_⟩
        · obtain ⟨o, k1, k2⟩ := i3 σ (c1.ok ho)
          refine ⟨o, k1, ?_⟩
          rw [c6 σ ho, List.forall_mem_append]
          simp only [List.mem_singleton, forall_eq]
          rw [k2]
        · obtain ⟨p1, p2⟩ := hr e
          obtain ⟨o, k1, k2⟩ := i3 σ ho
          rw [List.forall_mem_append]
          simp only [List.mem_singleton, forall_eq]
          rw [k2, k1.uniq p2]
          exact ⟨p1, rfl⟩
      | none =>
        rw [hc] at h
        simp only at h
        obtain ⟨d1, d2, d3, d4, d5⟩ := paramDoms_spec root F.params vs s hs hv
        generalize paramDoms root F.params vs s = q1 at h d1 d2 d3 d4 d5
        obtain ⟨s1, ds⟩ := q1
        simp only at h d1 d2 d3 d4 d5
        have hv1 : ∀ a ∈ vs, a.Lt s1.st.decls.length := fun a ha => (hv a ha).mono d1.grow.len
        obtain ⟨e1, e2, e3, e4, e5, e6⟩ := bindParams_spec F.params vs s1 d1.inv (hG.pnames F hFm) hv1
        generalize bindParams F.params vs s1 = s2 at h e1 e2 e3 e4 e5 e6
        cases hb0 : flatB (callI fix G m) (callP fix G m) root F.body s2 with
        | none => rw [hb0] at h; cases h
        | some p =>
          obtain ⟨s3, a3⟩ := p
          rw [hb0] at h
          simp only at h
          have ih := flatB_spec (callI_ok hG hf m) (callP_ok hG hf m) _ root F.body _ _ _ e1 (hG.pbody F hFm) (hf.imp id fun h => h.2 F hFm) hb0
          have g34 : Grow s1.st s3.st := e2.trans ih.grow
          obtain ⟨r1, r2, r3', r4, r5, r6⟩ := result_spec ih.inv fix root (bs := bs) (cs := ds ++ [a3])
            (fun a ha => (hb a ha).mono (d1.grow.trans g34).len)
            (by
              intro a ha
              rcases List.mem_append.mp ha with ha | ha
              · exact (d2 a ha).mono g34.len
              · rw [List.mem_singleton.mp ha]; exact ih.lt) hbs
          generalize result fix root s3 bs (ds ++ [a3]) = q2 at h r1 r2 r3' r4 r5 r6
          obtain ⟨⟨s5, b5⟩, k5⟩ := q2
          simp only at h r1 r2 r3' r4 r5 r6
          have gall : Grow s.st s5.st := (d1.grow.trans g34).trans r1.grow
          have mean : ∀ σ, Ok σ s5.st → ∃ o, AppP G (gl n σ) f (vs.map (·.val σ)) o ∧ ((∀ a ∈ ds ++ [a3], a.tr σ) ↔ o = true) := by
            intro σ ho
            obtain ⟨o, k1, k2⟩ := ih.ex σ _ (r1.grow.ok ho) (e6 hlen σ)
            refine ⟨_, appP_of hF (by simp [hlen]) k1, ?_⟩
            rw [List.forall_mem_append, d4 σ (g34.ok (r1.grow.ok ho))]
            simp only [List.mem_singleton, forall_eq]
            rw [k2]
            simp
          have hinv : Inv n G { s5 with cseP := ((f, vs), k5) :: s5.cseP } := by
            refine inv_cseP r1.inv r3' fun σ ho => ?_
            obtain ⟨o, k1, k2⟩ := mean σ ho
            refine ⟨o, k1, ?_⟩
            rw [(r5 σ ho).2, k2]
          obtain ⟨u1, u2, u3, u4, u5⟩ := unbind_spec s.st.fl F.params _ hinv (hG.pnames F hFm) (fun x => (hs.wf.fl x).mono gall.len)
          simp only [Option.some.injEq, Prod.mk.injEq] at h
          obtain ⟨h1, rfl⟩ := h
          rw [h1] at u1 u2 u3 u4 u5
          have ok5 : ∀ σ, Ok σ s'.st ↔ Ok σ s5.st := fun σ => ok_congr u3 u4 σ
          refine ⟨⟨gall.trans u2, u1, ?_⟩, by rw [u3]; exact r2, r4, fun σ ho => ?_, fun σ ho hr => ?_⟩
          · funext y
            rw [u5]
            by_cases hy : y ∈ F.params.map (·.1)
            · rw [if_pos hy]
            · rw [if_neg hy]
              show s5.st.fl y = _
              rw [r1.fl, ih.fl, e5 y hy, d1.fl]
          · obtain ⟨o, k1, k2⟩ := mean σ ((ok5 σ).mp ho)
            refine ⟨o, k1, ?_⟩
            rw [(r5 σ ((ok5 σ).mp ho)).1, k2]
          · obtain ⟨σ1, q1, q2⟩ := d5 σ ho (fun e => (appP_inv hF (hr e).2).1)
            have hm1 : vs.map (·.val σ1) = vs.map (·.val σ) := List.map_congr_left fun b hb => Let.Atom.val_agree q1 (hv b hb)
            obtain ⟨σ2, q3, q4⟩ := ih.ext σ1 _ ((ok_congr e3 e4 σ1).mpr q2) (e6 hlen σ1) (fun e => by
              rw [hs.gl q1, hm1]
              exact (appP_inv hF (hr e).2).2)
            rw [e3] at q3
            have a2 : Agree s.st.decls.length σ σ2 := q1.trans q3 d1.grow.len
            obtain ⟨σ4, q7, q8⟩ := r6 σ2 q4 (fun e => by
              refine ⟨fun a ha => (Let.Atom.tr_agree a2 (hb a ha)).mpr ((hr e).1 a ha), ?_⟩
              intro a ha
              rcases List.mem_append.mp ha with ha | ha
              · rw [d3 e a ha]; exact lit1_tr _
              · rw [List.mem_singleton.mp ha, ih.one e]; exact lit1_tr _)
            exact ⟨σ4, a2.trans q7 (d1.grow.trans g34).len, (ok5 σ4).mpr q8⟩

end Call
end MZ
