import Verif.Call.Flatten
/-!
# Calls: the induction over expressions
-/
namespace MZ
namespace Call
open BoolFlat (Cmp)
open Let (Atom Def St mk post out setFl restore Ok WF Grow Agree)

/-! ## Total expressions -/

theorem conjS_one (root : Bool) (s : S) (cs : List Atom) (h : ∀ a ∈ cs, a = .lit 1) : conjS root s cs = (s, .lit 1) := by
  have : cs.filter (· ≠ .lit 1) = [] := List.filter_eq_nil_iff.mpr fun a ha => by simp [h a ha]
  unfold conjS
  rw [this]
  rfl

mutual
theorem tot_one (H : HI) (root : Bool) : ∀ (t : IE) (s s' : S) (r b : Atom), t.Tot → flatI H root t s = some (s', r, b) → b = .lit 1
  | .lit _, s, s', r, b, _, h => by simp [flatI] at h; exact h.2.2.symm
  | .var _, s, s', r, b, _, h => by simp [flatI] at h; exact h.2.2.symm
  | .par p, s, s', r, b, _, h => by
    rw [flatI] at h
    cases e : evalP s.st.fl p with
    | none => rw [e] at h; cases h
    | some v => rw [e] at h; simp at h; exact h.2.2.symm
  | .add t u, s, s', r, b, ht, h => by
    rw [flatI] at h
    cases e1 : flatI H root t s with
    | none => rw [e1] at h; cases h
    | some p =>
      obtain ⟨s1, a1, b1⟩ := p
      rw [e1] at h
      simp only at h
      cases e2 : flatI H root u s1 with
      | none => rw [e2] at h; cases h
      | some p =>
        obtain ⟨s2, a2, b2⟩ := p
        rw [e2] at h
        simp only [Option.some.injEq, Prod.mk.injEq] at h
        have k1 := tot_one H root t _ _ _ _ ht.1 e1
        have k2 := tot_one H root u _ _ _ _ ht.2 e2
        rw [← h.2.2, conjS_one _ _ _ (by simp [k1, k2])]
  | .div _ _, _, _, _, _, ht, _ => ht.elim
  | .ite o p q t u, s, s', r, b, ht, h => by
    rw [flatI] at h
    cases e1 : evalP s.st.fl p with
    | none => rw [e1] at h; simp at h
    | some v =>
      cases e2 : evalP s.st.fl q with
      | none => rw [e1, e2] at h; simp at h
      | some w =>
        rw [e1, e2] at h
        simp only at h
        by_cases hc : o.holds v w = true
        · rw [if_pos hc] at h; exact tot_one H root t _ _ _ _ ht.1 h
        · rw [if_neg hc] at h; exact tot_one H root u _ _ _ _ ht.2 h
  | .let_ x t u, s, s', r, b, ht, h => by
    rw [flatI] at h
    cases e1 : flatI H root t s with
    | none => rw [e1] at h; cases h
    | some p =>
      obtain ⟨s1, a1, b1⟩ := p
      rw [e1] at h
      simp only at h
      cases e2 : flatI H root u (setS s1 x a1) with
      | none => rw [e2] at h; cases h
      | some p =>
        obtain ⟨s2, a2, b2⟩ := p
        rw [e2] at h
        simp only [Option.some.injEq, Prod.mk.injEq] at h
        have k1 := tot_one H root t _ _ _ _ ht.1 e1
        have k2 := tot_one H root u _ _ _ _ ht.2 e2
        rw [← h.2.2, conjS_one _ _ _ (by simp [k1, k2])]
  | .call _ _, _, _, _, _, ht, _ => ht.elim
theorem tot_oneA (H : HI) (root : Bool) : ∀ (t : Args) (s s' : S) (vs bs : List Atom), t.Tot → flatArgs H root t s = some (s', vs, bs) →
    ∀ b ∈ bs, b = .lit 1
  | .nil, s, s', vs, bs, _, h => by
    simp only [flatArgs, Option.some.injEq, Prod.mk.injEq] at h
    rw [← h.2.2]; simp
  | .cons t r, s, s', vs, bs, ht, h => by
    rw [flatArgs] at h
    cases e1 : flatArgs H root r s with
    | none => rw [e1] at h; cases h
    | some p =>
      obtain ⟨s1, vs1, bs1⟩ := p
      rw [e1] at h
      simp only at h
      cases e2 : flatI H root t s1 with
      | none => rw [e2] at h; cases h
      | some p =>
        obtain ⟨s2, a2, b2⟩ := p
        rw [e2] at h
        simp only [Option.some.injEq, Prod.mk.injEq] at h
        rw [← h.2.2]
        intro b hb
        rcases List.mem_cons.mp hb with rfl | hb
        · exact tot_one H root t _ _ _ _ ht.1 e2
        · exact tot_oneA H root r _ _ _ _ ht.2 e1 b hb
end

/-! ## The cases -/

theorem let_spec {n : Nat} {G : Prog} {X : Nat → Prop} {t u : IE} {root : Bool} {s s1 s2 : S} {a b a2 b2 : Atom} {x : Nat} (hs : Inv n G s)
    (hx : n ≤ x) (h1 : PI n G X t root s s1 a b) (h2 : PI n G (fun y => y = x ∨ X y) u root (setS s1 x a) s2 a2 b2) :
    PI n G X (.let_ x t u) root s (setS (conjS root s2 [b, b2]).1 x (s.st.fl x)) a2 (conjS root s2 [b, b2]).2 := by
  obtain ⟨g1, g2⟩ := setS_inv h1.inv hx h1.ltr
  obtain ⟨c1, c2, c3, c4, c5, c6, c7⟩ := conjS_spec h2.inv (cs := [b, b2]) (by
    intro c hc
    simp only [List.mem_cons, List.not_mem_nil, or_false] at hc
    rcases hc with rfl | rfl
    · exact h1.ltb.mono h2.grow.len
    · exact h2.ltb) root
  have gall : Grow s.st (conjS root s2 [b, b2]).1.st := ((h1.grow.trans g2).trans h2.grow).trans c1
  have lx : (s.st.fl x).Lt (conjS root s2 [b, b2]).1.st.decls.length := (hs.wf.fl x).mono gall.len
  obtain ⟨z1, z2⟩ := setS_inv c2 hx lx
  have env : ∀ σ η, Env X s.st.fl σ η → Env (fun y => y = x ∨ X y) (setS s1 x a).st.fl σ (upd η x (a.val σ)) := by
    intro σ η he y hy
    simp only [setS, setFl, upd]
    by_cases e : y = x
    · rw [if_pos e, if_pos e]
    · rw [if_neg e, if_neg e, h1.fl]
      exact he y (hy.resolve_left e)
  have evs : ∀ {g η : Nat → Int} {v : Int} {o : Option Int}, EvI G t g η (some v) → EvI G u g (upd η x v) o → EvI G (.let_ x t u) g η o := by
    rintro g η v o ⟨n, k1⟩ ⟨m, k2⟩
    refine ⟨max n m, ?_⟩
    rw [IE.val, val_le (Nat.le_max_left n m) k1]
    exact val_le (Nat.le_max_right n m) k2
  have evn : ∀ {g η : Nat → Int}, EvI G t g η none → EvI G (.let_ x t u) g η none := by
    rintro g η ⟨n, k1⟩
    refine ⟨n, ?_⟩
    rw [IE.val, k1]
  have inv : ∀ {g η : Nat → Int} {v : Int}, EvI G (.let_ x t u) g η (some v) → ∃ w, EvI G t g η (some w) ∧ EvI G u g (upd η x w) (some v) := by
    rintro g η v ⟨n, k⟩
    rw [IE.val] at k
    cases e : t.val (G.fn g n) η with
    | none => rw [e] at k; cases k
    | some w =>
      rw [e] at k
      cases w with
      | none => cases k
      | some w => exact ⟨w, ⟨n, e⟩, ⟨n, k⟩⟩
  refine ⟨⟨gall.trans z2, z1, ?_⟩, (h2.ltr.mono c1.len), c4, c5, fun σ η ho he => ?_, fun σ η ho he hr => ?_⟩
  · funext y
    simp only [setS, setFl]
    by_cases e : y = x
    · rw [if_pos e, e]
    · rw [if_neg e, c3, h2.fl]
      simp only [setS, setFl]
      rw [if_neg e, h1.fl]
  · have ho' : Ok σ (conjS root s2 [b, b2]).1.st := Let.setFl_ok.mp ho
    obtain ⟨o1, k1, k2, k3⟩ := h1.ex σ η (g2.ok (h2.grow.ok (c1.ok ho'))) he
    obtain ⟨o2, k4, k5, k6⟩ := h2.ex σ _ (c1.ok ho') (env σ η he)
    cases o1 with
    | none =>
      refine ⟨none, evn k1, ?_, by simp⟩
      rw [c6 σ ho']
      simp only [List.mem_cons, List.not_mem_nil, or_false, forall_eq_or_imp, forall_eq]
      rw [k2]; simp
    | some w =>
      rw [k3 w rfl] at k4
      refine ⟨o2, evs k1 k4, ?_, k6⟩
      rw [c6 σ ho']
      simp only [List.mem_cons, List.not_mem_nil, or_false, forall_eq_or_imp, forall_eq]
      rw [k2, k5]; simp
  · obtain ⟨σ1, q1, q2⟩ := h1.ext σ η ho he (fun e => by obtain ⟨v, p⟩ := hr e; obtain ⟨w, p1, _⟩ := inv p; exact ⟨w, p1⟩)
    obtain ⟨σ2, q3, q4⟩ := h2.ext σ1 (upd η x (a.val σ1)) (Let.setFl_ok.mpr q2) (env σ1 η (he.agree hs q1)) (fun e => by
      obtain ⟨v, p⟩ := hr e
      obtain ⟨w, p1, p2⟩ := inv p
      obtain ⟨o1, k1, k2, k3⟩ := h1.ex σ1 η q2 (he.agree hs q1)
      rw [hs.gl q1] at k1 ⊢
      rw [k3 w (k1.uniq p1)]
      exact ⟨v, p2⟩)
    obtain ⟨σ3, q5, q6⟩ := c7 σ2 q4 (fun e => by
      intro c hc
      simp only [List.mem_cons, List.not_mem_nil, or_false] at hc
      rcases hc with rfl | rfl
      · rw [h1.one e]; exact lit1_tr _
      · rw [h2.one e]; exact lit1_tr _)
    exact ⟨σ3, (q1.trans q3 h1.grow.len).trans q5 (h1.grow.trans (g2.trans h2.grow)).len, Let.setFl_ok.mpr q6⟩

theorem callI_spec {n : Nat} {G : Prog} {X : Nat → Prop} {as : Args} {root : Bool} {s s1 s2 : S} {vs bs : List Atom} {r b : Atom} {f : Nat}
    (hs : Inv n G s) (h1 : PA n G X as root s s1 vs bs) (h2 : PH n G f vs bs root s1 s2 r b) : PI n G X (.call f as) root s s2 r b := by
  have evs : ∀ {g η : Nat → Int} {l : List Int} {o : Option Int}, EvA G as g η (some l) → AppI G g f l o → EvI G (.call f as) g η o := by
    rintro g η v o ⟨n, k1⟩ ⟨m, k2⟩
    refine ⟨max n m, ?_⟩
    rw [IE.val, valA_le (Nat.le_max_left n m) k1]
    exact fn_mono G g (Nat.le_max_right n m) k2
  have evn : ∀ {g η : Nat → Int}, EvA G as g η none → EvI G (.call f as) g η none := by
    rintro g η ⟨n, k1⟩
    refine ⟨n, ?_⟩
    rw [IE.val, k1]
  have inv : ∀ {g η : Nat → Int} {v : Int}, EvI G (.call f as) g η (some v) → ∃ l, EvA G as g η (some l) ∧ AppI G g f l (some v) := by
    rintro g η v ⟨n, k⟩
    rw [IE.val] at k
    cases e : as.val (G.fn g n) η with
    | none => rw [e] at k; cases k
    | some w =>
      rw [e] at k
      cases w with
      | none => cases k
      | some w => exact ⟨w, ⟨n, e⟩, ⟨n, k⟩⟩
  refine ⟨h1.toStep.trans h2.toStep, h2.ltr, h2.ltb, h2.one, fun σ η ho he => ?_, fun σ η ho he hr => ?_⟩
  · obtain ⟨o1, k1, k2, k3⟩ := h1.ex σ η (h2.grow.ok ho) he
    obtain ⟨o2, k4, k5, k6⟩ := h2.ex σ ho
    cases o1 with
    | none =>
      refine ⟨none, evn k1, ?_, by simp⟩
      rw [k5, k2]; simp
    | some l =>
      rw [k3 l rfl] at k4
      refine ⟨o2, evs k1 k4, ?_, k6⟩
      rw [k5, k2]; simp
  · obtain ⟨σ1, q1, q2⟩ := h1.ext σ η ho he (fun e => by obtain ⟨v, p⟩ := hr e; obtain ⟨w, p1, _⟩ := inv p; exact ⟨w, p1⟩)
    obtain ⟨σ2, q3, q4⟩ := h2.ext σ1 q2 (fun e => by
      obtain ⟨v, p⟩ := hr e
      obtain ⟨l, p1, p2⟩ := inv p
      obtain ⟨o1, k1, k2, k3⟩ := h1.ex σ1 η q2 (he.agree hs q1)
      rw [hs.gl q1] at k1 ⊢
      have := k1.uniq p1
      rw [k3 l this, k2, this]
      exact ⟨rfl, v, p2⟩)
    exact ⟨σ2, q1.trans q3 h1.grow.len, q4⟩

theorem callP_spec {n : Nat} {G : Prog} {X : Nat → Prop} {as : Args} {root : Bool} {s s1 s2 : S} {vs bs : List Atom} {a : Atom} {f : Nat}
    (hs : Inv n G s) (h1 : PA n G X as root s s1 vs bs) (h2 : PP n G f vs bs root s1 s2 a) : PB n G X (.call f as) root s s2 a := by
  have evs : ∀ {g η : Nat → Int} {l : List Int} {o : Bool}, EvA G as g η (some l) → AppP G g f l o → EvB G (.call f as) g η o := by
    rintro g η v o ⟨n, k1⟩ ⟨m, k2⟩
    refine ⟨max n m, ?_⟩
    rw [BE.val, valA_le (Nat.le_max_left n m) k1]
    exact pr_mono G g (Nat.le_max_right n m) k2
  have evn : ∀ {g η : Nat → Int}, EvA G as g η none → EvB G (.call f as) g η false := by
    rintro g η ⟨n, k1⟩
    refine ⟨n, ?_⟩
    rw [BE.val, k1]
  have inv : ∀ {g η : Nat → Int}, EvB G (.call f as) g η true → ∃ l, EvA G as g η (some l) ∧ AppP G g f l true := by
    rintro g η ⟨n, k⟩
    rw [BE.val] at k
    cases e : as.val (G.fn g n) η with
    | none => rw [e] at k; cases k
    | some w =>
      rw [e] at k
      cases w with
      | none => simp at k
      | some w => exact ⟨w, ⟨n, e⟩, ⟨n, k⟩⟩
  refine ⟨h1.toStep.trans h2.toStep, h2.lt, h2.one, fun σ η ho he => ?_, fun σ η ho he hr => ?_⟩
  · obtain ⟨o1, k1, k2, k3⟩ := h1.ex σ η (h2.grow.ok ho) he
    obtain ⟨o2, k4, k5⟩ := h2.ex σ ho
    cases o1 with
    | none =>
      refine ⟨false, evn k1, ?_⟩
      rw [k5, k2]; simp
    | some l =>
      rw [k3 l rfl] at k4
      refine ⟨o2, evs k1 k4, ?_⟩
      rw [k5, k2]; simp
  · obtain ⟨σ1, q1, q2⟩ := h1.ext σ η ho he (fun e => by obtain ⟨w, p1, _⟩ := inv (hr e); exact ⟨w, p1⟩)
    obtain ⟨σ2, q3, q4⟩ := h2.ext σ1 q2 (fun e => by
      obtain ⟨l, p1, p2⟩ := inv (hr e)
      obtain ⟨o1, k1, k2, k3⟩ := h1.ex σ1 η q2 (he.agree hs q1)
      rw [hs.gl q1] at k1 ⊢
      have := k1.uniq p1
      rw [k3 l this, k2, this]
      exact ⟨rfl, p2⟩)
    exact ⟨σ2, q1.trans q3 h1.grow.len, q4⟩

theorem cons_spec {n : Nat} {G : Prog} {X : Nat → Prop} {t : IE} {as : Args} {root : Bool} {s s1 s2 : S} {vs bs : List Atom} {a b : Atom}
    (hs : Inv n G s) (h1 : PA n G X as root s s1 vs bs) (h2 : PI n G X t root s1 s2 a b) :
    PA n G X (.cons t as) root s s2 (a :: vs) (b :: bs) := by
  have ev : ∀ {g η : Nat → Int} {o1 : Option Int} {o2 : Option (List Int)}, EvI G t g η o1 → EvA G as g η o2 →
      EvA G (.cons t as) g η (o1.bind fun a => o2.bind fun l => some (a :: l)) := by
    rintro g η o1 o2 ⟨n, k1⟩ ⟨m, k2⟩
    refine ⟨max n m, ?_⟩
    rw [Args.val, val_le (Nat.le_max_left n m) k1, valA_le (Nat.le_max_right n m) k2, both_some]
  have inv : ∀ {g η : Nat → Int} {l : List Int}, EvA G (.cons t as) g η (some l) → (∃ v, EvI G t g η (some v)) ∧ ∃ v, EvA G as g η (some v) := by
    rintro g η l ⟨n, k⟩
    rw [Args.val] at k
    obtain ⟨x, y, k1, k2, _⟩ := both_inv k
    exact ⟨⟨x, n, k1⟩, y, n, k2⟩
  refine ⟨h1.toStep.trans h2.toStep, ?_, ?_, ?_, fun σ η ho he => ?_, fun σ η ho he hr => ?_⟩
  · intro c hc
    rcases List.mem_cons.mp hc with rfl | hc
    · exact h2.ltr
    · exact (h1.ltr c hc).mono h2.grow.len
  · intro c hc
    rcases List.mem_cons.mp hc with rfl | hc
    · exact h2.ltb
    · exact (h1.ltb c hc).mono h2.grow.len
  · intro e c hc
    rcases List.mem_cons.mp hc with rfl | hc
    · exact h2.one e
    · exact h1.one e c hc
  · obtain ⟨o1, k1, k2, k3⟩ := h1.ex σ η (h2.grow.ok ho) he
    obtain ⟨o2, k4, k5, k6⟩ := h2.ex σ η ho (h1.env he)
    refine ⟨_, ev k4 k1, ?_, ?_⟩
    · rw [List.forall_mem_cons, k2, k5]
      cases o1 <;> cases o2 <;> simp
    · intro l hl
      cases o2 with
      | none => simp at hl
      | some v =>
        cases o1 with
        | none => simp at hl
        | some w =>
          simp only [Option.bind_some, Option.some.injEq] at hl
          rw [List.map_cons, k6 v rfl, k3 w rfl, hl]
  · obtain ⟨σ1, q1, q2⟩ := h1.ext σ η ho he (fun e => by obtain ⟨v, p⟩ := hr e; exact (inv p).2)
    obtain ⟨σ2, q3, q4⟩ := h2.ext σ1 η q2 (h1.env (he.agree hs q1)) (fun e => by
      obtain ⟨v, p⟩ := hr e
      rw [hs.gl q1]
      exact (inv p).1)
    exact ⟨σ2, q1.trans q3 h1.grow.len, q4⟩

/-! ## The induction -/

theorem PI.congr {n : Nat} {G : Prog} {X : Nat → Prop} {t t' : IE} {root : Bool} {s s' : S} {r b : Atom} (h : PI n G X t root s s' r b)
    (he : ∀ A σ η, Env X s.st.fl σ η → t'.val A η = t.val A η) : PI n G X t' root s s' r b := by
  have key : ∀ σ η g o, Env X s.st.fl σ η → (EvI G t' g η o ↔ EvI G t g η o) := fun σ η g o h => by
    unfold EvI
    constructor
    · rintro ⟨m, k⟩; exact ⟨m, by rw [← he _ σ η h]; exact k⟩
    · rintro ⟨m, k⟩; exact ⟨m, by rw [he _ σ η h]; exact k⟩
  refine ⟨h.toStep, h.ltr, h.ltb, h.one, fun σ η ho hv => ?_, fun σ η ho hv hr => ?_⟩
  · obtain ⟨o, k1, k2⟩ := h.ex σ η ho hv
    exact ⟨o, (key σ η _ o hv).mpr k1, k2⟩
  · refine h.ext σ η ho hv fun e => ?_
    obtain ⟨v, k⟩ := hr e
    exact ⟨v, (key σ η _ _ hv).mp k⟩

theorem PB.congr {n : Nat} {G : Prog} {X : Nat → Prop} {t t' : BE} {root : Bool} {s s' : S} {a : Atom} (h : PB n G X t root s s' a)
    (he : ∀ A P σ η, Env X s.st.fl σ η → t'.val A P η = t.val A P η) : PB n G X t' root s s' a := by
  have key : ∀ σ η g o, Env X s.st.fl σ η → (EvB G t' g η o ↔ EvB G t g η o) := fun σ η g o h => by
    unfold EvB
    constructor
    · rintro ⟨m, k⟩; exact ⟨m, by rw [← he _ _ σ η h]; exact k⟩
    · rintro ⟨m, k⟩; exact ⟨m, by rw [he _ _ σ η h]; exact k⟩
  refine ⟨h.toStep, h.lt, h.one, fun σ η ho hv => ?_, fun σ η ho hv hr => ?_⟩
  · obtain ⟨o, k1, k2⟩ := h.ex σ η ho hv
    exact ⟨o, (key σ η _ o hv).mpr k1, k2⟩
  · exact h.ext σ η ho hv fun e => (key σ η _ _ hv).mp (hr e)

/-- An atom with a value that does not change anything. -/
theorem atom_spec {n : Nat} {G : Prog} {X : Nat → Prop} {t : IE} {root : Bool} {s : S} {r : Atom} (hs : Inv n G s)
    (hr : r.Lt s.st.decls.length) (hv : ∀ A σ η, Env X s.st.fl σ η → t.val A η = some (some (r.val σ))) :
    PI n G X t root s s r (.lit 1) := by
  refine ⟨Step.refl hs, hr, trivial, fun _ => rfl, fun σ η _ he => ⟨_, ⟨0, hv _ σ η he⟩, ?_, fun v h => by simpa using h⟩,
    fun σ η ho _ _ => ⟨σ, Agree.refl _ _, ho⟩⟩
  simp [lit1_tr]

mutual
theorem flatI_spec {fix : Bool} {n : Nat} {G : Prog} {H : HI} (hH : HIok fix n G H) (root : Bool) :
    ∀ (t : IE) (X : Nat → Prop) (s s' : S) (r b : Atom), Inv n G s → t.In n X → (fix = true ∨ t.TotArgs) →
      flatI H root t s = some (s', r, b) → PI n G X t root s s' r b
  | .lit v, X, s, s', r, b, hs, hi, hf, h => by
    simp only [flatI, Option.some.injEq, Prod.mk.injEq] at h
    obtain ⟨rfl, rfl, rfl⟩ := h
    exact atom_spec hs trivial (fun _ _ _ _ => by rw [IE.val]; rfl)
  | .var x, X, s, s', r, b, hs, hi, hf, h => by
    simp only [flatI, Option.some.injEq, Prod.mk.injEq] at h
    obtain ⟨rfl, rfl, rfl⟩ := h
    exact atom_spec hs (hs.wf.fl x) (fun _ _ _ he => by rw [IE.val, he x hi])
  | .par p, X, s, s', r, b, hs, hi, hf, h => by
    rw [flatI] at h
    cases e : evalP s.st.fl p with
    | none => rw [e] at h; cases h
    | some v =>
      rw [e] at h
      simp only [Option.some.injEq, Prod.mk.injEq] at h
      obtain ⟨rfl, rfl, rfl⟩ := h
      exact atom_spec hs trivial (fun _ _ _ he => by rw [IE.val, evalP_val he p v hi e]; rfl)
  | .add t u, X, s, s', r, b, hs, hi, hf, h => by
    rw [flatI] at h
    cases e1 : flatI H root t s with
    | none => rw [e1] at h; cases h
    | some p =>
      obtain ⟨s1, a1, b1⟩ := p
      rw [e1] at h
      simp only at h
      cases e2 : flatI H root u s1 with
      | none => rw [e2] at h; cases h
      | some p =>
        obtain ⟨s2, a2, b2⟩ := p
        rw [e2] at h
        simp only [Option.some.injEq, Prod.mk.injEq] at h
        have k1 := flatI_spec hH root t X _ _ _ _ hs hi.1 (hf.imp id (·.1)) e1
        have k2 := flatI_spec hH root u X _ _ _ _ k1.inv hi.2 (hf.imp id (·.2)) e2
        obtain ⟨rfl, rfl, rfl⟩ := h
        exact add_spec (k1.pair hs k2)
  | .div t u, X, s, s', r, b, hs, hi, hf, h => by
    rw [flatI] at h
    cases e1 : flatI H root t s with
    | none => rw [e1] at h; cases h
    | some p =>
      obtain ⟨s1, a1, b1⟩ := p
      rw [e1] at h
      simp only at h
      cases e2 : flatI H root u s1 with
      | none => rw [e2] at h; cases h
      | some p =>
        obtain ⟨s2, a2, b2⟩ := p
        rw [e2] at h
        simp only [Option.some.injEq, Prod.mk.injEq] at h
        have k1 := flatI_spec hH root t X _ _ _ _ hs hi.1 (hf.imp id (·.1)) e1
        have k2 := flatI_spec hH root u X _ _ _ _ k1.inv hi.2 (hf.imp id (·.2)) e2
        obtain ⟨rfl, rfl, rfl⟩ := h
        exact div_spec hs (k1.pair hs k2)
  | .ite o p q t u, X, s, s', r, b, hs, hi, hf, h => by
    rw [flatI] at h
    cases e1 : evalP s.st.fl p with
    | none => rw [e1] at h; simp at h
    | some v =>
      cases e2 : evalP s.st.fl q with
      | none => rw [e1, e2] at h; simp at h
      | some w =>
        rw [e1, e2] at h
        simp only at h
        by_cases hc : o.holds v w = true
        · rw [if_pos hc] at h
          refine (flatI_spec hH root t X _ _ _ _ hs hi.2.2.1 (hf.imp id (·.1)) h).congr fun A σ η he => ?_
          rw [IE.val, evalP_val he p v hi.1 e1, evalP_val he q w hi.2.1 e2, if_pos hc]
        · rw [if_neg hc] at h
          refine (flatI_spec hH root u X _ _ _ _ hs hi.2.2.2 (hf.imp id (·.2)) h).congr fun A σ η he => ?_
          rw [IE.val, evalP_val he p v hi.1 e1, evalP_val he q w hi.2.1 e2, if_neg hc]
  | .let_ x t u, X, s, s', r, b, hs, hi, hf, h => by
    rw [flatI] at h
    cases e1 : flatI H root t s with
    | none => rw [e1] at h; cases h
    | some p =>
      obtain ⟨s1, a1, b1⟩ := p
      rw [e1] at h
      simp only at h
      cases e2 : flatI H root u (setS s1 x a1) with
      | none => rw [e2] at h; cases h
      | some p =>
        obtain ⟨s2, a2, b2⟩ := p
        rw [e2] at h
        simp only [Option.some.injEq, Prod.mk.injEq] at h
        have k1 := flatI_spec hH root t X _ _ _ _ hs hi.2.1 (hf.imp id (·.1)) e1
        have k2 := flatI_spec hH root u _ _ _ _ _ (setS_inv k1.inv hi.1 k1.ltr).1 hi.2.2 (hf.imp id (·.2)) e2
        obtain ⟨rfl, rfl, rfl⟩ := h
        exact let_spec hs hi.1 k1 k2
  | .call f as, X, s, s', r, b, hs, hi, hf, h => by
    rw [flatI] at h
    cases e1 : flatArgs H root as s with
    | none => rw [e1] at h; cases h
    | some p =>
      obtain ⟨s1, vs, bs⟩ := p
      rw [e1] at h
      simp only at h
      have k1 := flatArgs_spec hH root as X _ _ _ _ hs hi (hf.imp id (·.2)) e1
      exact callI_spec hs k1 (hH _ _ _ _ _ _ _ _ k1.inv k1.ltr k1.ltb (hf.imp id fun h => tot_oneA H root as _ _ _ _ h.1 e1) h)
theorem flatArgs_spec {fix : Bool} {n : Nat} {G : Prog} {H : HI} (hH : HIok fix n G H) (root : Bool) :
    ∀ (t : Args) (X : Nat → Prop) (s s' : S) (vs bs : List Atom), Inv n G s → t.In n X → (fix = true ∨ t.TotArgs) →
      flatArgs H root t s = some (s', vs, bs) → PA n G X t root s s' vs bs
  | .nil, X, s, s', vs, bs, hs, hi, hf, h => by
    simp only [flatArgs, Option.some.injEq, Prod.mk.injEq] at h
    obtain ⟨rfl, rfl, rfl⟩ := h
    refine ⟨Step.refl hs, by simp, by simp, by simp, fun σ η _ he => ⟨some [], ⟨0, by rw [Args.val]⟩, by simp, by simp⟩,
      fun σ η ho _ _ => ⟨σ, Agree.refl _ _, ho⟩⟩
  | .cons t r, X, s, s', vs, bs, hs, hi, hf, h => by
    rw [flatArgs] at h
    cases e1 : flatArgs H root r s with
    | none => rw [e1] at h; cases h
    | some p =>
      obtain ⟨s1, vs1, bs1⟩ := p
      rw [e1] at h
      simp only at h
      cases e2 : flatI H root t s1 with
      | none => rw [e2] at h; cases h
      | some p =>
        obtain ⟨s2, a2, b2⟩ := p
        rw [e2] at h
        simp only [Option.some.injEq, Prod.mk.injEq] at h
        have k1 := flatArgs_spec hH root r X _ _ _ _ hs hi.2 (hf.imp id (·.2)) e1
        have k2 := flatI_spec hH root t X _ _ _ _ k1.inv hi.1 (hf.imp id (·.1)) e2
        obtain ⟨rfl, rfl, rfl⟩ := h
        exact cons_spec hs k1 k2
end

theorem evB_not {G : Prog} {e : BE} {g η : Nat → Int} {b : Bool} : EvB G (.not e) g η b ↔ EvB G e g η (!b) := by
  unfold EvB
  constructor
  · rintro ⟨m, k⟩
    rw [BE.val, Option.map_eq_some_iff] at k
    obtain ⟨a, k1, k2⟩ := k
    exact ⟨m, by rw [k1]; simp [← k2]⟩
  · rintro ⟨m, k⟩
    exact ⟨m, by rw [BE.val, k]; simp⟩

/-- Two Boolean expressions with a binary operation. -/
theorem evB_bin {G : Prog} {E x y : BE} {f : Bool → Bool → Bool} (hE : ∀ A P η, E.val A P η =
      match x.val A P η, y.val A P η with
      | some a, some b => some (f a b)
      | _, _ => none) {g η : Nat → Int} {a b : Bool} (h1 : EvB G x g η a) (h2 : EvB G y g η b) : EvB G E g η (f a b) := by
  obtain ⟨n, h1⟩ := h1
  obtain ⟨m, h2⟩ := h2
  refine ⟨max n m, ?_⟩
  rw [hE, valB_le (Nat.le_max_left n m) h1, valB_le (Nat.le_max_right n m) h2]

theorem evB_and_inv {G : Prog} {x y : BE} {g η : Nat → Int} (h : EvB G (.and x y) g η true) : EvB G x g η true ∧ EvB G y g η true := by
  obtain ⟨n, h⟩ := h
  rw [BE.val] at h
  cases e1 : x.val (G.fn g n) (G.pr g n) η with
  | none => rw [e1] at h; simp at h
  | some a =>
    cases e2 : y.val (G.fn g n) (G.pr g n) η with
    | none => rw [e1, e2] at h; simp at h
    | some b =>
      rw [e1, e2] at h
      simp only [Option.some.injEq, Bool.and_eq_true] at h
      exact ⟨⟨n, by rw [e1, h.1]⟩, ⟨n, by rw [e2, h.2]⟩⟩

theorem flatB_spec {fix : Bool} {n : Nat} {G : Prog} {H : HI} (hH : HIok fix n G H) {P : HP} (hP : HPok fix n G P) (X : Nat → Prop) :
    ∀ (root : Bool) (e : BE) (s s' : S) (a : Atom), Inv n G s → e.In n X → (fix = true ∨ e.TotArgs) →
      flatB H P root e s = some (s', a) → PB n G X e root s s' a
  | root, .cmp o t u, s, s', a, hs, hi, hf, h => by
    rw [flatB] at h
    cases e1 : flatI H root t s with
    | none => rw [e1] at h; cases h
    | some p =>
      obtain ⟨s1, a1, b1⟩ := p
      rw [e1] at h
      simp only at h
      cases e2 : flatI H root u s1 with
      | none => rw [e2] at h; cases h
      | some p =>
        obtain ⟨s2, a2, b2⟩ := p
        rw [e2] at h
        simp only [Option.some.injEq] at h
        have k1 := flatI_spec hH root t X _ _ _ _ hs hi.1 (hf.imp id (·.1)) e1
        have k2 := flatI_spec hH root u X _ _ _ _ k1.inv hi.2 (hf.imp id (·.2)) e2
        have := cmp_spec hs o (k1.pair hs k2)
        rw [h] at this
        exact this
  | root, .not e, s, s', a, hs, hi, hf, h => by
    rw [flatB] at h
    cases e1 : flatB H P false e s with
    | none => rw [e1] at h; cases h
    | some p =>
      obtain ⟨s1, a1⟩ := p
      rw [e1] at h
      simp only [Option.some.injEq] at h
      have k1 := flatB_spec hH hP X false e _ _ _ hs hi hf e1
      obtain ⟨c1, c2, c3, c4, c5, c6, c7⟩ := outS_spec k1.inv (d := .conj true [a1])
        (by intro c hc; rw [List.mem_singleton.mp hc]; exact k1.lt) root (fun σ => ¬ a1.tr σ) (fun σ => by simp [Let.Def.Prop?])
      rw [h] at c1 c2 c3 c4 c5 c6 c7
      refine ⟨k1.toStep.trans ⟨c1, c2, c3⟩, c4, c5, fun σ η ho he => ?_, fun σ η ho he hr => ?_⟩
      · obtain ⟨o, k2, k3⟩ := k1.ex σ η (c1.ok ho) he
        refine ⟨!o, evB_not.mpr (by simpa using k2), ?_⟩
        rw [c6 σ ho, k3]
        simp
      · obtain ⟨σ1, q1, q2⟩ := k1.ext σ η ho he (by simp)
        obtain ⟨σ2, q3, q4⟩ := c7 σ1 q2 (fun e => by
          obtain ⟨o, k2, k3⟩ := k1.ex σ1 η q2 (he.agree hs q1)
          rw [hs.gl q1] at k2
          have := k2.uniq (evB_not.mp (hr e))
          rw [k3, this]
          simp)
        exact ⟨σ2, q1.trans q3 k1.grow.len, q4⟩
  | root, .and x y, s, s', a, hs, hi, hf, h => by
    rw [flatB] at h
    cases e1 : flatB H P root x s with
    | none => rw [e1] at h; cases h
    | some p =>
      obtain ⟨s1, a1⟩ := p
      rw [e1] at h
      simp only at h
      cases e2 : flatB H P root y s1 with
      | none => rw [e2] at h; cases h
      | some p =>
        obtain ⟨s2, a2⟩ := p
        rw [e2] at h
        simp only [Option.some.injEq] at h
        have k1 := flatB_spec hH hP X root x _ _ _ hs hi.1 (hf.imp id (·.1)) e1
        have k2 := flatB_spec hH hP X root y _ _ _ k1.inv hi.2 (hf.imp id (·.2)) e2
        obtain ⟨c1, c2, c3, c4, c5, c6, c7⟩ := conjS_spec k2.inv (cs := [a1, a2]) (by
          intro c hc
          simp only [List.mem_cons, List.not_mem_nil, or_false] at hc
          rcases hc with rfl | rfl
          · exact k1.lt.mono k2.grow.len
          · exact k2.lt) root
        rw [h] at c1 c2 c3 c4 c5 c6 c7
        refine ⟨(k1.toStep.trans k2.toStep).trans ⟨c1, c2, c3⟩, c4, c5, fun σ η ho he => ?_, fun σ η ho he hr => ?_⟩
        · obtain ⟨o1, j1, j2⟩ := k1.ex σ η (k2.grow.ok (c1.ok ho)) he
          obtain ⟨o2, j3, j4⟩ := k2.ex σ η (c1.ok ho) (k1.env he)
          refine ⟨o1 && o2, evB_bin (f := (· && ·)) (fun A P η => by rw [BE.val]; cases x.val A P η <;> cases y.val A P η <;> rfl) j1 j3, ?_⟩
          rw [c6 σ ho]
          simp only [List.mem_cons, List.not_mem_nil, or_false, forall_eq_or_imp, forall_eq]
          rw [j2, j4]
          simp
        · obtain ⟨σ1, q1, q2⟩ := k1.ext σ η ho he (fun e => (evB_and_inv (hr e)).1)
          obtain ⟨σ2, q3, q4⟩ := k2.ext σ1 η q2 (k1.env (he.agree hs q1)) (fun e => by
            rw [hs.gl q1]
            exact (evB_and_inv (hr e)).2)
          obtain ⟨σ3, q5, q6⟩ := c7 σ2 q4 (fun e => by
            intro c hc
            simp only [List.mem_cons, List.not_mem_nil, or_false] at hc
            rcases hc with rfl | rfl
            · rw [k1.one e]; exact lit1_tr _
            · rw [k2.one e]; exact lit1_tr _)
          exact ⟨σ3, (q1.trans q3 k1.grow.len).trans q5 (k1.grow.trans k2.grow).len, q6⟩
  | root, .or x y, s, s', a, hs, hi, hf, h => by
    rw [flatB] at h
    cases e1 : flatB H P false x s with
    | none => rw [e1] at h; cases h
    | some p =>
      obtain ⟨s1, a1⟩ := p
      rw [e1] at h
      simp only at h
      cases e2 : flatB H P false y s1 with
      | none => rw [e2] at h; cases h
      | some p =>
        obtain ⟨s2, a2⟩ := p
        rw [e2] at h
        simp only [Option.some.injEq] at h
        have k1 := flatB_spec hH hP X false x _ _ _ hs hi.1 (hf.imp id (·.1)) e1
        have k2 := flatB_spec hH hP X false y _ _ _ k1.inv hi.2 (hf.imp id (·.2)) e2
        obtain ⟨c1, c2, c3, c4, c5, c6, c7⟩ := outS_spec k2.inv (d := .disj [a1, a2])
          (by
            intro c hc
            simp only [List.mem_cons, List.not_mem_nil, or_false] at hc
            rcases hc with rfl | rfl
            · exact k1.lt.mono k2.grow.len
            · exact k2.lt) root (fun σ => a1.tr σ ∨ a2.tr σ) (fun σ => by simp [Let.Def.Prop?])
        rw [h] at c1 c2 c3 c4 c5 c6 c7
        have hE : ∀ A P η, (BE.or x y).val A P η =
            match x.val A P η, y.val A P η with
            | some a, some b => some (a || b)
            | _, _ => none := fun A P η => by rw [BE.val]; cases x.val A P η <;> cases y.val A P η <;> rfl
        refine ⟨(k1.toStep.trans k2.toStep).trans ⟨c1, c2, c3⟩, c4, c5, fun σ η ho he => ?_, fun σ η ho he hr => ?_⟩
        · obtain ⟨o1, j1, j2⟩ := k1.ex σ η (k2.grow.ok (c1.ok ho)) he
          obtain ⟨o2, j3, j4⟩ := k2.ex σ η (c1.ok ho) (k1.env he)
          refine ⟨o1 || o2, evB_bin (f := (· || ·)) hE j1 j3, ?_⟩
          rw [c6 σ ho, j2, j4]
          simp
        · obtain ⟨σ1, q1, q2⟩ := k1.ext σ η ho he (by simp)
          obtain ⟨σ2, q3, q4⟩ := k2.ext σ1 η q2 (k1.env (he.agree hs q1)) (by simp)
          have a2' : Agree s.st.decls.length σ σ2 := q1.trans q3 k1.grow.len
          obtain ⟨σ3, q5, q6⟩ := c7 σ2 q4 (fun e => by
            obtain ⟨o1, j1, j2⟩ := k1.ex σ2 η (k2.grow.ok q4) (he.agree hs a2')
            obtain ⟨o2, j3, j4⟩ := k2.ex σ2 η q4 (k1.env (he.agree hs a2'))
            have j5 := evB_bin (f := (· || ·)) hE j1 j3
            rw [hs.gl a2'] at j5
            have := j5.uniq (hr e)
            rw [j2, j4]
            simpa using this)
          exact ⟨σ3, a2'.trans q5 (k1.grow.trans k2.grow).len, q6⟩
  | root, .ite o p q x y, s, s', a, hs, hi, hf, h => by
    rw [flatB] at h
    cases e1 : evalP s.st.fl p with
    | none => rw [e1] at h; simp at h
    | some v =>
      cases e2 : evalP s.st.fl q with
      | none => rw [e1, e2] at h; simp at h
      | some w =>
        rw [e1, e2] at h
        simp only at h
        by_cases hc : o.holds v w = true
        · rw [if_pos hc] at h
          refine (flatB_spec hH hP X root x _ _ _ hs hi.2.2.1 (hf.imp id (·.1)) h).congr fun A P σ η he => ?_
          rw [BE.val, evalP_val he p v hi.1 e1, evalP_val he q w hi.2.1 e2, if_pos hc]
        · rw [if_neg hc] at h
          refine (flatB_spec hH hP X root y _ _ _ hs hi.2.2.2 (hf.imp id (·.2)) h).congr fun A P σ η he => ?_
          rw [BE.val, evalP_val he p v hi.1 e1, evalP_val he q w hi.2.1 e2, if_neg hc]
  | root, .call f as, s, s', a, hs, hi, hf, h => by
    rw [flatB] at h
    cases e1 : flatArgs H root as s with
    | none => rw [e1] at h; cases h
    | some p =>
      obtain ⟨s1, vs, bs⟩ := p
      rw [e1] at h
      simp only at h
      have k1 := flatArgs_spec hH root as X _ _ _ _ hs hi (hf.imp id (·.2)) e1
      exact callP_spec hs k1 (hP _ _ _ _ _ _ _ k1.inv k1.ltr k1.ltb (hf.imp id fun h => tot_oneA H root as _ _ _ _ h.1 e1) h)

end Call
end MZ
