import Verif.Geas.Lemmas

namespace MZ
namespace Geas

/-! ## Excluding solutions -/

/-- The clause that excludes a solution holds for exactly the assignments that print something else. -/
theorem _root_.MZ.C89_nogood (outs : List OutVar) (m a : Asg) : (∃ l ∈ nogood outs m, l.holds a) ↔ ¬ SameOut outs a m := by
  unfold nogood SameOut
  simp only [List.mem_map, exists_exists_and_eq_and, not_forall, exists_prop]
  constructor
  · rintro ⟨o, ho, h⟩
    refine ⟨o, ho, ?_⟩
    cases o with
    | i x => simpa [differs, Atom.holds, OutVar.same, IVar.val] using h
    | b x => cases hm : m.bv x <;> simp [differs, hm, Atom.holds] at h <;> simp [OutVar.same, hm, h]
  · rintro ⟨o, ho, h⟩
    refine ⟨o, ho, ?_⟩
    cases o with
    | i x => simpa [differs, Atom.holds, OutVar.same, IVar.val] using h
    | b x => cases hm : m.bv x <;> simp [OutVar.same, hm] at h <;> simp [differs, hm, Atom.holds, h]

/-! ## Satisfaction -/

theorem satLoop_ok (C : Asg → Prop) (outs : List OutVar) (all : Bool) (nr : Nat) (as : List Ans) :
    ∀ (ms : List Asg) (res : Status) (D : Asg → Prop), Correct outs D as → (∀ a, D a ↔ C a ∧ ∀ m ∈ ms, ¬ SameOut outs a m) →
      (∀ m ∈ ms, C m) → ms.Pairwise (fun m m' => ¬ SameOut outs m' m) → (all = false → ms.length ≤ nr) →
      res = (if ms = [] then .unknown else .sat) →
      ∃ ms' : List Asg, let r := satLoop all nr as ms.length ms.getLast? res (ms.map some)
        r.1 = ms'.length ∧ (r.2.2 = ms'.map some ∨ r.2.2 = ms'.map some ++ [ms'.getLast?]) ∧ (∀ m ∈ ms', C m) ∧
        ms'.Pairwise (fun m m' => ¬ SameOut outs m' m) ∧ (all = false → ms'.length ≤ nr) ∧
        (r.2.1 = .unsat → ∀ a, C a → ∃ m ∈ ms', SameOut outs a m) ∧ (r.2.1 = .sat → ms' ≠ []) ∧
        (r.2.1 = .sat ∨ r.2.1 = .unsat ∨ r.2.1 = .unknown) := by
  induction as with
  | nil =>
    intro ms res D _ _ h3 h4 h5 h6
    refine ⟨ms, rfl, .inl rfl, h3, h4, h5, ?_, ?_, ?_⟩ <;> simp only [satLoop] <;> subst h6 <;> by_cases h : ms = [] <;> simp [h]
  | cons x as ih =>
    intro ms res D h1 h2 h3 h4 h5 h6
    unfold satLoop
    by_cases hc : all = true ∨ ms.length < nr
    swap
    · simp only [hc, if_false]
      refine ⟨ms, rfl, .inl rfl, h3, h4, h5, ?_, ?_, ?_⟩ <;> (try dsimp only) <;> subst h6 <;> by_cases h : ms = [] <;> simp [h]
    simp only [hc, if_true]
    cases x with
    | timeout =>
      refine ⟨ms, rfl, .inl rfl, h3, h4, h5, ?_, ?_, ?_⟩ <;> (try dsimp only) <;> subst h6 <;> by_cases h : ms = [] <;> simp [h]
    | unknown => exact ⟨ms, rfl, .inr rfl, h3, h4, h5, by simp, by simp, by simp⟩
    | unsat =>
      refine ⟨ms, rfl, .inr rfl, h3, h4, h5, fun _ a ha => ?_, by simp, by simp⟩
      by_contra hn
      push Not at hn
      exact h1 a ((h2 a).mpr ⟨ha, hn⟩)
    | sat m fails =>
      obtain ⟨g1, g2, g3⟩ := h1
      have gm := (h2 m).mp g1
      have e1 : ms.length + 1 = (ms ++ [m]).length := by simp
      have e2 : ms.map some ++ [some m] = (ms ++ [m]).map some := by simp
      have c1 : ∀ x ∈ ms ++ [m], C x := by
        intro x hx; rcases List.mem_append.mp hx with h | h
        · exact h3 x h
        · rw [List.mem_singleton.mp h]; exact gm.1
      have c2 : (ms ++ [m]).Pairwise (fun m m' => ¬ SameOut outs m' m) := by
        rw [List.pairwise_append]
        exact ⟨h4, by simp, fun x hx y hy => by rw [List.mem_singleton.mp hy]; exact gm.2 x hx⟩
      have c3 : all = false → (ms ++ [m]).length ≤ nr := by
        intro h; rcases hc with h' | h'
        · simp [h] at h'
        · simp; omega
      cases fails with
      | true =>
        refine ⟨ms ++ [m], ?_⟩
        simp only [if_true]
        refine ⟨e1, .inl e2, c1, c2, c3, fun _ a ha => ?_, by simp, by simp⟩
        by_contra hn
        push Not at hn
        exact hn m (by simp) (g2 rfl a ((h2 a).mpr ⟨ha, fun x hx => hn x (by simp [hx])⟩))
      | false =>
        simp only [Bool.false_eq_true, if_false]
        have := ih (ms ++ [m]) .sat _ g3 (fun a => by
          rw [h2 a, MZ.C89_nogood]
          constructor
          · rintro ⟨⟨x1, x2⟩, x3⟩
            refine ⟨x1, fun y hy => ?_⟩
            rcases List.mem_append.mp hy with h | h
            · exact x2 y h
            · rw [List.mem_singleton.mp h]; exact x3
          · rintro ⟨x1, x2⟩
            exact ⟨⟨x1, fun y hy => x2 y (by simp [hy])⟩, x2 m (by simp)⟩) c1 c2 c3 (by simp)
        rw [e1, e2]
        have e3 : (ms ++ [m]).getLast? = some m := by simp
        rw [e3] at this
        exact this

/-- Satisfaction: the solutions are distinct solutions, at most as many as asked for; the status is right.  After them, the last may be
printed again, or something that is no solution if there is none. -/
theorem _root_.MZ.C89_satisfaction_partial (C : Asg → Prop) (outs : List OutVar) (all : Bool) (nr : Nat) (as : List Ans)
    (h : Correct outs C as) :
    ∃ ms : List Asg,
      ((solveSat all nr as).2 = ms.map some ∨ (solveSat all nr as).2 = ms.map some ++ [ms.getLast?]) ∧
      (∀ m ∈ ms, C m) ∧ ms.Pairwise (fun m m' => ¬ SameOut outs m' m) ∧ (all = false → ms.length ≤ nr) ∧
      ((solveSat all nr as).1 = .opt → ms ≠ [] ∧ ∀ a, C a → ∃ m ∈ ms, SameOut outs a m) ∧
      ((solveSat all nr as).1 = .unsat → ∀ a, ¬ C a) ∧
      ((solveSat all nr as).1 = .sat → ms ≠ []) ∧
      ((solveSat all nr as).1 = .unknown → ms = []) ∧
      (solveSat all nr as).1 ≠ .error := by
  obtain ⟨ms, h1, h2, h3, h4, h5, h6, h7, h8⟩ := satLoop_ok C outs all nr as [] .unknown C h (by simp) (by simp) (by simp) (by simp) (by simp)
  simp only [List.length_nil, List.getLast?_nil, List.map_nil] at h1 h2 h6 h7 h8
  unfold solveSat
  generalize satLoop all nr as 0 none Status.unknown [] = r at h1 h2 h6 h7 h8
  obtain ⟨n, res, out⟩ := r
  dsimp only at h1 h2 h6 h7 h8 ⊢
  subst h1
  refine ⟨ms, h2, h3, h4, h5, ?_⟩
  cases ms with
  | nil =>
    rcases h8 with rfl | rfl | rfl
    · simp at h7
    · simp at h6 ⊢; exact h6
    · simp
  | cons m ms =>
    rcases h8 with rfl | rfl | rfl
    · simp
    · have := h6 rfl; simp at this ⊢; exact this
    · simp

/-- A problem without solutions: something is printed before the verdict.  With one solution, it is printed twice. -/
theorem _root_.MZ.C89_satisfaction_fails (m : Asg) :
    Correct [] (fun _ => False) [.unsat] ∧ solveSat false 1 [.unsat] = (.unsat, [none]) ∧
    Correct [.i 0] (fun a => a.iv 0 = m.iv 0) [.sat m false, .unsat] ∧
    solveSat true 0 [.sat m false, .unsat] = (.opt, [some m, some m]) := by
  refine ⟨fun a h => h, rfl, ⟨rfl, by simp, ?_⟩, rfl⟩
  rintro a ⟨h1, l, h2, h3⟩
  simp only [nogood, List.map_cons, List.map_nil, List.mem_singleton] at h2
  subst h2
  exact h3 h1

/-! ## Optimisation -/

/-- What is known in the loop: `B` is what the solver has to satisfy now. -/
structure OInv (C : Asg → Prop) (obj : Asg → Int) (all : Bool) (s : OState) : Prop where
  sol : C s.last
  val : s.val = obj s.last
  outs : ∀ m ∈ s.out, C m
  sorted : s.out.Pairwise (fun m m' => obj m' ≤ obj m)
  last : ∀ m ∈ s.out, obj s.last ≤ obj m
  pr : all = true → s.out.getLast? = some s.last
  np : all = false → s.out = []

theorem oinv_next {C : Asg → Prop} {obj : Asg → Int} {all : Bool} {m : Asg} (o : List Asg) (hm : C m) (ho : ∀ x ∈ o, C x)
    (hs : o.Pairwise (fun m m' => obj m' ≤ obj m)) (hl : ∀ x ∈ o, obj m ≤ obj x) (hn : all = false → o = []) :
    OInv C obj all ⟨obj m, m, if all then o ++ [m] else o⟩ := by
  cases all with
  | false => exact ⟨hm, rfl, ho, hs, hl, by simp, hn⟩
  | true =>
    refine ⟨hm, rfl, ?_, ?_, ?_, by simp, by simp⟩
    · intro x hx; simp at hx; rcases hx with h | h
      · exact ho x h
      · rw [h]; exact hm
    · simp only [if_true]; rw [List.pairwise_append]
      exact ⟨hs, by simp, fun x hx y hy => by rw [List.mem_singleton.mp hy]; exact hl x hx⟩
    · intro x hx; simp at hx; rcases hx with h | h
      · exact hl x h
      · rw [h]

theorem probeValue_le {lb v : Int} {step : Nat} (h : lb ≤ v) : probeValue lb v step ≤ v := by
  unfold probeValue; split_ifs <;> omega

theorem probe_ok (C B : Asg → Prop) (obj : Asg → Int) (all : Bool) (as : List OAns) :
    ∀ (step : Nat) (s : OState), (∀ a, B a → C a) → CorrectOpt true obj B (some (s.val, step)) as → OInv C obj all s →
      ∀ as' s', probe all obj as step s = some (as', s') →
        OInv C obj all s' ∧ s'.val ≤ s.val ∧ CorrectOpt true obj (fun a => B a ∧ obj a < s'.val) none as' := by
  induction as with
  | nil => intro step s _ _ _ as' s' h; simp [probe] at h
  | cons x as ih =>
    intro step s hB hc hi as' s' h
    cases x with
    | sat m =>
      simp only [probe] at h
      obtain ⟨c1, ⟨lb, c2, c3⟩, c4⟩ := hc
      have hle : obj m ≤ s.val := by rw [c3]; exact probeValue_le c2
      have hi' : OInv C obj all ⟨obj m, m, if all then s.out ++ [m] else s.out⟩ :=
        oinv_next s.out (hB m c1) hi.outs hi.sorted (fun x hx => le_trans hle (by rw [hi.val]; exact hi.last x hx)) hi.np
      obtain ⟨r1, r2, r3⟩ := ih _ _ hB c4 hi' as' s' h
      exact ⟨r1, le_trans r2 hle, r3⟩
    | _ =>
      simp only [probe, Option.some.injEq, Prod.mk.injEq] at h
      obtain ⟨rfl, rfl⟩ := h
      exact ⟨hi, le_refl _, hc⟩

theorem optLoop_ok (C : Asg → Prop) (obj : Asg → Int) (all limit : Bool) (n : Nat) :
    ∀ (as : List OAns) (s : Option OState) (B : Asg → Prop),
      CorrectOpt limit obj B none as →
      (∀ a, B a ↔ C a ∧ ∀ t ∈ s, obj a < t.val) → (∀ t ∈ s, OInv C obj all t) →
      ∀ res s', optLoop all limit obj n as s = some (res, s') →
        (∀ t ∈ s', OInv C obj all t) ∧ (s' = none → s = none) ∧ (res = .unsat ∨ res = .unknown) ∧
        (res = .unsat → ∀ a, C a → ∃ t ∈ s', t.val ≤ obj a) := by
  induction n with
  | zero => intro as s B _ _ _ res s' h; simp [optLoop] at h
  | succ n ih =>
    intro as s B hc hB hi res s' h
    cases as with
    | nil => simp [optLoop] at h
    | cons x as =>
      cases x with
      | sat m =>
        simp only [optLoop] at h
        obtain ⟨c1, c2⟩ := hc
        obtain ⟨b1, b2⟩ := (hB m).mp c1
        have hi' : OInv C obj all ⟨obj m, m, ((s.map OState.out).getD []) ++ (if all then [m] else [])⟩ := by
          have e : ((s.map OState.out).getD []) ++ (if all then [m] else []) =
            if all then ((s.map OState.out).getD []) ++ [m] else ((s.map OState.out).getD []) := by cases all <;> simp
          rw [e]
          cases s with
          | none => exact oinv_next [] b1 (by simp) (by simp) (by simp) (fun _ => rfl)
          | some t =>
            have ht := hi t rfl
            exact oinv_next t.out b1 ht.outs ht.sorted
              (fun x hx => le_trans (le_of_lt (b2 t rfl)) (by rw [ht.val]; exact ht.last x hx)) ht.np
        generalize hs0 : (⟨obj m, m, ((s.map OState.out).getD []) ++ (if all then [m] else [])⟩ : OState) = s0 at h hi'
        have hv : s0.val = obj m := by rw [← hs0]
        cases limit with
        | false =>
          simp only [Bool.false_eq_true, if_false] at h c2
          obtain ⟨r1, r2, r3, r4⟩ := ih as (some s0) _ c2 (fun a => by
            rw [hB a]
            constructor
            · rintro ⟨⟨x1, x2⟩, x3⟩; exact ⟨x1, fun t ht => by cases ht; rw [hv]; exact x3⟩
            · rintro ⟨x1, x2⟩
              have := x2 s0 rfl; rw [hv] at this
              exact ⟨⟨x1, fun t ht => lt_trans this (b2 t ht)⟩, this⟩) (fun t ht => by cases ht; exact hi') res s' h
          exact ⟨r1, fun e => absurd (r2 e) (by simp), r3, r4⟩
        | true =>
          simp only [if_true] at h c2
          cases hp : probe all obj as 1 s0 with
          | none => rw [hp] at h; simp at h
          | some q =>
            obtain ⟨as1, s1⟩ := q
            rw [hp] at h
            dsimp only at h
            obtain ⟨p1, p2, p3⟩ := probe_ok C B obj all as 1 s0 (fun a ha => ((hB a).mp ha).1) (by rw [hv]; exact c2) hi' as1 s1 hp
            obtain ⟨r1, r2, r3, r4⟩ := ih as1 (some s1) _ p3 (fun a => by
              rw [hB a]
              constructor
              · rintro ⟨⟨x1, x2⟩, x3⟩; exact ⟨x1, fun t ht => by cases ht; exact x3⟩
              · rintro ⟨x1, x2⟩
                have := x2 s1 rfl
                exact ⟨⟨x1, fun t ht => lt_trans (lt_of_lt_of_le this p2) (by rw [hv]; exact b2 t ht)⟩, this⟩)
              (fun t ht => by cases ht; exact p1) res s' h
            exact ⟨r1, fun e => absurd (r2 e) (by simp), r3, r4⟩
      | unsat =>
        simp only [optLoop, Option.some.injEq, Prod.mk.injEq] at h
        obtain ⟨rfl, rfl⟩ := h
        refine ⟨hi, id, .inl rfl, fun _ a ha => ?_⟩
        by_contra hn
        push Not at hn
        exact hc a ((hB a).mpr ⟨ha, hn⟩)
      | unknown =>
        simp only [optLoop, Option.some.injEq, Prod.mk.injEq] at h
        obtain ⟨rfl, rfl⟩ := h
        exact ⟨hi, id, .inr rfl, by simp⟩
      | refused => exact hc.elim

/-- Optimisation: what is printed are solutions that do not get worse, one if intermediate solutions are not asked for; if optimality is reported, the last one is
optimal; if unsatisfiability is reported, there are none. -/
theorem _root_.MZ.C89_optimisation (C : Asg → Prop) (obj : Asg → Int) (all limit : Bool) (as : List OAns) (st : Status) (out : List Asg)
    (hc : CorrectOpt limit obj C none as) (h : solveOpt all limit obj as = some (st, out)) :
    (∀ m ∈ out, C m) ∧ out.Pairwise (fun m m' => obj m' ≤ obj m) ∧
    (st = .opt → ∃ m, out.getLast? = some m ∧ ∀ a, C a → obj m ≤ obj a) ∧
    (st = .unsat → ∀ a, ¬ C a) ∧ (st = .sat → out ≠ []) ∧ (st = .unknown → out = []) ∧ st ≠ .error ∧
    (all = false → out.length ≤ 1) := by
  unfold solveOpt at h
  cases hl : optLoop all limit obj (as.length + 1) as none with
  | none => rw [hl] at h; simp at h
  | some q =>
    obtain ⟨res, s⟩ := q
    obtain ⟨h1, _, h3, h4⟩ := optLoop_ok C obj all limit _ as none C hc (by simp) (by simp) res s hl
    rw [hl] at h
    cases s with
    | none =>
      dsimp only at h
      simp only [Option.some.injEq, Prod.mk.injEq] at h
      obtain ⟨rfl, rfl⟩ := h
      rcases h3 with rfl | rfl
      · simp at h4 ⊢; exact h4
      · simp
    | some s =>
      dsimp only at h
      simp only [Option.some.injEq, Prod.mk.injEq] at h
      obtain ⟨rfl, rfl⟩ := h
      have hi := h1 s rfl
      have hlast : (if all = true then s.out else s.out ++ [s.last]).getLast? = some s.last := by
        cases all with
        | true => simpa using hi.pr rfl
        | false => simp
      have hne : (if all = true then s.out else s.out ++ [s.last]) ≠ [] := by
        intro e; rw [e] at hlast; simp at hlast
      refine ⟨?_, ?_, fun hst => ⟨s.last, hlast, fun a ha => ?_⟩, ?_, fun _ => hne, ?_, ?_, ?_⟩
      · intro m hm
        cases all with
        | true => exact hi.outs m (by simpa using hm)
        | false => simp [hi.np rfl] at hm; rw [hm]; exact hi.sol
      · cases all with
        | true => simpa using hi.sorted
        | false => simp [hi.np rfl]
      · rcases h3 with rfl | rfl
        · obtain ⟨t, ht, hle⟩ := h4 rfl a ha
          cases ht; rw [← hi.val]; exact hle
        · simp at hst
      · rcases h3 with rfl | rfl <;> simp
      · rcases h3 with rfl | rfl <;> simp
      · rcases h3 with rfl | rfl <;> simp
      · intro e; subst e; simp [hi.np rfl]

/-- With probing, a problem whose only solution has the objective at its lower bound is probed for ever. -/
theorem _root_.MZ.C89_probing_fails (m : Asg) (obj : Asg → Int) (all : Bool) (n : Nat) :
    CorrectOpt true obj (fun a => a = m) none (List.replicate n (.sat m)) ∧
    solveOpt all true obj (List.replicate n (.sat m)) = none := by
  have key : ∀ k step, CorrectOpt true obj (fun a => a = m) (some (obj m, step)) (List.replicate k (.sat m)) := by
    intro k
    induction k with
    | zero => intro step; simp [CorrectOpt]
    | succ k ih =>
      intro step
      rw [List.replicate_succ]
      refine ⟨rfl, ⟨obj m, le_refl _, ?_⟩, ih _⟩
      unfold probeValue; split_ifs <;> omega
  have hp : ∀ k step s, probe all obj (List.replicate k (.sat m)) step s = none := by
    intro k
    induction k with
    | zero => intro step s; rfl
    | succ k ih => intro step s; rw [List.replicate_succ]; exact ih _ _
  cases n with
  | zero => exact ⟨by simp [CorrectOpt], rfl⟩
  | succ n =>
    rw [List.replicate_succ]
    refine ⟨⟨rfl, by simpa using key n 1⟩, ?_⟩
    unfold solveOpt
    simp only [optLoop, if_true, hp]

/-! ## Variables -/

/-- Ranges in order, each with a value, within 32 bits. -/
def RangesOk (dom : List (Int × Int)) : Prop :=
  dom ≠ [] ∧ (∀ r ∈ dom, r.1 ≤ r.2 ∧ Small r.1 ∧ Small r.2) ∧ dom.Pairwise (fun r s => r.2 < s.1)

theorem sparse_mem (dom : List (Int × Int)) (h : ∀ r ∈ dom, r.1 ≤ r.2 ∧ Small r.1 ∧ Small r.2) (v : Int) :
    v ∈ sparse dom ↔ ∃ r ∈ dom, r.1 ≤ v ∧ v ≤ r.2 := by
  unfold sparse
  simp only [List.mem_flatMap, List.mem_map, List.mem_range]
  constructor
  · rintro ⟨r, hr, k, hk, rfl⟩
    obtain ⟨h1, h2, h3⟩ := h r hr
    unfold Small at h2 h3
    rw [small_toInt32 (by constructor <;> omega)]
    exact ⟨r, hr, by omega, by omega⟩
  · rintro ⟨r, hr, h1, h2⟩
    obtain ⟨g1, g2, g3⟩ := h r hr
    unfold Small at g2 g3
    refine ⟨r, hr, (v - r.1).toNat, by omega, ?_⟩
    rw [show r.1 + ((v - r.1).toNat : Int) = v by omega]
    exact small_toInt32 (by constructor <;> omega)

/-- The variable made for a domain takes exactly the values of the domain. -/
theorem _root_.MZ.C89_domain (dom : List (Int × Int)) (h : RangesOk dom) :
    ∃ lb ub vals, newVar dom = some (lb, ub, vals) ∧
      ∀ v, (lb ≤ v ∧ v ≤ ub ∧ ∀ l ∈ vals, v ∈ l) ↔ ∃ r ∈ dom, r.1 ≤ v ∧ v ≤ r.2 := by
  obtain ⟨h0, h1, h2⟩ := h
  obtain ⟨f, rest, rfl⟩ := List.exists_cons_of_ne_nil h0
  obtain ⟨l, hl⟩ : ∃ l, (f :: rest).getLast? = some l := by simp [List.getLast?_cons]
  refine ⟨f.1, l.2, if 1 < (f :: rest).length then some (sparse (f :: rest)) else none, by simp only [newVar, List.head?_cons, hl], fun v => ?_⟩
  cases rest with
  | nil => simp at hl; subst hl; simp
  | cons g rest =>
    have hlen : 1 < (f :: g :: rest).length := by simp
    simp only [hlen, if_true, Option.mem_some_iff, forall_eq', sparse_mem _ h1]
    constructor
    · rintro ⟨_, _, h⟩; exact h
    · rintro ⟨r, hr, a1, a2⟩
      refine ⟨?_, ?_, r, hr, a1, a2⟩
      · rcases List.mem_cons.mp hr with rfl | hr'
        · exact a1
        · have := (List.pairwise_cons.mp h2).1 r hr'
          have := (h1 f (by simp)).1
          omega
      · obtain ⟨ini, hini⟩ := List.getLast?_eq_some_iff.mp hl
        rw [hini] at hr h2
        rcases List.mem_append.mp hr with hr' | hr'
        · have := (List.pairwise_append.mp h2).2.2 r hr' l (by simp)
          have := (h1 l (by rw [hini]; simp)).1
          omega
        · rw [List.mem_singleton.mp hr'] at a2; exact a2

/-- An array access as the definition of a variable stands for the next element. -/
theorem _root_.MZ.C89_array_access_fails (x y : Nat) : resolveAccess [x, y] 1 = .ok y ∧ resolveAccess [x, y] 2 = .ub := ⟨rfl, rfl⟩

end Geas
end MZ
