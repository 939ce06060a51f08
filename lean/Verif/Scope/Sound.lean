import Verif.Scope.Spec
/-!
# Soundness: what holds when the pass succeeds
-/
namespace MZ
namespace Scope

/-- The precondition of visiting: the scopes agree with the lexical environment, local declarations in scope are finished. -/
structure Pre (C : Ctx) (Γ : Env) (s : S) : Prop where
  inv : Inv C s
  find : ∀ x, find s.scopes x = Γ x
  loc : ∀ x d, Γ x = some d → C.Glob d ∨ ∃ k, s.pos d = some (some k)

/-- Declarations and uses inside are those of the setting. -/
def Here (C : Ctx) (is : List (Nat × Info)) (us : List (Nat × Option Nat)) : Prop :=
  (∀ p ∈ is, C.I p.1 = some p.2) ∧ ∀ u ∈ us, ∀ h, u.2 = some h → C.Q u.1 h

theorem Here.append {C : Ctx} {is js : List (Nat × Info)} {us vs : List (Nat × Option Nat)} (h : Here C (is ++ js) (us ++ vs)) :
    Here C is us ∧ Here C js vs :=
  ⟨⟨fun p hp => h.1 p (List.mem_append_left _ hp), fun u hu => h.2 u (List.mem_append_left _ hu)⟩,
    ⟨fun p hp => h.1 p (List.mem_append_right _ hp), fun u hu => h.2 u (List.mem_append_right _ hu)⟩⟩

/-- The postcondition. -/
structure Post (C : Ctx) (us : List (Nat × Option Nat)) (s s' : S) : Prop where
  inv : Inv C s'
  frame : Frame s s'
  scopes : s'.scopes = s.scopes
  bound : Bound s' us s'.decls.length

theorem Inv.lt {C : Ctx} {s : S} (h : Inv C s) {p k : Nat} (hp : s.pos p = some (some k)) : k < s.decls.length := by
  have := h.decls p k hp
  exact (List.getElem?_eq_some_iff.1 this).1

theorem Pre.next {C : Ctx} {Γ : Env} {us : List (Nat × Option Nat)} {s s' : S} (h : Pre C Γ s) (p : Post C us s s') : Pre C Γ s' :=
  ⟨p.inv, by rw [p.scopes]; exact h.find, fun x d e => (h.loc x d e).imp id fun ⟨k, hk⟩ => ⟨k, p.frame.mono _ _ hk⟩⟩

theorem Bound.len {C : Ctx} {s : S} {us : List (Nat × Option Nat)} {k : Nat} (hi : Inv C s) (h : Bound s us k) : Bound s us s.decls.length := by
  intro u hu
  obtain ⟨d, j, h1, h2, h3, h4⟩ := h u hu
  exact ⟨d, j, h1, h2, h3, hi.lt h3⟩

theorem Post.trans {C : Ctx} {us vs : List (Nat × Option Nat)} {a b c : S} (h : Post C us a b) (g : Post C vs b c) : Post C (us ++ vs) a c :=
  ⟨g.inv, h.frame.trans g.frame, g.scopes.trans h.scopes, Bound.append.2 ⟨(h.bound.mono g.frame (Nat.le_refl _)).len g.inv, g.bound⟩⟩

theorem Post.sub {C : Ctx} {us vs : List (Nat × Option Nat)} {a b : S} (h : Post C us a b) (hs : ∀ u ∈ vs, u ∈ us) : Post C vs a b :=
  ⟨h.inv, h.frame, h.scopes, fun u hu => h.bound u (hs u hu)⟩

/-- What is assumed about running a new global declaration. -/
def GoOk (C : Ctx) (go : S → Nat → R S) : Prop :=
  ∀ s d s', go s d = .ok s' → Pre C C.Γ0 s → C.Glob d → s.pos d = none → Post C [] s s' ∧ ∃ k, s'.pos d = some (some k)

theorem Inv.push {C : Ctx} {s : S} (h : Inv C s) (t : ST) : Inv C (Scope.push s t) := by
  obtain ⟨g, h1, h2⟩ := h.top
  refine ⟨⟨g, ?_, h2⟩, h.done, h.decls, h.decls', h.own, h.log, h.dom⟩
  simp only [Scope.push]
  rw [List.getLast?_cons, h1]; rfl

theorem Inv.scopes {C : Ctx} {s : S} (h : Inv C s) {l : List Sc} (hl : l.getLast? = s.scopes.getLast?) : Inv C { s with scopes := l } := by
  obtain ⟨g, h1, h2⟩ := h.top
  exact ⟨⟨g, hl.trans h1, h2⟩, h.done, h.decls, h.decls', h.own, h.log, h.dom⟩

theorem checkId_ok {C : Ctx} (hC : C.Ok) {go : S → Nat → R S} (hgo : GoOk C go) {Γ : Env} {occ : Nat} {x : Name} {s s' : S}
    (h : checkId go s occ x = .ok s') (hp : Pre C Γ s) (hh : Here C [] [(occ, Γ x)]) : Post C [(occ, Γ x)] s s' := by
  unfold checkId at h
  rw [hp.find] at h
  split at h
  · cases h
  · rename_i d hd
    obtain ⟨s1, h1, h2⟩ := R.bind_ok h
    simp only [R.ok.injEq] at h2
    have key : Inv C s1 ∧ Frame s s1 ∧ s1.scopes = s.scopes ∧ ∃ k, s1.pos d = some (some k) := by
      split at h1
      · rename_i hn
        obtain ⟨s2, g1, g2⟩ := R.bind_ok h1
        simp only [R.ok.injEq] at g2
        have hG : C.Glob d := by
          rcases hp.loc x d hd with h | ⟨k, hk⟩
          · exact h
          · rw [hn] at hk; cases hk
        obtain ⟨p1, k, p2⟩ := hgo (push s .top) d s2 g1 ⟨hp.inv.push _, find_top hp.inv, fun x d hx => .inl (hC.env x d hx)⟩ hG hn
        subst g2
        have hsc : (pop s2).scopes = s.scopes := by simp [pop, p1.scopes, push]
        refine ⟨p1.inv.scopes ?_, ⟨p1.frame.mono, p1.frame.prog, p1.frame.log⟩, hsc, k, p2⟩
        obtain ⟨g, t, -⟩ := hp.inv.top
        rw [p1.scopes]
        simp only [push, List.tail_cons]
        rw [List.getLast?_cons, t]; rfl
      · cases h1
      · rename_i k hk
        simp only [R.ok.injEq] at h1
        subst h1
        exact ⟨hp.inv, .refl _, rfl, k, hk⟩
    obtain ⟨k1, k2, k3, k, k4⟩ := key
    subst h2
    have fr : Frame s1 { s1 with log := (occ, d) :: s1.log } := ⟨fun _ _ h => h, fun _ h => h, fun _ h => .tail _ h⟩
    refine ⟨⟨k1.top, fun p i k hk hi => ?_, k1.decls, k1.decls', k1.own, ?_, k1.dom⟩, k2.trans fr, k3, ?_⟩
    · obtain ⟨b, c⟩ := k1.done p i k hk hi
      exact ⟨b.mono fr (Nat.le_refl _), c⟩
    · intro q hq
      rcases List.mem_cons.1 hq with rfl | hq
      · exact hh.2 _ (List.mem_singleton.2 rfl) d hd
      · exact k1.log q hq
    · intro u hu
      rw [List.mem_singleton.1 hu]
      exact ⟨d, k, hd, .head _, k4, k1.lt k4⟩

theorem Post.refl {C : Ctx} {s : S} (h : Inv C s) : Post C [] s s := ⟨h, .refl _, rfl, fun _ hu => by cases hu⟩

/-- Marking a declaration as in progress. -/
theorem Pre.mark {C : Ctx} {Γ : Env} {s : S} (h : Pre C Γ s) {d : Nat} {i : Info} (hi : C.I d = some i) (hn : s.pos d = none)
    (hown : ∀ g, i.own = some g → g = d ∨ s.pos g ≠ none) : Pre C Γ (setPos s d none) := by
  have keep : ∀ p v, s.pos p = some v → (setPos s d none).pos p = some v := by
    intro p v hp
    simp only [setPos]
    rw [if_neg (by rintro rfl; rw [hn] at hp; cases hp)]
    exact hp
  have back : ∀ p k, (setPos s d none).pos p = some (some k) → s.pos p = some (some k) := by
    intro p k hp
    simp only [setPos] at hp
    split at hp
    · simp at hp
    · exact hp
  have hne : ∀ p, (setPos s d none).pos p ≠ none ↔ p = d ∨ s.pos p ≠ none := by
    intro p
    simp only [setPos]
    split
    · rename_i e; simp [e]
    · rename_i e; simp [e]
  refine ⟨⟨h.inv.top, ?_, fun p k hp => h.inv.decls p k (back p k hp), fun k p hp => keep _ _ (h.inv.decls' k p hp), ?_,
    h.inv.log, ?_⟩, h.find, fun x d' e => (h.loc x d' e).imp id fun ⟨k, hk⟩ => ⟨k, keep _ _ hk⟩⟩
  · intro p i k hp hi
    obtain ⟨b, c⟩ := h.inv.done p i k (back p k hp) hi
    refine ⟨fun u hu => ?_, c⟩
    obtain ⟨e, j, b1, b2, b3, b4⟩ := b u hu
    exact ⟨e, j, b1, b2, keep _ _ b3, b4⟩
  · intro p i' g hp hi' hg
    rw [hne] at hp ⊢
    rcases hp with rfl | hp
    · rw [hi] at hi'
      simp only [Option.some.injEq] at hi'
      subst hi'
      exact hown g hg
    · exact .inr (h.inv.own p i' g hp hi' hg)
  · intro p hp
    rw [hne] at hp
    rcases hp with rfl | hp
    · exact ⟨i, hi⟩
    · exact h.inv.dom p hp

/-- The type, right-hand side and annotations of a declaration have been visited: it gets its position. -/
theorem finish_ok {C : Ctx} {s s1 : S} {d : Nat} {i : Info} (hi : C.I d = some i) (hn : s.pos d = none)
    (hp : Post C i.uses (setPos s d none) s1) (hd : Dis i.body ∧ DisL i.as) : Post C i.uses s (finish s1 d) ∧ ∃ k, (finish s1 d).pos d = some (some k) := by
  have h1 : s1.pos d = some none := hp.frame.mono d none (by simp [setPos])
  have keep : ∀ p k, s1.pos p = some (some k) → (finish s1 d).pos p = some (some k) := by
    intro p k hk
    simp only [finish, setPos]
    rw [if_neg (by rintro rfl; rw [h1] at hk; simp at hk)]
    exact hk
  have hpos : (finish s1 d).pos d = some (some s1.decls.length) := by simp [finish, setPos]
  have other : ∀ p, p ≠ d → (finish s1 d).pos p = s1.pos p := by
    intro p hne
    simp [finish, setPos, hne]
  have bnd : ∀ {us : List (Nat × Option Nat)} {k : Nat}, Bound s1 us k → Bound (finish s1 d) us k := by
    intro us k h u hu
    obtain ⟨e, j, b1, b2, b3, b4⟩ := h u hu
    exact ⟨e, j, b1, b2, keep _ _ b3, b4⟩
  have hdec : (finish s1 d).decls = s1.decls ++ [d] := rfl
  refine ⟨⟨⟨hp.inv.top, ?_, ?_, ?_, ?_, hp.inv.log, ?_⟩, ⟨?_, ?_, fun q hq => hp.frame.log q hq⟩, hp.scopes, ?_⟩, _, hpos⟩
  · intro p i' k hk hi'
    by_cases e : p = d
    · subst e
      rw [hpos] at hk
      simp only [Option.some.injEq] at hk
      rw [hi] at hi'
      simp only [Option.some.injEq] at hi'
      subst hk hi'
      exact ⟨bnd hp.bound, hd⟩
    · rw [other p e] at hk
      obtain ⟨b, c⟩ := hp.inv.done p i' k hk hi'
      exact ⟨bnd b, c⟩
  · intro p k hk
    rw [hdec]
    by_cases e : p = d
    · subst e
      rw [hpos] at hk
      simp only [Option.some.injEq] at hk
      subst hk
      simp
    · rw [other p e] at hk
      have := hp.inv.decls p k hk
      rw [List.getElem?_append_left (hp.inv.lt hk)]
      exact this
  · intro k p hpd
    rw [hdec] at hpd
    by_cases g : k < s1.decls.length
    · rw [List.getElem?_append_left g] at hpd
      exact keep _ _ (hp.inv.decls' k p hpd)
    · rw [List.getElem?_append_right (by omega), List.getElem?_singleton] at hpd
      split at hpd
      · simp only [Option.some.injEq] at hpd
        subst hpd
        have : k = s1.decls.length := by omega
        rw [this]
        exact hpos
      · cases hpd
  · intro p i' g hne hi' hg
    have : s1.pos p ≠ none := by
      by_cases e : p = d
      · rw [e, h1]; simp
      · rw [other p e] at hne; exact hne
    have h2 := hp.inv.own p i' g this hi' hg
    by_cases e : g = d
    · rw [e, hpos]; simp
    · rw [other g e]; exact h2
  · intro p hne
    by_cases e : p = d
    · subst e; exact ⟨i, hi⟩
    · rw [other p e] at hne; exact hp.inv.dom p hne
  · intro p v hv
    have hne : p ≠ d := by rintro rfl; rw [hn] at hv; cases hv
    rw [other p hne]
    exact hp.frame.mono p v (by simp [setPos, hne, hv])
  · intro p hv
    have hne : p ≠ d := by rintro rfl; rw [hpos] at hv; simp at hv
    rw [other p hne] at hv
    have := hp.frame.prog p hv
    simpa [setPos, hne] using this
  · have := bnd hp.bound
    intro u hu
    obtain ⟨e, j, b1, b2, b3, b4⟩ := this u hu
    exact ⟨e, j, b1, b2, b3, by rw [hdec, List.length_append]; omega⟩

/-- Postcondition of the contents of a scope: only the innermost scope grows. -/
structure PostB (C : Ctx) (us : List (Nat × Option Nat)) (s s' : S) : Prop where
  inv : Inv C s'
  frame : Frame s s'
  scopes : s'.scopes.tail = s.scopes.tail ∧ s'.scopes ≠ []
  bound : Bound s' us s'.decls.length

theorem Post.toB {C : Ctx} {us : List (Nat × Option Nat)} {s s' : S} (h : Post C us s s') (hs : s.scopes ≠ []) : PostB C us s s' :=
  ⟨h.inv, h.frame, by rw [h.scopes]; exact ⟨rfl, hs⟩, h.bound⟩

theorem Post.transB {C : Ctx} {us vs : List (Nat × Option Nat)} {a b c : S} (h : Post C us a b) (g : PostB C vs b c) : PostB C (us ++ vs) a c :=
  ⟨g.inv, h.frame.trans g.frame, by rw [← h.scopes]; exact g.scopes, Bound.append.2 ⟨(h.bound.mono g.frame (Nat.le_refl _)).len g.inv, g.bound⟩⟩

/-- Adding a declaration to the innermost scope. -/
theorem add_ok {C : Ctx} {Γ : Env} {s s' : S} {x : Name} {d : Nat} {sc : Sc} {rest : List Sc} (hp : Pre C Γ s) (hs : s.scopes = sc :: rest)
    (hr : rest ≠ []) (hd : ∃ k, s.pos d = some (some k)) (h : add s x d = .ok s') :
    Pre C (ext Γ x d) s' ∧ Frame s s' ∧ s'.decls = s.decls ∧ s'.pos = s.pos ∧
      (∃ m, s'.scopes = ⟨sc.st, m⟩ :: rest ∧ m.map (·.1) = addName x (sc.m.map (·.1))) ∧ (x ≠ "" → x ∉ sc.m.map (·.1)) := by
  unfold add at h
  split at h
  · rename_i hx
    simp only [R.ok.injEq] at h
    subst h
    refine ⟨by simpa [ext, hx] using hp, .refl _, rfl, rfl, ⟨sc.m, hs, by simp [addName, hx]⟩, fun e => absurd hx e⟩
  · rename_i hx
    rw [hs] at h
    simp only at h
    split at h
    · rename_i hl
      simp only [R.ok.injEq] at h
      subst h
      have fr : Frame s { s with scopes := { sc with m := (x, d) :: sc.m } :: rest } := ⟨fun _ _ h => h, fun _ h => h, fun _ h => h⟩
      refine ⟨⟨hp.inv.scopes ?_, ?_, ?_⟩, fr, rfl, rfl, ⟨(x, d) :: sc.m, rfl, by simp [addName, hx]⟩, fun _ => look_none.1 hl⟩
      · rw [hs]
        cases rest with
        | nil => exact absurd rfl hr
        | cons a l => simp
      · intro y
        exact find_add (fun y => by rw [← hp.find y, hs]) hx hl y
      · intro y d' hy
        unfold ext at hy
        rw [if_neg hx] at hy
        split at hy
        · simp only [Option.some.injEq] at hy
          subst hy
          exact .inr hd
        · exact hp.loc y d' hy
    · cases h

mutual
theorem run_ok {C : Ctx} (hC : C.Ok) {go : S → Nat → R S} (hgo : GoOk C go) (o : Option Nat) (ho : ∀ g, o = some g → C.Glob g) :
    ∀ (e : Ex) (Γ : Env) (s s' : S), run go e s = .ok s' → Pre C Γ s → (∀ g, o = some g → s.pos g ≠ none) →
      Here C (infos o Γ e) (uses Γ e) → Post C (uses Γ e) s s' ∧ Dis e
  | .lit, Γ, s, s', h, hp, hg, hh => by
    simp only [run, R.ok.injEq] at h
    subst h
    exact ⟨.refl hp.inv, trivial⟩
  | .id occ x, Γ, s, s', h, hp, hg, hh => ⟨checkId_ok hC hgo (by simpa [run] using h) hp hh, trivial⟩
  | .node cs, Γ, s, s', h, hp, hg, hh => by
    simpa [uses, Dis] using runs_ok hC hgo o ho cs Γ s s' (by simpa [run] using h) hp hg hh
  | .call f cs, Γ, s, s', h, hp, hg, hh => by
    simpa [uses, Dis] using runs_ok hC hgo o ho cs Γ s s' (by simpa [run] using h) hp hg hh
  | .ann as e, Γ, s, s', h, hp, hg, hh => by
    simp only [run] at h
    obtain ⟨s1, h1, h⟩ := R.bind_ok h
    obtain ⟨s2, h2, h3⟩ := R.bind_ok h
    simp only [infos, uses] at hh
    obtain ⟨ha, he⟩ := hh.append
    obtain ⟨p1, d1⟩ := runs_ok hC hgo o ho as Γ s s1 h1 hp hg ha
    have q1 := hp.next p1
    have g1 : ∀ g, o = some g → s1.pos g ≠ none := fun g hg' => by
      obtain ⟨v, hv⟩ := Option.ne_none_iff_exists'.1 (hg g hg'); rw [p1.frame.mono g v hv]; simp
    obtain ⟨p2, d2⟩ := run_ok hC hgo o ho e Γ s1 s2 h2 q1 g1 he
    have q2 := q1.next p2
    have g2 : ∀ g, o = some g → s2.pos g ≠ none := fun g hg' => by
      obtain ⟨v, hv⟩ := Option.ne_none_iff_exists'.1 (g1 g hg'); rw [p2.frame.mono g v hv]; simp
    obtain ⟨p3, -⟩ := runs_ok hC hgo o ho as Γ s2 s' h3 q2 g2 ha
    refine ⟨((p1.trans p2).trans p3).sub ?_, d1, d2⟩
    intro u hu
    exact List.mem_append_left _ hu
  | .scope b, Γ, s, s', h, hp, hg, hh => by
    simp only [run] at h
    obtain ⟨s1, h1, h⟩ := R.bind_ok h
    simp only [R.ok.injEq] at h
    subst h
    have hp' : Pre C Γ (push s .inner) := ⟨hp.inv.push _, fun x => by rw [find_push]; exact hp.find x, hp.loc⟩
    obtain ⟨g0, t0, -⟩ := hp.inv.top
    have hne : s.scopes ≠ [] := by rintro hc; rw [hc] at t0; cases t0
    obtain ⟨p, d⟩ := runB_ok hC hgo o ho b Γ (push s .inner) s1 ⟨.inner, []⟩ s.scopes h1 hp' hg hh rfl hne
    have hsc : (pop s1).scopes = s.scopes := by simp [pop, p.scopes.1, push]
    refine ⟨⟨p.inv.scopes ?_, ⟨p.frame.mono, p.frame.prog, p.frame.log⟩, hsc, p.bound⟩, d⟩
    have := p.inv.top
    obtain ⟨g, t, -⟩ := this
    have e : s1.scopes.tail = s.scopes := hsc
    rw [t]
    cases hs1 : s1.scopes with
    | nil => rw [hs1] at t; cases t
    | cons a l =>
      rw [hs1] at e t
      simp only [List.tail_cons] at e ⊢
      rw [List.getLast?_cons, e] at t
      rw [e]
      cases hl : s.scopes.getLast? with
      | none => rw [List.getLast?_eq_none_iff] at hl; exact absurd hl hne
      | some z => rw [hl] at t; exact t
theorem runs_ok {C : Ctx} (hC : C.Ok) {go : S → Nat → R S} (hgo : GoOk C go) (o : Option Nat) (ho : ∀ g, o = some g → C.Glob g) :
    ∀ (es : Exs) (Γ : Env) (s s' : S), runs go es s = .ok s' → Pre C Γ s → (∀ g, o = some g → s.pos g ≠ none) →
      Here C (infosL o Γ es) (usesL Γ es) → Post C (usesL Γ es) s s' ∧ DisL es
  | .nil, Γ, s, s', h, hp, hg, hh => by
    simp only [runs, R.ok.injEq] at h
    subst h
    exact ⟨.refl hp.inv, trivial⟩
  | .cons e es, Γ, s, s', h, hp, hg, hh => by
    simp only [runs] at h
    obtain ⟨s1, h1, h2⟩ := R.bind_ok h
    simp only [infosL, usesL] at hh
    obtain ⟨ha, he⟩ := hh.append
    obtain ⟨p1, d1⟩ := run_ok hC hgo o ho e Γ s s1 h1 hp hg ha
    have g1 : ∀ g, o = some g → s1.pos g ≠ none := fun g hg' => by
      obtain ⟨v, hv⟩ := Option.ne_none_iff_exists'.1 (hg g hg'); rw [p1.frame.mono g v hv]; simp
    obtain ⟨p2, d2⟩ := runs_ok hC hgo o ho es Γ s1 s' h2 (hp.next p1) g1 he
    exact ⟨p1.trans p2, d1, d2⟩
theorem runB_ok {C : Ctx} (hC : C.Ok) {go : S → Nat → R S} (hgo : GoOk C go) (o : Option Nat) (ho : ∀ g, o = some g → C.Glob g) :
    ∀ (b : Blk) (Γ : Env) (s s' : S) (sc : Sc) (rest : List Sc), runB go b s = .ok s' → Pre C Γ s → (∀ g, o = some g → s.pos g ≠ none) →
      Here C (infosB o Γ b) (usesB Γ b) → s.scopes = sc :: rest → rest ≠ [] → PostB C (usesB Γ b) s s' ∧ DisB (sc.m.map (·.1)) b
  | .fin e, Γ, s, s', sc, rest, h, hp, hg, hh, hs, hr => by
    obtain ⟨p, d⟩ := run_ok hC hgo o ho e Γ s s' (by simpa [runB] using h) hp hg hh
    exact ⟨p.toB (by rw [hs]; simp), d⟩
  | .step e b, Γ, s, s', sc, rest, h, hp, hg, hh, hs, hr => by
    simp only [runB] at h
    obtain ⟨s1, h1, h2⟩ := R.bind_ok h
    simp only [infosB, usesB] at hh
    obtain ⟨ha, he⟩ := hh.append
    obtain ⟨p1, d1⟩ := run_ok hC hgo o ho e Γ s s1 h1 hp hg ha
    have g1 : ∀ g, o = some g → s1.pos g ≠ none := fun g hg' => by
      obtain ⟨v, hv⟩ := Option.ne_none_iff_exists'.1 (hg g hg'); rw [p1.frame.mono g v hv]; simp
    obtain ⟨p2, d2⟩ := runB_ok hC hgo o ho b Γ s1 s' sc rest h2 (hp.next p1) g1 he (by rw [p1.scopes]; exact hs) hr
    exact ⟨p1.transB p2, d1, d2⟩
  | .decl d x body as b, Γ, s, s', sc, rest, h, hp, hg, hh, hs, hr => by
    simp only [runB] at h
    obtain ⟨s1, h1, h⟩ := R.bind_ok h
    obtain ⟨s2, h2, h⟩ := R.bind_ok h
    obtain ⟨s3, h3, h4⟩ := R.bind_ok h
    simp only [infosB, usesB] at hh
    have hI : C.I d = some ⟨o, true, Γ, body, as⟩ := hh.1 (d, ⟨o, true, Γ, body, as⟩) (.head _)
    have hh' : Here C ((infos o Γ body ++ infosL o Γ as) ++ infosB o (ext Γ x d) b) ((uses Γ body ++ usesL Γ as) ++ usesB (ext Γ x d) b) :=
      ⟨fun p hp => hh.1 p (.tail _ hp), hh.2⟩
    obtain ⟨hba, hb⟩ := hh'.append
    obtain ⟨hbody, has⟩ := hba.append
    have first : Post C (uses Γ body ++ usesL Γ as) s s1 ∧ Dis body ∧ DisL as ∧ ∃ k, s1.pos d = some (some k) := by
      split at h1
      · rename_i hn
        obtain ⟨t1, e1, h1⟩ := R.bind_ok h1
        obtain ⟨t2, e2, h1⟩ := R.bind_ok h1
        simp only [R.ok.injEq] at h1
        subst h1
        have hm : Pre C Γ (setPos s d none) := hp.mark hI hn fun g e => .inr (hg g e)
        have gm : ∀ g, o = some g → (setPos s d none).pos g ≠ none := fun g e => by
          simp only [setPos]; split
          · simp
          · exact hg g e
        obtain ⟨p1, d1⟩ := run_ok hC hgo o ho body Γ _ t1 e1 hm gm hbody
        have g1 : ∀ g, o = some g → t1.pos g ≠ none := fun g hg' => by
          obtain ⟨v, hv⟩ := Option.ne_none_iff_exists'.1 (gm g hg'); rw [p1.frame.mono g v hv]; simp
        obtain ⟨p2, d2⟩ := runs_ok hC hgo o ho as Γ t1 t2 e2 (hm.next p1) g1 has
        obtain ⟨p3, k, p4⟩ := finish_ok (i := ⟨o, true, Γ, body, as⟩) hI hn (p1.trans p2) ⟨d1, d2⟩
        exact ⟨p3, d1, d2, k, p4⟩
      · cases h1
      · rename_i k hk
        simp only [R.ok.injEq] at h1
        subst h1
        obtain ⟨b1, b2, b3⟩ := hp.inv.done d _ k hk hI
        exact ⟨⟨hp.inv, .refl _, rfl, Bound.len hp.inv b1⟩, b2, b3, k, hk⟩
    obtain ⟨p1, d1, d2, k, hk⟩ := first
    have g1 : ∀ g, o = some g → s1.pos g ≠ none := fun g hg' => by
      obtain ⟨v, hv⟩ := Option.ne_none_iff_exists'.1 (hg g hg'); rw [p1.frame.mono g v hv]; simp
    obtain ⟨p2, -⟩ := runs_ok hC hgo o ho as Γ s1 s2 h2 (hp.next p1) g1 has
    have g2 : ∀ g, o = some g → s2.pos g ≠ none := fun g hg' => by
      obtain ⟨v, hv⟩ := Option.ne_none_iff_exists'.1 (g1 g hg'); rw [p2.frame.mono g v hv]; simp
    obtain ⟨a1, a2, a3, a4, ⟨m, a5, a6⟩, a7⟩ := add_ok ((hp.next p1).next p2) (by rw [p2.scopes, p1.scopes]; exact hs) hr ⟨k, p2.frame.mono _ _ hk⟩ h3
    obtain ⟨p3, d3⟩ := runB_ok hC hgo o ho b (ext Γ x d) s3 s' ⟨sc.st, m⟩ rest h4 a1 (by rw [a4]; exact g2) hb a5 hr
    have fr : Frame s s' := p1.frame.trans (p2.frame.trans (a2.trans p3.frame))
    refine ⟨⟨p3.inv, fr, ?_, ?_⟩, d1, d2, ?_, ?_⟩
    · rw [hs]
      refine ⟨?_, p3.scopes.2⟩
      rw [p3.scopes.1, a5]; rfl
    · refine Bound.append.2 ⟨?_, p3.bound⟩
      exact (p1.bound.mono (p2.frame.trans (a2.trans p3.frame)) (Nat.le_refl _)).len p3.inv
    · exact a7
    · rw [← a6]; exact d3
end

/-- A declaration whose parts are in the environment `Γ`. -/
theorem runDecl1_ok {C : Ctx} (hC : C.Ok) {go : S → Nat → R S} (hgo : GoOk C go) {c : Decl} {o : Option Nat} {l : Bool} {Γ : Env} {s s' : S}
    (ho : ∀ g, o = some g → C.Glob g) (hg : ∀ g, o = some g → g = c.d ∨ s.pos g ≠ none)
    (hI : C.I c.d = some ⟨o, l, Γ, c.body, c.as⟩) (hh : Here C (infos o Γ c.body ++ infosL o Γ c.as) (uses Γ c.body ++ usesL Γ c.as))
    (h : runDecl1 go c s = .ok s') (hp : Pre C Γ s) :
    Post C (uses Γ c.body ++ usesL Γ c.as) s s' ∧ Dis c.body ∧ DisL c.as ∧ ∃ k, s'.pos c.d = some (some k) := by
  unfold runDecl1 at h
  obtain ⟨s1, h1, h2⟩ := R.bind_ok h
  obtain ⟨hbody, has⟩ := hh.append
  have first : Post C (uses Γ c.body ++ usesL Γ c.as) s s1 ∧ Dis c.body ∧ DisL c.as ∧ ∃ k, s1.pos c.d = some (some k) := by
    split at h1
    · rename_i hn
      obtain ⟨t1, e1, h1⟩ := R.bind_ok h1
      obtain ⟨t2, e2, h1⟩ := R.bind_ok h1
      simp only [R.ok.injEq] at h1
      subst h1
      have hm : Pre C Γ (setPos s c.d none) := hp.mark hI hn fun g e => hg g e
      have gm : ∀ g, o = some g → (setPos s c.d none).pos g ≠ none := fun g e => by
        simp only [setPos]; split
        · simp
        · rename_i hne; exact (hg g e).resolve_left hne
      obtain ⟨p1, d1⟩ := run_ok hC hgo o ho c.body Γ _ t1 e1 hm gm hbody
      have g1 : ∀ g, o = some g → t1.pos g ≠ none := fun g hg' => by
        obtain ⟨v, hv⟩ := Option.ne_none_iff_exists'.1 (gm g hg'); rw [p1.frame.mono g v hv]; simp
      obtain ⟨p2, d2⟩ := runs_ok hC hgo o ho c.as Γ t1 t2 e2 (hm.next p1) g1 has
      obtain ⟨p3, k, p4⟩ := finish_ok (i := ⟨o, l, Γ, c.body, c.as⟩) hI hn (p1.trans p2) ⟨d1, d2⟩
      exact ⟨p3, d1, d2, k, p4⟩
    · cases h1
    · rename_i k hk
      simp only [R.ok.injEq] at h1
      subst h1
      obtain ⟨b1, b2, b3⟩ := hp.inv.done c.d _ k hk hI
      exact ⟨⟨hp.inv, .refl _, rfl, Bound.len hp.inv b1⟩, b2, b3, k, hk⟩
  obtain ⟨p1, d1, d2, k, hk⟩ := first
  have g1 : ∀ g, o = some g → s1.pos g ≠ none := fun g hg' => by
    rcases hg g hg' with rfl | hne
    · rw [hk]; simp
    · obtain ⟨v, hv⟩ := Option.ne_none_iff_exists'.1 hne; rw [p1.frame.mono g v hv]; simp
  obtain ⟨p2, -⟩ := runs_ok hC hgo o ho c.as Γ s1 s' h2 (hp.next p1) g1 has
  exact ⟨(p1.trans p2).sub fun u hu => List.mem_append_left _ hu, d1, d2, k, p2.frame.mono _ _ hk⟩

theorem find_decl {gs : List Decl} {d : Nat} {c : Decl} (h : gs.find? (·.d == d) = some c) : c ∈ gs ∧ c.d = d :=
  ⟨List.mem_of_find?_eq_some h, by simpa using List.find?_some h⟩

theorem goN_ok {C : Ctx} (hC : C.Ok) : ∀ (n : Nat), GoOk C (goN C.gs n)
  | 0, s, d, s', h, _, _, _ => by simp [goN] at h
  | n + 1, s, d, s', h, hp, hG, hn => by
    rw [goN] at h
    split at h
    · rename_i c hc
      obtain ⟨hm, rfl⟩ := find_decl hc
      obtain ⟨p, -, -, hk⟩ := runDecl1_ok hC (goN_ok hC n) (o := some c.d) (l := false) (Γ := C.Γ0)
        (fun g e => by simp only [Option.some.injEq] at e; exact ⟨c, hm, e⟩) (fun g e => by simp only [Option.some.injEq] at e; exact .inl e.symm)
        (hC.glob c hm) ⟨hC.inner c hm, hC.q c hm⟩ h hp
      exact ⟨p.sub (by simp), hk⟩
    · cases h

end Scope
end MZ
