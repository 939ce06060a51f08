import Verif.Scope.Sound
/-!
# Completeness: when the pass succeeds
-/
namespace MZ
namespace Scope
open Relation

/-- The global declaration `g` refers to `h`. -/
def Ctx.Dep (C : Ctx) (g h : Nat) : Prop := ∃ c ∈ C.gs, c.d = g ∧ ∃ u ∈ uses C.Γ0 c.body ++ usesL C.Γ0 c.as, u.2 = some h

/-- The reasons for which a model may be rejected: an identifier without a declaration, a name declared twice in a scope, a circular
definition. -/
structure Why where
  undef : Prop
  dup : Prop
  circ : Prop

/-- The outcome is a success or the report of something that holds. -/
def Blame {α : Type} (B : Why) : R α → Prop
  | .ok _ => True
  | .undef _ => B.undef
  | .dup _ => B.dup
  | .circ _ => B.circ
  | .multi _ => False
  | .assertion => False
  | .deep => False

theorem Blame.bind {α β : Type} {B : Why} {r : R α} {f : α → R β} (h : Blame B r) (g : ∀ a, r = .ok a → Blame B (f a)) : Blame B (r.bind f) := by
  cases r with
  | ok a => exact g a rfl
  | undef x => exact h
  | dup x => exact h
  | circ x => exact h
  | multi x => exact h
  | assertion => exact h
  | deep => exact h

/-- The conditions under which the global declarations are accepted hold unless there is a reason to reject the model. -/
structure Ctx.Good (C : Ctx) (B : Why) : Prop where
  dis : B.dup ∨ ∀ c ∈ C.gs, Dis c.body ∧ DisL c.as
  bound : B.undef ∨ ∀ c ∈ C.gs, ∀ u ∈ uses C.Γ0 c.body ++ usesL C.Γ0 c.as, u.2 ≠ none
  acyclic : B.circ ∨ ∀ g, ¬ TransGen C.Dep g g

/-- The number of global declarations the pass has not seen. -/
def unseen (C : Ctx) (s : S) : Nat := C.gs.countP fun c => (s.pos c.d).isNone

/-- Conditions on the declarations in progress. -/
structure Prog (C : Ctx) (o : Option Nat) (n sz : Nat) (us : List (Nat × Option Nat)) (s : S) : Prop where
  loc : ∀ p i, s.pos p = some none → C.I p = some i → i.loc = true → i.own = o → sz ≤ i.size
  chain : ∀ p, s.pos p = some none → C.Glob p → ∀ u ∈ us, ∀ h, u.2 = some h → C.Glob h → TransGen C.Dep p h
  cnt : unseen C s ≤ n
  own : ∀ g, o = some g → s.pos g ≠ none

theorem unseen_mono {C : Ctx} {s s' : S} (f : Frame s s') : unseen C s' ≤ unseen C s := by
  unfold unseen
  refine List.countP_mono_left fun c _ h => ?_
  simp only [Option.isNone_iff_eq_none] at *
  by_contra hc
  obtain ⟨v, hv⟩ := Option.ne_none_iff_exists'.1 hc
  rw [f.mono _ _ hv] at h
  cases h

theorem Prog.next {C : Ctx} {o : Option Nat} {n sz sz' : Nat} {us vs : List (Nat × Option Nat)} {s s' : S} (h : Prog C o n sz us s) (f : Frame s s')
    (hz : sz' ≤ sz) (hv : ∀ u ∈ vs, u ∈ us) : Prog C o n sz' vs s' :=
  ⟨fun p i hp hi hl ho => Nat.le_trans hz (h.loc p i (f.prog p hp) hi hl ho), fun p hp hG u hu => h.chain p (f.prog p hp) hG u (hv u hu),
    Nat.le_trans (unseen_mono f) h.cnt, fun g hg => by
      obtain ⟨v, hv⟩ := Option.ne_none_iff_exists'.1 (h.own g hg); rw [f.mono g v hv]; simp⟩

def GoC (C : Ctx) (B : Why) (n : Nat) (go : S → Nat → R S) : Prop :=
  ∀ s d, Pre C C.Γ0 s → C.Glob d → s.pos d = none → (∀ p, s.pos p = some none → C.Glob p → TransGen C.Dep p d) → unseen C s ≤ n → Blame B (go s d)

theorem R.bind_eq {α β : Type} {r : R α} {a : α} {f : α → R β} (h : r = .ok a) : r.bind f = f a := by rw [h]; rfl

theorem checkId_total {C : Ctx} (hC : C.Ok) {B : Why} (hac : C.Good B) {n : Nat} {go : S → Nat → R S} (hgc : GoC C B n go) {Γ : Env} {occ : Nat} {x : Name}
    {o : Option Nat} {sz : Nat} {s : S} (hp : Pre C Γ s) (hb : B.undef ∨ Γ x ≠ none) (hpr : Prog C o n sz [(occ, Γ x)] s) : Blame B (checkId go s occ x) := by
  unfold checkId
  rw [hp.find]
  cases hd : Γ x with
  | none => exact hb.resolve_right (by simp [hd])
  | some d =>
    simp only
    refine Blame.bind ?_ fun _ _ => trivial
    cases hpos : s.pos d with
    | none =>
      have hG : C.Glob d := by
        rcases hp.loc x d hd with h | ⟨k, hk⟩
        · exact h
        · rw [hpos] at hk; cases hk
      refine Blame.bind (hgc (push s .top) d ⟨hp.inv.push _, find_top hp.inv, fun x d hx => .inl (hC.env x d hx)⟩ hG hpos
        (fun p hp' hG' => hpr.chain p hp' hG' _ (List.mem_singleton.2 rfl) d hd hG) hpr.cnt) fun _ _ => trivial
    | some v =>
      cases v with
      | none =>
        have hG : C.Glob d := by
          rcases hp.loc x d hd with h | ⟨k, hk⟩
          · exact h
          · rw [hpos] at hk; simp at hk
        exact hac.acyclic.resolve_right fun h => h d (hpr.chain d hpos hG _ (List.mem_singleton.2 rfl) d hd hG)
      | some k => exact trivial

theorem glob_not_loc {C : Ctx} (hC : C.Ok) {d : Nat} {i : Info} (hG : C.Glob d) (hi : C.I d = some i) : i.loc = false := by
  obtain ⟨c, hc, rfl⟩ := hG
  rw [hC.glob c hc] at hi
  simp only [Option.some.injEq] at hi
  subst hi; rfl

/-- Marking a local declaration. -/
theorem Prog.mark {C : Ctx} (hC : C.Ok) {o : Option Nat} {n sz sz' : Nat} {us vs : List (Nat × Option Nat)} {s : S} (h : Prog C o n sz us s) {d : Nat} {i : Info}
    (hi : C.I d = some i) (hl : i.loc = true) (hz : sz' ≤ sz) (hz' : sz' ≤ i.size) (hv : ∀ u ∈ vs, u ∈ us) : Prog C o n sz' vs (setPos s d none) := by
  have back : ∀ p, p ≠ d → (setPos s d none).pos p = s.pos p := fun p hp => by simp [setPos, hp]
  refine ⟨?_, ?_, ?_, ?_⟩
  · intro p j hp hj hlj ho
    by_cases e : p = d
    · subst e
      rw [hi] at hj
      simp only [Option.some.injEq] at hj
      subst hj; exact hz'
    · rw [back p e] at hp
      exact Nat.le_trans hz (h.loc p j hp hj hlj ho)
  · intro p hp hG u hu
    by_cases e : p = d
    · subst e
      have := glob_not_loc hC hG hi
      rw [hl] at this; cases this
    · rw [back p e] at hp
      exact h.chain p hp hG u (hv u hu)
  · refine Nat.le_trans (List.countP_mono_left fun c _ h => ?_) h.cnt
    simp only [setPos] at h
    split at h
    · simp at h
    · exact h
  · intro g hg
    by_cases e : g = d
    · subst e; simp [setPos]
    · rw [back g e]; exact h.own g hg

mutual
theorem run_total {C : Ctx} (hC : C.Ok) {B : Why} (hac : C.Good B) {n : Nat} {go : S → Nat → R S} (hgo : GoOk C go) (hgc : GoC C B n go) (o : Option Nat)
    (ho : ∀ g, o = some g → C.Glob g) :
    ∀ (e : Ex) (Γ : Env) (s : S), Pre C Γ s → Here C (infos o Γ e) (uses Γ e) → (B.dup ∨ Dis e) → (B.undef ∨ ∀ u ∈ uses Γ e, u.2 ≠ none) →
      Prog C o n (sizeOf e) (uses Γ e) s → Blame B (run go e s)
  | .lit, Γ, s, hp, hh, hd, hu, hpr => trivial
  | .id occ x, Γ, s, hp, hh, hd, hu, hpr => checkId_total hC hac hgc hp (hu.imp_right fun h => h _ (List.mem_singleton.2 rfl)) hpr
  | .node cs, Γ, s, hp, hh, hd, hu, hpr => by
    rw [run]
    exact runs_total hC hac hgo hgc o ho cs Γ s hp hh hd hu (hpr.next (.refl _) (by simp) fun u hu => hu)
  | .call f cs, Γ, s, hp, hh, hd, hu, hpr => by
    rw [run]
    exact runs_total hC hac hgo hgc o ho cs Γ s hp hh hd hu (hpr.next (.refl _) (by simp) fun u hu => hu)
  | .ann as e, Γ, s, hp, hh, hd, hu, hpr => by
    simp only [infos, uses] at hh hu
    obtain ⟨ha, he⟩ := hh.append
    rw [run]
    refine Blame.bind (runs_total hC hac hgo hgc o ho as Γ s hp ha (hd.imp_right (·.1)) (hu.imp_right fun hu u h => hu u (List.mem_append_left _ h))
      (hpr.next (.refl _) (by simp; omega) fun u h => List.mem_append_left _ h)) fun s1 h1 => ?_
    obtain ⟨p1, -⟩ := runs_ok hC hgo o ho as Γ s s1 h1 hp hpr.own ha
    refine Blame.bind (run_total hC hac hgo hgc o ho e Γ s1 (hp.next p1) he (hd.imp_right (·.2)) (hu.imp_right fun hu u h => hu u (List.mem_append_right _ h))
      (hpr.next p1.frame (by simp) fun u h => List.mem_append_right _ h)) fun s2 h2 => ?_
    have hpr1 := hpr.next (sz' := 0) (vs := []) p1.frame (by omega) (by simp)
    obtain ⟨p2, -⟩ := run_ok hC hgo o ho e Γ s1 s2 h2 (hp.next p1) hpr1.own he
    exact runs_total hC hac hgo hgc o ho as Γ s2 ((hp.next p1).next p2) ha (hd.imp_right (·.1)) (hu.imp_right fun hu u h => hu u (List.mem_append_left _ h))
      (hpr.next (p1.frame.trans p2.frame) (by simp; omega) fun u h => List.mem_append_left _ h)
  | .scope b, Γ, s, hp, hh, hd, hu, hpr => by
    have hp' : Pre C Γ (push s .inner) := ⟨hp.inv.push _, fun x => by rw [find_push]; exact hp.find x, hp.loc⟩
    obtain ⟨g0, t0, -⟩ := hp.inv.top
    have hne : s.scopes ≠ [] := by rintro hc; rw [hc] at t0; cases t0
    rw [run]
    exact Blame.bind (runB_total hC hac hgo hgc o ho b Γ (push s .inner) ⟨.inner, []⟩ s.scopes hp' hh hd hu
      (hpr.next ⟨fun _ _ h => h, fun _ h => h, fun _ h => h⟩ (by simp) fun u h => h) rfl hne) fun _ _ => trivial
theorem runs_total {C : Ctx} (hC : C.Ok) {B : Why} (hac : C.Good B) {n : Nat} {go : S → Nat → R S} (hgo : GoOk C go) (hgc : GoC C B n go) (o : Option Nat)
    (ho : ∀ g, o = some g → C.Glob g) :
    ∀ (es : Exs) (Γ : Env) (s : S), Pre C Γ s → Here C (infosL o Γ es) (usesL Γ es) → (B.dup ∨ DisL es) → (B.undef ∨ ∀ u ∈ usesL Γ es, u.2 ≠ none) →
      Prog C o n (sizeOf es) (usesL Γ es) s → Blame B (runs go es s)
  | .nil, Γ, s, hp, hh, hd, hu, hpr => trivial
  | .cons e es, Γ, s, hp, hh, hd, hu, hpr => by
    simp only [infosL, usesL] at hh hu
    obtain ⟨ha, he⟩ := hh.append
    rw [runs]
    refine Blame.bind (run_total hC hac hgo hgc o ho e Γ s hp ha (hd.imp_right (·.1)) (hu.imp_right fun hu u h => hu u (List.mem_append_left _ h))
      (hpr.next (.refl _) (by simp; omega) fun u h => List.mem_append_left _ h)) fun s1 h1 => ?_
    obtain ⟨p1, -⟩ := run_ok hC hgo o ho e Γ s s1 h1 hp hpr.own ha
    exact runs_total hC hac hgo hgc o ho es Γ s1 (hp.next p1) he (hd.imp_right (·.2)) (hu.imp_right fun hu u h => hu u (List.mem_append_right _ h))
      (hpr.next p1.frame (by simp) fun u h => List.mem_append_right _ h)
theorem runB_total {C : Ctx} (hC : C.Ok) {B : Why} (hac : C.Good B) {n : Nat} {go : S → Nat → R S} (hgo : GoOk C go) (hgc : GoC C B n go) (o : Option Nat)
    (ho : ∀ g, o = some g → C.Glob g) :
    ∀ (b : Blk) (Γ : Env) (s : S) (sc : Sc) (rest : List Sc), Pre C Γ s → Here C (infosB o Γ b) (usesB Γ b) → (B.dup ∨ DisB (sc.m.map (·.1)) b) →
      (B.undef ∨ ∀ u ∈ usesB Γ b, u.2 ≠ none) → Prog C o n (sizeOf b) (usesB Γ b) s → s.scopes = sc :: rest → rest ≠ [] → Blame B (runB go b s)
  | .fin e, Γ, s, sc, rest, hp, hh, hd, hu, hpr, hs, hr => by
    rw [runB]
    exact run_total hC hac hgo hgc o ho e Γ s hp hh hd hu (hpr.next (.refl _) (by simp) fun u h => h)
  | .step e b, Γ, s, sc, rest, hp, hh, hd, hu, hpr, hs, hr => by
    simp only [infosB, usesB] at hh hu
    obtain ⟨ha, he⟩ := hh.append
    rw [runB]
    refine Blame.bind (run_total hC hac hgo hgc o ho e Γ s hp ha (hd.imp_right (·.1)) (hu.imp_right fun hu u h => hu u (List.mem_append_left _ h))
      (hpr.next (.refl _) (by simp; omega) fun u h => List.mem_append_left _ h)) fun s1 h1 => ?_
    obtain ⟨p1, -⟩ := run_ok hC hgo o ho e Γ s s1 h1 hp hpr.own ha
    exact runB_total hC hac hgo hgc o ho b Γ s1 sc rest (hp.next p1) he (hd.imp_right (·.2)) (hu.imp_right fun hu u h => hu u (List.mem_append_right _ h))
      (hpr.next p1.frame (by simp) fun u h => List.mem_append_right _ h) (by rw [p1.scopes]; exact hs) hr
  | .decl d x body as b, Γ, s, sc, rest, hp, hh, hd, hu, hpr, hs, hr => by
    simp only [infosB, usesB] at hh hu
    have hI : C.I d = some ⟨o, true, Γ, body, as⟩ := hh.1 (d, ⟨o, true, Γ, body, as⟩) (.head _)
    have hh' : Here C ((infos o Γ body ++ infosL o Γ as) ++ infosB o (ext Γ x d) b) ((uses Γ body ++ usesL Γ as) ++ usesB (ext Γ x d) b) :=
      ⟨fun p hp => hh.1 p (.tail _ hp), hh.2⟩
    obtain ⟨hba, hb⟩ := hh'.append
    obtain ⟨hbody, has⟩ := hba.append
    have ub : B.undef ∨ ∀ u ∈ uses Γ body, u.2 ≠ none := hu.imp_right fun hu u h => hu u (List.mem_append_left _ (List.mem_append_left _ h))
    have ua : B.undef ∨ ∀ u ∈ usesL Γ as, u.2 ≠ none := hu.imp_right fun hu u h => hu u (List.mem_append_left _ (List.mem_append_right _ h))
    have first : Blame B (match s.pos d with
        | none => (run go body (setPos s d none)).bind fun s => (runs go as s).bind fun s => .ok (finish s d)
        | some none => .assertion
        | some (some _) => .ok s) ∧ ∀ s1, (match s.pos d with
        | none => (run go body (setPos s d none)).bind fun s => (runs go as s).bind fun s => .ok (finish s d)
        | some none => .assertion
        | some (some _) => .ok s) = .ok s1 → Post C (uses Γ body ++ usesL Γ as) s s1 ∧ ∃ k, s1.pos d = some (some k) := by
      cases hpos : s.pos d with
      | none =>
        have hm : Pre C Γ (setPos s d none) := hp.mark hI hpos fun g e => .inr (hpr.own g e)
        have pm : Prog C o n (sizeOf body) (uses Γ body) (setPos s d none) :=
          hpr.mark hC hI rfl (by simp; omega) (by simp [Info.size]) fun u h => List.mem_append_left _ (List.mem_append_left _ h)
        have pm' : Prog C o n (sizeOf as) (usesL Γ as) (setPos s d none) :=
          hpr.mark hC hI rfl (by simp; omega) (by simp [Info.size]) fun u h => List.mem_append_left _ (List.mem_append_right _ h)
        constructor
        · refine Blame.bind (run_total hC hac hgo hgc o ho body Γ _ hm hbody (hd.imp_right (·.1)) ub pm) fun t1 e1 => ?_
          obtain ⟨p1, -⟩ := run_ok hC hgo o ho body Γ _ t1 e1 hm pm.own hbody
          have pm2 := pm'.next p1.frame (Nat.le_refl _) fun u h => h
          exact Blame.bind (runs_total hC hac hgo hgc o ho as Γ t1 (hm.next p1) has (hd.imp_right (·.2.1)) ua pm2) fun _ _ => trivial
        · intro s1 h
          obtain ⟨t1, e1, h⟩ := R.bind_ok h
          obtain ⟨t2, e2, h⟩ := R.bind_ok h
          simp only [R.ok.injEq] at h
          subst h
          obtain ⟨p1, d1⟩ := run_ok hC hgo o ho body Γ _ t1 e1 hm pm.own hbody
          have pm2 := pm'.next p1.frame (Nat.le_refl _) fun u h => h
          obtain ⟨p2, d2⟩ := runs_ok hC hgo o ho as Γ t1 t2 e2 (hm.next p1) pm2.own has
          exact finish_ok (i := ⟨o, true, Γ, body, as⟩) hI hpos (p1.trans p2) ⟨d1, d2⟩
      | some v =>
        cases v with
        | none =>
          have := hpr.loc d _ hpos hI rfl rfl
          simp [Info.size] at this
          omega
        | some k =>
          obtain ⟨b1, -⟩ := hp.inv.done d _ k hpos hI
          refine ⟨trivial, fun s1 h => ?_⟩
          simp only [R.ok.injEq] at h
          subst h
          exact ⟨⟨hp.inv, .refl _, rfl, Bound.len hp.inv b1⟩, k, hpos⟩
    rw [runB]
    refine Blame.bind first.1 fun s1 e1 => ?_
    obtain ⟨p1, k, hk⟩ := first.2 s1 e1
    have pr1 : Prog C o n (sizeOf as) (usesL Γ as) s1 :=
      hpr.next p1.frame (by simp; omega) fun u h => List.mem_append_left _ (List.mem_append_right _ h)
    refine Blame.bind (runs_total hC hac hgo hgc o ho as Γ s1 (hp.next p1) has (hd.imp_right (·.2.1)) ua pr1) fun s2 e2 => ?_
    obtain ⟨p2, -⟩ := runs_ok hC hgo o ho as Γ s1 s2 e2 (hp.next p1) pr1.own has
    have hs2 : s2.scopes = sc :: rest := by rw [p2.scopes, p1.scopes]; exact hs
    refine Blame.bind ?_ fun s3 e3 => ?_
    · unfold add
      split
      · exact trivial
      · rename_i hx
        rw [hs2]
        simp only
        cases hl : look sc.m x with
        | none => exact trivial
        | some z => exact hd.resolve_right fun hd => by rw [look_none.2 (hd.2.2.1 hx)] at hl; cases hl
    · obtain ⟨a1, a2, a3, a4, ⟨m, a5, a6⟩, a7⟩ := add_ok ((hp.next p1).next p2) hs2 hr ⟨k, p2.frame.mono _ _ hk⟩ e3
      exact runB_total hC hac hgo hgc o ho b (ext Γ x d) s3 ⟨sc.st, m⟩ rest a1 hb (hd.imp_right fun hd => by
          have := hd.2.2.2
          rw [← a6] at this; exact this)
        (hu.imp_right fun hu u h => hu u (List.mem_append_right _ h))
        (hpr.next (p1.frame.trans (p2.frame.trans a2)) (by simp) fun u h => List.mem_append_right _ h) a5 hr
end

theorem countP_lt {gs : List Decl} {p q : Decl → Bool} (h : ∀ c ∈ gs, p c = true → q c = true) {c : Decl} (hc : c ∈ gs) (h1 : p c = false) (h2 : q c = true) :
    gs.countP p < gs.countP q := by
  induction gs with
  | nil => cases hc
  | cons a l ih =>
    have hl : l.countP p ≤ l.countP q := List.countP_mono_left fun c hc => h c (.tail _ hc)
    rw [List.countP_cons, List.countP_cons]
    rcases List.mem_cons.1 hc with rfl | hc
    · simp [h1, h2]; omega
    · have := ih (fun c hc => h c (.tail _ hc)) hc
      have ha := h a (.head _)
      cases hp : p a
      · simp; omega
      · simp [ha hp]; omega

/-- Marking a global declaration. -/
theorem unseen_mark {C : Ctx} {s : S} {d : Nat} (hG : C.Glob d) (hn : s.pos d = none) : unseen C (setPos s d none) < unseen C s := by
  obtain ⟨c, hc, rfl⟩ := hG
  unfold unseen
  refine countP_lt (fun c' _ h => ?_) hc (by simp [setPos]) (by simp [hn])
  simp only [setPos] at h
  split at h
  · simp at h
  · exact h

theorem runDecl1_total {C : Ctx} (hC : C.Ok) {B : Why} (hac : C.Good B) {n : Nat} {go : S → Nat → R S} (hgo : GoOk C go) (hgc : GoC C B n go) {c : Decl} {o : Option Nat}
    {l : Bool} {Γ : Env} {s : S} (ho : ∀ g, o = some g → C.Glob g) (hg : ∀ g, o = some g → g = c.d ∨ s.pos g ≠ none)
    (hI : C.I c.d = some ⟨o, l, Γ, c.body, c.as⟩) (hh : Here C (infos o Γ c.body ++ infosL o Γ c.as) (uses Γ c.body ++ usesL Γ c.as))
    (hp : Pre C Γ s) (hd : B.dup ∨ Dis c.body ∧ DisL c.as) (hu : B.undef ∨ ∀ u ∈ uses Γ c.body ++ usesL Γ c.as, u.2 ≠ none)
    (hnp : s.pos c.d ≠ some none)
    (hpr : s.pos c.d = none → Prog C o n (sizeOf c.body + sizeOf c.as) (uses Γ c.body ++ usesL Γ c.as) (setPos s c.d none))
    (hpr' : ∀ s', Post C (uses Γ c.body ++ usesL Γ c.as) s s' → s'.pos c.d ≠ none → Prog C o n (sizeOf c.as) (usesL Γ c.as) s') :
    Blame B (runDecl1 go c s) := by
  obtain ⟨hbody, has⟩ := hh.append
  have ub : B.undef ∨ ∀ u ∈ uses Γ c.body, u.2 ≠ none := hu.imp_right fun hu u h => hu u (List.mem_append_left _ h)
  have ua : B.undef ∨ ∀ u ∈ usesL Γ c.as, u.2 ≠ none := hu.imp_right fun hu u h => hu u (List.mem_append_right _ h)
  have first : Blame B (match s.pos c.d with
      | none => (run go c.body (setPos s c.d none)).bind fun s => (runs go c.as s).bind fun s => .ok (finish s c.d)
      | some none => .assertion
      | some (some _) => .ok s) ∧ ∀ s1, (match s.pos c.d with
      | none => (run go c.body (setPos s c.d none)).bind fun s => (runs go c.as s).bind fun s => .ok (finish s c.d)
      | some none => .assertion
      | some (some _) => .ok s) = .ok s1 → Post C (uses Γ c.body ++ usesL Γ c.as) s s1 ∧ ∃ k, s1.pos c.d = some (some k) := by
    cases hpos : s.pos c.d with
    | none =>
      have hm : Pre C Γ (setPos s c.d none) := hp.mark hI hpos fun g e => hg g e
      have pm := hpr hpos
      have pm1 := pm.next (sz' := sizeOf c.body) (vs := uses Γ c.body) (.refl _) (by omega) fun u h => List.mem_append_left _ h
      constructor
      · refine Blame.bind (run_total hC hac hgo hgc o ho c.body Γ _ hm hbody (hd.imp_right (·.1)) ub pm1) fun t1 e1 => ?_
        obtain ⟨p1, -⟩ := run_ok hC hgo o ho c.body Γ _ t1 e1 hm pm1.own hbody
        have pm2 := pm.next (sz' := sizeOf c.as) (vs := usesL Γ c.as) p1.frame (by omega) fun u h => List.mem_append_right _ h
        exact Blame.bind (runs_total hC hac hgo hgc o ho c.as Γ t1 (hm.next p1) has (hd.imp_right (·.2)) ua pm2) fun _ _ => trivial
      · intro s1 h
        obtain ⟨t1, e1, h⟩ := R.bind_ok h
        obtain ⟨t2, e2, h⟩ := R.bind_ok h
        simp only [R.ok.injEq] at h
        subst h
        obtain ⟨p1, d1⟩ := run_ok hC hgo o ho c.body Γ _ t1 e1 hm pm1.own hbody
        have pm2 := pm.next (sz' := sizeOf c.as) (vs := usesL Γ c.as) p1.frame (by omega) fun u h => List.mem_append_right _ h
        obtain ⟨p2, d2⟩ := runs_ok hC hgo o ho c.as Γ t1 t2 e2 (hm.next p1) pm2.own has
        exact finish_ok (i := ⟨o, l, Γ, c.body, c.as⟩) hI hpos (p1.trans p2) ⟨d1, d2⟩
    | some v =>
      cases v with
      | none => exact absurd hpos hnp
      | some k =>
        obtain ⟨b1, -⟩ := hp.inv.done c.d _ k hpos hI
        refine ⟨trivial, fun s1 h => ?_⟩
        simp only [R.ok.injEq] at h
        subst h
        exact ⟨⟨hp.inv, .refl _, rfl, Bound.len hp.inv b1⟩, k, hpos⟩
  rw [runDecl1]
  refine Blame.bind first.1 fun s1 e1 => ?_
  obtain ⟨p1, k, hk⟩ := first.2 s1 e1
  exact runs_total hC hac hgo hgc o ho c.as Γ s1 (hp.next p1) has (hd.imp_right (·.2)) ua (hpr' s1 p1 (by rw [hk]; simp))

theorem find_isSome {gs : List Decl} {d : Nat} (h : ∃ c ∈ gs, c.d = d) : ∃ c, gs.find? (·.d == d) = some c := by
  obtain ⟨c, hc, rfl⟩ := h
  have : (gs.find? (·.d == c.d)).isSome := by
    rw [List.find?_isSome]
    exact ⟨c, hc, by simp⟩
  exact Option.isSome_iff_exists.1 this

/-- A global declaration is run to its end. -/
theorem goN_total {C : Ctx} (hC : C.Ok) {B : Why} (hac : C.Good B) : ∀ (n : Nat), GoC C B n (goN C.gs n)
  | 0, s, d, hp, hG, hn, hch, hcnt => by
    have := unseen_mark hG hn
    omega
  | n + 1, s, d, hp, hG, hn, hch, hcnt => by
    obtain ⟨c, hc⟩ := find_isSome hG
    obtain ⟨hm, rfl⟩ := find_decl hc
    have hlt := unseen_mark hG hn
    have hI := hC.glob c hm
    have lochelp : ∀ p i, s.pos p = some none → C.I p = some i → i.loc = true → i.own = some c.d → False := by
      intro p i hp' hi _ hown
      exact hp.inv.own p i c.d (by rw [hp']; simp) hi hown hn
    have chainh : ∀ p, s.pos p = some none → C.Glob p → ∀ u ∈ uses C.Γ0 c.body ++ usesL C.Γ0 c.as, ∀ h, u.2 = some h → C.Glob h →
        TransGen C.Dep p h := fun p hp' hGp u hu h hh _ => (hch p hp' hGp).tail ⟨c, hm, rfl, u, hu, hh⟩
    have hs' := runDecl1_total hC hac (goN_ok hC n) (goN_total hC hac n) (c := c) (o := some c.d) (l := false) (Γ := C.Γ0) (s := s)
      (fun g e => by simp only [Option.some.injEq] at e; exact ⟨c, hm, e⟩) (fun g e => by simp only [Option.some.injEq] at e; exact .inl e.symm)
      hI ⟨hC.inner c hm, hC.q c hm⟩ hp (hac.dis.imp_right fun h => h c hm) (hac.bound.imp_right fun h => h c hm) (by rw [hn]; simp)
      (by
        intro _
        refine ⟨?_, ?_, by omega, ?_⟩
        · intro p i hp' hi hl hown
          by_cases e : p = c.d
          · subst e
            have := glob_not_loc hC hG hi
            rw [hl] at this; cases this
          · have : s.pos p = some none := by simpa [setPos, e] using hp'
            exact absurd (lochelp p i this hi hl hown) id
        · intro p hp' hGp u hu h hh hGh
          by_cases e : p = c.d
          · subst e
            exact .single ⟨c, hm, rfl, u, hu, hh⟩
          · have : s.pos p = some none := by simpa [setPos, e] using hp'
            exact chainh p this hGp u hu h hh hGh
        · intro g e
          simp only [Option.some.injEq] at e
          subst e
          simp [setPos])
      (by
        intro s' hps hd
        refine ⟨?_, ?_, ?_, ?_⟩
        · intro p i hp' hi hl hown
          exact absurd (lochelp p i (hps.frame.prog p hp') hi hl hown) id
        · intro p hp' hGp u hu h hh hGh
          exact chainh p (hps.frame.prog p hp') hGp u (List.mem_append_right _ hu) h hh hGh
        · have : unseen C s' < unseen C s := by
            unfold unseen
            refine countP_lt (fun c' _ h => ?_) hm ?_ (by simp [hn])
            · simp only [Option.isNone_iff_eq_none] at *
              by_contra hc
              obtain ⟨v, hv⟩ := Option.ne_none_iff_exists'.1 hc
              rw [hps.frame.mono _ _ hv] at h
              cases h
            · simp only [Option.isNone_eq_false_iff]
              exact Option.isSome_iff_ne_none.2 hd
          omega
        · intro g e
          simp only [Option.some.injEq] at e
          subst e
          exact hd)
    rw [goN, hc]
    exact hs'

end Scope
end MZ
