import Verif.Scope.Complete
/-!
# C62: binding of identifiers and order of declarations
-/
namespace MZ
namespace Scope
open Relation

/-! ### Specification -/

/-- The global environment. -/
def genv (gs : List Decl) : Env := fun x => (gs.find? fun c => c.x == x && x != "").map (·.d)

/-- The environment of the body of a function. -/
def extAll (Γ : Env) : List Decl → Env
  | [] => Γ
  | p :: ps => extAll (ext Γ p.x p.d) ps

def Decl.uses (Γ : Env) (c : Decl) : List (Nat × Option Nat) := Scope.uses Γ c.body ++ usesL Γ c.as

/-- The identifiers of an item with the declarations they denote: parameters are visible in the body of the function only. -/
def itemUses (Γ : Env) : Item → List (Nat × Option Nat)
  | .decl c => c.uses Γ
  | .expr e => uses Γ e
  | .fn _ ti ps as body => uses Γ ti ++ ps.flatMap (·.uses Γ) ++ usesL Γ as ++ uses (extAll Γ ps) body

def allUses (is : List Item) : List (Nat × Option Nat) := is.flatMap (itemUses (genv (globals is)))

/-- The names given by declarations. -/
def names (cs : List Decl) : List Name := (cs.map (·.x)).filter (· ≠ "")

def Decl.Dis (c : Decl) : Prop := Scope.Dis c.body ∧ DisL c.as

/-- No scope inside the item declares a name twice. -/
def itemDis : Item → Prop
  | .decl c => c.Dis
  | .expr e => Dis e
  | .fn _ ti ps as body => Dis ti ∧ (∀ p ∈ ps, p.Dis) ∧ DisL as ∧ (names ps).Nodup ∧ Dis body

/-- No scope declares a name twice. -/
def NoClash (is : List Item) : Prop := (names (globals is)).Nodup ∧ ∀ i ∈ is, itemDis i

/-- Every identifier has a declaration. -/
def Closed (is : List Item) : Prop := ∀ u ∈ allUses is, u.2 ≠ none

/-- The definition, type or an annotation of the global declaration `g` mentions `h`. -/
def Refers (is : List Item) (g h : Nat) : Prop := ∃ c ∈ globals is, c.d = g ∧ ∃ u ∈ c.uses (genv (globals is)), u.2 = some h

/-- No declaration is defined in terms of itself. -/
def Acyclic (is : List Item) : Prop := ∀ g, ¬ TransGen (Refers is) g g

def Decl.infos (o : Option Nat) (l : Bool) (Γ : Env) (c : Decl) : List (Nat × Info) :=
  (c.d, ⟨o, l, Γ, c.body, c.as⟩) :: (Scope.infos o Γ c.body ++ infosL o Γ c.as)

def itemInfos (Γ : Env) : Item → List (Nat × Info)
  | .decl c => c.infos (some c.d) false Γ
  | .expr e => infos none Γ e
  | .fn _ ti ps as body => infos none Γ ti ++ ps.flatMap (·.infos none true Γ) ++ infosL none Γ as ++ infos none (extAll Γ ps) body

def allInfos (is : List Item) : List (Nat × Info) := is.flatMap (itemInfos (genv (globals is)))

/-- The declarations (global, parameters, local) are different objects. -/
def Distinct (is : List Item) : Prop := ((allInfos is).map (·.1)).Nodup

/-! ### The global scope -/

/-- The state after the global declarations have been added. -/
def start (m : List (Name × Nat)) : S := ⟨fun _ => none, [], [⟨.top, m⟩], []⟩

theorem genv_cons (c : Decl) (cs : List Decl) (x : Name) :
    genv (c :: cs) x = if c.x = x ∧ x ≠ "" then some c.d else genv cs x := by
  unfold genv
  rw [List.find?_cons]
  by_cases h : c.x = x ∧ x ≠ ""
  · have : (c.x == x && x != "") = true := by simp [h]
    rw [this, if_pos h]; rfl
  · have : (c.x == x && x != "") = false := by
      rw [← Bool.not_eq_true]; simpa using h
    simp [this, h]

theorem names_cons (c : Decl) (cs : List Decl) : names (c :: cs) = if c.x = "" then names cs else c.x :: names cs := by
  unfold names
  by_cases h : c.x = "" <;> simp [h]

theorem addGlobals_ok : ∀ (cs : List Decl) (m : List (Name × Nat)) (s : S), seqAll (fun c s => add s c.x c.d) cs (start m) = .ok s →
    ∃ m', s = start m' ∧ (∀ x, look m' x = (look m x).or (genv cs x)) ∧ (names cs).Nodup ∧ ∀ x ∈ names cs, x ∉ m.map (·.1)
  | [], m, s, h => by
    simp only [seqAll, R.ok.injEq] at h
    exact ⟨m, h.symm, by simp [genv], by simp [names], by simp [names]⟩
  | c :: cs, m, s, h => by
    rw [seqAll] at h
    obtain ⟨s1, h1, h2⟩ := R.bind_ok h
    unfold add at h1
    split at h1
    · rename_i hx
      simp only [R.ok.injEq] at h1
      subst h1
      obtain ⟨m', g1, g2, g3, g4⟩ := addGlobals_ok cs m s h2
      refine ⟨m', g1, ?_, by rw [names_cons, if_pos hx]; exact g3, by rw [names_cons, if_pos hx]; exact g4⟩
      intro x
      rw [g2, genv_cons, if_neg]
      rintro ⟨e, e'⟩
      exact e' (e ▸ hx)
    · rename_i hx
      simp only [start] at h1
      split at h1
      · rename_i hl
        simp only [R.ok.injEq] at h1
        subst h1
        obtain ⟨m', g1, g2, g3, g4⟩ := addGlobals_ok cs ((c.x, c.d) :: m) s h2
        rw [names_cons, if_neg hx]
        refine ⟨m', g1, ?_, List.nodup_cons.2 ⟨fun hc => by simpa using g4 c.x hc, g3⟩, ?_⟩
        · intro x
          rw [g2, look_cons, genv_cons]
          by_cases e : x = c.x
          · subst e
            simp [hx, hl]
          · rw [if_neg e, if_neg (fun h => e h.1.symm)]
        · intro x hxn
          rcases List.mem_cons.1 hxn with rfl | hxn
          · exact look_none.1 hl
          · have := g4 x hxn
            simp only [List.map_cons, List.mem_cons, not_or] at this
            exact this.2
      · cases h1

theorem addGlobals_total {B : Why} : ∀ (cs : List Decl) (m : List (Name × Nat)), (B.dup ∨ (names cs).Nodup ∧ ∀ x ∈ names cs, x ∉ m.map (·.1)) →
    Blame B (seqAll (fun c s => add s c.x c.d) cs (start m))
  | [], m, _ => trivial
  | c :: cs, m, h => by
    rw [seqAll]
    refine Blame.bind ?_ fun s1 h1 => ?_
    · unfold add
      split
      · exact trivial
      · rename_i hx
        simp only [start]
        cases hl : look m c.x with
        | none => exact trivial
        | some z =>
          refine h.resolve_right fun h => ?_
          rw [names_cons, if_neg hx] at h
          rw [look_none.2 (h.2 c.x (.head _))] at hl
          cases hl
    · unfold add at h1
      rw [names_cons] at h
      split at h1
      · rename_i hx
        simp only [R.ok.injEq] at h1
        subst h1
        rw [if_pos hx] at h
        exact addGlobals_total cs m h
      · rename_i hx
        simp only [start] at h1
        split at h1
        · simp only [R.ok.injEq] at h1
          subst h1
          rw [if_neg hx] at h
          refine addGlobals_total cs ((c.x, c.d) :: m) (h.imp_right fun h => ?_)
          rw [List.nodup_cons] at h
          refine ⟨h.1.2, fun x hx' => ?_⟩
          simp only [List.map_cons, List.mem_cons, not_or]
          exact ⟨fun e => h.1.1 (e ▸ hx'), h.2 x (.tail _ hx')⟩
        · cases h1

/-! ### Items -/

theorem flatMap_here {α : Type} {f : α → List (Nat × Info)} {g : α → List (Nat × Option Nat)} {C : Ctx} {l : List α} (h : Here C (l.flatMap f) (l.flatMap g))
    {a : α} (ha : a ∈ l) : Here C (f a) (g a) :=
  ⟨fun p hp => h.1 p (List.mem_flatMap.2 ⟨a, ha, hp⟩), fun u hu => h.2 u (List.mem_flatMap.2 ⟨a, ha, hu⟩)⟩

theorem params_ok {C : Ctx} (hC : C.Ok) {go : S → Nat → R S} (hgo : GoOk C go) {Γ : Env} : ∀ (ps : List Decl) (s s' : S), seqAll (runDecl1 go) ps s = .ok s' →
    Pre C Γ s → (∀ p ∈ ps, Here C (p.infos none true Γ) (p.uses Γ)) →
    Post C (ps.flatMap (·.uses Γ)) s s' ∧ (∀ p ∈ ps, p.Dis) ∧ ∀ p ∈ ps, ∃ k, s'.pos p.d = some (some k)
  | [], s, s', h, hp, hh => by
    simp only [seqAll, R.ok.injEq] at h
    subst h
    exact ⟨.refl hp.inv, by simp, by simp⟩
  | p :: ps, s, s', h, hp, hh => by
    rw [seqAll] at h
    obtain ⟨s1, h1, h2⟩ := R.bind_ok h
    have hp1 := hh p (.head _)
    obtain ⟨p1, d1, d2, k, hk⟩ := runDecl1_ok hC hgo (o := none) (l := true) (Γ := Γ) (by simp) (by simp) (hp1.1 _ (.head _))
      ⟨fun q hq => hp1.1 q (.tail _ hq), hp1.2⟩ h1 hp
    obtain ⟨p2, d3, d4⟩ := params_ok hC hgo ps s1 s' h2 (hp.next p1) fun q hq => hh q (.tail _ hq)
    refine ⟨by rw [List.flatMap_cons]; exact p1.trans p2, ?_, ?_⟩
    · intro q hq
      rcases List.mem_cons.1 hq with rfl | hq
      · exact ⟨d1, d2⟩
      · exact d3 q hq
    · intro q hq
      rcases List.mem_cons.1 hq with rfl | hq
      · exact ⟨k, p2.frame.mono _ _ hk⟩
      · exact d4 q hq

theorem addParams_ok {C : Ctx} : ∀ (ps : List Decl) (Γ : Env) (s s' : S) (sc : Sc) (rest : List Sc),
    seqAll (fun p s => add s p.x p.d) ps s = .ok s' → Pre C Γ s → s.scopes = sc :: rest → rest ≠ [] → (∀ p ∈ ps, ∃ k, s.pos p.d = some (some k)) →
    Pre C (extAll Γ ps) s' ∧ Frame s s' ∧ s'.pos = s.pos ∧ s'.decls = s.decls ∧ s'.scopes.tail = rest ∧
      (names ps).Nodup ∧ ∀ x ∈ names ps, x ∉ sc.m.map (·.1)
  | [], Γ, s, s', sc, rest, h, hp, hs, hr, hd => by
    simp only [seqAll, R.ok.injEq] at h
    subst h
    exact ⟨hp, .refl _, rfl, rfl, by rw [hs]; rfl, by simp [names], by simp [names]⟩
  | p :: ps, Γ, s, s', sc, rest, h, hp, hs, hr, hd => by
    rw [seqAll] at h
    obtain ⟨s1, h1, h2⟩ := R.bind_ok h
    obtain ⟨a1, a2, a3, a4, ⟨m, a5, a6⟩, a7⟩ := add_ok hp hs hr (hd p (.head _)) h1
    obtain ⟨b1, b2, b3, b4, b5, b6, b7⟩ := addParams_ok ps (ext Γ p.x p.d) s1 s' ⟨sc.st, m⟩ rest h2 a1 a5 hr
      (fun q hq => by rw [a4]; exact hd q (.tail _ hq))
    refine ⟨b1, a2.trans b2, b3.trans a4, b4.trans a3, b5, ?_⟩
    simp only [a6] at b7
    rw [names_cons]
    unfold addName at b7
    split
    · rename_i hx
      rw [if_pos hx] at b7
      exact ⟨b6, b7⟩
    · rename_i hx
      rw [if_neg hx] at b7
      refine ⟨List.nodup_cons.2 ⟨fun hc => by simpa using b7 p.x hc, b6⟩, ?_⟩
      intro x hxn
      rcases List.mem_cons.1 hxn with rfl | hxn
      · exact a7 hx
      · have := b7 x hxn
        simp only [List.mem_cons, not_or] at this
        exact this.2

theorem addParams_total {C : Ctx} {B : Why} : ∀ (ps : List Decl) (Γ : Env) (s : S) (sc : Sc) (rest : List Sc),
    Pre C Γ s → s.scopes = sc :: rest → rest ≠ [] → (∀ p ∈ ps, ∃ k, s.pos p.d = some (some k)) →
    (B.dup ∨ (names ps).Nodup ∧ ∀ x ∈ names ps, x ∉ sc.m.map (·.1)) → Blame B (seqAll (fun p s => add s p.x p.d) ps s)
  | [], Γ, s, sc, rest, hp, hs, hr, hd, h => trivial
  | p :: ps, Γ, s, sc, rest, hp, hs, hr, hd, h => by
    rw [names_cons] at h
    rw [seqAll]
    refine Blame.bind ?_ fun s1 e1 => ?_
    · unfold add
      split
      · exact trivial
      · rename_i hx
        rw [if_neg hx] at h
        rw [hs]
        simp only
        cases hl : look sc.m p.x with
        | none => exact trivial
        | some z => exact h.resolve_right fun h => by rw [look_none.2 (h.2 p.x (.head _))] at hl; cases hl
    obtain ⟨a1, a2, a3, a4, ⟨m, a5, a6⟩, a7⟩ := add_ok hp hs hr (hd p (.head _)) e1
    refine addParams_total ps (ext Γ p.x p.d) s1 ⟨sc.st, m⟩ rest a1 a5 hr (fun q hq => by rw [a4]; exact hd q (.tail _ hq)) (h.imp_right ?_)
    rintro ⟨h1, h2⟩
    constructor
    · split at h1
      · exact h1
      · exact (List.nodup_cons.1 h1).2
    · intro x hx
      simp only [a6]
      unfold addName
      split at h1
      · rename_i hc
        rw [if_pos hc] at h2 ⊢
        exact h2 x hx
      · rename_i hc
        rw [if_neg hc] at h2 ⊢
        simp only [List.mem_cons, not_or]
        exact ⟨fun e => (List.nodup_cons.1 h1).1 (e ▸ hx), h2 x (.tail _ hx)⟩

theorem pop_push {C : Ctx} {s s1 : S} (hi : Inv C s1) (h : s1.scopes.tail = s.scopes) (hne : s.scopes ≠ []) : Inv C (pop s1) := by
  refine hi.scopes ?_
  obtain ⟨g, t, -⟩ := hi.top
  rw [t]
  cases hs1 : s1.scopes with
  | nil => rw [hs1] at t; cases t
  | cons a l =>
    rw [hs1] at h t
    simp only [List.tail_cons] at h ⊢
    rw [List.getLast?_cons, h] at t
    rw [h]
    cases hl : s.scopes.getLast? with
    | none => rw [List.getLast?_eq_none_iff] at hl; exact absurd hl hne
    | some z => rw [hl] at t; exact t

theorem runItem_ok {C : Ctx} (hC : C.Ok) {go : S → Nat → R S} (hgo : GoOk C go) {i : Item} {s s' : S} (h : runItem go i s = .ok s') (hp : Pre C C.Γ0 s)
    (hg : ∀ c, i = .decl c → c ∈ C.gs) (hh : Here C (itemInfos C.Γ0 i) (itemUses C.Γ0 i)) :
    Post C (itemUses C.Γ0 i) s s' ∧ itemDis i ∧ ∀ c, i = .decl c → ∃ k, s'.pos c.d = some (some k) := by
  cases i with
  | decl c =>
    have hm := hg c rfl
    obtain ⟨p, d1, d2, hk⟩ := runDecl1_ok hC hgo (o := some c.d) (l := false) (Γ := C.Γ0)
      (fun g e => by simp only [Option.some.injEq] at e; exact ⟨c, hm, e⟩) (fun g e => by simp only [Option.some.injEq] at e; exact .inl e.symm)
      (hC.glob c hm) ⟨hC.inner c hm, hC.q c hm⟩ h hp
    exact ⟨p, ⟨d1, d2⟩, fun c' e => by cases e; exact hk⟩
  | expr e =>
    obtain ⟨p, d⟩ := run_ok hC hgo none (by simp) e C.Γ0 s s' h hp (by simp) hh
    exact ⟨p, d, fun c e => by cases e⟩
  | fn f ti ps as body =>
    simp only [runItem] at h
    obtain ⟨s1, h1, h⟩ := R.bind_ok h
    obtain ⟨s2, h2, h⟩ := R.bind_ok h
    obtain ⟨s3, h3, h⟩ := R.bind_ok h
    obtain ⟨s4, h4, h⟩ := R.bind_ok h
    obtain ⟨s5, h5, h⟩ := R.bind_ok h
    simp only [R.ok.injEq] at h
    subst h
    simp only [itemInfos, itemUses] at hh
    obtain ⟨hh3, hbody⟩ := hh.append
    obtain ⟨hh2, has⟩ := hh3.append
    obtain ⟨hti, hps⟩ := hh2.append
    obtain ⟨p1, d1⟩ := run_ok hC hgo none (by simp) ti C.Γ0 s s1 h1 hp (by simp) hti
    obtain ⟨p2, d2, k2⟩ := params_ok hC hgo ps s1 s2 h2 (hp.next p1) fun p hpm => flatMap_here hps hpm
    have q2 := (hp.next p1).next p2
    obtain ⟨p3, d3⟩ := runs_ok hC hgo none (by simp) as C.Γ0 s2 s3 h3 q2 (by simp) has
    have q3 := q2.next p3
    have hne : s3.scopes ≠ [] := by
      obtain ⟨g0, t0, -⟩ := q3.inv.top
      rintro hc; rw [hc] at t0; cases t0
    have q3' : Pre C C.Γ0 (push s3 .fn) := ⟨q3.inv.push _, fun x => by rw [find_pushFn]; exact q3.find x, q3.loc⟩
    obtain ⟨b1, b2, b3, b4, b5, b6, -⟩ := addParams_ok ps C.Γ0 (push s3 .fn) s4 ⟨.fn, []⟩ s3.scopes h4 q3' rfl hne fun p hpm => by
      obtain ⟨k, hk⟩ := k2 p hpm
      exact ⟨k, p3.frame.mono _ _ hk⟩
    obtain ⟨p5, d5⟩ := run_ok hC hgo none (by simp) body (extAll C.Γ0 ps) s4 s5 h5 b1 (by simp) hbody
    have ht : s5.scopes.tail = s3.scopes := by rw [p5.scopes]; exact b5
    have p123 := (p1.trans p2).trans p3
    have fr : Frame s3 (pop s5) := by
      have a : Frame s3 (push s3 .fn) := ⟨fun _ _ h => h, fun _ h => h, fun _ h => h⟩
      have b : Frame s5 (pop s5) := ⟨fun _ _ h => h, fun _ h => h, fun _ h => h⟩
      exact a.trans (b2.trans (p5.frame.trans b))
    have hinv : Inv C (pop s5) := pop_push p5.inv ht hne
    refine ⟨⟨hinv, p123.frame.trans fr, ?_, ?_⟩, ⟨d1, d2, d3, b6, d5⟩, fun c e => by cases e⟩
    · have : (pop s5).scopes = s3.scopes := ht
      rw [this, p123.scopes]
    · refine Bound.append.2 ⟨(p123.bound.mono fr (Nat.le_refl _)).len hinv, ?_⟩
      exact p5.bound

theorem runItems_ok {C : Ctx} (hC : C.Ok) {go : S → Nat → R S} (hgo : GoOk C go) : ∀ (is : List Item) (s s' : S), seqAll (runItem go) is s = .ok s' →
    Pre C C.Γ0 s → (∀ c, .decl c ∈ is → c ∈ C.gs) → (∀ i ∈ is, Here C (itemInfos C.Γ0 i) (itemUses C.Γ0 i)) →
    Post C (is.flatMap (itemUses C.Γ0)) s s' ∧ (∀ i ∈ is, itemDis i) ∧ ∀ c, .decl c ∈ is → ∃ k, s'.pos c.d = some (some k)
  | [], s, s', h, hp, _, _ => by
    simp only [seqAll, R.ok.injEq] at h
    subst h
    exact ⟨.refl hp.inv, by simp, by simp⟩
  | i :: is, s, s', h, hp, hg, hh => by
    rw [seqAll] at h
    obtain ⟨s1, h1, h2⟩ := R.bind_ok h
    obtain ⟨p1, d1, k1⟩ := runItem_ok hC hgo h1 hp (fun c e => hg c (by rw [← e]; exact .head _)) (hh i (.head _))
    obtain ⟨p2, d2, k2⟩ := runItems_ok hC hgo is s1 s' h2 (hp.next p1) (fun c hc => hg c (.tail _ hc)) fun i hi => hh i (.tail _ hi)
    refine ⟨by rw [List.flatMap_cons]; exact p1.trans p2, ?_, ?_⟩
    · intro j hj
      rcases List.mem_cons.1 hj with rfl | hj
      · exact d1
      · exact d2 j hj
    · intro c hc
      rcases List.mem_cons.1 hc with e | hc
      · obtain ⟨k, hk⟩ := k1 c e.symm
        exact ⟨k, p2.frame.mono _ _ hk⟩
      · exact k2 c hc

/-! ### The setting of a model -/

theorem mem_globals {c : Decl} : ∀ {is : List Item}, c ∈ globals is ↔ Item.decl c ∈ is
  | [] => by simp [globals]
  | .decl a :: is => by simp [globals, mem_globals (is := is)]
  | .expr e :: is => by simp [globals, mem_globals (is := is)]
  | .fn f ti ps as b :: is => by simp [globals, mem_globals (is := is)]

def lookI (l : List (Nat × Info)) (d : Nat) : Option Info := (l.find? (·.1 == d)).map (·.2)

theorem lookI_mem {l : List (Nat × Info)} (h : (l.map (·.1)).Nodup) {p : Nat × Info} (hp : p ∈ l) : lookI l p.1 = some p.2 := by
  induction l with
  | nil => cases hp
  | cons a l ih =>
    unfold lookI
    rw [List.find?_cons]
    rw [List.map_cons, List.nodup_cons] at h
    rcases List.mem_cons.1 hp with rfl | hp
    · simp
    · have : (a.1 == p.1) = false := by
        simp only [beq_eq_false_iff_ne, ne_eq]
        intro e
        exact h.1 (e ▸ List.mem_map_of_mem hp)
      rw [this]
      exact ih h.2 hp

def ctx (is : List Item) : Ctx := ⟨globals is, lookI (allInfos is), genv (globals is), fun o d => (o, some d) ∈ allUses is⟩

theorem ctx_item {is : List Item} (hd : Distinct is) {i : Item} (hi : i ∈ is) :
    Here (ctx is) (itemInfos (genv (globals is)) i) (itemUses (genv (globals is)) i) := by
  refine ⟨fun p hp => lookI_mem hd (List.mem_flatMap.2 ⟨i, hi, hp⟩), fun u hu h e => ?_⟩
  show (u.1, some h) ∈ allUses is
  rw [← e]
  exact List.mem_flatMap.2 ⟨i, hi, hu⟩

theorem ctx_ok {is : List Item} (hd : Distinct is) : (ctx is).Ok := by
  refine ⟨?_, ?_, ?_, ?_⟩
  · intro c hc
    exact (ctx_item hd (mem_globals.1 hc)).1 _ (.head _)
  · intro c hc p hp
    exact (ctx_item hd (mem_globals.1 hc)).1 p (.tail _ hp)
  · intro x d h
    simp only [ctx, genv, Option.map_eq_some_iff] at h
    obtain ⟨c, hc, rfl⟩ := h
    exact ⟨c, List.mem_of_find?_eq_some hc, rfl⟩
  · intro c hc
    exact (ctx_item hd (mem_globals.1 hc)).2

theorem start_pre {is : List Item} {m : List (Name × Nat)} (hm : ∀ x, look m x = genv (globals is) x) (hd : Distinct is) :
    Pre (ctx is) (ctx is).Γ0 (start m) := by
  refine ⟨⟨⟨⟨.top, m⟩, rfl, rfl, hm⟩, by simp [start], by simp [start], by simp [start], by simp [start], by simp [start], by simp [start]⟩, ?_, ?_⟩
  · intro x
    simp only [start, find, hm]
    cases h : genv (globals is) x <;> simp [ctx, h]
  · intro x d h
    exact .inl ((ctx_ok hd).env x d h)

/-- What holds after the pass. -/
theorem sorter_ok {n : Nat} {is : List Item} {s : S} (hd : Distinct is) (h : sorter n is = .ok s) :
    ∃ m, Post (ctx is) (allUses is) (start m) s ∧ NoClash is ∧ ∀ c ∈ globals is, ∃ k, s.pos c.d = some (some k) := by
  unfold sorter at h
  obtain ⟨s0, h0, h⟩ := R.bind_ok h
  obtain ⟨m, rfl, hm, hn, -⟩ := addGlobals_ok (globals is) [] s0 h0
  have hm' : ∀ x, look m x = genv (globals is) x := by
    intro x; rw [hm]; simp [look]
  obtain ⟨p, d, k⟩ := runItems_ok (ctx_ok hd) (goN_ok (ctx_ok hd) n) is _ s h (start_pre hm' hd) (fun c hc => mem_globals.2 hc)
    fun i hi => ctx_item hd hi
  exact ⟨m, p, ⟨hn, d⟩, fun c hc => k c (mem_globals.1 hc)⟩

/-- **C62**. If the pass succeeds, every identifier of the model has been bound to the declaration that static scoping prescribes, and
nothing else has been bound. -/
theorem _root_.MZ.C62_binding {n : Nat} {is : List Item} {s : S} (hd : Distinct is) (h : sorter n is = .ok s) :
    (∀ u ∈ allUses is, ∃ d, u.2 = some d ∧ (u.1, d) ∈ s.log) ∧ ∀ q ∈ s.log, (q.1, some q.2) ∈ allUses is := by
  obtain ⟨m, p, -, -⟩ := sorter_ok hd h
  refine ⟨fun u hu => ?_, fun q hq => p.inv.log q hq⟩
  obtain ⟨d, j, h1, h2, -⟩ := p.bound u hu
  exact ⟨d, h1, h2⟩

/-- **C62**. If the pass succeeds, every global declaration has its place in the list, once, and after all declarations its type,
definition and annotations mention. -/
theorem _root_.MZ.C62_order {n : Nat} {is : List Item} {s : S} (hd : Distinct is) (h : sorter n is = .ok s) :
    s.decls.Nodup ∧ (∀ c ∈ globals is, c.d ∈ s.decls) ∧
    ∀ g h, Refers is g h → ∃ i j : Nat, s.decls[i]? = some h ∧ s.decls[j]? = some g ∧ i < j := by
  obtain ⟨m, p, -, hk⟩ := sorter_ok hd h
  refine ⟨?_, ?_, ?_⟩
  · rw [List.nodup_iff_injective_getElem]
    intro a b hab
    have ha := p.inv.decls' a _ (List.getElem?_eq_getElem a.2)
    have hb := p.inv.decls' b _ (List.getElem?_eq_getElem b.2)
    have e : s.decls[(a : Nat)] = s.decls[(b : Nat)] := hab
    rw [e, hb] at ha
    simp only [Option.some.injEq] at ha
    exact Fin.ext ha.symm
  · intro c hc
    obtain ⟨k, hk⟩ := hk c hc
    exact List.mem_of_getElem? (p.inv.decls _ _ hk)
  · rintro g h ⟨c, hc, rfl, u, hu, e⟩
    obtain ⟨k, hk⟩ := hk c hc
    obtain ⟨b, -⟩ := p.inv.done c.d _ k hk ((ctx_ok hd).glob c hc)
    obtain ⟨d, j, h1, h2, h3, h4⟩ := b u hu
    rw [e] at h1
    cases h1
    exact ⟨j, k, p.inv.decls _ _ h3, p.inv.decls _ _ hk, h4⟩

/-! ### When the pass succeeds -/

theorem params_total {C : Ctx} (hC : C.Ok) {B : Why} (hac : C.Good B) {n : Nat} {go : S → Nat → R S} (hgo : GoOk C go) (hgc : GoC C B n go) {Γ : Env} :
    ∀ (ps : List Decl) (s : S), Pre C Γ s → (∀ p ∈ ps, Here C (p.infos none true Γ) (p.uses Γ)) → (B.dup ∨ ∀ p ∈ ps, p.Dis) →
      (B.undef ∨ ∀ p ∈ ps, ∀ u ∈ p.uses Γ, u.2 ≠ none) → (∀ p, s.pos p ≠ some none) → unseen C s ≤ n → Blame B (seqAll (runDecl1 go) ps s)
  | [], s, hp, hh, hd, hu, hn, hc => trivial
  | p :: ps, s, hp, hh, hd, hu, hn, hc => by
    have hp1 := hh p (.head _)
    have hI := hp1.1 _ (.head _)
    have hH : Here C (infos none Γ p.body ++ infosL none Γ p.as) (uses Γ p.body ++ usesL Γ p.as) :=
      ⟨fun q hq => hp1.1 q (.tail _ hq), hp1.2⟩
    rw [seqAll]
    refine Blame.bind (runDecl1_total hC hac hgo hgc (c := p) (o := none) (l := true) (Γ := Γ) (s := s) (by simp) (by simp) hI hH
      hp (hd.imp_right fun hd => hd p (.head _)) (hu.imp_right fun hu => hu p (.head _)) (hn _)
      (by
        intro _
        refine ⟨?_, ?_, ?_, by simp⟩
        · intro q i hq hi _ _
          by_cases e : q = p.d
          · subst e
            rw [hI] at hi
            simp only [Option.some.injEq] at hi
            subst hi
            simp [Info.size]
          · exact absurd (by simpa [setPos, e] using hq) (hn q)
        · intro q hq hG
          by_cases e : q = p.d
          · subst e
            have := glob_not_loc hC hG hI
            cases this
          · exact absurd (by simpa [setPos, e] using hq) (hn q)
        · refine Nat.le_trans (List.countP_mono_left fun c _ h => ?_) hc
          simp only [setPos] at h
          split at h
          · simp at h
          · exact h)
      (by
        intro s' ps' _
        exact ⟨fun q _ hq => absurd (ps'.frame.prog q hq) (hn q), fun q hq => absurd (ps'.frame.prog q hq) (hn q),
          Nat.le_trans (unseen_mono ps'.frame) hc, by simp⟩)) fun s1 e1 => ?_
    obtain ⟨p1, -⟩ := runDecl1_ok hC hgo (o := none) (l := true) (Γ := Γ) (by simp) (by simp) hI hH e1 hp
    exact params_total hC hac hgo hgc ps s1 (hp.next p1) (fun q hq => hh q (.tail _ hq)) (hd.imp_right fun hd q hq => hd q (.tail _ hq))
      (hu.imp_right fun hu q hq => hu q (.tail _ hq)) (fun q hq => hn q (p1.frame.prog q hq)) (Nat.le_trans (unseen_mono p1.frame) hc)

/-- No declaration is in progress between two items. -/
theorem idle {C : Ctx} {n sz : Nat} {us : List (Nat × Option Nat)} {s : S} (hn : ∀ p, s.pos p ≠ some none) (hc : unseen C s ≤ n) : Prog C none n sz us s :=
  ⟨fun q _ hq => absurd hq (hn q), fun q hq => absurd hq (hn q), hc, by simp⟩

theorem runItem_total {C : Ctx} (hC : C.Ok) {B : Why} (hac : C.Good B) {n : Nat} {go : S → Nat → R S} (hgo : GoOk C go) (hgc : GoC C B n go) {i : Item} {s : S}
    (hp : Pre C C.Γ0 s) (hg : ∀ c, i = .decl c → c ∈ C.gs) (hh : Here C (itemInfos C.Γ0 i) (itemUses C.Γ0 i)) (hd : B.dup ∨ itemDis i)
    (hu : B.undef ∨ ∀ u ∈ itemUses C.Γ0 i, u.2 ≠ none) (hn : ∀ p, s.pos p ≠ some none) (hc : unseen C s ≤ n) : Blame B (runItem go i s) := by
  cases i with
  | decl c =>
    have hm := hg c rfl
    have hG : C.Glob c.d := ⟨c, hm, rfl⟩
    refine runDecl1_total hC hac hgo hgc (c := c) (o := some c.d) (l := false) (Γ := C.Γ0) (s := s)
      (fun g e => by simp only [Option.some.injEq] at e; exact ⟨c, hm, e⟩) (fun g e => by simp only [Option.some.injEq] at e; exact .inl e.symm)
      (hC.glob c hm) ⟨hC.inner c hm, hC.q c hm⟩ hp hd hu (hn _) ?_ ?_
    · intro hnone
      refine ⟨?_, ?_, Nat.le_trans (Nat.le_of_lt (unseen_mark hG hnone)) hc, ?_⟩
      · intro q i hq hi hl _
        by_cases e : q = c.d
        · subst e
          have := glob_not_loc hC hG hi
          rw [hl] at this; cases this
        · exact absurd (by simpa [setPos, e] using hq) (hn q)
      · intro q hq hGq u huu h e hGh
        by_cases e' : q = c.d
        · subst e'
          exact .single ⟨c, hm, rfl, u, huu, e⟩
        · exact absurd (by simpa [setPos, e'] using hq) (hn q)
      · intro g e
        simp only [Option.some.injEq] at e
        subst e
        simp [setPos]
    · intro s' ps' hne
      refine ⟨fun q _ hq => absurd (ps'.frame.prog q hq) (hn q), fun q hq => absurd (ps'.frame.prog q hq) (hn q),
          Nat.le_trans (unseen_mono ps'.frame) hc, ?_⟩
      intro g e
      simp only [Option.some.injEq] at e
      subst e
      exact hne
  | expr e => exact run_total hC hac hgo hgc none (by simp) e C.Γ0 s hp hh hd hu (idle hn hc)
  | fn f ti ps as body =>
    simp only [itemInfos, itemUses, itemDis] at hh hu hd
    obtain ⟨hh3, hbody⟩ := hh.append
    obtain ⟨hh2, has⟩ := hh3.append
    obtain ⟨hti, hps⟩ := hh2.append
    have u2 : B.undef ∨ ∀ p ∈ ps, ∀ u ∈ p.uses C.Γ0, u.2 ≠ none := hu.imp_right fun hu p hpm u h =>
      hu u (List.mem_append_left _ (List.mem_append_left _ (List.mem_append_right _ (List.mem_flatMap.2 ⟨p, hpm, h⟩))))
    simp only [runItem]
    refine Blame.bind (run_total hC hac hgo hgc none (by simp) ti C.Γ0 s hp hti (hd.imp_right (·.1)) (hu.imp_right fun hu u h => hu u (by simp [h]))
      (idle hn hc)) fun s1 h1 => ?_
    obtain ⟨p1, -⟩ := run_ok hC hgo none (by simp) ti C.Γ0 s s1 h1 hp (by simp) hti
    have n1 : ∀ p, s1.pos p ≠ some none := fun q hq => hn q (p1.frame.prog q hq)
    have c1 := Nat.le_trans (unseen_mono p1.frame) hc
    refine Blame.bind (params_total hC hac hgo hgc ps s1 (hp.next p1) (fun p hpm => flatMap_here hps hpm) (hd.imp_right (·.2.1)) u2 n1 c1) fun s2 h2 => ?_
    obtain ⟨p2, -, k2⟩ := params_ok hC hgo ps s1 s2 h2 (hp.next p1) fun p hpm => flatMap_here hps hpm
    have n2 : ∀ p, s2.pos p ≠ some none := fun q hq => n1 q (p2.frame.prog q hq)
    have c2 := Nat.le_trans (unseen_mono p2.frame) c1
    have q2 := (hp.next p1).next p2
    refine Blame.bind (runs_total hC hac hgo hgc none (by simp) as C.Γ0 s2 q2 has (hd.imp_right (·.2.2.1)) (hu.imp_right fun hu u h => hu u (by simp [h]))
      (idle n2 c2)) fun s3 h3 => ?_
    obtain ⟨p3, -⟩ := runs_ok hC hgo none (by simp) as C.Γ0 s2 s3 h3 q2 (by simp) has
    have n3 : ∀ p, s3.pos p ≠ some none := fun q hq => n2 q (p3.frame.prog q hq)
    have c3 := Nat.le_trans (unseen_mono p3.frame) c2
    have q3 := q2.next p3
    have hne : s3.scopes ≠ [] := by
      obtain ⟨g0, t0, -⟩ := q3.inv.top
      rintro hc; rw [hc] at t0; cases t0
    have q3' : Pre C C.Γ0 (push s3 .fn) := ⟨q3.inv.push _, fun x => by rw [find_pushFn]; exact q3.find x, q3.loc⟩
    have kk : ∀ p ∈ ps, ∃ k, (push s3 .fn).pos p.d = some (some k) := fun p hpm => by
      obtain ⟨k, hk⟩ := k2 p hpm
      exact ⟨k, p3.frame.mono _ _ hk⟩
    refine Blame.bind (addParams_total ps C.Γ0 (push s3 .fn) ⟨.fn, []⟩ s3.scopes q3' rfl hne kk (hd.imp_right fun hd => ⟨hd.2.2.2.1, by simp⟩)) fun s4 h4 => ?_
    obtain ⟨b1, b2, b3, -⟩ := addParams_ok ps C.Γ0 (push s3 .fn) s4 ⟨.fn, []⟩ s3.scopes h4 q3' rfl hne kk
    have n4 : ∀ p, s4.pos p ≠ some none := fun q hq => n3 q (b2.prog q hq)
    have c4 : unseen C s4 ≤ n := Nat.le_trans (unseen_mono b2) c3
    exact Blame.bind (run_total hC hac hgo hgc none (by simp) body (extAll C.Γ0 ps) s4 b1 hbody (hd.imp_right (·.2.2.2.2))
      (hu.imp_right fun hu u h => hu u (by simp [h])) (idle n4 c4)) fun _ _ => trivial

theorem runItems_total {C : Ctx} (hC : C.Ok) {B : Why} (hac : C.Good B) {n : Nat} {go : S → Nat → R S} (hgo : GoOk C go) (hgc : GoC C B n go) :
    ∀ (is : List Item) (s : S), Pre C C.Γ0 s → (∀ c, .decl c ∈ is → c ∈ C.gs) → (∀ i ∈ is, Here C (itemInfos C.Γ0 i) (itemUses C.Γ0 i)) →
    (B.dup ∨ ∀ i ∈ is, itemDis i) → (B.undef ∨ ∀ i ∈ is, ∀ u ∈ itemUses C.Γ0 i, u.2 ≠ none) → (∀ p, s.pos p ≠ some none) → unseen C s ≤ n →
    Blame B (seqAll (runItem go) is s)
  | [], s, _, _, _, _, _, _, _ => trivial
  | i :: is, s, hp, hg, hh, hd, hu, hn, hc => by
    rw [seqAll]
    refine Blame.bind (runItem_total hC hac hgo hgc hp (fun c e => hg c (by rw [← e]; exact .head _)) (hh i (.head _)) (hd.imp_right fun hd => hd i (.head _))
      (hu.imp_right fun hu => hu i (.head _)) hn hc) fun s1 h1 => ?_
    obtain ⟨p1, -⟩ := runItem_ok hC hgo h1 hp (fun c e => hg c (by rw [← e]; exact .head _)) (hh i (.head _))
    exact runItems_total hC hac hgo hgc is s1 (hp.next p1) (fun c hc => hg c (.tail _ hc)) (fun i hi => hh i (.tail _ hi))
      (hd.imp_right fun hd i hi => hd i (.tail _ hi)) (hu.imp_right fun hu i hi => hu i (.tail _ hi)) (fun q hq => hn q (p1.frame.prog q hq))
      (Nat.le_trans (unseen_mono p1.frame) hc)

theorem sorter_blame {n : Nat} {is : List Item} (hd : Distinct is) (hn : (globals is).length ≤ n) :
    Blame ⟨¬ Closed is, ¬ NoClash is, ¬ Acyclic is⟩ (sorter n is) := by
  have cl : (¬ Closed is) ∨ Closed is := (Classical.em _).symm
  have cn : (¬ NoClash is) ∨ NoClash is := (Classical.em _).symm
  have ca : (¬ Acyclic is) ∨ Acyclic is := (Classical.em _).symm
  unfold sorter
  refine Blame.bind (addGlobals_total (globals is) [] (cn.imp_right fun h => ⟨h.1, by simp⟩)) fun s0 h0 => ?_
  obtain ⟨m, rfl, hm, -⟩ := addGlobals_ok (globals is) [] s0 h0
  have hm' : ∀ x, look m x = genv (globals is) x := by
    intro x; rw [hm]; simp [look]
  have hgood : (ctx is).Good ⟨¬ Closed is, ¬ NoClash is, ¬ Acyclic is⟩ :=
    ⟨cn.imp_right fun h c hcm => h.2 _ (mem_globals.1 hcm), cl.imp_right fun h c hcm u hu => h u (List.mem_flatMap.2 ⟨_, mem_globals.1 hcm, hu⟩), ca⟩
  exact runItems_total (ctx_ok hd) hgood (goN_ok (ctx_ok hd) n) (goN_total (ctx_ok hd) hgood n) is (start m) (start_pre hm' hd)
    (fun c hc => mem_globals.2 hc) (fun i hi => ctx_item hd hi) (cn.imp_right (·.2)) (cl.imp_right fun h i hi u hu => h u (List.mem_flatMap.2 ⟨i, hi, hu⟩))
    (by simp [start]) (Nat.le_trans List.countP_le_length hn)

/-- **C62**. What the pass reports is so: an undefined identifier only if some identifier has no declaration, a double declaration only if
some scope declares a name twice, a circular definition only if some global declaration is defined in terms of itself. No assertion
fails, and visits of global declarations are nested no deeper than their number. -/
theorem _root_.MZ.C62_reason {n : Nat} {is : List Item} (hd : Distinct is) (hn : (globals is).length ≤ n) :
    (∃ s, sorter n is = .ok s) ∨ (∃ x, sorter n is = .undef x ∧ ¬ Closed is) ∨ (∃ x, sorter n is = .dup x ∧ ¬ NoClash is) ∨
      ∃ x, sorter n is = .circ x ∧ ¬ Acyclic is := by
  have h := sorter_blame hd hn
  cases e : sorter n is with
  | ok s => exact .inl ⟨s, rfl⟩
  | undef x => rw [e] at h; exact .inr (.inl ⟨x, rfl, h⟩)
  | dup x => rw [e] at h; exact .inr (.inr (.inl ⟨x, rfl, h⟩))
  | circ x => rw [e] at h; exact .inr (.inr (.inr ⟨x, rfl, h⟩))
  | multi x => rw [e] at h; exact h.elim
  | assertion => rw [e] at h; exact h.elim
  | deep => rw [e] at h; exact h.elim

/-- **C62**. The pass succeeds exactly if no scope declares a name twice, every identifier has a declaration, and no global declaration is
defined in terms of itself. -/
theorem _root_.MZ.C62_accepted {n : Nat} {is : List Item} (hd : Distinct is) (hn : (globals is).length ≤ n) :
    (∃ s, sorter n is = .ok s) ↔ NoClash is ∧ Closed is ∧ Acyclic is := by
  constructor
  · rintro ⟨s, h⟩
    obtain ⟨hb, -⟩ := C62_binding hd h
    obtain ⟨hnd, -, ho⟩ := C62_order hd h
    obtain ⟨m, p, hc, -⟩ := sorter_ok hd h
    refine ⟨hc, ?_, ?_⟩
    · intro u hu
      obtain ⟨d, h1, -⟩ := hb u hu
      rw [h1]; simp
    · have key : ∀ g h, TransGen (Refers is) g h → ∃ i j : Nat, s.decls[i]? = some h ∧ s.decls[j]? = some g ∧ i < j := by
        intro g h t
        induction t with
        | single e => exact ho _ _ e
        | tail _ e ih =>
          obtain ⟨i, j, a1, a2, a3⟩ := ih
          obtain ⟨i', j', b1, b2, b3⟩ := ho _ _ e
          have e1 := p.inv.decls' _ _ a1
          rw [p.inv.decls' _ _ b2] at e1
          simp only [Option.some.injEq] at e1
          exact ⟨i', j, b1, a2, by omega⟩
      intro g t
      obtain ⟨i, j, a1, a2, a3⟩ := key g g t
      have e1 := p.inv.decls' _ _ a1
      rw [p.inv.decls' _ _ a2] at e1
      simp only [Option.some.injEq] at e1
      omega
  · rintro ⟨hc, hcl, hac⟩
    rcases C62_reason hd hn with h | ⟨x, -, h⟩ | ⟨x, -, h⟩ | ⟨x, -, h⟩
    · exact h
    · exact absurd hcl h
    · exact absurd hc h
    · exact absurd hac h

/-! ### The order of the items -/

theorem globals_perm {is js : List Item} (h : is.Perm js) : (globals is).Perm (globals js) := by
  induction h with
  | nil => exact .refl _
  | cons a _ ih => cases a <;> simp only [globals] <;> first | exact ih.cons _ | exact ih
  | swap a b l => cases a <;> cases b <;> simp only [globals] <;> first | exact .swap _ _ _ | exact .refl _
  | trans _ _ ih1 ih2 => exact ih1.trans ih2

theorem genv_eq {gs : List Decl} (h : (names gs).Nodup) {x : Name} {d : Nat} : genv gs x = some d ↔ x ≠ "" ∧ ∃ c ∈ gs, c.x = x ∧ c.d = d := by
  induction gs with
  | nil => simp [genv]
  | cons a l ih =>
    rw [genv_cons]
    rw [names_cons] at h
    have h' : (names l).Nodup := by
      split at h
      · exact h
      · exact (List.nodup_cons.1 h).2
    split
    · rename_i hx
      obtain ⟨rfl, hx⟩ := hx
      rw [if_neg hx, List.nodup_cons] at h
      constructor
      · intro e
        simp only [Option.some.injEq] at e
        exact ⟨hx, a, .head _, rfl, e⟩
      · rintro ⟨-, c, hc, e, rfl⟩
        rcases List.mem_cons.1 hc with rfl | hc
        · rfl
        · refine absurd ?_ h.1
          rw [← e]
          unfold names
          simp only [List.mem_filter, List.mem_map, ne_eq, decide_not, Bool.not_eq_eq_eq_not, Bool.not_true, decide_eq_false_iff_not]
          exact ⟨⟨c, hc, rfl⟩, by rw [e]; exact hx⟩
    · rename_i hx
      rw [ih h']
      constructor
      · rintro ⟨h1, c, hc, h2⟩
        exact ⟨h1, c, .tail _ hc, h2⟩
      · rintro ⟨h1, c, hc, h2, h3⟩
        rcases List.mem_cons.1 hc with rfl | hc
        · exact absurd ⟨h2, h1⟩ hx
        · exact ⟨h1, c, hc, h2, h3⟩

theorem names_perm {gs hs : List Decl} (h : gs.Perm hs) : (names gs).Perm (names hs) := (h.map _).filter _

theorem genv_perm {gs hs : List Decl} (h : gs.Perm hs) (hn : (names gs).Nodup) : genv gs = genv hs := by
  funext x
  apply Option.ext
  intro d
  rw [genv_eq hn, genv_eq ((names_perm h).nodup_iff.1 hn)]
  constructor
  · rintro ⟨h1, c, hc, h2⟩; exact ⟨h1, c, h.mem_iff.1 hc, h2⟩
  · rintro ⟨h1, c, hc, h2⟩; exact ⟨h1, c, h.mem_iff.2 hc, h2⟩

/-- **C62**. The order of the items is irrelevant: if a model is accepted, so is the model with the items in another order, and the
identifiers are bound to the same declarations. -/
theorem _root_.MZ.C62_item_order {n : Nat} {is js : List Item} {s : S} (hd : Distinct is) (hn : (globals is).length ≤ n) (hp : is.Perm js)
    (h : sorter n is = .ok s) : ∃ s', sorter n js = .ok s' ∧ ∀ q, q ∈ s'.log ↔ q ∈ s.log := by
  have hg := globals_perm hp
  obtain ⟨h1, h2, h3⟩ := (C62_accepted hd hn).1 ⟨s, h⟩
  have he := genv_perm hg h1.1
  have hu : ∀ u, u ∈ allUses is ↔ u ∈ allUses js := by
    intro u
    unfold allUses
    rw [he]
    simp only [List.mem_flatMap, hp.mem_iff]
  have hd' : Distinct js := by
    unfold Distinct allInfos at hd ⊢
    rw [← he]
    exact ((hp.flatMap_right _).map _).nodup_iff.1 hd
  have hr : Refers js = Refers is := by
    funext g k
    unfold Refers
    rw [← he]
    simp only [hg.mem_iff]
  obtain ⟨s', h'⟩ := (C62_accepted (n := n) hd' (by rw [← hg.length_eq]; exact hn)).2
    ⟨⟨(names_perm hg).nodup_iff.1 h1.1, fun i hi => h1.2 i (hp.mem_iff.2 hi)⟩, fun u hu' => h2 u ((hu u).2 hu'), by unfold Acyclic; rw [hr]; exact h3⟩
  refine ⟨s', h', fun q => ?_⟩
  obtain ⟨a1, a2⟩ := C62_binding hd h
  obtain ⟨b1, b2⟩ := C62_binding hd' h'
  constructor
  · intro hq
    obtain ⟨d, e, hl⟩ := a1 _ ((hu _).2 (b2 q hq))
    simp only [Option.some.injEq] at e
    subst e
    exact hl
  · intro hq
    obtain ⟨d, e, hl⟩ := b1 _ ((hu _).1 (a2 q hq))
    simp only [Option.some.injEq] at e
    subst e
    exact hl

/-! ### Functions -/

/-- `int: x = f();  function int: f() = x;` -/
def fnCycle : List Item := [.decl ⟨0, "x", .call "f" .nil, .nil⟩, .fn "f" .lit [] .nil (.id 1 "x")]

/-- The expression is a call of the function. -/
def Calls : Ex → Name → Prop
  | .call f _, g => f = g
  | _, _ => False

/-- **C62** (the full statement fails). Calls are not followed: a declaration may be defined by a call of a function whose body mentions
the declaration, and no circular definition is reported. -/
theorem _root_.MZ.C62_function_cycle_fails : Distinct fnCycle ∧ (∃ s, sorter 1 fnCycle = .ok s) ∧
    ∃ c f ti ps as body, Item.decl c ∈ fnCycle ∧ Item.fn f ti ps as body ∈ fnCycle ∧ Calls c.body f ∧
      ∃ u ∈ uses (extAll (genv (globals fnCycle)) ps) body, u.2 = some c.d := by
  refine ⟨by unfold Distinct; decide, ⟨_, rfl⟩, ⟨0, "x", .call "f" .nil, .nil⟩, "f", .lit, [], .nil, .id 1 "x", .head _, .tail _ (.head _), rfl, ?_⟩
  exact ⟨(1, some 0), by decide, rfl⟩

/-! ### Examples -/

/-- `int: y = let { int: x = z; int: w = x } in x + w;  int: z = 1;  int: x = y;  constraint forall (x in z) (x);` -/
def exItems : List Item :=
  [.decl ⟨0, "y", .scope (.decl 1 "x" (.id 0 "z") .nil (.decl 2 "w" (.id 1 "x") .nil (.fin (.node (.cons (.id 2 "x") (.cons (.id 3 "w") .nil)))))), .nil⟩,
   .decl ⟨3, "z", .lit, .nil⟩,
   .decl ⟨4, "x", .id 4 "y", .nil⟩,
   .expr (.scope (.decl 5 "x" (.id 5 "z") .nil (.fin (.id 6 "x")))),
   .fn "f" .lit [⟨6, "z", .id 7 "x", .nil⟩] .nil (.id 8 "z")]

example : Distinct exItems := by unfold Distinct; decide

example : ∃ s, sorter 3 exItems = .ok s ∧ s.decls = [3, 1, 2, 0, 4, 5, 6] ∧
    s.log.reverse = [(0, 3), (1, 1), (2, 1), (3, 2), (4, 0), (5, 3), (6, 5), (7, 4), (8, 6)] := ⟨_, rfl, rfl, rfl⟩

/-- `int: x = y; int: y = x;` -/
example : sorter 2 [.decl ⟨0, "x", .id 0 "y", .nil⟩, .decl ⟨1, "y", .id 1 "x", .nil⟩] = .circ "x" := rfl

/-- `constraint let { int: x = 1; int: x = 2 } in x;` -/
example : sorter 0 [.expr (.scope (.decl 0 "x" .lit .nil (.decl 1 "x" .lit .nil (.fin (.id 0 "x")))))] = .dup "x" := rfl

/-- A local name is not visible in a global declaration that is visited from inside its scope. -/
example : sorter 1 [.expr (.scope (.decl 0 "x" .lit .nil (.fin (.id 0 "y")))), .decl ⟨1, "y", .id 1 "x", .nil⟩] = .undef "x" := rfl

end Scope
end MZ
