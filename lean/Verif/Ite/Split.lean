import Verif.Ite.Props
/-!
# Splitting conditional constraints into conditionals for variables
-/
namespace MZ
namespace Ite

theorem conjLoop_holds (S : Sem) : ∀ st : List Bx, (∀ e ∈ conjLoop st, S.Holds e) ↔ ∀ e ∈ st, S.Holds e := by
  intro st
  induction st using conjLoop.induct with
  | case1 => simp [conjLoop]
  | case2 l r st ih =>
    rw [conjLoop, ih]
    simp [Sem.Holds, and_assoc]
  | case3 s l r st ih => rw [conjLoop]; simp [ih]
  | case4 n st ih => rw [conjLoop]; simp [ih]

theorem conjuncts_holds (S : Sem) (b : Bx) : (∀ e ∈ getConjuncts b, S.Holds e) ↔ S.Holds b := by
  unfold getConjuncts
  rw [conjLoop_holds]
  simp

theorem pick_holds {S : Sem} {s : Bool} {l r t : Tm} {x : Nat} (h : pick l r = some (x, t)) :
    S.Holds (.eq s l r) ↔ S.tval t = some (S.var x) := by
  unfold pick at h
  split at h
  · simp only [Option.some.injEq, Prod.mk.injEq] at h
    obtain ⟨rfl, rfl⟩ := h
    simp [Sem.Holds, Sem.tval]
  · simp only [Option.some.injEq, Prod.mk.injEq] at h
    obtain ⟨rfl, rfl⟩ := h
    constructor
    · rintro ⟨v, h1, h2⟩
      rw [h1, ← h2]; rfl
    · intro h; exact ⟨_, h, rfl⟩
  · cases h

/-- All that a branch requires. -/
def Good (S : Sem) (b : Br) : Prop :=
  (∀ p ∈ b.eqs, S.tval p.2.1 = some (S.var p.1)) ∧ ∀ e ∈ b.oth, S.Holds e

/-- The entries of a branch are its equations, at most one for every identifier. -/
def EqOk (S : Sem) (b : Br) : Prop :=
  (∀ p ∈ b.eqs, S.Holds p.2.2 ↔ S.tval p.2.1 = some (S.var p.1)) ∧ (b.eqs.map Prod.fst).Nodup

theorem look_none {eqs : List (Nat × Tm × Bx)} {x : Nat} (h : look eqs x = none) :
    x ∉ eqs.map Prod.fst := by
  induction eqs with
  | nil => simp
  | cons p eqs ih =>
    obtain ⟨y, t⟩ := p
    simp only [look] at h
    split at h
    · cases h
    · rename_i hne
      simp only [List.map_cons, List.mem_cons, not_or]
      exact ⟨fun e => hne e.symm, ih h⟩

theorem look_some {eqs : List (Nat × Tm × Bx)} {x : Nat} {t : Tm × Bx} (h : look eqs x = some t) :
    (x, t) ∈ eqs := by
  induction eqs with
  | nil => simp [look] at h
  | cons p eqs ih =>
    obtain ⟨y, t'⟩ := p
    simp only [look] at h
    split at h
    · rename_i e
      simp only [Option.some.injEq] at h
      subst h; subst e
      exact List.mem_cons_self ..
    · exact List.mem_cons_of_mem _ (ih h)

theorem look_mem {eqs : List (Nat × Tm × Bx)} (nd : (eqs.map Prod.fst).Nodup) {p : Nat × Tm × Bx}
    (hp : p ∈ eqs) : look eqs p.1 = some p.2 := by
  induction eqs with
  | nil => cases hp
  | cons q eqs ih =>
    obtain ⟨y, t'⟩ := q
    simp only [List.map_cons, List.nodup_cons] at nd
    simp only [look]
    rcases List.mem_cons.1 hp with rfl | hp'
    · simp
    · have : y ≠ p.1 := by
        rintro rfl
        exact nd.1 (List.mem_map_of_mem hp')
      rw [if_neg this]
      exact ih nd.2 hp'

theorem incr_keys (occ : List (Nat × Nat)) (x y : Nat) :
    y ∈ (incr occ x).map Prod.fst ↔ y = x ∨ y ∈ occ.map Prod.fst := by
  induction occ with
  | nil => simp [incr]
  | cons p occ ih =>
    obtain ⟨z, n⟩ := p
    simp only [incr]
    split
    · rename_i e; subst e; simp
    · simp only [List.map_cons, List.mem_cons, ih]
      constructor
      · rintro (h | h | h)
        · exact Or.inr (Or.inl h)
        · exact Or.inl h
        · exact Or.inr (Or.inr h)
      · rintro (h | h | h)
        · exact Or.inr (Or.inl h)
        · exact Or.inl h
        · exact Or.inr (Or.inr h)

theorem classify_ok (S : Sem) (s : List (Nat × Nat) × Br) (e : Bx) (h : EqOk S s.2)
    (hk : ∀ p ∈ s.2.eqs, p.1 ∈ s.1.map Prod.fst) :
    EqOk S (classify s e).2 ∧ (Good S (classify s e).2 ↔ Good S s.2 ∧ S.Holds e) ∧
    (∀ p ∈ (classify s e).2.eqs, p.1 ∈ (classify s e).1.map Prod.fst) ∧
    (∀ y ∈ s.1.map Prod.fst, y ∈ (classify s e).1.map Prod.fst) := by
  have other : EqOk S (⟨s.2.eqs, s.2.oth ++ [e]⟩ : Br) ∧
      (Good S ⟨s.2.eqs, s.2.oth ++ [e]⟩ ↔ Good S s.2 ∧ S.Holds e) ∧
      (∀ p ∈ s.2.eqs, p.1 ∈ s.1.map Prod.fst) ∧ (∀ y ∈ s.1.map Prod.fst, y ∈ s.1.map Prod.fst) := by
    refine ⟨h, ?_, hk, fun y hy => hy⟩
    simp only [Good, List.mem_append, List.mem_singleton]
    constructor
    · rintro ⟨h1, h2⟩
      exact ⟨⟨h1, fun e he => h2 e (Or.inl he)⟩, h2 e (Or.inr rfl)⟩
    · rintro ⟨⟨h1, h2⟩, h3⟩
      refine ⟨h1, ?_⟩
      rintro e' (he | rfl)
      · exact h2 e' he
      · exact h3
  unfold classify
  split
  · rename_i l r
    split
    · rename_i x t hp
      split
      · rename_i hn
        rw [Option.isNone_iff_eq_none] at hn
        have hph := pick_holds (S := S) (s := true) hp
        refine ⟨⟨?_, ?_⟩, ?_, ?_, ?_⟩
        · intro p hpm
          rcases List.mem_append.1 hpm with hpm | hpm
          · exact h.1 p hpm
          · rw [List.mem_singleton] at hpm; subst hpm; exact hph
        · rw [List.map_append, List.nodup_append]
          refine ⟨h.2, by simp, ?_⟩
          intro a ha b hb
          simp only [List.map_cons, List.map_nil, List.mem_singleton] at hb
          subst hb
          rintro rfl
          exact look_none hn ha
        · simp only [Good, List.mem_append, List.mem_singleton]
          rw [hph]
          constructor
          · rintro ⟨h1, h2⟩
            exact ⟨⟨fun p hp => h1 p (Or.inl hp), h2⟩, h1 _ (Or.inr rfl)⟩
          · rintro ⟨⟨h1, h2⟩, h3⟩
            refine ⟨?_, h2⟩
            rintro p (hp | rfl)
            · exact h1 p hp
            · exact h3
        · intro p hpm
          rw [incr_keys]
          rcases List.mem_append.1 hpm with hpm | hpm
          · exact Or.inr (hk p hpm)
          · rw [List.mem_singleton] at hpm; subst hpm; exact Or.inl rfl
        · intro y hy
          rw [incr_keys]; exact Or.inr hy
      · exact other
    · exact other
  · exact other

theorem classify_fold (S : Sem) : ∀ (es : List Bx) (s : List (Nat × Nat) × Br), EqOk S s.2 →
    (∀ p ∈ s.2.eqs, p.1 ∈ s.1.map Prod.fst) →
    EqOk S (es.foldl classify s).2 ∧
    (Good S (es.foldl classify s).2 ↔ Good S s.2 ∧ ∀ e ∈ es, S.Holds e) ∧
    (∀ p ∈ (es.foldl classify s).2.eqs, p.1 ∈ (es.foldl classify s).1.map Prod.fst) ∧
    (∀ y ∈ s.1.map Prod.fst, y ∈ (es.foldl classify s).1.map Prod.fst)
  | [], s, h, hk => by simp only [List.foldl_nil]; exact ⟨h, by simp, hk, fun y hy => hy⟩
  | e :: es, s, h, hk => by
    have c := classify_ok S s e h hk
    have i := classify_fold S es (classify s e) c.1 c.2.2.1
    simp only [List.foldl_cons]
    refine ⟨i.1, ?_, i.2.2.1, fun y hy => i.2.2.2 y (c.2.2.2 y hy)⟩
    rw [i.2.1, c.2.1]
    simp [and_assoc]

theorem classifyAll_ok (S : Sem) : ∀ (bs : List Bx) (occ : List (Nat × Nat)),
    (classifyAll occ bs).2.length = bs.length ∧
    (∀ (k : Nat) (b : Bx), bs[k]? = some b → ∃ br, (classifyAll occ bs).2[k]? = some br ∧ EqOk S br ∧
      (Good S br ↔ S.Holds b) ∧ ∀ p ∈ br.eqs, p.1 ∈ (classifyAll occ bs).1.map Prod.fst) ∧
    (∀ y ∈ occ.map Prod.fst, y ∈ (classifyAll occ bs).1.map Prod.fst)
  | [], occ => by simp [classifyAll]
  | b0 :: bs, occ => by
    have c := classify_fold S (getConjuncts b0) (occ, ⟨[], []⟩) (by simp [EqOk]) (by simp)
    have i := classifyAll_ok S bs ((getConjuncts b0).foldl classify (occ, ⟨[], []⟩)).1
    simp only [classifyAll]
    refine ⟨by simp [i.1], ?_, fun y hy => i.2.2 y (c.2.2.2 y hy)⟩
    intro k b hk
    cases k with
    | zero =>
      simp only [List.getElem?_cons_zero, Option.some.injEq] at hk
      subst hk
      refine ⟨_, List.getElem?_cons_zero, c.1, ?_, fun p hp => i.2.2 _ (c.2.2.1 p hp)⟩
      rw [c.2.1, conjuncts_holds]
      simp [Good]
    | succ k =>
      simp only [List.getElem?_cons_succ] at hk ⊢
      exact i.2.1 k b hk

theorem unsplit_ok {S : Sem} {b : Br} (x : Nat) (h : EqOk S b) :
    EqOk S (unsplit x b) ∧ (Good S (unsplit x b) ↔ Good S b) ∧
    (∀ p ∈ (unsplit x b).eqs, p ∈ b.eqs ∧ p.1 ≠ x) ∧
    ((look b.eqs x).isNone = true → (unsplit x b).oth = b.oth) := by
  unfold unsplit
  split
  · rename_i t e hl
    have hm := look_some hl
    have he : S.Holds e ↔ S.tval t = some (S.var x) := h.1 _ hm
    refine ⟨⟨fun p hp => h.1 p (List.mem_of_mem_filter hp), ?_⟩, ?_, ?_, ?_⟩
    · exact h.2.sublist ((List.filter_sublist (l := b.eqs)).map Prod.fst)
    · simp only [Good, List.mem_filter, List.mem_append, List.mem_singleton]
      constructor
      · rintro ⟨h1, h2⟩
        refine ⟨?_, fun e he => h2 e (Or.inl he)⟩
        intro p hp
        by_cases hx : p.1 = x
        · have := look_mem h.2 hp
          rw [hx, hl] at this
          rw [hx, ← Option.some.inj this]
          exact he.1 (h2 e (Or.inr rfl))
        · exact h1 p ⟨hp, by simpa using hx⟩
      · rintro ⟨h1, h2⟩
        refine ⟨fun p hp => h1 p hp.1, ?_⟩
        rintro e' (he' | rfl)
        · exact h2 e' he'
        · exact he.2 (h1 _ hm)
    · intro p hp
      rw [List.mem_filter] at hp
      exact ⟨hp.1, by simpa using hp.2⟩
    · intro hn
      rw [hl] at hn; cases hn
  · rename_i hl
    refine ⟨h, Iff.rfl, ?_, fun _ => rfl⟩
    intro p hp
    refine ⟨hp, ?_⟩
    rintro rfl
    exact look_none hl (List.mem_map_of_mem hp)

/-- Arm `k` of a row is as required. -/
def RowOk (S : Sem) (k : Nat) (r : Row) : Prop := ∃ a, r.arms[k]? = some a ∧ S.ArmOk r.target a

theorem eqArm_ok {S : Sem} {b : Br} {x : Nat} (h : EqOk S b) :
    S.ArmOk (some x) (eqArm x b) ↔ ∀ p ∈ b.eqs, p.1 = x → S.tval p.2.1 = some (S.var p.1) := by
  unfold eqArm
  split
  · rename_i t e hl
    constructor
    · intro ha p hp hx
      have := look_mem h.2 hp
      rw [hx, hl] at this
      rw [hx, ← Option.some.inj this]
      exact ha
    · intro ha
      exact ha _ (look_some hl) rfl
  · rename_i hl
    constructor
    · intro _ p hp hx
      exact absurd (List.mem_map_of_mem hp) (hx ▸ look_none hl)
    · intro _; rfl

theorem splitLoop_ok (S : Sem) (n k m : Nat) : ∀ (occ : List (Nat × Nat)) (brs : List Br) (rows : List Row)
    (no : Bool) (b : Br), brs[k]? = some b → brs.length = m → (∀ r ∈ rows, r.arms.length = m ∧ r.target ≠ none) →
    EqOk S b → (Good S b → ∀ r ∈ rows, RowOk S k r) →
    ((∀ r ∈ rows, RowOk S k r) → ∀ p ∈ b.eqs, p.1 ∉ occ.map Prod.fst → S.tval p.2.1 = some (S.var p.1)) →
    (no = true → b.oth = []) →
    let s := splitLoop n occ (brs, rows, no)
    s.1.length = m ∧ (∀ r ∈ s.2.1, r.arms.length = m ∧ r.target ≠ none) ∧
    ∃ b', s.1[k]? = some b' ∧ (Good S b' ↔ Good S b) ∧ (Good S b → ∀ r ∈ s.2.1, RowOk S k r) ∧
      ((∀ r ∈ s.2.1, RowOk S k r) → ∀ p ∈ b'.eqs, S.tval p.2.1 = some (S.var p.1)) ∧
      (s.2.2 = true → b'.oth = [])
  | [], brs, rows, no, b, hb, hm, hr, he, h1, h2, h3 => by
    simp only [splitLoop]
    exact ⟨hm, hr, b, hb, Iff.rfl, h1, fun h p hp => h2 h p hp (by simp), h3⟩
  | (x, c) :: occ, brs, rows, no, b, hb, hm, hr, he, h1, h2, h3 => by
    simp only [splitLoop]
    have harm : (brs.map (eqArm x))[k]? = some (eqArm x b) := by rw [List.getElem?_map, hb]; rfl
    split
    · have key : (∀ r ∈ rows ++ [⟨some x, brs.map (eqArm x)⟩], RowOk S k r) ↔
          (∀ r ∈ rows, RowOk S k r) ∧ S.ArmOk (some x) (eqArm x b) := by
        constructor
        · intro h
          refine ⟨fun r hr => h r (List.mem_append_left _ hr), ?_⟩
          obtain ⟨a, ha, hok⟩ := h _ (List.mem_append_right _ (List.mem_singleton_self _))
          simp only at ha hok
          rw [harm] at ha
          cases ha
          exact hok
        · rintro ⟨h, h'⟩ r hr
          rcases List.mem_append.1 hr with hr | hr
          · exact h r hr
          · rw [List.mem_singleton] at hr; subst hr; exact ⟨_, harm, h'⟩
      refine splitLoop_ok S n k m occ brs _ no b hb hm ?_ he ?_ ?_ h3
      · intro r hrm
        rcases List.mem_append.1 hrm with hrm | hrm
        · exact hr r hrm
        · rw [List.mem_singleton] at hrm; subst hrm; exact ⟨by simp [hm], by simp⟩
      · intro hg
        rw [key, eqArm_ok he]
        exact ⟨h1 hg, fun p hp _ => hg.1 p hp⟩
      · rw [key, eqArm_ok he]
        rintro ⟨h, h'⟩ p hp hnot
        by_cases hx : p.1 = x
        · exact h' p hp hx
        · exact h2 h p hp (by
            simp only [List.map_cons, List.mem_cons, not_or]; exact ⟨hx, hnot⟩)
    · have hu := unsplit_ok x he
      have := splitLoop_ok S n k m occ (brs.map (unsplit x)) rows
        (no && brs.all (fun b => (look b.eqs x).isNone)) (unsplit x b)
        (by rw [List.getElem?_map, hb]; rfl) (by simp [hm]) hr hu.1
        (fun hg => h1 (hu.2.1.1 hg))
        (fun h p hp hnot => h2 h p (hu.2.2.1 p hp).1 (by
          simp only [List.map_cons, List.mem_cons, not_or]
          exact ⟨(hu.2.2.1 p hp).2, hnot⟩))
        (fun h => by
          rw [Bool.and_eq_true] at h
          rw [hu.2.2.2 (List.all_eq_true.1 h.2 b (List.mem_of_getElem? hb))]
          exact h3 h.1)
      simp only at this ⊢
      refine ⟨this.1, this.2.1, ?_⟩
      obtain ⟨b', e1, e2, e3, e4, e5⟩ := this.2.2
      exact ⟨b', e1, e2.trans hu.2.1, fun hg => e3 (hu.2.1.2 hg), e4, e5⟩

/-- **C67, a conditional constraint is split without changing it.** A conditional constraint at
the root whose branches are conjunctions of equations and other constraints becomes one conditional
for every variable that has an equation in all or all but one of the branches, and perhaps one for the
rest. In every assignment, whichever branch is selected (its number is `k`), that branch holds exactly
if every one of the new conditionals has, in the same branch, the value of its variable, or
constraints that all hold. `iter` is the order in which the table of variables is visited. -/
theorem _root_.MZ.C67_split (S : Sem) (iter : List (Nat × Nat) → List (Nat × Nat))
    (hi : ∀ l p, p ∈ l → p ∈ iter l) (branches : List Bx) (k : Nat) (b : Bx)
    (hk : branches[k]? = some b) :
    (S.Holds b ↔ ∀ r ∈ (split iter branches).1, ∃ a, r.arms[k]? = some a ∧ S.ArmOk r.target a) ∧
    (∀ r ∈ (split iter branches).1, r.arms.length = branches.length) ∧
    ((split iter branches).2 = true ↔ ∀ r ∈ (split iter branches).1, r.target ≠ none) := by
  obtain ⟨hlen, hc, _⟩ := classifyAll_ok S branches []
  obtain ⟨br, hbr, heq, hgood, hkeys⟩ := hc k b hk
  have hs := splitLoop_ok S (branches.length - 1) k branches.length (iter (classifyAll [] branches).1)
    (classifyAll [] branches).2 [] ((classifyAll [] branches).2.all (fun b => b.oth.isEmpty)) br hbr hlen
    (by simp) heq (fun _ r hr => by cases hr)
    (fun _ p hp hnot => by
      exfalso
      apply hnot
      obtain ⟨q, hq, hqe⟩ := List.mem_map.1 (hkeys p hp)
      exact List.mem_map.2 ⟨q, hi _ _ hq, hqe⟩)
    (fun h => by
      have := List.all_eq_true.1 h br (List.mem_of_getElem? hbr)
      simpa using this)
  simp only at hs
  unfold split
  simp only
  generalize splitLoop (branches.length - 1) (iter (classifyAll [] branches).1)
    ((classifyAll [] branches).2, [], (classifyAll [] branches).2.all (fun b => b.oth.isEmpty)) = s at hs
  obtain ⟨e0, e1, b', e2, e3, e4, e5, e6⟩ := hs
  rw [← hgood]
  split
  · rename_i hno
    refine ⟨⟨e4, fun h => ?_⟩, fun r hr => (e1 r hr).1, ?_⟩
    · rw [← e3]
      refine ⟨e5 h, ?_⟩
      rw [e6 hno]
      intro e he; cases he
    · simpa using fun r hr => (e1 r hr).2
  · have harm : (List.zipWith othArm branches s.1)[k]? = some (othArm b b') := by
      rw [List.getElem?_zipWith, hk, e2]
    have hoth : (∀ r ∈ s.2.1, RowOk S k r) → (S.ArmOk none (othArm b b') ↔ Good S br) := by
      intro h
      unfold othArm
      split
      · simp only [Sem.ArmOk, List.mem_singleton, forall_eq]
        exact hgood.symm
      · simp only [Sem.ArmOk]
        rw [← e3]
        exact ⟨fun h' => ⟨e5 h, h'⟩, fun h' => h'.2⟩
    refine ⟨⟨?_, ?_⟩, ?_, ?_⟩
    · intro hg r hr
      rcases List.mem_append.1 hr with hr | hr
      · exact e4 hg r hr
      · rw [List.mem_singleton] at hr
        subst hr
        exact ⟨_, harm, (hoth (e4 hg)).2 hg⟩
    · intro h
      obtain ⟨a, ha, hok⟩ := h _ (List.mem_append_right _ (List.mem_singleton_self _))
      simp only at ha hok
      rw [harm] at ha
      cases ha
      exact (hoth (fun r hr => h r (List.mem_append_left _ hr))).1 hok
    · intro r hr
      rcases List.mem_append.1 hr with hr | hr
      · exact (e1 r hr).1
      · rw [List.mem_singleton] at hr
        subst hr
        simp [e0]
    · simp only [Bool.false_eq_true, false_iff]
      intro h
      exact h _ (List.mem_append_right _ (List.mem_singleton_self _)) rfl

/-- `if c then x = a /\ y = 2 else x = b /\ p endif`: `x` has an equation in both branches, `y` in
one of the two, so both are split off; `p` remains. -/
example : split id [.and (.eq true (.id 0) (.tm 10)) (.eq true (.id 1) (.tm 2)),
      .and (.eq true (.id 0) (.tm 11)) (.other 5)] =
    ([⟨some 0, [.tm (.tm 10), .tm (.tm 11)]⟩, ⟨some 1, [.tm (.tm 2), .tm (.id 1)]⟩,
      ⟨none, [.conj [], .conj [.other 5]]⟩], false) := by
  simp [split, classifyAll, getConjuncts, conjLoop, classify, pick, look, incr, splitLoop, eqArm, othArm]

/-! ## Conditional constraints -/

/-- What `flat_exp` returns for an arm: its value and its definedness. The value of a constraint is
`oth 1` if it is true. -/
def FlOk (S : Sem) : Arm → FArm → Prop
  | .tm t, f => (f.d = true ↔ ∃ v, S.tval t = some v) ∧ ∀ v, S.tval t = some v → f.r = v
  | .conj bs, f => f.d = true ∧ (f.r = .oth 1 ↔ ∀ b ∈ bs, S.Holds b)

/-- The arm of a row in branch `i`. -/
def armAt (i : Nat) (r : Row) : Arm := r.arms[i]?.getD (.conj [])

theorem armOk_iff {S : Sem} {r : Row} {a : Arm} {f : FArm} {v : Vl} (hf : FlOk S a f)
    (ht : r.target = none → ∃ bs, a = .conj bs) (ht' : r.target ≠ none → ∃ t, a = .tm t)
    (hv : v = match r.target with | some x => S.var x | none => .oth 1) :
    S.ArmOk r.target a ↔ v = f.r ∧ f.d = true := by
  cases hr : r.target with
  | none =>
    obtain ⟨bs, rfl⟩ := ht hr
    rw [hr] at hv
    subst hv
    simp only [FlOk] at hf
    simp only [Sem.ArmOk]
    rw [← hf.2]
    exact ⟨fun h => ⟨h.symm, hf.1⟩, fun h => h.1.symm⟩
  | some x =>
    obtain ⟨t, rfl⟩ := ht' (by rw [hr]; simp)
    rw [hr] at hv
    subst hv
    simp only [FlOk] at hf
    simp only [Sem.ArmOk]
    constructor
    · intro h; exact ⟨(hf.2 _ h).symm, hf.1.2 ⟨_, h⟩⟩
    · rintro ⟨h1, h2⟩
      obtain ⟨v, hv⟩ := hf.1.1 h2
      rw [hv, h1, hf.2 v hv]

theorem splitLoop_kind (n : Nat) : ∀ (occ : List (Nat × Nat)) (brs : List Br) (rows : List Row) (no : Bool),
    (∀ r ∈ rows, r.target ≠ none ∧ ∀ a ∈ r.arms, ∃ t, a = .tm t) →
    ∀ r ∈ (splitLoop n occ (brs, rows, no)).2.1, r.target ≠ none ∧ ∀ a ∈ r.arms, ∃ t, a = .tm t
  | [], brs, rows, no, h => by simpa [splitLoop] using h
  | (x, c) :: occ, brs, rows, no, h => by
    simp only [splitLoop]
    split
    · apply splitLoop_kind
      intro r hr
      rcases List.mem_append.1 hr with hr | hr
      · exact h r hr
      · rw [List.mem_singleton] at hr
        subst hr
        refine ⟨by simp, ?_⟩
        intro a ha
        obtain ⟨b, _, rfl⟩ := List.mem_map.1 ha
        unfold eqArm
        split
        · exact ⟨_, rfl⟩
        · exact ⟨_, rfl⟩
    · exact splitLoop_kind _ _ _ _ _ h

theorem split_kind (iter : List (Nat × Nat) → List (Nat × Nat)) (branches : List Bx) :
    ∀ r ∈ (split iter branches).1, (r.target ≠ none → ∀ a ∈ r.arms, ∃ t, a = .tm t) ∧
      (r.target = none → ∀ a ∈ r.arms, ∃ bs, a = .conj bs) := by
  have h := splitLoop_kind (branches.length - 1) (iter (classifyAll [] branches).1)
    (classifyAll [] branches).2 [] ((classifyAll [] branches).2.all (fun b => b.oth.isEmpty))
    (by simp)
  unfold split
  simp only
  split
  · intro r hr
    exact ⟨fun _ => (h r hr).2, fun h' => absurd h' (h r hr).1⟩
  · intro r hr
    rcases List.mem_append.1 hr with hr | hr
    · exact ⟨fun _ => (h r hr).2, fun h' => absurd h' (h r hr).1⟩
    · rw [List.mem_singleton] at hr
      subst hr
      refine ⟨fun h => absurd rfl h, fun _ a ha => ?_⟩
      obtain ⟨i, hi⟩ := List.mem_iff_getElem?.1 ha
      rw [List.getElem?_zipWith] at hi
      split at hi
      · simp only [Option.some.injEq] at hi
        subst hi
        unfold othArm
        split <;> exact ⟨_, rfl⟩
      · cases hi

theorem chosen_le (conds : List Cd) : chosen conds ≤ conds.length := by
  unfold chosen
  have := List.findIdx_le_length (p := id) (xs := conds.map Cd.truth)
  simpa using this

/-- **C67, a conditional constraint holds exactly if its flattening does.** For a constraint
`if c1 then b1 elseif c2 then b2 … else b endif` at the root: if a single branch is flattened, it
is the one that is selected; otherwise the generated conditionals, with the results being the variables of
the model resp. `true`, hold in exactly those assignments in which the selected branch holds.
(What is missing: optional variables that have a domain.) -/
theorem _root_.MZ.C67_constraint_partial (S : Sem) (iter : List (Nat × Nat) → List (Nat × Nat))
    (hi : ∀ l p, p ∈ l → p ∈ iter l) (conds : List Cd) (branches : List Bx)
    (hlen : branches.length = conds.length + 1)
    (fl : Arm → FArm) (dummy : Nat → List FArm) (mk : Row → Target)
    (hfl : ∀ r ∈ (split iter branches).1, ∀ a ∈ r.arms, FlOk S a (fl a) ∧ (fl a).Ok ∧ (fl a).Fits (mk r))
    (hmk : ∀ r ∈ (split iter branches).1, (mk r).Ok ∧
      (mk r).v = match r.target with | some x => S.var x | none => .oth 1) :
    match run conds (fun i => (split iter branches).1.map (fun r => fl (armAt i r))) dummy
        ((split iter branches).1.map (fun r => fl (armAt conds.length r))) with
    | .branch i => chosen conds = i
    | .els => chosen conds = conds.length
    | .cols cs => holds cs ((split iter branches).1.map mk) true ↔
        ∀ b, branches[chosen conds]? = some b → S.Holds b := by
  have hle := chosen_le conds
  obtain ⟨b, hb⟩ : ∃ b, branches[chosen conds]? = some b :=
    ⟨_, List.getElem?_eq_getElem (by omega)⟩
  obtain ⟨hsplit, harms, _⟩ := C67_split S iter hi branches (chosen conds) b hb
  have hkind := split_kind iter branches
  generalize (split iter branches).1 = rows at *
  have hat : ∀ i, i ≤ conds.length → ∀ r ∈ rows, r.arms[i]? = some (armAt i r) ∧ armAt i r ∈ r.arms := by
    intro i hi r hr
    have hl := harms r hr
    have hlt : i < r.arms.length := by omega
    have : armAt i r = r.arms[i] := by
      unfold armAt; rw [List.getElem?_eq_getElem hlt]; rfl
    rw [this]
    exact ⟨List.getElem?_eq_getElem hlt, List.getElem_mem hlt⟩
  have hA : ∀ i, i ≤ conds.length → ArmsOk (rows.map mk) (rows.map fun r => fl (armAt i r)) := by
    intro i hi
    refine ⟨by simp, ?_, ?_⟩
    · intro a ha
      obtain ⟨r, hr, rfl⟩ := List.mem_map.1 ha
      exact (hfl r hr _ (hat i hi r hr).2).2.1
    · intro j a t ha ht
      rw [List.getElem?_map] at ha ht
      cases hr : rows[j]? with
      | none => rw [hr] at ha; cases ha
      | some r =>
        rw [hr] at ha ht
        simp only [Option.map_some, Option.some.injEq] at ha ht
        subst ha; subst ht
        have hrm := List.mem_of_getElem? hr
        exact (hfl r hrm _ (hat i hi r hrm).2).2.2
  have main := C67_ite_partial conds (fun i => rows.map (fun r => fl (armAt i r))) dummy
    (rows.map (fun r => fl (armAt conds.length r))) (rows.map mk) true
    (fun i hi => hA i (by omega)) (hA _ (le_refl _))
    (fun t ht => by obtain ⟨r, hr, rfl⟩ := List.mem_map.1 ht; exact (hmk r hr).1)
  cases hr : run conds (fun i => rows.map (fun r => fl (armAt i r))) dummy
    (rows.map (fun r => fl (armAt conds.length r))) with
  | branch i => rw [hr] at main; exact main.1
  | els => rw [hr] at main; exact main
  | cols cs =>
    rw [hr] at main
    simp only at main ⊢
    rw [main]
    have hch : chosenArms conds (fun i => rows.map (fun r => fl (armAt i r)))
        (rows.map (fun r => fl (armAt conds.length r))) =
        rows.map (fun r => fl (armAt (chosen conds) r)) := by
      unfold chosenArms
      split
      · rfl
      · have : chosen conds = conds.length := by omega
        rw [this]
    rw [hch]
    have hB : (∀ b', branches[chosen conds]? = some b' → S.Holds b') ↔ S.Holds b := by
      rw [hb]; simp
    rw [hB, hsplit]
    have row : ∀ r ∈ rows, S.ArmOk r.target (armAt (chosen conds) r) ↔
        (mk r).v = (fl (armAt (chosen conds) r)).r ∧ (fl (armAt (chosen conds) r)).d = true := by
      intro r hr
      have ha := hat _ hle r hr
      exact armOk_iff (hfl r hr _ ha.2).1 (fun h => (hkind r hr).2 h _ ha.2)
        (fun h => (hkind r hr).1 h _ ha.2) (hmk r hr).2
    constructor
    · rintro ⟨h1, h2⟩ r hr
      refine ⟨_, (hat _ hle r hr).1, (row r hr).2 ⟨?_, ?_⟩⟩
      · obtain ⟨j, hj⟩ := List.mem_iff_getElem?.1 hr
        obtain ⟨a, ha, hv⟩ := h1 j (mk r) (by rw [List.getElem?_map, hj]; rfl)
        rw [List.getElem?_map, hj] at ha
        simp only [Option.map_some, Option.some.injEq] at ha
        rw [hv, ← ha]
      · have := List.all_eq_true.1 h2.symm _ (List.mem_map_of_mem hr)
        exact this
    · intro h
      have h' : ∀ r ∈ rows, S.ArmOk r.target (armAt (chosen conds) r) := by
        intro r hr
        obtain ⟨a, ha, hok⟩ := h r hr
        rw [(hat _ hle r hr).1] at ha
        cases ha
        exact hok
      refine ⟨?_, ?_⟩
      · intro j t hj
        rw [List.getElem?_map] at hj ⊢
        cases hr : rows[j]? with
        | none => rw [hr] at hj; cases hj
        | some r =>
          rw [hr] at hj
          simp only [Option.map_some, Option.some.injEq] at hj
          subst hj
          have hrm := List.mem_of_getElem? hr
          exact ⟨_, rfl, ((row r hrm).1 (h' r hrm)).1⟩
      · symm
        rw [List.all_eq_true]
        intro a ha
        obtain ⟨r, hr, rfl⟩ := List.mem_map.1 ha
        exact ((row r hr).1 (h' r hr)).2

/-- `var 1..10: x; constraint if c then x = 3 else x = 4 endif` in an assignment with `x = 4`: the
hypotheses are met for both values of `c`, the flattening has two columns, and it holds exactly if `c` is
false. -/
example (c : Bool) : ∃ cs, run [.var c] (fun i => [FArm.mk (.int (3 + i)) true true true (some (.fin (3 + i), .fin (3 + i)))])
      (fun _ => []) [FArm.mk (.int 4) true true true (some (.fin 4, .fin 4))] = .cols cs ∧
    (holds cs [⟨.int 4, true, false, some [⟨.fin 1, .fin 10⟩], false⟩] true ↔ c = false) := by
  let S : Sem := ⟨fun _ => .int 4, fun n => some (.int n), fun _ => False⟩
  let fl : Arm → FArm := fun a => match a with
    | .tm (.tm n) => ⟨.int n, true, true, true, some (.fin n, .fin n)⟩
    | _ => ⟨.absent, true, true, false, none⟩
  let bs : List Bx := [.eq true (.id 0) (.tm 3), .eq true (.id 0) (.tm 4)]
  have hs : split id bs = ([⟨some 0, [.tm (.tm 3), .tm (.tm 4)]⟩], true) := by
    simp [bs, split, classifyAll, getConjuncts, conjLoop, classify, pick, look, incr, splitLoop, eqArm]
  have h := C67_constraint_partial S id (fun _ _ h => h) [.var c] bs rfl fl (fun _ => [])
    (fun _ => ⟨.int 4, true, false, some [⟨.fin 1, .fin 10⟩], false⟩)
    (by
      rw [hs]
      intro r hr a ha
      simp only [List.mem_singleton] at hr
      subst hr
      simp only [List.mem_cons, List.not_mem_nil, or_false] at ha
      rcases ha with rfl | rfl
      · refine ⟨⟨⟨fun _ => ⟨.int 3, rfl⟩, fun _ => rfl⟩, fun v hv => by cases hv; rfl⟩, ⟨fun _ => rfl, ?_⟩,
          fun _ => Or.inl ⟨rfl, 3, rfl⟩⟩
        intro l u k hb _ hr
        cases hb; cases hr
        exact ⟨le_refl _, le_refl _⟩
      · refine ⟨⟨⟨fun _ => ⟨.int 4, rfl⟩, fun _ => rfl⟩, fun v hv => by cases hv; rfl⟩, ⟨fun _ => rfl, ?_⟩,
          fun _ => Or.inl ⟨rfl, 4, rfl⟩⟩
        intro l u k hb _ hr
        cases hb; cases hr
        exact ⟨le_refl _, le_refl _⟩)
    (by
      rw [hs]
      intro r hr
      simp only [List.mem_singleton] at hr
      subst hr
      refine ⟨?_, rfl⟩
      intro d hd
      cases hd
      refine ⟨by simp [Normal], rfl, ?_⟩
      intro k hk
      cases hk
      exact ⟨_, List.mem_singleton_self _, by constructor <;> decide +kernel⟩)
  rw [hs] at h
  refine ⟨_, rfl, ?_⟩
  refine (show holds _ _ _ ↔ _ from h).trans ?_
  cases c <;> simp [chosen, Cd.truth, bs, S, Sem.Holds, Sem.tval, List.findIdx_cons]

end Ite
end MZ
