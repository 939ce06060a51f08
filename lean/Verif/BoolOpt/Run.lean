import Verif.BoolOpt.Steps

/-!
# Property C39: runs of the optimiser on Boolean constraints
-/

namespace MZ
namespace BoolOpt

/-! ## Specification -/

/-- The number of right hand sides of a variable. -/
def cnt (rhs : Var → Option Bool) (items : List Item) (v : Var) : Nat :=
  (if (rhs v).isSome then 1 else 0) + (items.filter (·.defines v)).length

/-- Every variable has at most one right hand side, as there is one declaration for each. -/
def Model.WF (m : Model) : Prop := ∀ v, cnt m.rhs m.items v ≤ 1

/-- The steps of the phases, on any item and with any variable; so every order in which the queues may be
processed is covered.

* `bool`: `simplify_bool_constraint`, called from `lib/optimize.cpp:947-949`; an alias is only reached from the
  variable it stands for (`assert` in `:1892`).
* `rhs`: `lib/optimize.cpp:872-924`.
* `phase2`, `phase4`: the loops `lib/optimize.cpp:714-845` and `:1055-1154`.
* `unifyEq`: an equality between two identifiers, `lib/optimize.cpp:525-555`.
* `unifyDef`: a variable that is assigned to an identifier, `lib/optimize.cpp:643-660`.
* `contradict`: a top-level constraint with a variable that is fixed to false, `lib/optimize.cpp:618-621`,
  `:632-634`. -/
inductive Step (addr : Var → Nat) (out : Var → Bool) : Model → Model → Prop
  | bool {m : Model} {pre it post vd t} (count : Int) : m.items = pre ++ it :: post → m.dom vd = some t →
      (∀ w, it.expr = .id w → w = vd) →
      Step addr out m (m.apply out pre post (simplifyBool m.dom m.rhs it vd t count))
  | rhs {m : Model} {pre v c post t} : m.items = pre ++ .defn v c :: post → m.dom v = some t →
      Step addr out m (m.apply out pre post (propagateRhs m.dom m.rhs v t c))
  | phase2 {m : Model} {pre it post} : m.items = pre ++ it :: post →
      Step addr out m (m.apply out pre post (BoolOpt.phase2 addr m.hasRhs m.dom m.rhs it))
  | phase4 {m : Model} {pre it post} : m.items = pre ++ it :: post →
      Step addr out m (m.apply out pre post (BoolOpt.phase4 m.dom m.rhs it))
  | unifyEq {m : Model} {pre x y post} : m.items = pre ++ .con (.eq (.var x) (.var y)) :: post →
      (m.hasRhs x = false ∨ m.hasRhs y = false) →
      Step addr out m (Model.unify out { m with items := pre ++ post } x y)
  | unifyDef {m : Model} {pre v w post} : m.items = pre ++ .defn v (.id w) :: post →
      Step addr out m (Model.unify out { m with items := pre ++ post } v w)
  | contradict {m : Model} {it} : it ∈ m.items → contradicts m.dom it = true →
      Step addr out m { m with failed := true }

/-- Any number of steps. -/
inductive Steps (addr : Var → Nat) (out : Var → Bool) : Model → Model → Prop
  | refl (m) : Steps addr out m m
  | step {m m' m''} : Steps addr out m m' → Step addr out m' m'' → Steps addr out m m''

/-- The variables that phase 1 queued come from top-level constraints; the domains are those at the time of the
visit. -/
def Queued (m : Model) (l : List Var) : Prop := ∀ v ∈ l, ∃ it ∈ m.items, ∃ d, v ∈ queued d it

/-- A run of `optimize`, `lib/optimize.cpp:470-1168`: phases 1 and 2, the assignment of the queued variables, phase 3,
the clean up, phase 4. -/
inductive Run (addr : Var → Nat) (out : Var → Bool) : Model → Model → Prop
  | mk {m m1 m2 m3 l} : Queued m l → Steps addr out m m1 → Steps addr out (m1.assign l) m2 →
      Steps addr out m2.cleanup m3 → Run addr out m m3

/-! ## Proofs -/

theorem cnt_append (rhs l l' v) : cnt rhs (l ++ l') v = cnt rhs l v + (l'.filter (·.defines v)).length := by
  simp [cnt]; omega

theorem cnt_con {rhs c v} : cnt rhs [.con c] v = if (rhs v).isSome then 1 else 0 := by simp [cnt, Item.defines]

/-- A step does not add right hand sides, except to a variable without one. -/
def Frugal (has : Var → Bool) (rhs : Var → Option Bool) (it : Item) (o : Out) : Prop :=
  ∀ v, cnt o.rhs o.item.toList v ≤ cnt rhs [it] v ∨ (has v = false ∧ cnt o.rhs o.item.toList v ≤ 1)

theorem frugal_keep {has rhs it dom f u} : Frugal has rhs it ⟨dom, rhs, some it, f, u⟩ := fun _ => .inl (Nat.le_refl _)

theorem frugal_drop {has rhs it dom f u} : Frugal has rhs it ⟨dom, rhs, none, f, u⟩ := fun _ => .inl (by simp [cnt])

theorem frugal_same {has rhs it dom} : Frugal has rhs it (same dom rhs it) := frugal_keep

theorem frugal_decided {has dom rhs it b} : Frugal has rhs it (decided dom rhs it b) := by
  unfold decided
  repeat' split
  all_goals first | exact frugal_keep | exact frugal_drop

theorem frugal_eq {has dom rhs it a b} : Frugal has rhs it (simplifyEq dom rhs it a b) := by
  unfold simplifyEq
  simp only
  repeat' split
  all_goals first | exact frugal_same | exact frugal_keep | exact frugal_drop

theorem frugal_few {has dom rhs it c} : Frugal has rhs it (simplifyFew dom rhs it c) := by
  unfold simplifyFew
  split
  · exact frugal_decided
  · split
    · simp only
      split
      · exact frugal_decided
      · split
        · exact frugal_decided
        · intro v
          rcases frugal_decided (has := has) (dom := dom) (rhs := rhs) (it := Item.defn _ _) (b := c.isConj) v with h | h
          · left
            refine Nat.le_trans ?_ h
            simp [cnt]
          · right
            refine ⟨h.1, Nat.le_trans ?_ h.2⟩
            simp [cnt]
    · repeat' split
      all_goals first | exact frugal_same | exact frugal_keep | exact frugal_drop
    · exact frugal_same

theorem frugal_clause {has dom rhs it vd t p n} : Frugal has rhs it (simplifyClause dom rhs it vd t p n) := by
  unfold simplifyClause
  simp only
  repeat' split
  all_goals first | exact frugal_decided | exact frugal_same | exact frugal_keep | exact frugal_drop

theorem frugal_bool {has dom rhs it vd t n} : Frugal has rhs it (simplifyBool dom rhs it vd t n) := by
  unfold simplifyBool
  split
  · repeat' split
    all_goals first | exact frugal_same | exact frugal_keep | exact frugal_drop
  · split
    · exact frugal_drop
    · exact frugal_same
  · split
    · exact frugal_eq
    · exact frugal_same
  · unfold simplifyConn
    split
    · exact frugal_same
    · split
      · exact frugal_decided
      · exact frugal_decided
      · split
        · exact frugal_few
        · split
          · exact frugal_clause
          · exact frugal_same

theorem frugal_rhs {has dom rhs v t c} : Frugal has rhs (.defn v c) (propagateRhs dom rhs v t c) := by
  unfold propagateRhs
  simp only
  split <;> exact frugal_keep

theorem cnt_set_none {rhs : Var → Option Bool} {v b w} : cnt (set rhs v b) [] w =
    if w = v then 1 else if (rhs w).isSome then 1 else 0 := by
  unfold cnt set
  by_cases h : w = v <;> simp [h]

theorem frugal_define {has rhs v c dom b f u} : Frugal has rhs (.defn v c) ⟨dom, set rhs v b, none, f, u⟩ := by
  intro w
  left
  simp only [Option.toList_none, cnt_set_none]
  by_cases h : w = v
  · subst h; simp [cnt, Item.defines]
  · rw [if_neg h]; simp [cnt]

theorem frugal_phase2 {addr has dom rhs it} (hh : ∀ v, has v = false → rhs v = none) :
    Frugal has rhs it (phase2 addr has dom rhs it) := by
  unfold phase2
  simp only
  split
  · exact frugal_same
  · split
    · split
      · split
        · exact frugal_keep
        · exact frugal_drop
      · split
        · split
          · exact frugal_keep
          · exact frugal_same
        · exact frugal_define
    · split
      · rename_i w _ _ _
        by_cases hw : has w = true
        · rw [if_pos hw]; exact frugal_drop
        · rw [if_neg hw]
          rw [Bool.not_eq_true] at hw
          intro v
          by_cases hv : v = w
          · right
            subst hv
            exact ⟨hw, by simp [cnt_set_none]⟩
          · left
            rw [Option.toList_none, cnt_set_none, if_neg hv]
            exact Nat.le_add_right _ _
      · exact frugal_same

theorem frugal_phase4 {has dom rhs it} : Frugal has rhs it (phase4 dom rhs it) := by
  unfold phase4
  simp only
  split
  · exact frugal_same
  · split
    · split
      · split
        · exact frugal_keep
        · exact frugal_drop
      · split
        · split
          · exact frugal_keep
          · exact frugal_define
        · exact frugal_define
    · split
      · split
        · split
          · exact frugal_drop
          · exact frugal_keep
        · split
          · split
            · exact frugal_keep
            · exact frugal_define
          · exact frugal_define
      · split
        · intro v; left; exact Nat.le_refl _
        · rename_i w c _ _ _
          intro v; left
          exact Nat.le_of_eq (by by_cases h : w = v <;> simp [same, cnt, Item.defines, h] <;> rfl)

theorem hasRhs_cnt {m : Model} {v : Var} : m.hasRhs v = false ↔ cnt m.rhs m.items v = 0 := by
  unfold Model.hasRhs cnt
  rw [Bool.or_eq_false_iff, List.any_eq_false]
  constructor
  · rintro ⟨h1, h2⟩
    have : m.items.filter (·.defines v) = [] := List.filter_eq_nil_iff.2 h2
    simp [h1, this]
  · intro h
    have h1 : (m.items.filter (·.defines v)).length = 0 := by omega
    refine ⟨?_, List.filter_eq_nil_iff.1 (List.length_eq_zero_iff.1 h1)⟩
    cases hs : (m.rhs v).isSome
    · rfl
    · simp [hs] at h

theorem subst_defines {a b v : Var} (hab : a ≠ b) (it : Item) : (it.subst a b).defines v =
    if v = a then false else if v = b then it.defines a || it.defines b else it.defines v := by
  cases it with
  | con c => simp [Item.subst, Item.defines]
  | defn w c =>
    simp only [Item.subst, Item.defines]
    by_cases hw : w = a
    · subst hw
      by_cases hv : v = w
      · subst hv; simp [hab.symm]
      · by_cases hb : v = b
        · subst hb; simp [hab.symm]
        · simp [hv, hb, Ne.symm hb, Ne.symm hv]
    · by_cases hv : v = a
      · subst hv; simp [hw]
      · by_cases hb : v = b
        · subst hb; simp [hw, hv]
        · simp [hw, hv, hb]

theorem filter_or_length {p q : Item → Bool} : ∀ l : List Item, (l.filter (fun x => p x || q x)).length ≤
    (l.filter p).length + (l.filter q).length
  | [] => by simp
  | x :: l => by
    have := filter_or_length (p := p) (q := q) l
    rw [List.filter_cons, List.filter_cons, List.filter_cons]
    cases p x <;> cases q x <;> simp <;> omega

theorem wf_unify {out : Var → Bool} {m : Model} {x y : Var} (hw : m.WF) (h : ¬(m.hasRhs x = true ∧ m.hasRhs y = true)) :
    (m.unify out x y).WF := by
  unfold Model.unify
  split
  · exact hw
  rename_i hne
  have hab : ∀ a b : Var, a ≠ b → ¬(m.hasRhs a = true ∧ m.hasRhs b = true) →
      ∀ v, cnt (fun v => if v = a then none else if v = b then (if m.hasRhs a then m.rhs a else m.rhs b) else m.rhs v)
        (((if m.hasRhs a then m.items.filter (fun it => !it.defines b) else m.items).map (·.subst a b)).filter
          (fun it => !it.selfAlias)) v ≤ 1 := by
    intro a b hne hrs v
    have hsub : ∀ l : List Item, (((l.map (·.subst a b)).filter (fun it => !it.selfAlias)).filter (·.defines v)).length ≤
        (l.filter (fun it => (it.subst a b).defines v)).length := by
      intro l
      rw [List.filter_filter]
      refine Nat.le_trans (m := ((l.map (·.subst a b)).filter (·.defines v)).length) ?_ ?_
      · rw [← List.filter_filter]
        refine List.Sublist.length_le ?_
        rw [List.filter_filter]
        rw [show (fun it : Item => Item.defines v it && !it.selfAlias) = (fun it : Item => (!it.selfAlias) && Item.defines v it) from by
          funext it; exact Bool.and_comm _ _]
        rw [← List.filter_filter]
        exact List.filter_sublist
      · rw [List.filter_map, List.length_map]
        exact Nat.le_refl _
    have h1 := hsub (if m.hasRhs a then m.items.filter (fun it => !it.defines b) else m.items)
    have h2 : ((if m.hasRhs a then m.items.filter (fun it => !it.defines b) else m.items).filter
        (fun it => (it.subst a b).defines v)).length ≤ (m.items.filter (fun it => (it.subst a b).defines v)).length := by
      split
      · exact List.Sublist.length_le (List.Sublist.filter _ List.filter_sublist)
      · exact Nat.le_refl _
    have h3 := Nat.le_trans h1 h2
    simp only [subst_defines hne] at h3
    have hwa := hw a
    have hwb := hw b
    have hwv := hw v
    unfold cnt at hwa hwb hwv ⊢
    by_cases hva : v = a
    · simp only [hva, if_true, List.filter_false, List.length_nil] at h3
      simp only [hva, if_true, Option.isSome_none, Bool.false_eq_true, if_false]
      omega
    · by_cases hvb : v = b
      · subst hvb
        simp only [hva, if_false, if_true] at h3 ⊢
        have h4 := Nat.le_trans h3 (filter_or_length (p := (·.defines a)) (q := (·.defines v)) m.items)
        cases ha : m.hasRhs a with
        | true =>
          have hb : m.hasRhs v = false := by
            cases hb : m.hasRhs v
            · rfl
            · exact absurd ⟨ha, hb⟩ hrs
          rw [hasRhs_cnt, cnt] at hb
          rw [ha] at h4
          simp only [if_true] at h4 ⊢
          omega
        | false =>
          have ha' := ha
          rw [hasRhs_cnt, cnt] at ha'
          rw [ha] at h4
          simp only [Bool.false_eq_true, if_false] at h4 ⊢
          omega
      · simp only [hva, hvb, if_false] at h3 ⊢
        omega
  cases ho : out x with
  | true =>
    simp only [if_true]
    exact hab y x (Ne.symm hne) (fun hh => h ⟨hh.2, hh.1⟩)
  | false =>
    simp only [Bool.false_eq_true, if_false]
    exact hab x y hne h

theorem cnt_split {rhs pre it post v} : cnt rhs (pre ++ it :: post) v =
    cnt rhs [it] v + (pre.filter (·.defines v)).length + (post.filter (·.defines v)).length := by
  simp only [cnt, List.filter_append, List.length_append]
  rw [show it :: post = [it] ++ post from rfl, List.filter_append, List.length_append]
  omega

theorem cnt_split' {rhs} {pre : List Item} {o : Option Item} {post v} : cnt rhs (pre ++ o.toList ++ post) v =
    cnt rhs o.toList v + (pre.filter (·.defines v)).length + (post.filter (·.defines v)).length := by
  simp only [cnt, List.filter_append, List.length_append]
  omega

/-- A step on an item that keeps the solutions, that adds no right hand side, and that unifies only a variable
whose right hand side it has removed, is a step of the model that keeps them. -/
theorem apply_ok {σ : Asg} {out : Var → Bool} {m : Model} {pre it post} (hw : m.WF) (hi : m.items = pre ++ it :: post) {o : Out}
    (hs : After σ o ↔ Before σ m.dom m.rhs it) (hf : Frugal m.hasRhs m.rhs it o)
    (hu : ∀ p, o.unify = some p → o.item = none ∧ o.rhs = m.rhs ∧ ∃ c, it = .defn p.1 c) :
    (m.apply out pre post o).WF ∧ ((m.apply out pre post o).Sol σ ↔ m.Sol σ) := by
  have hwf : (⟨o.dom, o.rhs, pre ++ o.item.toList ++ post, m.eqs, m.failed || o.fail⟩ : Model).WF := by
    intro v
    have h1 := hw v
    rw [hi, cnt_split] at h1
    show cnt o.rhs (pre ++ o.item.toList ++ post) v ≤ 1
    rw [cnt_split']
    rcases hf v with h | ⟨h2, h3⟩
    · omega
    · rw [hasRhs_cnt, hi, cnt_split] at h2
      omega
  have hsol : (∀ p, o.unify = some p → False) → ((⟨o.dom, o.rhs, pre ++ o.item.toList ++ post, m.eqs, m.failed || o.fail⟩ : Model).Sol σ ↔ m.Sol σ) := by
    intro hn
    have hu0 : o.unify = none := by
      cases h : o.unify with
      | none => rfl
      | some p => exact (hn p h).elim
    unfold Model.Sol
    unfold After Before at hs
    rw [hi]
    simp only [hu0, Bool.or_eq_false_iff, List.mem_append, List.mem_cons, Option.mem_toList] at hs ⊢
    constructor
    · rintro ⟨⟨h1, h2⟩, h3, h4, h5, h6⟩
      obtain ⟨k1, k2, k3⟩ := hs.1 ⟨h2, h3, h4, fun it hit => h5 it (.inl (.inr hit)), by simp⟩
      refine ⟨h1, k1, k2, ?_, h6⟩
      rintro i (hi | rfl | hi)
      · exact h5 i (.inl (.inl hi))
      · exact k3
      · exact h5 i (.inr hi)
    · rintro ⟨h1, h3, h4, h5, h6⟩
      obtain ⟨k0, k1, k2, k3, -⟩ := hs.2 ⟨h3, h4, h5 it (.inr (.inl rfl))⟩
      refine ⟨⟨h1, k0⟩, k1, k2, ?_, h6⟩
      rintro i ((hi | hi) | hi)
      · exact h5 i (.inl hi)
      · exact k3 i hi
      · exact h5 i (.inr (.inr hi))
  unfold Model.apply
  simp only
  cases hou : o.unify with
  | none =>
    simp only
    exact ⟨hwf, hsol (by rw [hou]; simp)⟩
  | some p =>
    obtain ⟨a, b⟩ := p
    simp only
    obtain ⟨h1, h2, c, rfl⟩ := hu _ hou
    have hna : (⟨o.dom, o.rhs, pre ++ o.item.toList ++ post, m.eqs, m.failed || o.fail⟩ : Model).hasRhs a = false := by
      rw [hasRhs_cnt]
      show cnt o.rhs (pre ++ o.item.toList ++ post) a = 0
      have h3 := hw a
      rw [hi, cnt_split] at h3
      rw [cnt_split', h1, h2]
      simp only [cnt, Item.defines, decide_true, List.filter_cons, if_true, List.length_cons, Option.toList_none,
        List.filter_nil, List.length_nil] at h3 ⊢
      omega
    have hnot : ¬((⟨o.dom, o.rhs, pre ++ o.item.toList ++ post, m.eqs, m.failed || o.fail⟩ : Model).hasRhs a = true ∧
        (⟨o.dom, o.rhs, pre ++ o.item.toList ++ post, m.eqs, m.failed || o.fail⟩ : Model).hasRhs b = true) := by
      rw [hna]; simp
    refine ⟨wf_unify hwf hnot, ?_⟩
    rw [unify_sol hnot]
    unfold Model.Sol
    unfold After Before at hs
    rw [hi]
    simp only [hou, h1, Bool.or_eq_false_iff, List.mem_append, List.mem_cons, Option.mem_toList] at hs ⊢
    constructor
    · rintro ⟨⟨⟨h1, h2⟩, h3, h4, h5, h6⟩, h7⟩
      obtain ⟨k1, k2, k3⟩ := hs.1 ⟨h2, h3, h4, by simp, by simpa using h7⟩
      refine ⟨h1, k1, k2, ?_, h6⟩
      rintro i (hi | rfl | hi)
      · exact h5 i (.inl (.inl hi))
      · exact k3
      · exact h5 i (.inr hi)
    · rintro ⟨h1, h3, h4, h5, h6⟩
      obtain ⟨k0, k1, k2, k3, k4⟩ := hs.2 ⟨h3, h4, h5 _ (.inr (.inl rfl))⟩
      refine ⟨⟨⟨h1, k0⟩, k1, k2, ?_, h6⟩, by simpa using k4⟩
      rintro i ((hi | hi) | hi)
      · exact h5 i (.inl hi)
      · exact absurd hi (by simp)
      · exact h5 i (.inr (.inr hi))

theorem unify_none_decided {dom rhs it b} : (decided dom rhs it b).unify = none := by
  unfold decided
  repeat' split
  all_goals rfl

theorem unify_few {dom rhs it c p} (h : (simplifyFew dom rhs it c).unify = some p) :
    (simplifyFew dom rhs it c).item = none ∧ (simplifyFew dom rhs it c).rhs = rhs ∧ ∃ c', it = .defn p.1 c' := by
  unfold simplifyFew at h ⊢
  split at h
  · rw [unify_none_decided] at h; cases h
  · split at h
    · simp only at h
      split at h
      · rw [unify_none_decided] at h; cases h
      · split at h
        · rw [unify_none_decided] at h; cases h
        · simp only [unify_none_decided] at h; cases h
    · rename_i hs _ _ _ ho
      rw [if_neg hs]
      split at h
      · cases h
      · rename_i v c'
        cases hv : dom v with
        | some d => simp only [hv] at h; cases h
        | none =>
          simp only [hv] at h ⊢
          split at h
          · rename_i h0
            rw [if_pos h0]
            simp only [Option.some.injEq] at h
            subst h
            exact ⟨rfl, rfl, c', rfl⟩
          · cases h
    · cases h

theorem unify_none_eq {dom rhs it a b} : (simplifyEq dom rhs it a b).unify = none := by
  unfold simplifyEq
  simp only
  repeat' split
  all_goals rfl

theorem unify_none_clause {dom rhs it vd t p n} : (simplifyClause dom rhs it vd t p n).unify = none := by
  unfold simplifyClause
  simp only
  repeat' split
  all_goals first | exact unify_none_decided | rfl

theorem unify_bool {dom rhs it vd t n p} (h : (simplifyBool dom rhs it vd t n).unify = some p) :
    (simplifyBool dom rhs it vd t n).item = none ∧ (simplifyBool dom rhs it vd t n).rhs = rhs ∧ ∃ c', it = .defn p.1 c' := by
  have no : ∀ {o : Out}, o.unify = none → o.unify = some p → False := by intro o h1 h2; rw [h1] at h2; cases h2
  unfold simplifyBool at h ⊢
  split at h
  · exfalso
    revert h
    repeat' split
    all_goals (intro h; cases h)
  · exfalso
    revert h
    split <;> (intro h; cases h)
  · exfalso
    revert h
    split
    · exact no unify_none_eq
    · intro h; cases h
  · unfold simplifyConn at h ⊢
    split at h
    · cases h
    · rename_i hm
      rw [if_neg hm]
      split at h
      · exact (no unify_none_decided h).elim
      · exact (no unify_none_decided h).elim
      · split at h
        · rename_i hc
          rw [if_pos hc]
          exact unify_few h
        · split at h
          · exact (no unify_none_clause h).elim
          · cases h

theorem unify_none_phase2 {addr has dom rhs it} : (phase2 addr has dom rhs it).unify = none := by
  unfold phase2
  simp only
  repeat' split
  all_goals rfl

theorem unify_none_phase4 {dom rhs it} : (phase4 dom rhs it).unify = none := by
  unfold phase4
  simp only
  repeat' split
  all_goals rfl

theorem unify_none_rhs {dom rhs v t c} : (propagateRhs dom rhs v t c).unify = none := by
  unfold propagateRhs
  simp only
  split <;> rfl

theorem rhs_none {m : Model} {pre it post} (hw : m.WF) (hi : m.items = pre ++ it :: post) (v c) (h : it = .defn v c) : m.rhs v = none := by
  have := hw v
  rw [hi, cnt_split, h] at this
  simp only [cnt, Item.defines, decide_true, List.filter_cons, if_true, List.length_cons, List.filter_nil, List.length_nil] at this
  cases hr : m.rhs v with
  | none => rfl
  | some b => simp only [hr, Option.isSome_some, if_true] at this; omega

theorem has_rhs {m : Model} (v : Var) (h : m.hasRhs v = false) : m.rhs v = none := by
  simp only [Model.hasRhs, Bool.or_eq_false_iff] at h
  simpa using h.1

theorem contradicts_ok {σ : Asg} {m : Model} {it} (hi : it ∈ m.items) (hc : contradicts m.dom it = true) : ¬m.Sol σ := by
  rintro ⟨-, h1, -, h2, -⟩
  have hh := h2 it hi
  cases it with
  | defn v c => simp [contradicts] at hc
  | con c =>
    cases c with
    | conj al =>
      simp only [contradicts, List.any_eq_true, decide_eq_true_eq, mem_varsOf] at hc
      obtain ⟨v, hv, hd⟩ := hc
      have := hh _ hv
      rw [Elem.eval, h1 v _ hd] at this
      exact absurd this (by decide)
    | id v =>
      simp only [contradicts, decide_eq_true_eq] at hc
      have hh : σ v = true := hh
      rw [h1 v _ hc] at hh
      exact absurd hh (by decide)
    | _ => simp [contradicts] at hc

theorem drop_wf {m : Model} {pre it post} (hw : m.WF) (hi : m.items = pre ++ it :: post) : Model.WF { m with items := pre ++ post } := by
  intro v
  have := hw v
  rw [hi, cnt_split] at this
  show cnt m.rhs (pre ++ post) v ≤ 1
  rw [cnt_append]
  simp only [cnt] at this ⊢
  omega

theorem drop_sol {σ : Asg} {m : Model} {pre it post} (hi : m.items = pre ++ it :: post) :
    m.Sol σ ↔ Model.Sol σ { m with items := pre ++ post } ∧ it.Holds σ := by
  unfold Model.Sol
  rw [hi]
  simp only [List.mem_append, List.mem_cons]
  constructor
  · rintro ⟨h1, h2, h3, h4, h5⟩
    refine ⟨⟨h1, h2, h3, ?_, h5⟩, h4 it (.inr (.inl rfl))⟩
    rintro i (h | h)
    · exact h4 i (.inl h)
    · exact h4 i (.inr (.inr h))
  · rintro ⟨⟨h1, h2, h3, h4, h5⟩, h6⟩
    refine ⟨h1, h2, h3, ?_, h5⟩
    rintro i (h | rfl | h)
    · exact h4 i (.inl h)
    · exact h6
    · exact h4 i (.inr h)

theorem step_ok {σ : Asg} {addr : Var → Nat} (ha : Function.Injective addr) {out : Var → Bool} {m m' : Model} (hw : m.WF)
    (h : Step addr out m m') : m'.WF ∧ (m'.Sol σ ↔ m.Sol σ) := by
  cases h with
  | bool count hi hd hid => exact apply_ok hw hi (simplifyBool_ok count hd hid) frugal_bool (fun p hp => unify_bool hp)
  | rhs hi hd =>
    exact apply_ok hw hi (propagateRhs_ok hd) frugal_rhs (fun p hp => by rw [unify_none_rhs] at hp; cases hp)
  | phase2 hi =>
    exact apply_ok hw hi (phase2_ok ha (rhs_none hw hi) has_rhs) (frugal_phase2 has_rhs)
      (fun p hp => by rw [unify_none_phase2] at hp; cases hp)
  | phase4 hi =>
    exact apply_ok hw hi (phase4_ok (rhs_none hw hi)) frugal_phase4
      (fun p hp => by rw [unify_none_phase4] at hp; cases hp)
  | @unifyEq pre x y post hi hr =>
    have hmono : ∀ v, m.hasRhs v = false → Model.hasRhs { m with items := pre ++ post } v = false := by
      intro v hv
      rw [hasRhs_cnt] at hv ⊢
      rw [hi, cnt_split] at hv
      show cnt m.rhs (pre ++ post) v = 0
      rw [cnt_append]
      simp only [cnt] at hv ⊢
      omega
    have hnot : ¬(Model.hasRhs { m with items := pre ++ post } x = true ∧ Model.hasRhs { m with items := pre ++ post } y = true) := by
      rintro ⟨h1, h2⟩
      rcases hr with hr | hr
      · rw [hmono x hr] at h1; cases h1
      · rw [hmono y hr] at h2; cases h2
    refine ⟨wf_unify (drop_wf hw hi) hnot, ?_⟩
    rw [unify_sol hnot, drop_sol hi]
    exact Iff.rfl
  | @unifyDef pre v w post hi =>
    have hv : Model.hasRhs { m with items := pre ++ post } v = false := by
      rw [hasRhs_cnt]
      have h3 := hw v
      rw [hi, cnt_split] at h3
      show cnt m.rhs (pre ++ post) v = 0
      rw [cnt_append]
      simp only [cnt, Item.defines, decide_true, List.filter_cons, if_true, List.length_cons,
        List.filter_nil, List.length_nil] at h3 ⊢
      omega
    have hnot : ¬(Model.hasRhs { m with items := pre ++ post } v = true ∧ Model.hasRhs { m with items := pre ++ post } w = true) := by
      rw [hv]; simp
    refine ⟨wf_unify (drop_wf hw hi) hnot, ?_⟩
    rw [unify_sol hnot, drop_sol hi]
    refine and_congr_right (fun _ => ?_)
    show _ ↔ (σ v = true ↔ σ w = true)
    cases σ v <;> cases σ w <;> simp
  | contradict hi hc =>
    refine ⟨hw, ?_⟩
    refine iff_of_false ?_ (contradicts_ok hi hc)
    rintro ⟨h, -⟩
    cases h

theorem steps_ok {addr : Var → Nat} (ha : Function.Injective addr) {out : Var → Bool} {m m' : Model} (hw : m.WF)
    (h : Steps addr out m m') : m'.WF ∧ ∀ σ, m'.Sol σ ↔ m.Sol σ := by
  induction h with
  | refl => exact ⟨hw, fun σ => Iff.rfl⟩
  | step _ h ih => exact ⟨(step_ok (σ := fun _ => true) ha ih.1 h).1, fun σ => ((step_ok ha ih.1 h).2).trans (ih.2 σ)⟩

theorem queued_true {σ : Asg} {m : Model} {l} (hq : Queued m l) (h : m.Sol σ) : ∀ v ∈ l, σ v = true := by
  intro v hv
  obtain ⟨it, hi, d, hvd⟩ := hq v hv
  have hh := h.2.2.2.1 it hi
  cases it with
  | defn w c => simp [queued] at hvd
  | con c =>
    cases c with
    | conj al =>
      simp only [queued, List.mem_filter, mem_varsOf] at hvd
      exact hh _ hvd.1
    | id w =>
      simp only [queued] at hvd
      split at hvd
      · rw [List.mem_singleton] at hvd; subst hvd; exact hh
      · cases hvd
    | _ => simp [queued] at hvd

theorem assign_ok : ∀ {l : List Var} {m : Model}, m.WF → (∀ σ, m.Sol σ → ∀ v ∈ l, σ v = true) →
    (m.assign l).WF ∧ ∀ σ, (m.assign l).Sol σ ↔ m.Sol σ
  | [], m, hw, _ => ⟨hw, fun σ => Iff.rfl⟩
  | v :: l, m, hw, hq => by
    have hq' : ∀ σ, m.Sol σ → ∀ v ∈ l, σ v = true := fun σ h w hm => hq σ h w (List.mem_cons_of_mem _ hm)
    unfold Model.assign
    split
    · exact assign_ok hw hq'
    · split
      · rename_i hd
        have hs : ∀ σ, Model.Sol σ { m with dom := set m.dom v true } ↔ m.Sol σ := by
          intro σ
          unfold Model.Sol
          simp only [agrees_set (.inl hd)]
          constructor
          · rintro ⟨h1, ⟨h2, -⟩, h3⟩; exact ⟨h1, h2, h3⟩
          · rintro ⟨h1, h2, h3⟩; exact ⟨h1, ⟨h2, hq σ ⟨h1, h2, h3⟩ v (by simp)⟩, h3⟩
        have := assign_ok (l := l) (m := { m with dom := set m.dom v true }) hw
          (fun σ h w hm => hq' σ ((hs σ).1 h) w hm)
        exact ⟨this.1, fun σ => (this.2 σ).trans (hs σ)⟩
      · exact assign_ok hw hq'

theorem cleanup_wf {m : Model} (hw : m.WF) : m.cleanup.WF := by
  intro v
  have := hw v
  unfold cnt at this ⊢
  have h2 : (m.cleanup.items.filter (·.defines v)).length ≤ (m.items.filter (·.defines v)).length :=
    List.Sublist.length_le (List.Sublist.filter _ List.filter_sublist)
  have h3 : m.cleanup.rhs = m.rhs := rfl
  rw [h3]
  omega

/-- Every element of a top-level constraint has a domain or is a literal, and that is `true`. -/
def settled (dom : Var → Option Bool) : Item → Prop
  | .con (.conj al) => ∀ e ∈ al, elemVal dom e = some true
  | .con (.id v) => dom v = some true
  | _ => True

theorem cleanup_sol {σ : Asg} {m : Model} (h : ∀ it ∈ m.items, settled m.dom it) : m.cleanup.Sol σ ↔ m.Sol σ := by
  unfold Model.Sol Model.cleanup
  simp only
  constructor
  · rintro ⟨h1, h2, h3, h4, h5⟩
    refine ⟨h1, h2, h3, fun it hit => ?_, h5⟩
    cases ht : it.isTop with
    | false => exact h4 it (List.mem_filter.2 ⟨hit, by simp [ht]⟩)
    | true =>
      have hs := h it hit
      cases it with
      | defn v c => simp [Item.isTop] at ht
      | con c =>
        cases c with
        | conj al => exact fun e he => elemVal_eval h2 (hs e he)
        | id v => exact h2 v _ hs
        | _ => simp [Item.isTop] at ht
  · rintro ⟨h1, h2, h3, h4, h5⟩
    exact ⟨h1, h2, h3, fun it hit => h4 it (List.mem_filter.1 hit).1, h5⟩

theorem cleanup_sol_mono {σ : Asg} {m : Model} (h : m.Sol σ) : m.cleanup.Sol σ :=
  ⟨h.1, h.2.1, h.2.2.1, fun it hit => h.2.2.2.1 it (List.mem_filter.1 hit).1, h.2.2.2.2⟩

/-- **C39.** Every sequence of simplification steps, in whatever order the queues are processed, keeps exactly the
solutions of the flat model (all variables included). -/
theorem _root_.MZ.C39_steps {addr : Var → Nat} (ha : Function.Injective addr) {out : Var → Bool} {m m' : Model}
    (hw : m.WF) (h : Steps addr out m m') (σ : Asg) : m'.Sol σ ↔ m.Sol σ := (steps_ok ha hw h).2 σ

/-- **C39.** If the steps establish that the model has no solution, it has none; and the other way round a
solution of the model is never lost. -/
theorem _root_.MZ.C39_failed {addr : Var → Nat} (ha : Function.Injective addr) {out : Var → Bool} {m m' : Model}
    (hw : m.WF) (h : Steps addr out m m') (hf : m'.failed = true) (σ : Asg) : ¬m.Sol σ := by
  intro hs
  have := ((C39_steps ha hw h σ).2 hs).1
  rw [hf] at this
  cases this

/-- **C39.** No run of the optimiser loses a solution. -/
theorem _root_.MZ.C39_none_lost {addr : Var → Nat} (ha : Function.Injective addr) {out : Var → Bool} {m m' : Model}
    (hw : m.WF) (h : Run addr out m m') {σ : Asg} (hs : m.Sol σ) : m'.Sol σ := by
  obtain ⟨hq, h1, h2, h3⟩ := h
  obtain ⟨w1, s1⟩ := steps_ok ha hw h1
  obtain ⟨w2, s2⟩ := assign_ok w1 (fun σ h => queued_true hq ((s1 σ).1 h))
  obtain ⟨w3, s3⟩ := steps_ok ha w2 h2
  obtain ⟨w4, s4⟩ := steps_ok ha (cleanup_wf w3) h3
  exact (s4 σ).2 (cleanup_sol_mono ((s3 σ).2 ((s2 σ).2 ((s1 σ).2 hs))))

/-- **C39, partial.** A run of the optimiser keeps exactly the solutions, provided that the top-level constraints
removed by the clean up have become redundant by then: each of their elements is known to be true.  The code
does not check this, and it may fail, see `C39_literal_fails`, `C39_unified_fails` and `C39_refuted_fails`. -/
theorem _root_.MZ.C39_run_partial {addr : Var → Nat} (ha : Function.Injective addr) {out : Var → Bool} {m m1 m2 m3 : Model}
    {l : List Var} (hw : m.WF) (hq : Queued m l) (h1 : Steps addr out m m1) (h2 : Steps addr out (m1.assign l) m2)
    (hset : ∀ it ∈ m2.items, settled m2.dom it) (h3 : Steps addr out m2.cleanup m3) (σ : Asg) : m3.Sol σ ↔ m.Sol σ := by
  obtain ⟨w1, s1⟩ := steps_ok ha hw h1
  obtain ⟨w2, s2⟩ := assign_ok w1 (fun σ h => queued_true hq ((s1 σ).1 h))
  obtain ⟨w3, s3⟩ := steps_ok ha w2 h2
  obtain ⟨w4, s4⟩ := steps_ok ha (cleanup_wf w3) h3
  exact (s4 σ).trans ((cleanup_sol hset).trans ((s3 σ).trans ((s2 σ).trans (s1 σ))))

/-! ## Runs that add solutions -/

/-- A model with these items, no domains and no literals as right hand sides. -/
def start (items : List Item) : Model := ⟨fun _ => none, fun _ => none, items, [], false⟩

/-- **C39 fails** for a top-level conjunction of literals: `forall([false])` is removed. -/
theorem _root_.MZ.C39_literal_fails : ∃ m m' : Model, m.WF ∧ Run id (fun _ => false) m m' ∧ (∀ σ, ¬m.Sol σ) ∧ ∃ σ, m'.Sol σ := by
  refine ⟨start [.con (.conj [.lit false])], _, ?_, .mk (l := []) ?_ (.refl _) (.refl _) (.refl _), ?_, fun _ => false, ?_⟩
  · intro v; simp [cnt, start, Item.defines]
  · intro v hv; cases hv
  · rintro σ ⟨-, -, -, h, -⟩
    have h1 := h (.con (.conj [.lit false])) (by simp [start])
    exact Bool.false_ne_true (h1 (.lit false) (by simp))
  · refine ⟨rfl, fun v b h => ?_, fun v b h => ?_, fun it hit => ?_, fun p hp => ?_⟩
    · cases h
    · cases h
    · simp [Model.cleanup, Model.assign, start, Item.isTop] at hit
    · simp [Model.cleanup, Model.assign, start] at hp

/-- **C39 fails** for a variable that is redirected to another one after it was queued: `constraint x` and
`constraint bool_eq(x, y)` lose the information that `x` is true. -/
theorem _root_.MZ.C39_unified_fails : ∃ m m' : Model, m.WF ∧ Run id (fun _ => false) m m' ∧ (∀ σ, m.Sol σ → σ 1 = true) ∧
    ∃ σ, m'.Sol σ ∧ σ 1 = false := by
  refine ⟨start [.con (.id 0), .con (.eq (.var 0) (.var 1))], _, ?_,
    .mk (l := [0]) ?_ (.step (.refl _) (.unifyEq (pre := [.con (.id 0)]) (x := 0) (y := 1) (post := []) rfl (.inl rfl))) (.refl _) (.refl _),
    ?_, fun _ => false, ?_, rfl⟩
  · intro v; simp [cnt, start, Item.defines]
  · intro v hv
    rw [List.mem_singleton] at hv
    subst hv
    exact ⟨.con (.id 0), by simp [start], fun _ => none, by simp [queued]⟩
  · rintro σ ⟨-, -, -, h, -⟩
    have h1 : σ 0 = true := h (.con (.id 0)) (by simp [start])
    have h2 : σ 0 = σ 1 := h (.con (.eq (.var 0) (.var 1))) (by simp [start])
    rw [← h2, h1]
  · refine ⟨rfl, fun v b h => ?_, fun v b h => ?_, fun it hit => ?_, fun p hp => rfl⟩
    · simp [Model.cleanup, Model.assign, Model.unify, start] at h
    · simp [Model.cleanup, Model.assign, Model.unify, start] at h
    · simp [Model.cleanup, Model.assign, Model.unify, start, Item.isTop, Model.hasRhs, Item.subst, Con.subst, Item.selfAlias,
        Item.defines] at hit

/-- **C39 fails** for a variable that is fixed to false by another constraint after it was queued: of
`constraint x` and `constraint clause([], [x])` only the latter has an effect, and the model gets a solution. -/
theorem _root_.MZ.C39_refuted_fails : ∃ m m' : Model, m.WF ∧ Run id (fun _ => false) m m' ∧ (∀ σ, ¬m.Sol σ) ∧ ∃ σ, m'.Sol σ := by
  have hp : Step id (fun _ => false) (start [.con (.id 0), .con (.clause [] [.var 0])])
      ⟨set (fun _ => none) 0 false, set (fun _ => none) 0 false, [.con (.id 0)], [], false⟩ := by
    have h1 := Step.phase2 (addr := id) (out := fun _ => false) (m := start [.con (.id 0), .con (.clause [] [.var 0])])
      (pre := [.con (.id 0)]) (it := .con (.clause [] [.var 0])) (post := []) rfl
    have h2 : phase2 id (start [.con (.id 0), .con (.clause [] [.var 0])]).hasRhs (fun _ => none) (fun _ => none)
        (.con (.clause [] [.var 0])) = ⟨set (fun _ => none) 0 false, set (fun _ => none) 0 false, none, false, none⟩ := by
      simp [phase2, Item.expr, Con.args, subsumed, tautology, openIn, sort, common, elemVal2, openElems, Model.hasRhs, start,
        Item.defines]
    rw [show (start [.con (.id 0), .con (.clause [] [.var 0])]).dom = fun _ => none from rfl,
      show (start [.con (.id 0), .con (.clause [] [.var 0])]).rhs = fun _ => none from rfl, h2] at h1
    exact h1
  refine ⟨start [.con (.id 0), .con (.clause [] [.var 0])], _, ?_,
    .mk (l := [0]) ?_ (.step (.refl _) hp)
      (.step (.refl _) (.bool (pre := []) (it := .con (.id 0)) (post := []) (vd := 0) (t := false) 0 rfl rfl
        (by intro w h; cases h; rfl))) (.refl _),
    ?_, fun _ => false, ?_⟩
  · intro v; simp [cnt, start, Item.defines]
  · intro v hv
    rw [List.mem_singleton] at hv
    subst hv
    exact ⟨.con (.id 0), by simp [start], fun _ => none, by simp [queued]⟩
  · rintro σ ⟨-, -, -, h, -⟩
    have h1 : σ 0 = true := h (.con (.id 0)) (by simp [start])
    have h2 := h (.con (.clause [] [.var 0])) (by simp [start])
    rcases h2 with ⟨e, he, -⟩ | ⟨e, he, h2⟩
    · cases he
    · rw [List.mem_singleton] at he
      subst he
      rw [Elem.eval, h1] at h2
      cases h2
  · have hdom : ∀ v b, (set (fun _ => none) 0 false : Var → Option Bool) v = some b → false = b := by
      intro v b h
      unfold set at h
      split at h
      · simpa using h
      · cases h
    refine ⟨rfl, fun v b h => hdom v b h, fun v b h => hdom v b h, ⟨fun it hit => ?_, fun p hp => ?_⟩⟩
    · exact absurd (show it ∈ ([] : List Item) from hit) List.not_mem_nil
    · exact absurd (show p ∈ ([] : List (Var × Var)) from hp) List.not_mem_nil

/-! ## The hypotheses can be met -/

/-- `clause([x], [y])`, `y` fixed to true, `b <-> exists([x, z])`: two steps fix `x` and `b`. -/
example : ∃ m m' : Model, m.WF ∧ Steps id (fun _ => false) m m' ∧ m'.dom 0 = some true ∧ m'.dom 2 = some true ∧
    m.dom 2 = none ∧ ∃ σ, m.Sol σ := by
  let m : Model := ⟨set (fun _ => none) 1 true, fun _ => none, [.con (.clause [.var 0] [.var 1]), .defn 2 (.disj [.var 0, .var 3])], [], false⟩
  refine ⟨m, _, ?_, .step (.step (.refl _) (.bool (pre := []) (vd := 1) (t := true) 1 rfl rfl (by intro w h; cases h)))
    (.bool (pre := [.con (.clause [.var 0] [.var 1])]) (it := .defn 2 (.disj [.var 0, .var 3])) (post := []) (vd := 0) (t := true) 1
      rfl rfl (by intro w h; cases h)), rfl, rfl, rfl, fun _ => true, ?_⟩
  · intro v
    by_cases h : (2 : Nat) = v <;> simp [cnt, m, Item.defines, h]
  · refine ⟨rfl, fun v b h => ?_, fun v b h => ?_, fun it hit => ?_, fun p hp => ?_⟩
    · simp only [m, set] at h
      split at h
      · simpa using h
      · cases h
    · cases h
    · simp only [m, List.mem_cons, List.not_mem_nil, or_false] at hit
      rcases hit with rfl | rfl
      · exact .inl ⟨.var 0, by simp, rfl⟩
      · exact iff_of_true rfl ⟨.var 0, by simp, rfl⟩
    · cases hp

/-- A run in which the condition of `C39_run_partial` holds: `constraint forall([x, y])`. -/
example : ∃ m m' : Model, m.WF ∧ Run id (fun _ => false) m m' ∧ (∀ it ∈ (m.assign [0, 1]).items, settled (m.assign [0, 1]).dom it) ∧
    m'.dom 0 = some true ∧ m'.items = [] := by
  refine ⟨start [.con (.conj [.var 0, .var 1])], _, ?_, .mk (l := [0, 1]) ?_ (.refl _) (.refl _) (.refl _), ?_, rfl, rfl⟩
  · intro v; simp [cnt, start, Item.defines]
  · intro v hv
    exact ⟨_, by simp [start]; rfl, fun _ => none, by simpa [queued, varsOf] using hv⟩
  · intro it hit
    have : it = .con (.conj [.var 0, .var 1]) := List.mem_singleton.1 hit
    subst this
    intro e he
    simp only [List.mem_cons, List.not_mem_nil, or_false] at he
    rcases he with rfl | rfl <;> rfl

end BoolOpt
end MZ
