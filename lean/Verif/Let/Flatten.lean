import Verif.Let.Basic
/-!
# Flattening let expressions keeps their meaning
-/
namespace MZ
namespace Let
open BoolFlat (BCtx Cmp)

/-- What is said of an integer expression. In positive contexts a solution of the flat model gives a value, in negative ones a value is
that of all solutions. -/
structure PI (c : BCtx) (t : IE) (st st' : St) (r b : Atom) : Prop where
  grow : Grow st st'
  fl : st'.fl = st.fl
  ltr : r.Lt st'.decls.length
  ltb : b.Lt st'.decls.length
  sound : c ≠ .neg → ∀ σ ρ, Ok σ st' → Env st σ ρ → b.tr σ → t.Val ρ (r.val σ)
  exact : c = .neg ∨ c = .mix → ∀ σ ρ v, Ok σ st' → Env st σ ρ → t.Val ρ v → b.tr σ ∧ r.val σ = v
  yes : ∀ σ ρ v, Ok σ st → Env st σ ρ → t.Val ρ v → ∃ σ', Agree st.decls.length σ σ' ∧ Ok σ' st' ∧ b.tr σ' ∧ r.val σ' = v
  no : c ≠ .root → ∀ σ ρ, Ok σ st → Env st σ ρ → (¬ ∃ v, t.Val ρ v) → ∃ σ', Agree st.decls.length σ σ' ∧ Ok σ' st' ∧ ¬ b.tr σ'

/-- The truth of an expression by the flat expression for it, which is negated if `neg`. -/
def Inner (neg : Bool) (σ : Nat → Int) (a : Atom) : Prop := a.tr σ ↔ neg = false

/-- What is said of a Boolean expression. -/
structure PB (c : BCtx) (neg tru : Bool) (e : BE) (st st' : St) (a : Atom) : Prop where
  grow : Grow st st'
  fl : st'.fl = st.fl
  lt : a.Lt st'.decls.length
  one : tru = true → a = .lit 1
  bool : ∀ σ, Ok σ st' → a.val σ = 0 ∨ a.val σ = 1
  sound : c ≠ .neg → ∀ σ ρ, Ok σ st' → Env st σ ρ → Inner neg σ a → e.True ρ
  exact : c = .neg ∨ c = .mix → ∀ σ ρ, Ok σ st' → Env st σ ρ → e.True ρ → Inner neg σ a
  yes : ∀ σ ρ, Ok σ st → Env st σ ρ → e.True ρ → (tru = true → neg = false) →
    ∃ σ', Agree st.decls.length σ σ' ∧ Ok σ' st' ∧ Inner neg σ' a
  no : ∀ σ ρ, Ok σ st → Env st σ ρ → ¬ e.True ρ → (tru = true → neg = true) →
    ∃ σ', Agree st.decls.length σ σ' ∧ Ok σ' st' ∧ ¬ Inner neg σ' a

/-- What is said of the items of a let. -/
structure PIt (c : BCtx) (its : Items) (st st' : St) (cs : List Atom) (sv : List (Nat × Atom)) : Prop where
  grow : Grow st st'
  lt : ∀ a ∈ cs, a.Lt st'.decls.length
  names : sv.map (·.1) = its.names
  other : ∀ y, y ∉ its.names → st'.fl y = st.fl y
  saved : its.names.Nodup → ∀ x a, (x, a) ∈ sv → a = st.fl x
  sound : c ≠ .neg → ∀ σ ρ, Ok σ st' → Env st σ ρ → (∀ a ∈ cs, a.tr σ) → ∃ ρ', its.Binds ρ ρ' ∧ Env st' σ ρ'
  exact : c = .neg ∨ c = .mix → ∀ σ ρ ρ', Ok σ st' → Env st σ ρ → its.Binds ρ ρ' → (∀ a ∈ cs, a.tr σ) ∧ Env st' σ ρ'
  yes : ∀ σ ρ ρ', Ok σ st → Env st σ ρ → its.Binds ρ ρ' →
    ∃ σ', Agree st.decls.length σ σ' ∧ Ok σ' st' ∧ (∀ a ∈ cs, a.tr σ') ∧ Env st' σ' ρ'
  no : c ≠ .root → ∀ σ ρ, Ok σ st → Env st σ ρ → (¬ ∃ ρ', its.Binds ρ ρ') →
    ∃ σ', Agree st.decls.length σ σ' ∧ Ok σ' st' ∧ ¬ ∀ a ∈ cs, a.tr σ'

theorem env_self (st : St) (σ : Nat → Int) : Env st σ fun x => (st.fl x).val σ := fun _ => rfl

theorem PI.total {c : BCtx} {t : IE} {st st' : St} {r b : Atom} (h : PI c t st st' r b) (hc : c ≠ .root) {σ : Nat → Int} (ho : Ok σ st) :
    ∃ σ', Agree st.decls.length σ σ' ∧ Ok σ' st' := by
  by_cases hv : ∃ v, t.Val (fun x => (st.fl x).val σ) v
  · obtain ⟨v, hv⟩ := hv
    obtain ⟨σ', h1, h2, _⟩ := h.yes σ _ v ho (env_self st σ) hv
    exact ⟨σ', h1, h2⟩
  · obtain ⟨σ', h1, h2, _⟩ := h.no hc σ _ ho (env_self st σ) hv
    exact ⟨σ', h1, h2⟩

theorem PB.total {c : BCtx} {neg : Bool} {e : BE} {st st' : St} {a : Atom} (h : PB c neg false e st st' a) {σ : Nat → Int}
    (ho : Ok σ st) : ∃ σ', Agree st.decls.length σ σ' ∧ Ok σ' st' := by
  by_cases hv : e.True (fun x => (st.fl x).val σ)
  · obtain ⟨σ', h1, h2, _⟩ := h.yes σ _ ho (env_self st σ) hv (by simp)
    exact ⟨σ', h1, h2⟩
  · obtain ⟨σ', h1, h2, _⟩ := h.no σ _ ho (env_self st σ) hv (by simp)
    exact ⟨σ', h1, h2⟩

theorem PIt.total {c : BCtx} {its : Items} {st st' : St} {cs : List Atom} {sv : List (Nat × Atom)} (h : PIt c its st st' cs sv)
    (hc : c ≠ .root) {σ : Nat → Int} (ho : Ok σ st) : ∃ σ', Agree st.decls.length σ σ' ∧ Ok σ' st' := by
  by_cases hv : ∃ ρ', its.Binds (fun x => (st.fl x).val σ) ρ'
  · obtain ⟨ρ', hv⟩ := hv
    obtain ⟨σ', h1, h2, _⟩ := h.yes σ _ ρ' ho (env_self st σ) hv
    exact ⟨σ', h1, h2⟩
  · obtain ⟨σ', h1, h2, _⟩ := h.no hc σ _ ho (env_self st σ) hv
    exact ⟨σ', h1, h2⟩

/-- `out_spec` with the truth of the result. -/
theorem out_yes {st : St} (h : WF st) {d : Def} (hd : d.Lt st.decls.length) (tru : Bool) (P : (Nat → Int) → Prop)
    (hP : ∀ σ, d.Prop? σ = some (P σ)) {σ : Nat → Int} (ho : Ok σ st) (ht : tru = true → P σ) :
    ∃ σ', Agree st.decls.length σ σ' ∧ Ok σ' (out tru st d).1 ∧ ((out tru st d).2.tr σ' ↔ P σ) := by
  obtain ⟨_, _, _, _, h5, h6⟩ := out_spec h hd tru P hP
  obtain ⟨σ', k1, k2⟩ := h6 σ ho ht
  refine ⟨σ', k1, k2, (h5 σ' k2).1.trans ?_⟩
  have h1 := Def.holds_agree k1 hd 1
  rw [Def.holds_iff (hP σ'), Def.holds_iff (hP σ)] at h1
  simpa using h1

/-- The last step of a Boolean expression: `Q`, the truth of the expression, is that of the definition or its negation. -/
theorem PB.of_def {c : BCtx} {neg tru : Bool} {e : BE} {st st1 : St} {d : Def} (hg : Grow st st1) (hf : st1.fl = st.fl)
    (hd : d.Lt st1.decls.length) (P Q : (Nat → Int) → Prop) (hP : ∀ σ, d.Prop? σ = some (P σ)) (hQ : ∀ σ, Q σ ↔ (P σ ↔ neg = false))
    (hroot : c = .root → tru = true ∧ neg = false)
    (hs : c ≠ .neg → ∀ σ ρ, Ok σ st1 → Env st σ ρ → Q σ → e.True ρ)
    (he : c = .neg ∨ c = .mix → ∀ σ ρ, Ok σ st1 → Env st σ ρ → e.True ρ → Q σ)
    (hy : ∀ σ ρ, Ok σ st → Env st σ ρ → e.True ρ → ∃ σ', Agree st.decls.length σ σ' ∧ Ok σ' st1 ∧ Q σ')
    (hn : c ≠ .root → ∀ σ ρ, Ok σ st → Env st σ ρ → ¬ e.True ρ → ∃ σ', Agree st.decls.length σ σ' ∧ Ok σ' st1 ∧ ¬ Q σ') :
    PB c neg tru e st (out tru st1 d).1 (out tru st1 d).2 := by
  obtain ⟨h1, h2, h3, h4, h5, _⟩ := out_spec hg.wf hd tru P hP
  refine ⟨hg.trans h1, h2.trans hf, h3, h4, fun σ ho => (h5 σ ho).2, ?_, ?_, ?_, ?_⟩
  · intro hc σ ρ ho hv hi
    refine hs hc σ ρ (h1.ok ho) hv ((hQ σ).mpr ?_)
    rw [← (h5 σ ho).1]; exact hi
  · intro hc σ ρ ho hv ht
    have := (hQ σ).mp (he hc σ ρ (h1.ok ho) hv ht)
    rw [← (h5 σ ho).1] at this
    exact this
  · intro σ ρ ho hv ht htn
    obtain ⟨σ1, k1, k2, k3⟩ := hy σ ρ ho hv ht
    have k4 := (hQ σ1).mp k3
    obtain ⟨σ2, g1, g2, g3⟩ := out_yes hg.wf hd tru P hP k2 (fun e => k4.mpr (htn e))
    exact ⟨σ2, k1.trans g1 hg.len, g2, g3.trans k4⟩
  · intro σ ρ ho hv ht htn
    have hc : c ≠ .root := by
      intro e
      obtain ⟨e1, e2⟩ := hroot e
      have := htn e1
      rw [e2] at this
      cases this
    obtain ⟨σ1, k1, k2, k3⟩ := hn hc σ ρ ho hv ht
    rw [hQ] at k3
    obtain ⟨σ2, g1, g2, g3⟩ := out_yes hg.wf hd tru P hP k2 (fun e => by
      have := htn e
      subst this
      by_contra hp
      exact k3 (by simp [hp]))
    refine ⟨σ2, k1.trans g1 hg.len, g2, fun hi => k3 ?_⟩
    rw [← g3]; exact hi

/-- Two integer expressions one after the other. -/
theorem pair {c : BCtx} {s t : IE} {st st1 st2 : St} {a1 b1 a2 b2 : Atom} (h1 : PI c s st st1 a1 b1) (h2 : PI c t st1 st2 a2 b2) :
    Grow st st2 ∧ st2.fl = st.fl ∧ a1.Lt st2.decls.length ∧ b1.Lt st2.decls.length ∧
    (c ≠ .neg → ∀ σ ρ, Ok σ st2 → Env st σ ρ → b1.tr σ → b2.tr σ → s.Val ρ (a1.val σ) ∧ t.Val ρ (a2.val σ)) ∧
    (c = .neg ∨ c = .mix → ∀ σ ρ v w, Ok σ st2 → Env st σ ρ → s.Val ρ v → t.Val ρ w →
      b1.tr σ ∧ b2.tr σ ∧ a1.val σ = v ∧ a2.val σ = w) ∧
    (∀ σ ρ v w, Ok σ st → Env st σ ρ → s.Val ρ v → t.Val ρ w →
      ∃ σ', Agree st.decls.length σ σ' ∧ Ok σ' st2 ∧ b1.tr σ' ∧ b2.tr σ' ∧ a1.val σ' = v ∧ a2.val σ' = w) ∧
    (c ≠ .root → ∀ σ ρ, Ok σ st → Env st σ ρ → (¬ ∃ v w, s.Val ρ v ∧ t.Val ρ w) →
      ∃ σ', Agree st.decls.length σ σ' ∧ Ok σ' st2 ∧ ¬ (b1.tr σ' ∧ b2.tr σ')) := by
  have hl := h2.grow.len
  refine ⟨h1.grow.trans h2.grow, h2.fl.trans h1.fl, h1.ltr.mono hl, h1.ltb.mono hl, ?_, ?_, ?_, ?_⟩
  · intro hc σ ρ ho hv t1 t2
    exact ⟨h1.sound hc σ ρ (h2.grow.ok ho) hv t1, h2.sound hc σ ρ ho (hv.fl h1.fl) t2⟩
  · intro hc σ ρ v w ho hv k1 k2
    obtain ⟨g1, g2⟩ := h1.exact hc σ ρ v (h2.grow.ok ho) hv k1
    obtain ⟨g3, g4⟩ := h2.exact hc σ ρ w ho (hv.fl h1.fl) k2
    exact ⟨g1, g3, g2, g4⟩
  · intro σ ρ v w ho hv k1 k2
    obtain ⟨σ1, g1, g2, g3, g4⟩ := h1.yes σ ρ v ho hv k1
    obtain ⟨σ2, k1, k2, k3, k4⟩ := h2.yes σ1 ρ w g2 ((hv.agree h1.grow.wf0 g1).fl h1.fl) k2
    exact ⟨σ2, g1.trans k1 h1.grow.len, k2, (Atom.tr_agree k1 h1.ltb).mpr g3, k3, (Atom.val_agree k1 h1.ltr).trans g4, k4⟩
  · intro hc σ ρ ho hv hn
    by_cases hs : ∃ v, s.Val ρ v
    · obtain ⟨v, hs⟩ := hs
      obtain ⟨σ1, g1, g2, g3, g4⟩ := h1.yes σ ρ v ho hv hs
      obtain ⟨σ2, k1, k2, k3⟩ := h2.no hc σ1 ρ g2 ((hv.agree h1.grow.wf0 g1).fl h1.fl) (fun ⟨w, hw⟩ => hn ⟨v, w, hs, hw⟩)
      exact ⟨σ2, g1.trans k1 h1.grow.len, k2, fun h => k3 h.2⟩
    · obtain ⟨σ1, g1, g2, g3⟩ := h1.no hc σ ρ ho hv hs
      obtain ⟨σ2, k1, k2⟩ := h2.total hc g2
      exact ⟨σ2, g1.trans k1 h1.grow.len, k2, fun h => g3 ((Atom.tr_agree k1 h1.ltb).mp h.1)⟩

/-- The definedness of an integer expression. -/
theorem PI.of_conj {c : BCtx} {t : IE} {st st1 : St} {r : Atom} {cs : List Atom} (hg : Grow st st1) (hf : st1.fl = st.fl)
    (hr : r.Lt st1.decls.length) (hcs : ∀ a ∈ cs, a.Lt st1.decls.length)
    (hs : c ≠ .neg → ∀ σ ρ, Ok σ st1 → Env st σ ρ → (∀ a ∈ cs, a.tr σ) → t.Val ρ (r.val σ))
    (he : c = .neg ∨ c = .mix → ∀ σ ρ v, Ok σ st1 → Env st σ ρ → t.Val ρ v → (∀ a ∈ cs, a.tr σ) ∧ r.val σ = v)
    (hy : ∀ σ ρ v, Ok σ st → Env st σ ρ → t.Val ρ v →
      ∃ σ', Agree st.decls.length σ σ' ∧ Ok σ' st1 ∧ (∀ a ∈ cs, a.tr σ') ∧ r.val σ' = v)
    (hn : c ≠ .root → ∀ σ ρ, Ok σ st → Env st σ ρ → (¬ ∃ v, t.Val ρ v) →
      ∃ σ', Agree st.decls.length σ σ' ∧ Ok σ' st1 ∧ ¬ ∀ a ∈ cs, a.tr σ') :
    PI c t st (conj false (c = .root) cs st1).1 r (conj false (c = .root) cs st1).2 := by
  have hP : ∀ σ, (Def.conj false cs).Prop? σ = some (∀ a ∈ cs, a.tr σ) := by intro σ; simp [Def.Prop?]
  have hd : (Def.conj false cs).Lt st1.decls.length := hcs
  obtain ⟨h1, h2, h3, h4, h5, _⟩ := out_spec hg.wf hd (decide (c = .root)) _ hP
  refine ⟨hg.trans h1, h2.trans hf, hr.mono h1.len, h3, ?_, ?_, ?_, ?_⟩
  · intro hc σ ρ ho hv hb
    exact hs hc σ ρ (h1.ok ho) hv ((h5 σ ho).1.mp hb)
  · intro hc σ ρ v ho hv ht
    obtain ⟨k1, k2⟩ := he hc σ ρ v (h1.ok ho) hv ht
    exact ⟨(h5 σ ho).1.mpr k1, k2⟩
  · intro σ ρ v ho hv ht
    obtain ⟨σ1, k1, k2, k3, k4⟩ := hy σ ρ v ho hv ht
    obtain ⟨σ2, g1, g2, g3⟩ := out_yes hg.wf hd (decide (c = .root)) _ hP k2 (fun _ => k3)
    exact ⟨σ2, k1.trans g1 hg.len, g2, g3.mpr k3, (Atom.val_agree g1 hr).trans k4⟩
  · intro hc σ ρ ho hv ht
    obtain ⟨σ1, k1, k2, k3⟩ := hn hc σ ρ ho hv ht
    obtain ⟨σ2, g1, g2, g3⟩ := out_yes hg.wf hd (decide (c = .root)) _ hP k2 (fun e => absurd (of_decide_eq_true e) hc)
    exact ⟨σ2, k1.trans g1 hg.len, g2, fun h => k3 (g3.mp h)⟩

theorem PIt.restore {c : BCtx} {its : Items} {st st1 : St} {cs : List Atom} {sv : List (Nat × Atom)} (h : PIt c its st st1 cs sv)
    (hn : its.names.Nodup) {st2 : St} (hf : st2.fl = st1.fl) : (Let.restore st2 sv).fl = st.fl := by
  funext y
  by_cases hy : y ∈ its.names
  · rw [← h.names] at hy
    obtain ⟨⟨x, a⟩, hm, e⟩ := List.mem_map.mp hy
    simp only at e
    subst e
    rw [restore_mem sv st2 (by rw [h.names]; exact hn) x a hm]
    exact h.saved hn x a hm
  · rw [restore_not_mem sv st2 y (by rw [h.names]; exact hy), hf]
    exact h.other y hy

theorem restore_grow {st st2 : St} (h : Grow st st2) {sv : List (Nat × Atom)} (hf : (restore st2 sv).fl = st.fl) : Grow st (restore st2 sv) := by
  obtain ⟨h1, h2⟩ := restore_decls sv st2
  refine ⟨by rw [h1]; exact h.decls, by rw [h2]; exact h.cons, h.wf0, ?_, ?_, ?_⟩
  · rw [h1]; exact h.wf.decls
  · rw [h1, h2]; exact h.wf.cons
  · rw [h1, hf]; exact fun x => (h.wf0.fl x).mono h.len

theorem restore_out (tru : Bool) (d : Def) : ∀ (sv : List (Nat × Atom)) (st : St),
    restore (out tru st d).1 sv = (out tru (restore st sv) d).1 ∧ (out tru st d).2 = (out tru (restore st sv) d).2
  | [], _ => ⟨rfl, rfl⟩
  | (x, a) :: r, st => by
    have h : setFl (out tru st d).1 x a = (out tru (setFl st x a) d).1 := by cases tru <;> rfl
    have h' : (out tru st d).2 = (out tru (setFl st x a) d).2 := by cases tru <;> rfl
    rw [restore, h, h']
    exact restore_out tru d r (setFl st x a)

/-- What is required of the context. -/
def Pre (c : BCtx) (neg tru : Bool) : Prop :=
  (c = .root → tru = true ∧ neg = false) ∧ (tru = true → neg = true → c = .neg) ∧ (tru = true → neg = false → c = .root ∨ c = .pos)

theorem inner_conj {neg : Bool} {Q : Prop} : Q ↔ ((Q ↔ neg = false) ↔ neg = false) := by
  cases neg <;> simp

/-- What is said of the part of an item that gives a declaration its value. -/
structure PS (c : BCtx) (V : (Nat → Int) → Int → Prop) (st st' : St) (r : Atom) (cs : List Atom) : Prop where
  grow : Grow st st'
  fl : st'.fl = st.fl
  ltr : r.Lt st'.decls.length
  lt : ∀ a ∈ cs, a.Lt st'.decls.length
  sound : c ≠ .neg → ∀ σ ρ, Ok σ st' → Env st σ ρ → (∀ a ∈ cs, a.tr σ) → V ρ (r.val σ)
  exact : c = .neg ∨ c = .mix → ∀ σ ρ v, Ok σ st' → Env st σ ρ → V ρ v → (∀ a ∈ cs, a.tr σ) ∧ r.val σ = v
  yes : ∀ σ ρ v, Ok σ st → Env st σ ρ → V ρ v → ∃ σ', Agree st.decls.length σ σ' ∧ Ok σ' st' ∧ (∀ a ∈ cs, a.tr σ') ∧ r.val σ' = v
  no : c ≠ .root → ∀ σ ρ, Ok σ st → Env st σ ρ → (¬ ∃ v, V ρ v) →
    ∃ σ', Agree st.decls.length σ σ' ∧ Ok σ' st' ∧ ¬ ∀ a ∈ cs, a.tr σ'

theorem PIt.cons {c : BCtx} {V : (Nat → Int) → Int → Prop} {st st1 st2 : St} {a : Atom} {cs cs' : List Atom} {sv : List (Nat × Atom)}
    {x : Nat} {r its : Items} (h1 : PS c V st st1 a cs) (h2 : PIt c r (setFl st1 x a) st2 cs' sv) (hn : its.names = x :: r.names)
    (hb : ∀ ρ ρ', its.Binds ρ ρ' ↔ ∃ v, V ρ v ∧ r.Binds (upd ρ x v) ρ') : PIt c its st st2 (cs ++ cs') ((x, st.fl x) :: sv) := by
  have g1 : Grow st (setFl st1 x a) := setFl_grow h1.grow x h1.ltr
  have hlen : (setFl st1 x a).decls.length = st1.decls.length := rfl
  have henv : ∀ σ ρ, Env st σ ρ → Env (setFl st1 x a) σ (upd ρ x (a.val σ)) := fun σ ρ hv => setFl_env (hv.fl h1.fl)
  have henv' : ∀ σ σ' ρ, Env st σ ρ → Agree st.decls.length σ σ' → Env st σ' ρ := fun σ σ' ρ hv ha => hv.agree h1.grow.wf0 ha
  refine ⟨g1.trans h2.grow, ?_, ?_, ?_, ?_, ?_, ?_, ?_, ?_⟩
  · intro b hb'
    rcases List.mem_append.mp hb' with hb' | hb'
    · exact (h1.lt b hb').mono h2.grow.len
    · exact h2.lt b hb'
  · simp [h2.names, hn]
  · intro y hy
    rw [hn, List.mem_cons, not_or] at hy
    rw [h2.other y hy.2]
    simp [setFl, hy.1, h1.fl]
  · intro hnd y b hyb
    rw [hn, List.nodup_cons] at hnd
    rcases List.mem_cons.mp hyb with e | e
    · cases e; rfl
    · have hy : y ∈ r.names := by rw [← h2.names]; exact List.mem_map.mpr ⟨_, e, rfl⟩
      have hne : y ≠ x := fun e => hnd.1 (e ▸ hy)
      rw [h2.saved hnd.2 y b e]
      simp [setFl, hne, h1.fl]
  · intro hc σ ρ ho hv hcs
    have k1 := h1.sound hc σ ρ (h2.grow.ok ho) hv (fun b hb' => hcs b (List.mem_append_left _ hb'))
    obtain ⟨ρ', k2, k3⟩ := h2.sound hc σ _ ho (henv σ ρ hv) (fun b hb' => hcs b (List.mem_append_right _ hb'))
    exact ⟨ρ', (hb ρ ρ').mpr ⟨_, k1, k2⟩, k3⟩
  · intro hc σ ρ ρ' ho hv hbd
    obtain ⟨v, k1, k2⟩ := (hb ρ ρ').mp hbd
    obtain ⟨q1, rfl⟩ := h1.exact hc σ ρ v (h2.grow.ok ho) hv k1
    obtain ⟨q2, q3⟩ := h2.exact hc σ _ ρ' ho (henv σ ρ hv) k2
    refine ⟨fun b hb' => ?_, q3⟩
    rcases List.mem_append.mp hb' with hb' | hb'
    · exact q1 b hb'
    · exact q2 b hb'
  · intro σ ρ ρ' ho hv hbd
    obtain ⟨v, k1, k2⟩ := (hb ρ ρ').mp hbd
    obtain ⟨σ1, q1, q2, q3, rfl⟩ := h1.yes σ ρ v ho hv k1
    obtain ⟨σ2, s1, s2, s3, s4⟩ := h2.yes σ1 _ ρ' q2 (henv σ1 ρ (henv' σ σ1 ρ hv q1)) k2
    refine ⟨σ2, q1.trans s1 h1.grow.len, s2, fun b hb' => ?_, s4⟩
    rcases List.mem_append.mp hb' with hb' | hb'
    · exact (Atom.tr_agree s1 (h1.lt b hb')).mpr (q3 b hb')
    · exact s3 b hb'
  · intro hc σ ρ ho hv hnb
    by_cases hV : ∃ v, V ρ v
    · obtain ⟨v, hV⟩ := hV
      obtain ⟨σ1, q1, q2, q3, rfl⟩ := h1.yes σ ρ v ho hv hV
      obtain ⟨σ2, s1, s2, s3⟩ := h2.no hc σ1 _ q2 (henv σ1 ρ (henv' σ σ1 ρ hv q1)) (fun ⟨ρ', k⟩ => hnb ⟨ρ', (hb ρ ρ').mpr ⟨_, hV, k⟩⟩)
      exact ⟨σ2, q1.trans s1 h1.grow.len, s2, fun hx => s3 fun b hb' => hx b (List.mem_append_right _ hb')⟩
    · obtain ⟨σ1, q1, q2, q3⟩ := h1.no hc σ ρ ho hv hV
      obtain ⟨σ2, s1, s2⟩ := h2.total hc (σ := σ1) q2
      refine ⟨σ2, q1.trans s1 h1.grow.len, s2, fun hx => q3 fun b hb' => ?_⟩
      exact (Atom.tr_agree s1 (h1.lt b hb')).mp (hx b (List.mem_append_left _ hb'))

theorem PS.of_int {c : BCtx} {t : IE} {st st1 : St} {a b : Atom} (h : PI c t st st1 a b) : PS c (fun ρ v => t.Val ρ v) st st1 a [b] := by
  refine ⟨h.grow, h.fl, h.ltr, by simpa using h.ltb, ?_, ?_, ?_, ?_⟩
  · intro hc σ ρ ho hv hb; exact h.sound hc σ ρ ho hv (hb b (by simp))
  · intro hc σ ρ v ho hv k; simpa using h.exact hc σ ρ v ho hv k
  · intro σ ρ v ho hv k; simpa using h.yes σ ρ v ho hv k
  · intro hc σ ρ ho hv k; simpa using h.no hc σ ρ ho hv k

theorem PS.of_dom {c : BCtx} {t : IE} {st st1 : St} {a b : Atom} (h : PI c t st st1 a b) (dom : List Int) :
    PS c (fun ρ v => t.Val ρ v ∧ v ∈ dom) st (out (decide (c = .root)) st1 (.mem a dom)).1 a
      [b, (out (decide (c = .root)) st1 (.mem a dom)).2] := by
  obtain ⟨o1, o2, o3, o4, o5, o6⟩ := out_spec h.grow.wf (d := .mem a dom) h.ltr (decide (c = .root)) (fun σ => a.val σ ∈ dom) (fun σ => rfl)
  refine ⟨h.grow.trans o1, o2.trans h.fl, h.ltr.mono o1.len, ?_, ?_, ?_, ?_, ?_⟩
  · intro x hx
    simp only [List.mem_cons, List.not_mem_nil, or_false] at hx
    rcases hx with rfl | rfl
    · exact h.ltb.mono o1.len
    · exact o3
  · intro hc σ ρ ho hv hb
    exact ⟨h.sound hc σ ρ (o1.ok ho) hv (hb b (by simp)), (o5 σ ho).1.mp (hb _ (by simp))⟩
  · rintro hc σ ρ v ho hv ⟨k1, k2⟩
    obtain ⟨q1, rfl⟩ := h.exact hc σ ρ v (o1.ok ho) hv k1
    have := (o5 σ ho).1.mpr k2
    exact ⟨by simpa using ⟨q1, this⟩, rfl⟩
  · rintro σ ρ v ho hv ⟨k1, k2⟩
    obtain ⟨σ1, q1, q2, q3, rfl⟩ := h.yes σ ρ v ho hv k1
    obtain ⟨σ2, s1, s2⟩ := o6 σ1 q2 (fun _ => k2)
    have e := Atom.val_agree s1 h.ltr
    have t2 := (o5 σ2 s2).1.mpr (by rw [e]; exact k2)
    exact ⟨σ2, q1.trans s1 h.grow.len, s2, by simpa using ⟨(Atom.tr_agree s1 h.ltb).mpr q3, t2⟩, e⟩
  · intro hc σ ρ ho hv hn
    have hd : ∀ {P : Prop}, decide (c = .root) = true → P := fun e => absurd (of_decide_eq_true e) hc
    by_cases hV : ∃ v, t.Val ρ v
    · obtain ⟨v, hV⟩ := hV
      obtain ⟨σ1, q1, q2, q3, rfl⟩ := h.yes σ ρ v ho hv hV
      obtain ⟨σ2, s1, s2⟩ := o6 σ1 q2 hd
      refine ⟨σ2, q1.trans s1 h.grow.len, s2, fun hx => hn ⟨_, hV, ?_⟩⟩
      have := (o5 σ2 s2).1.mp (hx _ (by simp))
      rwa [Atom.val_agree s1 h.ltr] at this
    · obtain ⟨σ1, q1, q2, q3⟩ := h.no hc σ ρ ho hv hV
      obtain ⟨σ2, s1, s2⟩ := o6 σ1 q2 hd
      exact ⟨σ2, q1.trans s1 h.grow.len, s2, fun hx => q3 ((Atom.tr_agree s1 h.ltb).mp (hx b (by simp)))⟩

open Classical in
theorem PS.of_bool {c : BCtx} {e : BE} {st st1 : St} {a : Atom} (h : PB .mix false false e st st1 a) :
    PS c (fun ρ v => v = if e.True ρ then 1 else 0) st st1 a [] := by
  have key : ∀ σ ρ, Ok σ st1 → Env st σ ρ → a.val σ = if e.True ρ then 1 else 0 := by
    intro σ ρ ho hv
    by_cases ht : e.True ρ
    · rw [if_pos ht]
      have := h.exact (Or.inr rfl) σ ρ ho hv ht
      simp only [Inner, iff_true] at this
      exact (h.bool σ ho).resolve_left this
    · rw [if_neg ht]
      by_contra hne
      exact ht (h.sound (by simp) σ ρ ho hv (by simpa [Inner, Atom.tr] using hne))
  refine ⟨h.grow, h.fl, h.lt, by simp, ?_, ?_, ?_, ?_⟩
  · intro _ σ ρ ho hv _; exact key σ ρ ho hv
  · rintro _ σ ρ v ho hv rfl; exact ⟨by simp, key σ ρ ho hv⟩
  · rintro σ ρ v ho hv rfl
    obtain ⟨σ1, q1, q2⟩ := h.total ho
    exact ⟨σ1, q1, q2, by simp, key σ1 ρ q2 (hv.agree h.grow.wf0 q1)⟩
  · intro _ σ ρ _ _ hn; exact absurd ⟨_, rfl⟩ hn

theorem PS.of_free {c : BCtx} {st : St} (hw : WF st) {d : List Int} (hd : d ≠ []) (hc : ¬ (c = .neg ∨ c = .mix)) :
    PS c (fun _ v => v ∈ d) st (Let.mk st (.free d)).1 (Let.mk st (.free d)).2 [] := by
  obtain ⟨m1, m2⟩ := wf_mk hw (d := .free d) trivial
  refine ⟨m1, rfl, m2, by simp, ?_, fun h => absurd h hc, ?_, ?_⟩
  · intro _ σ ρ ho _ _; exact holds_mk ho
  · intro σ ρ v ho _ hv
    obtain ⟨σ1, q1, q2, q3⟩ := ok_mk hw (d := .free d) trivial ho (v := v) hv
    exact ⟨σ1, q1, q2, by simp, q3⟩
  · intro _ σ ρ _ _ hn
    obtain ⟨v, r, rfl⟩ := List.exists_cons_of_ne_nil hd
    exact absurd ⟨v, List.mem_cons_self ..⟩ hn

mutual
theorem flatI_spec : ∀ (t : IE) (c : BCtx) (st st' : St) (r b : Atom), WF st → t.Fine → flatI c t st = some (st', r, b) →
    PI c t st st' r b
  | .lit v, c, st, st', r, b, hw, _, h => by
    simp only [flatI, Option.some.injEq, Prod.mk.injEq] at h
    obtain ⟨rfl, rfl, rfl⟩ := h
    have h1 : ∀ σ, (Atom.lit 1).tr σ := by intro σ; simp [Atom.tr, Atom.val]
    refine ⟨Grow.refl hw, rfl, trivial, trivial, ?_, ?_, ?_, ?_⟩
    · intro _ σ ρ _ _ _; rfl
    · intro _ σ ρ w _ _ e; exact ⟨h1 σ, e.symm⟩
    · intro σ ρ w ho _ e; exact ⟨σ, Agree.refl _ _, ho, h1 σ, e.symm⟩
    · intro _ σ ρ _ _ hn; exact absurd ⟨v, rfl⟩ hn
  | .var x, c, st, st', r, b, hw, _, h => by
    simp only [flatI, Option.some.injEq, Prod.mk.injEq] at h
    obtain ⟨rfl, rfl, rfl⟩ := h
    have h1 : ∀ σ, (Atom.lit 1).tr σ := by intro σ; simp [Atom.tr, Atom.val]
    refine ⟨Grow.refl hw, rfl, hw.fl x, trivial, ?_, ?_, ?_, ?_⟩
    · intro _ σ ρ _ hv _; exact hv x
    · intro _ σ ρ w _ hv e; exact ⟨h1 σ, (hv x).trans e.symm⟩
    · intro σ ρ w ho hv e; exact ⟨σ, Agree.refl _ _, ho, h1 σ, (hv x).trans e.symm⟩
    · intro _ σ ρ _ _ hn; exact absurd ⟨_, rfl⟩ hn
  | .add s t, c, st, st', r, b, hw, hf, h => by
    simp only [flatI] at h
    cases e1 : flatI c s st with
    | none => rw [e1] at h; cases h
    | some p1 =>
      obtain ⟨st1, a1, b1⟩ := p1
      rw [e1] at h
      simp only at h
      cases e2 : flatI c t st1 with
      | none => rw [e2] at h; cases h
      | some p2 =>
        obtain ⟨st2, a2, b2⟩ := p2
        rw [e2] at h
        simp only [Option.some.injEq, Prod.mk.injEq] at h
        obtain ⟨rfl, rfl, rfl⟩ := h
        have h1 := flatI_spec s c st st1 a1 b1 hw hf.1 e1
        have h2 := flatI_spec t c st1 st2 a2 b2 h1.grow.wf hf.2 e2
        obtain ⟨g, gf, l1, l2, ps, pe, py, pn⟩ := pair h1 h2
        have hd : (Def.add a1 a2).Lt st2.decls.length := ⟨l1, h2.ltr⟩
        obtain ⟨m1, m2⟩ := wf_mk h2.grow.wf hd
        refine PI.of_conj (g.trans m1) gf m2 ?_ ?_ ?_ ?_ ?_
        · intro a ha
          simp only [List.mem_cons, List.not_mem_nil, or_false] at ha
          rcases ha with rfl | rfl
          · exact l2.mono m1.len
          · exact h2.ltb.mono m1.len
        · intro hc σ ρ ho hv hb
          obtain ⟨k1, k2⟩ := ps hc σ ρ (m1.ok ho) hv (hb b1 (by simp)) (hb b2 (by simp))
          have := holds_mk ho
          exact ⟨_, _, k1, k2, this⟩
        · rintro hc σ ρ v ho hv ⟨v1, v2, k1, k2, rfl⟩
          obtain ⟨g1, g2, g3, g4⟩ := pe hc σ ρ v1 v2 (m1.ok ho) hv k1 k2
          refine ⟨by simpa using ⟨g1, g2⟩, ?_⟩
          have := holds_mk ho
          simp only [Def.Holds] at this
          rw [this, g3, g4]
        · rintro σ ρ v ho hv ⟨v1, v2, k1, k2, rfl⟩
          obtain ⟨σ1, g1, g2, g3, g4, g5, g6⟩ := py σ ρ v1 v2 ho hv k1 k2
          obtain ⟨σ2, q1, q2, q3⟩ := ok_mk h2.grow.wf hd g2 (v := v1 + v2) (by simp [Def.Holds, g5, g6])
          refine ⟨σ2, g1.trans q1 g.len, q2, ?_, q3⟩
          have t1 := (Atom.tr_agree q1 l2).mpr g3
          have t2 := (Atom.tr_agree q1 h2.ltb).mpr g4
          simpa using ⟨t1, t2⟩
        · intro hc σ ρ ho hv hn
          obtain ⟨σ1, g1, g2, g3⟩ := pn hc σ ρ ho hv (fun ⟨v, w, k1, k2⟩ => hn ⟨_, v, w, k1, k2, rfl⟩)
          obtain ⟨σ2, q1, q2, q3⟩ := ok_mk h2.grow.wf hd g2 (v := a1.val σ1 + a2.val σ1) rfl
          refine ⟨σ2, g1.trans q1 g.len, q2, fun hb => g3 ?_⟩
          exact ⟨(Atom.tr_agree q1 l2).mp (hb b1 (by simp)), (Atom.tr_agree q1 h2.ltb).mp (hb b2 (by simp))⟩
  | .div s t, c, st, st', r, b, hw, hf, h => by
    simp only [flatI] at h
    cases e1 : flatI c s st with
    | none => rw [e1] at h; cases h
    | some p1 =>
      obtain ⟨st1, a1, b1⟩ := p1
      rw [e1] at h
      simp only at h
      cases e2 : flatI c t st1 with
      | none => rw [e2] at h; cases h
      | some p2 =>
        obtain ⟨st2, a2, b2⟩ := p2
        rw [e2] at h
        simp only [Option.some.injEq, Prod.mk.injEq] at h
        obtain ⟨rfl, rfl, rfl⟩ := h
        have h1 := flatI_spec s c st st1 a1 b1 hw hf.1 e1
        have h2 := flatI_spec t c st1 st2 a2 b2 h1.grow.wf hf.2 e2
        obtain ⟨g, gf, l1, l2, ps, pe, py, pn⟩ := pair h1 h2
        have hd : (Def.div a1 a2).Lt st2.decls.length := ⟨l1, h2.ltr⟩
        obtain ⟨m1, m2⟩ := wf_mk h2.grow.wf hd
        have hd' : (Def.ne0 a2).Lt (mk st2 (.div a1 a2)).1.decls.length := h2.ltr.mono m1.len
        obtain ⟨n1, n2⟩ := wf_mk m1.wf hd'
        refine PI.of_conj ((g.trans m1).trans n1) gf (m2.mono n1.len) ?_ ?_ ?_ ?_ ?_
        · intro a ha
          simp only [List.mem_cons, List.not_mem_nil, or_false] at ha
          rcases ha with rfl | rfl | rfl
          · exact l2.mono (m1.trans n1).len
          · exact h2.ltb.mono (m1.trans n1).len
          · exact n2
        · intro hc σ ρ ho hv hb
          obtain ⟨k1, k2⟩ := ps hc σ ρ ((m1.trans n1).ok ho) hv (hb b1 (by simp)) (hb b2 (by simp))
          have hne := (Def.tr_iff rfl (holds_mk ho)).1.mp (hb _ (by simp))
          exact ⟨_, _, k1, k2, hne, holds_mk (n1.ok ho)⟩
        · rintro hc σ ρ v ho hv ⟨v1, v2, k1, k2, k3, rfl⟩
          obtain ⟨g1, g2, g3, g4⟩ := pe hc σ ρ v1 v2 ((m1.trans n1).ok ho) hv k1 k2
          have hne := (Def.tr_iff rfl (holds_mk ho)).1.mpr (by rw [g4]; exact k3)
          refine ⟨by simpa using ⟨g1, g2, hne⟩, ?_⟩
          have := holds_mk (n1.ok ho)
          simp only [Def.Holds] at this
          rw [this, g3, g4]
        · rintro σ ρ v ho hv ⟨v1, v2, k1, k2, k3, rfl⟩
          obtain ⟨σ1, g1, g2, g3, g4, g5, g6⟩ := py σ ρ v1 v2 ho hv k1 k2
          obtain ⟨σ2, q1, q2, q3⟩ := ok_mk h2.grow.wf hd g2 (v := v1.tdiv v2) (by simp [Def.Holds, g5, g6])
          have a2v : a2.val σ2 = v2 := (Atom.val_agree q1 h2.ltr).trans g6
          obtain ⟨σ3, s1, s2, s3⟩ := ok_mk m1.wf hd' q2 (v := 1) ((Def.holds_iff rfl 1).mpr (Or.inl ⟨rfl, by rw [a2v]; exact k3⟩))
          have ag : Agree st2.decls.length σ1 σ3 := q1.trans s1 m1.len
          refine ⟨σ3, g1.trans ag g.len, s2, ?_, (Atom.val_agree s1 m2).trans q3⟩
          have t1 := (Atom.tr_agree ag l2).mpr g3
          have t2 := (Atom.tr_agree ag h2.ltb).mpr g4
          have t3 : (mk (mk st2 (.div a1 a2)).1 (.ne0 a2)).2.tr σ3 := by unfold Atom.tr; rw [s3]; decide
          simpa using ⟨t1, t2, t3⟩
        · intro hc σ ρ ho hv hn
          by_cases hvw : ∃ v w, s.Val ρ v ∧ t.Val ρ w
          · obtain ⟨v1, v2, k1, k2⟩ := hvw
            have h0 : v2 = 0 := by
              by_contra h0
              exact hn ⟨_, v1, v2, k1, k2, h0, rfl⟩
            obtain ⟨σ1, g1, g2, g3, g4, g5, g6⟩ := py σ ρ v1 v2 ho hv k1 k2
            obtain ⟨σ2, q1, q2, q3⟩ := ok_mk h2.grow.wf hd g2 (v := v1.tdiv v2) (by simp [Def.Holds, g5, g6])
            have a2v : a2.val σ2 = v2 := (Atom.val_agree q1 h2.ltr).trans g6
            obtain ⟨σ3, s1, s2, s3⟩ := ok_mk m1.wf hd' q2 (v := 0) ((Def.holds_iff rfl 0).mpr (Or.inr ⟨rfl, by rw [a2v, h0]; simp⟩))
            refine ⟨σ3, g1.trans (q1.trans s1 m1.len) g.len, s2, fun hb => ?_⟩
            have := hb (mk (mk st2 (.div a1 a2)).1 (.ne0 a2)).2 (by simp)
            unfold Atom.tr at this
            rw [s3] at this
            exact this rfl
          · obtain ⟨σ1, g1, g2, g3⟩ := pn hc σ ρ ho hv hvw
            obtain ⟨σ2, q1, q2, q3⟩ := ok_mk h2.grow.wf hd g2 (v := (a1.val σ1).tdiv (a2.val σ1)) rfl
            obtain ⟨v3, hv3⟩ : ∃ v, (Def.ne0 a2).Holds σ2 v := ⟨_, rfl⟩
            obtain ⟨σ3, s1, s2, s3⟩ := ok_mk m1.wf hd' q2 hv3
            have ag : Agree st2.decls.length σ1 σ3 := q1.trans s1 m1.len
            refine ⟨σ3, g1.trans ag g.len, s2, fun hb => g3 ?_⟩
            exact ⟨(Atom.tr_agree ag l2).mp (hb b1 (by simp)), (Atom.tr_agree ag h2.ltb).mp (hb b2 (by simp))⟩
  | .let_ its t, c, st, st', r, b, hw, hf, h => by
    simp only [flatI] at h
    cases e1 : flatItems c its st with
    | none => rw [e1] at h; cases h
    | some p1 =>
      obtain ⟨st1, cs, sv⟩ := p1
      rw [e1] at h
      simp only at h
      cases e2 : flatI c t st1 with
      | none => rw [e2] at h; cases h
      | some p2 =>
        obtain ⟨st2, a, b'⟩ := p2
        rw [e2] at h
        simp only [conj, Option.some.injEq, Prod.mk.injEq] at h
        obtain ⟨rfl, rfl, rfl⟩ := h
        have h1 := flatItems_spec its c st st1 cs sv hw hf.2.1 e1
        have h2 := flatI_spec t c st1 st2 a b' h1.grow.wf hf.2.2 e2
        have hfl := h1.restore hf.1 (st2 := st2) h2.fl
        have hg := restore_grow (h1.grow.trans h2.grow) (sv := sv) hfl
        have hdl := (restore_decls sv st2).1
        obtain ⟨ro1, ro2⟩ := restore_out (decide (c = .root)) (.conj false (cs ++ [b'])) sv st2
        rw [ro1, ro2]
        refine PI.of_conj hg hfl (by rw [hdl]; exact h2.ltr) ?_ ?_ ?_ ?_ ?_
        · intro x hx
          rw [hdl]
          rcases List.mem_append.mp hx with hx | hx
          · exact (h1.lt x hx).mono h2.grow.len
          · rw [List.mem_singleton.mp hx]; exact h2.ltb
        · intro hc σ ρ ho hv hb
          rw [restore_ok] at ho
          obtain ⟨ρ', k1, k2⟩ := h1.sound hc σ ρ (h2.grow.ok ho) hv (fun x hx => hb x (List.mem_append_left _ hx))
          exact ⟨ρ', k1, h2.sound hc σ ρ' ho k2 (hb b' (by simp))⟩
        · rintro hc σ ρ v ho hv ⟨ρ', k1, k2⟩
          rw [restore_ok] at ho
          obtain ⟨g1, g2⟩ := h1.exact hc σ ρ ρ' (h2.grow.ok ho) hv k1
          obtain ⟨g3, g4⟩ := h2.exact hc σ ρ' v ho g2 k2
          refine ⟨fun x hx => ?_, g4⟩
          rcases List.mem_append.mp hx with hx | hx
          · exact g1 x hx
          · rw [List.mem_singleton.mp hx]; exact g3
        · rintro σ ρ v ho hv ⟨ρ', k1, k2⟩
          obtain ⟨σ1, g1, g2, g3, g4⟩ := h1.yes σ ρ ρ' ho hv k1
          obtain ⟨σ2, q1, q2, q3, q4⟩ := h2.yes σ1 ρ' v g2 g4 k2
          refine ⟨σ2, g1.trans q1 h1.grow.len, (restore_ok _ _ _).mpr q2, fun x hx => ?_, q4⟩
          rcases List.mem_append.mp hx with hx | hx
          · exact (Atom.tr_agree q1 (h1.lt x hx)).mpr (g3 x hx)
          · rw [List.mem_singleton.mp hx]; exact q3
        · intro hc σ ρ ho hv hn
          by_cases hb : ∃ ρ', its.Binds ρ ρ'
          · obtain ⟨ρ', hb⟩ := hb
            obtain ⟨σ1, g1, g2, g3, g4⟩ := h1.yes σ ρ ρ' ho hv hb
            obtain ⟨σ2, q1, q2, q3⟩ := h2.no hc σ1 ρ' g2 g4 (fun ⟨v, hv⟩ => hn ⟨v, ρ', hb, hv⟩)
            exact ⟨σ2, g1.trans q1 h1.grow.len, (restore_ok _ _ _).mpr q2, fun hx => q3 (hx b' (by simp))⟩
          · obtain ⟨σ1, g1, g2, g3⟩ := h1.no hc σ ρ ho hv hb
            obtain ⟨σ2, q1, q2⟩ := h2.total hc g2
            refine ⟨σ2, g1.trans q1 h1.grow.len, (restore_ok _ _ _).mpr q2, fun hx => g3 fun x hxc => ?_⟩
            exact (Atom.tr_agree q1 (h1.lt x hxc)).mp (hx x (List.mem_append_left _ hxc))

theorem flatB_spec : ∀ (e : BE) (c : BCtx) (neg tru : Bool) (st st' : St) (a : Atom), WF st → e.Fine → Pre c neg tru →
    flatB c neg tru e st = some (st', a) → PB c neg tru e st st' a
  | .var x, c, neg, tru, st, st', a, hw, _, hp, h => by
    simp only [flatB, conj, Option.some.injEq] at h
    have e1 : st' = (out tru st (.conj neg [st.fl x])).1 := by rw [h]
    have e2 : a = (out tru st (.conj neg [st.fl x])).2 := by rw [h]
    subst e1 e2
    refine PB.of_def (Grow.refl hw) rfl (by simpa [Def.Lt] using hw.fl x) (fun σ => (st.fl x).tr σ ↔ neg = false)
      (fun σ => (st.fl x).tr σ) (by intro σ; simp [Def.Prop?]) (fun σ => inner_conj) hp.1 ?_ ?_ ?_ ?_
    · intro _ σ ρ _ hv hq; simp only [Atom.tr, hv x] at hq; exact hq
    · intro _ σ ρ _ hv hq; simp only [Atom.tr, hv x]; exact hq
    · intro σ ρ ho hv hq; refine ⟨σ, Agree.refl _ _, ho, ?_⟩; simp only [Atom.tr, hv x]; exact hq
    · intro _ σ ρ ho hv hq; refine ⟨σ, Agree.refl _ _, ho, ?_⟩; simp only [Atom.tr, hv x]; exact hq
  | .cmp o s t, c, neg, tru, st, st', a, hw, hf, hp, h => by
    simp only [flatB] at h
    cases e1 : flatI c s st with
    | none => rw [e1] at h; cases h
    | some p1 =>
      obtain ⟨st1, a1, b1⟩ := p1
      rw [e1] at h
      simp only at h
      cases e2 : flatI c t st1 with
      | none => rw [e2] at h; cases h
      | some p2 =>
        obtain ⟨st2, a2, b2⟩ := p2
        rw [e2] at h
        simp only [Option.some.injEq] at h
        have h1 := flatI_spec s c st st1 a1 b1 hw hf.1 e1
        have h2 := flatI_spec t c st1 st2 a2 b2 h1.grow.wf hf.2 e2
        obtain ⟨g, gf, l1, l2, ps, pe, py, pn⟩ := pair h1 h2
        have hd : (Def.cmp o a1 a2).Lt st2.decls.length := ⟨l1, h2.ltr⟩
        obtain ⟨m1, m2⟩ := wf_mk h2.grow.wf hd
        have ee1 : st' = (out tru (mk st2 (.cmp o a1 a2)).1 (.conj neg [b1, b2, (mk st2 (.cmp o a1 a2)).2])).1 := by rw [← conj, h]
        have ee2 : a = (out tru (mk st2 (.cmp o a1 a2)).1 (.conj neg [b1, b2, (mk st2 (.cmp o a1 a2)).2])).2 := by rw [← conj, h]
        subst ee1 ee2
        have hk : ∀ σ, Ok σ (mk st2 (.cmp o a1 a2)).1 → ((mk st2 (.cmp o a1 a2)).2.tr σ ↔ o.holds (a1.val σ) (a2.val σ) = true) :=
          fun σ ho => (Def.tr_iff rfl (holds_mk ho)).1
        refine PB.of_def (g.trans m1) gf ?_ (fun σ => (b1.tr σ ∧ b2.tr σ ∧ (mk st2 (.cmp o a1 a2)).2.tr σ) ↔ neg = false)
          (fun σ => b1.tr σ ∧ b2.tr σ ∧ (mk st2 (.cmp o a1 a2)).2.tr σ) (by intro σ; simp [Def.Prop?]) (fun σ => inner_conj) hp.1 ?_ ?_ ?_ ?_
        · intro x hx
          simp only [List.mem_cons, List.not_mem_nil, or_false] at hx
          rcases hx with rfl | rfl | rfl
          · exact l2.mono m1.len
          · exact h2.ltb.mono m1.len
          · exact m2
        · rintro hc σ ρ ho hv ⟨k1, k2, k3⟩
          obtain ⟨g1, g2⟩ := ps hc σ ρ (m1.ok ho) hv k1 k2
          exact ⟨_, _, g1, g2, (hk σ ho).mp k3⟩
        · rintro hc σ ρ ho hv ⟨v, w, k1, k2, k3⟩
          obtain ⟨g1, g2, g3, g4⟩ := pe hc σ ρ v w (m1.ok ho) hv k1 k2
          exact ⟨g1, g2, (hk σ ho).mpr (by rw [g3, g4]; exact k3)⟩
        · rintro σ ρ ho hv ⟨v, w, k1, k2, k3⟩
          obtain ⟨σ1, g1, g2, g3, g4, g5, g6⟩ := py σ ρ v w ho hv k1 k2
          obtain ⟨σ2, q1, q2, q3⟩ := ok_mk h2.grow.wf hd g2 (v := 1) ((Def.holds_iff rfl 1).mpr (Or.inl ⟨rfl, by rw [g5, g6]; exact k3⟩))
          exact ⟨σ2, g1.trans q1 g.len, q2, (Atom.tr_agree q1 l2).mpr g3, (Atom.tr_agree q1 h2.ltb).mpr g4, by
            unfold Atom.tr; rw [q3]; decide⟩
        · intro hc σ ρ ho hv hn
          by_cases hvw : ∃ v w, s.Val ρ v ∧ t.Val ρ w
          · obtain ⟨v, w, k1, k2⟩ := hvw
            obtain ⟨σ1, g1, g2, g3, g4, g5, g6⟩ := py σ ρ v w ho hv k1 k2
            obtain ⟨σ2, q1, q2, q3⟩ := ok_mk h2.grow.wf hd g2 (v := 0)
              ((Def.holds_iff rfl 0).mpr (Or.inr ⟨rfl, by rw [g5, g6]; exact fun k3 => hn ⟨v, w, k1, k2, k3⟩⟩))
            refine ⟨σ2, g1.trans q1 g.len, q2, fun hq => ?_⟩
            have := hq.2.2
            unfold Atom.tr at this
            rw [q3] at this
            exact this rfl
          · obtain ⟨σ1, g1, g2, g3⟩ := pn hc σ ρ ho hv hvw
            obtain ⟨v3, hv3⟩ : ∃ v, (Def.cmp o a1 a2).Holds σ1 v := ⟨_, rfl⟩
            obtain ⟨σ2, q1, q2, q3⟩ := ok_mk h2.grow.wf hd g2 hv3
            exact ⟨σ2, g1.trans q1 g.len, q2, fun hq => g3 ⟨(Atom.tr_agree q1 l2).mp hq.1, (Atom.tr_agree q1 h2.ltb).mp hq.2.1⟩⟩
  | .not e, c, neg, tru, st, st', a, hw, hf, hp, h => by
    simp only [flatB] at h
    have hp' : Pre c.dn (!neg) tru := by
      obtain ⟨p1, p2, p3⟩ := hp
      refine ⟨fun e => by cases c <;> simp [BCtx.dn] at e, fun h1 h2 => ?_, fun h1 h2 => ?_⟩
      · rcases p3 h1 (by simpa using h2) with e | e <;> subst e <;> rfl
      · have := p2 h1 (by simpa using h2); subst this; exact Or.inr rfl
    have ih := flatB_spec e c.dn (!neg) tru st st' a hw hf hp' h
    have hin : ∀ σ, Inner (!neg) σ a ↔ ¬ Inner neg σ a := by
      intro σ; unfold Inner; cases neg <;> simp
    refine ⟨ih.grow, ih.fl, ih.lt, ih.one, ih.bool, ?_, ?_, ?_, ?_⟩
    · intro hc σ ρ ho hv hi ht
      have := ih.exact (by cases c <;> simp_all [BCtx.dn]) σ ρ ho hv ht
      exact (hin σ).mp this hi
    · intro hc σ ρ ho hv hn
      by_contra hi
      exact hn (ih.sound (by rcases hc with rfl | rfl <;> simp [BCtx.dn]) σ ρ ho hv ((hin σ).mpr hi))
    · intro σ ρ ho hv hn htn
      obtain ⟨σ', k1, k2, k3⟩ := ih.no σ ρ ho hv hn (fun e => by simp [htn e])
      exact ⟨σ', k1, k2, by rw [hin σ', Classical.not_not] at k3; exact k3⟩
    · intro σ ρ ho hv hn htn
      obtain ⟨σ', k1, k2, k3⟩ := ih.yes σ ρ ho hv (Classical.not_not.mp hn) (fun e => by simp [htn e])
      exact ⟨σ', k1, k2, (hin σ').mp k3⟩
  | .and x y, c, neg, tru, st, st', a, hw, hf, hp, h => by
    simp only [flatB] at h
    by_cases htn : (tru && !neg) = true
    · rw [if_pos htn] at h
      simp only [Bool.and_eq_true, Bool.not_eq_true'] at htn
      obtain ⟨rfl, rfl⟩ := htn
      cases e1 : flatB c false true x st with
      | none => rw [e1] at h; cases h
      | some p1 =>
        obtain ⟨st1, a1⟩ := p1
        rw [e1] at h
        simp only at h
        cases e2 : flatB c false true y st1 with
        | none => rw [e2] at h; cases h
        | some p2 =>
          obtain ⟨st2, a2⟩ := p2
          rw [e2] at h
          simp only [Option.some.injEq, Prod.mk.injEq] at h
          obtain ⟨rfl, rfl⟩ := h
          have h1 := flatB_spec x c false true st st1 a1 hw hf.1 hp e1
          have h2 := flatB_spec y c false true st1 st2 a2 h1.grow.wf hf.2 hp e2
          have t1 : ∀ σ a, a = Atom.lit 1 → Inner false σ a := by rintro σ _ rfl; simp [Inner, Atom.tr, Atom.val]
          refine ⟨h1.grow.trans h2.grow, h2.fl.trans h1.fl, trivial, fun _ => rfl, fun _ _ => Or.inr rfl, ?_, ?_, ?_, ?_⟩
          · intro hc σ ρ ho hv _
            exact ⟨h1.sound hc σ ρ (h2.grow.ok ho) hv (t1 σ a1 (h1.one rfl)), h2.sound hc σ ρ ho (hv.fl h1.fl) (t1 σ a2 (h2.one rfl))⟩
          · intro _ σ ρ _ _ _; exact t1 σ _ rfl
          · intro σ ρ ho hv ht _
            obtain ⟨σ1, g1, g2, g3⟩ := h1.yes σ ρ ho hv ht.1 (fun _ => rfl)
            obtain ⟨σ2, q1, q2, q3⟩ := h2.yes σ1 ρ g2 ((hv.agree h1.grow.wf0 g1).fl h1.fl) ht.2 (fun _ => rfl)
            exact ⟨σ2, g1.trans q1 h1.grow.len, q2, t1 σ2 _ rfl⟩
          · intro σ ρ ho hv ht hx; exact absurd (hx rfl) (by simp)
    · rw [if_neg htn] at h
      have hc : c ≠ .root := by
        intro e
        obtain ⟨e1, e2⟩ := hp.1 e
        exact htn (by simp [e1, e2])
      have hp' : Pre c neg false := ⟨fun e => absurd e hc, by simp, by simp⟩
      cases e1 : flatB c neg false x st with
      | none => rw [e1] at h; cases h
      | some p1 =>
        obtain ⟨st1, a1⟩ := p1
        rw [e1] at h
        simp only at h
        cases e2 : flatB c neg false y st1 with
        | none => rw [e2] at h; cases h
        | some p2 =>
          obtain ⟨st2, a2⟩ := p2
          rw [e2] at h
          simp only [Option.some.injEq] at h
          have h1 := flatB_spec x c neg false st st1 a1 hw hf.1 hp' e1
          have h2 := flatB_spec y c neg false st1 st2 a2 h1.grow.wf hf.2 hp' e2
          have ee1 : st' = (out tru st2 (if neg then .disj [a1, a2] else .conj false [a1, a2])).1 := by rw [h]
          have ee2 : a = (out tru st2 (if neg then .disj [a1, a2] else .conj false [a1, a2])).2 := by rw [h]
          subst ee1 ee2
          refine PB.of_def (h1.grow.trans h2.grow) (h2.fl.trans h1.fl) ?_
            (fun σ => if neg then a1.tr σ ∨ a2.tr σ else a1.tr σ ∧ a2.tr σ) (fun σ => Inner neg σ a1 ∧ Inner neg σ a2) ?_ ?_ hp.1 ?_ ?_ ?_ ?_
          · have l1 := h1.lt.mono h2.grow.len
            cases neg <;> simp [Def.Lt, l1, h2.lt]
          · intro σ; cases neg <;> simp [Def.Prop?]
          · intro σ; cases neg <;> simp [Inner]
          · rintro hc' σ ρ ho hv ⟨i1, i2⟩
            exact ⟨h1.sound hc' σ ρ (h2.grow.ok ho) hv i1, h2.sound hc' σ ρ ho (hv.fl h1.fl) i2⟩
          · rintro hc' σ ρ ho hv ⟨i1, i2⟩
            exact ⟨h1.exact hc' σ ρ (h2.grow.ok ho) hv i1, h2.exact hc' σ ρ ho (hv.fl h1.fl) i2⟩
          · rintro σ ρ ho hv ⟨i1, i2⟩
            obtain ⟨σ1, g1, g2, g3⟩ := h1.yes σ ρ ho hv i1 (by simp)
            obtain ⟨σ2, q1, q2, q3⟩ := h2.yes σ1 ρ g2 ((hv.agree h1.grow.wf0 g1).fl h1.fl) i2 (by simp)
            refine ⟨σ2, g1.trans q1 h1.grow.len, q2, ?_, q3⟩
            unfold Inner at g3 ⊢
            rw [Atom.tr_agree q1 h1.lt]; exact g3
          · intro _ σ ρ ho hv hn
            by_cases hx : x.True ρ
            · obtain ⟨σ1, g1, g2, g3⟩ := h1.yes σ ρ ho hv hx (by simp)
              obtain ⟨σ2, q1, q2, q3⟩ := h2.no σ1 ρ g2 ((hv.agree h1.grow.wf0 g1).fl h1.fl) (fun hy => hn ⟨hx, hy⟩) (by simp)
              exact ⟨σ2, g1.trans q1 h1.grow.len, q2, fun hi => q3 hi.2⟩
            · obtain ⟨σ1, g1, g2, g3⟩ := h1.no σ ρ ho hv hx (by simp)
              obtain ⟨σ2, q1, q2⟩ := h2.total g2
              refine ⟨σ2, g1.trans q1 h1.grow.len, q2, fun hi => g3 ?_⟩
              have := hi.1
              unfold Inner at this ⊢
              rw [Atom.tr_agree q1 h1.lt] at this; exact this
  | .or x y, c, neg, tru, st, st', a, hw, hf, hp, h => by
    simp only [flatB] at h
    by_cases htn : (tru && neg) = true
    · rw [if_pos htn] at h
      simp only [Bool.and_eq_true] at htn
      obtain ⟨rfl, rfl⟩ := htn
      have hcn : c = .neg := hp.2.1 rfl rfl
      cases e1 : flatB c true true x st with
      | none => rw [e1] at h; cases h
      | some p1 =>
        obtain ⟨st1, a1⟩ := p1
        rw [e1] at h
        simp only at h
        cases e2 : flatB c true true y st1 with
        | none => rw [e2] at h; cases h
        | some p2 =>
          obtain ⟨st2, a2⟩ := p2
          rw [e2] at h
          simp only [Option.some.injEq, Prod.mk.injEq] at h
          obtain ⟨rfl, rfl⟩ := h
          have h1 := flatB_spec x c true true st st1 a1 hw hf.1 hp e1
          have h2 := flatB_spec y c true true st1 st2 a2 h1.grow.wf hf.2 hp e2
          have t1 : ∀ σ a, a = Atom.lit 1 → ¬ Inner true σ a := by rintro σ _ rfl; simp [Inner, Atom.tr, Atom.val]
          refine ⟨h1.grow.trans h2.grow, h2.fl.trans h1.fl, trivial, fun _ => rfl, fun _ _ => Or.inr rfl, ?_, ?_, ?_, ?_⟩
          · intro hc; exact absurd hcn hc
          · rintro hc σ ρ ho hv (ht | ht)
            · exact absurd (h1.exact hc σ ρ (h2.grow.ok ho) hv ht) (t1 σ a1 (h1.one rfl))
            · exact absurd (h2.exact hc σ ρ ho (hv.fl h1.fl) ht) (t1 σ a2 (h2.one rfl))
          · intro σ ρ ho hv ht hx; exact absurd (hx rfl) (by simp)
          · intro σ ρ ho hv ht _
            obtain ⟨σ1, g1, g2, g3⟩ := h1.no σ ρ ho hv (fun hx => ht (Or.inl hx)) (fun _ => rfl)
            obtain ⟨σ2, q1, q2, q3⟩ := h2.no σ1 ρ g2 ((hv.agree h1.grow.wf0 g1).fl h1.fl) (fun hx => ht (Or.inr hx)) (fun _ => rfl)
            exact ⟨σ2, g1.trans q1 h1.grow.len, q2, t1 σ2 _ rfl⟩
    · rw [if_neg htn] at h
      have hc : c.up ≠ .root := by cases c <;> simp [BCtx.up]
      have hup : (c ≠ .neg → c.up ≠ .neg) ∧ (c = .neg ∨ c = .mix → c.up = .neg ∨ c.up = .mix) := by cases c <;> simp [BCtx.up]
      have hp' : Pre c.up neg false := ⟨fun e => absurd e hc, by simp, by simp⟩
      cases e1 : flatB c.up neg false x st with
      | none => rw [e1] at h; cases h
      | some p1 =>
        obtain ⟨st1, a1⟩ := p1
        rw [e1] at h
        simp only at h
        cases e2 : flatB c.up neg false y st1 with
        | none => rw [e2] at h; cases h
        | some p2 =>
          obtain ⟨st2, a2⟩ := p2
          rw [e2] at h
          simp only [Option.some.injEq] at h
          have h1 := flatB_spec x c.up neg false st st1 a1 hw hf.1 hp' e1
          have h2 := flatB_spec y c.up neg false st1 st2 a2 h1.grow.wf hf.2 hp' e2
          have ee1 : st' = (out tru st2 (if neg then .conj false [a1, a2] else .disj [a1, a2])).1 := by rw [h]
          have ee2 : a = (out tru st2 (if neg then .conj false [a1, a2] else .disj [a1, a2])).2 := by rw [h]
          subst ee1 ee2
          refine PB.of_def (h1.grow.trans h2.grow) (h2.fl.trans h1.fl) ?_
            (fun σ => if neg then a1.tr σ ∧ a2.tr σ else a1.tr σ ∨ a2.tr σ) (fun σ => Inner neg σ a1 ∨ Inner neg σ a2) ?_ ?_ hp.1 ?_ ?_ ?_ ?_
          · have l1 := h1.lt.mono h2.grow.len
            cases neg <;> simp [Def.Lt, l1, h2.lt]
          · intro σ; cases neg <;> simp [Def.Prop?]
          · intro σ; cases neg <;> simp [Inner]; by_cases q : a1.tr σ <;> simp [q]
          · rintro hc' σ ρ ho hv (i1 | i2)
            · exact Or.inl (h1.sound (hup.1 hc') σ ρ (h2.grow.ok ho) hv i1)
            · exact Or.inr (h2.sound (hup.1 hc') σ ρ ho (hv.fl h1.fl) i2)
          · rintro hc' σ ρ ho hv (i1 | i2)
            · exact Or.inl (h1.exact (hup.2 hc') σ ρ (h2.grow.ok ho) hv i1)
            · exact Or.inr (h2.exact (hup.2 hc') σ ρ ho (hv.fl h1.fl) i2)
          · rintro σ ρ ho hv i
            by_cases i1 : x.True ρ
            · obtain ⟨σ1, g1, g2, g3⟩ := h1.yes σ ρ ho hv i1 (by simp)
              obtain ⟨σ2, q1, q2⟩ := h2.total g2
              refine ⟨σ2, g1.trans q1 h1.grow.len, q2, Or.inl ?_⟩
              unfold Inner at g3 ⊢
              rw [Atom.tr_agree q1 h1.lt]; exact g3
            · obtain ⟨σ1, g1, g2⟩ := h1.total ho
              obtain ⟨σ2, q1, q2, q3⟩ := h2.yes σ1 ρ g2 ((hv.agree h1.grow.wf0 g1).fl h1.fl) (i.resolve_left i1) (by simp)
              exact ⟨σ2, g1.trans q1 h1.grow.len, q2, Or.inr q3⟩
          · intro _ σ ρ ho hv hn
            obtain ⟨σ1, g1, g2, g3⟩ := h1.no σ ρ ho hv (fun hx => hn (Or.inl hx)) (by simp)
            obtain ⟨σ2, q1, q2, q3⟩ := h2.no σ1 ρ g2 ((hv.agree h1.grow.wf0 g1).fl h1.fl) (fun hy => hn (Or.inr hy)) (by simp)
            refine ⟨σ2, g1.trans q1 h1.grow.len, q2, ?_⟩
            rintro (hi | hi)
            · refine g3 ?_
              unfold Inner at hi ⊢
              rw [Atom.tr_agree q1 h1.lt] at hi; exact hi
            · exact q3 hi
  | .iff x y, c, neg, tru, st, st', a, hw, hf, hp, h => by
    simp only [flatB] at h
    have hp' : Pre .mix false false := ⟨by simp, by simp, by simp⟩
    cases e1 : flatB .mix false false x st with
    | none => rw [e1] at h; cases h
    | some p1 =>
      obtain ⟨st1, a1⟩ := p1
      rw [e1] at h
      simp only at h
      cases e2 : flatB .mix false false y st1 with
      | none => rw [e2] at h; cases h
      | some p2 =>
        obtain ⟨st2, a2⟩ := p2
        rw [e2] at h
        simp only [Option.some.injEq] at h
        have h1 := flatB_spec x .mix false false st st1 a1 hw hf.1 hp' e1
        have h2 := flatB_spec y .mix false false st1 st2 a2 h1.grow.wf hf.2 hp' e2
        have ee1 : st' = (out tru st2 (.iff neg a1 a2)).1 := by rw [h]
        have ee2 : a = (out tru st2 (.iff neg a1 a2)).2 := by rw [h]
        subst ee1 ee2
        have k1 : ∀ σ ρ, Ok σ st2 → Env st σ ρ → (a1.tr σ ↔ x.True ρ) := fun σ ρ ho hv =>
          ⟨fun q => h1.sound (by simp) σ ρ (h2.grow.ok ho) hv (by simpa [Inner] using q),
           fun q => by simpa [Inner] using h1.exact (by simp) σ ρ (h2.grow.ok ho) hv q⟩
        have k2 : ∀ σ ρ, Ok σ st2 → Env st σ ρ → (a2.tr σ ↔ y.True ρ) := fun σ ρ ho hv =>
          ⟨fun q => h2.sound (by simp) σ ρ ho (hv.fl h1.fl) (by simpa [Inner] using q),
           fun q => by simpa [Inner] using h2.exact (by simp) σ ρ ho (hv.fl h1.fl) q⟩
        have tot : ∀ σ ρ, Ok σ st → Env st σ ρ → ∃ σ', Agree st.decls.length σ σ' ∧ Ok σ' st2 ∧ Env st σ' ρ := by
          intro σ ρ ho hv
          obtain ⟨σ1, g1, g2⟩ := h1.total ho
          obtain ⟨σ2, q1, q2⟩ := h2.total g2
          have ag := g1.trans q1 h1.grow.len
          exact ⟨σ2, ag, q2, hv.agree hw ag⟩
        refine PB.of_def (h1.grow.trans h2.grow) (h2.fl.trans h1.fl) ⟨h1.lt.mono h2.grow.len, h2.lt⟩
          (fun σ => (a1.tr σ ↔ a2.tr σ) ↔ neg = false) (fun σ => a1.tr σ ↔ a2.tr σ) (fun σ => rfl) (fun σ => inner_conj) hp.1 ?_ ?_ ?_ ?_
        · intro _ σ ρ ho hv q; rw [k1 σ ρ ho hv, k2 σ ρ ho hv] at q; exact q
        · intro _ σ ρ ho hv q; rw [k1 σ ρ ho hv, k2 σ ρ ho hv]; exact q
        · intro σ ρ ho hv q
          obtain ⟨σ', g1, g2, g3⟩ := tot σ ρ ho hv
          exact ⟨σ', g1, g2, by rw [k1 σ' ρ g2 g3, k2 σ' ρ g2 g3]; exact q⟩
        · intro _ σ ρ ho hv q
          obtain ⟨σ', g1, g2, g3⟩ := tot σ ρ ho hv
          exact ⟨σ', g1, g2, by rw [k1 σ' ρ g2 g3, k2 σ' ρ g2 g3]; exact q⟩
  | .let_ its e, c, neg, tru, st, st', a, hw, hf, hp, h => by
    simp only [flatB] at h
    cases e1 : flatItems c its st with
    | none => rw [e1] at h; cases h
    | some p1 =>
      obtain ⟨st1, cs, sv⟩ := p1
      rw [e1] at h
      simp only at h
      have h1 := flatItems_spec its c st st1 cs sv hw hf.2.1 e1
      by_cases hc : c = .root
      · rw [if_pos hc] at h
        obtain ⟨rfl, rfl⟩ := hp.1 hc
        subst hc
        cases e2 : flatB .root false true e st1 with
        | none => rw [e2] at h; cases h
        | some p2 =>
          obtain ⟨st2, a2⟩ := p2
          rw [e2] at h
          simp only [conj, Option.some.injEq, Prod.mk.injEq] at h
          obtain ⟨rfl, rfl⟩ := h
          have h2 := flatB_spec e .root false true st1 st2 a2 h1.grow.wf hf.2.2 hp e2
          have hfl := h1.restore hf.1 (st2 := st2) h2.fl
          have hg := restore_grow (h1.grow.trans h2.grow) (sv := sv) hfl
          have hdl := (restore_decls sv st2).1
          obtain ⟨ro1, ro2⟩ := restore_out true (.conj false cs) sv st2
          rw [ro1, ro2]
          refine PB.of_def hg hfl ?_ (fun σ => ∀ x ∈ cs, x.tr σ) (fun σ => ∀ x ∈ cs, x.tr σ) (by intro σ; simp [Def.Prop?])
            (fun σ => by simp) (fun _ => ⟨rfl, rfl⟩) ?_ ?_ ?_ ?_
          · intro x hx; rw [hdl]; exact (h1.lt x hx).mono h2.grow.len
          · intro _ σ ρ ho hv q
            rw [restore_ok] at ho
            obtain ⟨ρ', k1, k2⟩ := h1.sound (by simp) σ ρ (h2.grow.ok ho) hv q
            refine ⟨ρ', k1, h2.sound (by simp) σ ρ' ho k2 ?_⟩
            rw [h2.one rfl]; simp [Inner, Atom.tr, Atom.val]
          · intro hc; simp at hc
          · rintro σ ρ ho hv ⟨ρ', k1, k2⟩
            obtain ⟨σ1, g1, g2, g3, g4⟩ := h1.yes σ ρ ρ' ho hv k1
            obtain ⟨σ2, q1, q2, _⟩ := h2.yes σ1 ρ' g2 g4 k2 (fun _ => rfl)
            exact ⟨σ2, g1.trans q1 h1.grow.len, (restore_ok _ _ _).mpr q2, fun x hx => (Atom.tr_agree q1 (h1.lt x hx)).mpr (g3 x hx)⟩
          · intro hc; exact absurd rfl hc
      · rw [if_neg hc] at h
        have hp' : Pre c false false := ⟨fun e => absurd e hc, by simp, by simp⟩
        cases e2 : flatB c false false e st1 with
        | none => rw [e2] at h; cases h
        | some p2 =>
          obtain ⟨st2, a2⟩ := p2
          rw [e2] at h
          simp only [conj, Option.some.injEq, Prod.mk.injEq] at h
          obtain ⟨rfl, rfl⟩ := h
          have h2 := flatB_spec e c false false st1 st2 a2 h1.grow.wf hf.2.2 hp' e2
          have hfl := h1.restore hf.1 (st2 := st2) h2.fl
          have hg := restore_grow (h1.grow.trans h2.grow) (sv := sv) hfl
          have hdl := (restore_decls sv st2).1
          obtain ⟨ro1, ro2⟩ := restore_out tru (.conj neg (cs ++ [a2])) sv st2
          rw [ro1, ro2]
          have hin : ∀ σ, Inner false σ a2 ↔ a2.tr σ := by intro σ; simp [Inner]
          refine PB.of_def hg hfl ?_ (fun σ => (∀ x ∈ cs ++ [a2], x.tr σ) ↔ neg = false) (fun σ => ∀ x ∈ cs ++ [a2], x.tr σ)
            (by intro σ; simp only [Def.Prop?]) (fun σ => inner_conj) hp.1 ?_ ?_ ?_ ?_
          · intro x hx
            rw [hdl]
            rcases List.mem_append.mp hx with hx | hx
            · exact (h1.lt x hx).mono h2.grow.len
            · rw [List.mem_singleton.mp hx]; exact h2.lt
          · intro hc' σ ρ ho hv q
            rw [restore_ok] at ho
            obtain ⟨ρ', k1, k2⟩ := h1.sound hc' σ ρ (h2.grow.ok ho) hv (fun x hx => q x (List.mem_append_left _ hx))
            exact ⟨ρ', k1, h2.sound hc' σ ρ' ho k2 ((hin σ).mpr (q a2 (by simp)))⟩
          · rintro hc' σ ρ ho hv ⟨ρ', k1, k2⟩ x hx
            rw [restore_ok] at ho
            obtain ⟨g1, g2⟩ := h1.exact hc' σ ρ ρ' (h2.grow.ok ho) hv k1
            rcases List.mem_append.mp hx with hx | hx
            · exact g1 x hx
            · rw [List.mem_singleton.mp hx]; exact (hin σ).mp (h2.exact hc' σ ρ' ho g2 k2)
          · rintro σ ρ ho hv ⟨ρ', k1, k2⟩
            obtain ⟨σ1, g1, g2, g3, g4⟩ := h1.yes σ ρ ρ' ho hv k1
            obtain ⟨σ2, q1, q2, q3⟩ := h2.yes σ1 ρ' g2 g4 k2 (fun _ => rfl)
            refine ⟨σ2, g1.trans q1 h1.grow.len, (restore_ok _ _ _).mpr q2, fun x hx => ?_⟩
            rcases List.mem_append.mp hx with hx | hx
            · exact (Atom.tr_agree q1 (h1.lt x hx)).mpr (g3 x hx)
            · rw [List.mem_singleton.mp hx]; exact (hin σ2).mp q3
          · intro _ σ ρ ho hv hn
            by_cases hb : ∃ ρ', its.Binds ρ ρ'
            · obtain ⟨ρ', hb⟩ := hb
              obtain ⟨σ1, g1, g2, g3, g4⟩ := h1.yes σ ρ ρ' ho hv hb
              obtain ⟨σ2, q1, q2, q3⟩ := h2.no σ1 ρ' g2 g4 (fun ht => hn ⟨ρ', hb, ht⟩) (by simp)
              exact ⟨σ2, g1.trans q1 h1.grow.len, (restore_ok _ _ _).mpr q2, fun hx => q3 ((hin σ2).mpr (hx a2 (by simp)))⟩
            · obtain ⟨σ1, g1, g2, g3⟩ := h1.no hc σ ρ ho hv hb
              obtain ⟨σ2, q1, q2⟩ := h2.total g2
              refine ⟨σ2, g1.trans q1 h1.grow.len, (restore_ok _ _ _).mpr q2, fun hx => g3 fun x hxc => ?_⟩
              exact (Atom.tr_agree q1 (h1.lt x hxc)).mp (hx x (List.mem_append_left _ hxc))

theorem flatItems_spec : ∀ (its : Items) (c : BCtx) (st st' : St) (cs : List Atom) (sv : List (Nat × Atom)), WF st → its.Fine →
    flatItems c its st = some (st', cs, sv) → PIt c its st st' cs sv
  | .nil, c, st, st', cs, sv, hw, _, h => by
    simp only [flatItems, Option.some.injEq, Prod.mk.injEq] at h
    obtain ⟨rfl, rfl, rfl⟩ := h
    refine ⟨Grow.refl hw, by simp, rfl, fun _ _ => rfl, by simp, ?_, ?_, ?_, ?_⟩
    · intro _ σ ρ _ hv _; exact ⟨ρ, rfl, hv⟩
    · intro _ σ ρ ρ' _ hv e; cases e; exact ⟨by simp, hv⟩
    · intro σ ρ ρ' ho hv e; cases e; exact ⟨σ, Agree.refl _ _, ho, by simp, hv⟩
    · intro _ σ ρ _ _ hn; exact absurd ⟨ρ, rfl⟩ hn
  | .dcl x t d r, c, st, st', cs, sv, hw, hf, h => by
    simp only [flatItems] at h
    cases e1 : flatI c t st with
    | none => rw [e1] at h; cases h
    | some p1 =>
      obtain ⟨st1, a, b⟩ := p1
      rw [e1] at h
      have h1 := flatI_spec t c st st1 a b hw hf.1 e1
      cases d with
      | none =>
        simp only at h
        have hs := PS.of_int h1
        have g1 : Grow st (setFl st1 x a) := setFl_grow hs.grow x hs.ltr
        cases e2 : flatItems c r (setFl st1 x a) with
        | none => rw [e2] at h; cases h
        | some p2 =>
          obtain ⟨st3, cs', sv'⟩ := p2
          rw [e2] at h
          simp only [Option.some.injEq, Prod.mk.injEq] at h
          obtain ⟨rfl, rfl, rfl⟩ := h
          exact PIt.cons hs (flatItems_spec r c _ _ _ _ g1.wf hf.2 e2) rfl (by intro ρ ρ'; simp [Items.Binds])
      | some dom =>
        simp only at h
        have hs := PS.of_dom h1 dom
        have g1 := setFl_grow hs.grow x hs.ltr
        cases e2 : flatItems c r (setFl (out (decide (c = .root)) st1 (.mem a dom)).1 x a) with
        | none => rw [e2] at h; cases h
        | some p2 =>
          obtain ⟨st3, cs', sv'⟩ := p2
          rw [e2] at h
          simp only [Option.some.injEq, Prod.mk.injEq] at h
          obtain ⟨rfl, rfl, rfl⟩ := h
          exact PIt.cons hs (flatItems_spec r c _ _ _ _ g1.wf hf.2 e2) rfl (by intro ρ ρ'; simp [Items.Binds, and_assoc])
  | .dclB x e r, c, st, st', cs, sv, hw, hf, h => by
    simp only [flatItems] at h
    cases e1 : flatB .mix false false e st with
    | none => rw [e1] at h; cases h
    | some p1 =>
      obtain ⟨st1, a⟩ := p1
      rw [e1] at h
      simp only at h
      have hs := PS.of_bool (c := c) (flatB_spec e .mix false false st st1 a hw hf.1 ⟨by simp, by simp, by simp⟩ e1)
      have g1 := setFl_grow hs.grow x hs.ltr
      cases e2 : flatItems c r (setFl st1 x a) with
      | none => rw [e2] at h; cases h
      | some p2 =>
        obtain ⟨st3, cs', sv'⟩ := p2
        rw [e2] at h
        simp only [Option.some.injEq, Prod.mk.injEq] at h
        obtain ⟨rfl, rfl, rfl⟩ := h
        exact PIt.cons hs (flatItems_spec r c _ _ _ _ g1.wf hf.2 e2) rfl (by intro ρ ρ'; simp [Items.Binds])
  | .free x d r, c, st, st', cs, sv, hw, hf, h => by
    simp only [flatItems] at h
    by_cases hc : c = .neg ∨ c = .mix
    · rw [if_pos hc] at h; cases h
    · rw [if_neg hc] at h
      have hs := PS.of_free hw hf.1 hc
      have g1 := setFl_grow hs.grow x hs.ltr
      cases e2 : flatItems c r (setFl (mk st (.free d)).1 x (mk st (.free d)).2) with
      | none => rw [e2] at h; cases h
      | some p2 =>
        obtain ⟨st3, cs', sv'⟩ := p2
        rw [e2] at h
        simp only [Option.some.injEq, Prod.mk.injEq] at h
        obtain ⟨rfl, rfl, rfl⟩ := h
        exact PIt.cons hs (flatItems_spec r c _ _ _ _ g1.wf hf.2 e2) rfl (by intro ρ ρ'; simp [Items.Binds])
  | .con e r, c, st, st', cs, sv, hw, hf, h => by
    simp only [flatItems] at h
    by_cases hc : c = .root
    · rw [if_pos hc] at h
      subst hc
      cases e1 : flatB .root false true e st with
      | none => rw [e1] at h; cases h
      | some p1 =>
        obtain ⟨st1, a⟩ := p1
        rw [e1] at h
        simp only at h
        have h1 := flatB_spec e .root false true st st1 a hw hf.1 ⟨fun _ => ⟨rfl, rfl⟩, by simp, by simp⟩ e1
        have h2 := flatItems_spec r .root st1 st' cs sv h1.grow.wf hf.2 h
        refine ⟨h1.grow.trans h2.grow, h2.lt, h2.names, ?_, ?_, ?_, by simp, ?_, by simp⟩
        · intro y hy; rw [h2.other y hy, h1.fl]
        · intro hn y b hb; rw [h2.saved hn y b hb, h1.fl]
        · intro _ σ ρ ho hv hcs
          have k1 := h1.sound (by simp) σ ρ (h2.grow.ok ho) hv (by rw [h1.one rfl]; simp [Inner, Atom.tr, Atom.val])
          obtain ⟨ρ', k2, k3⟩ := h2.sound (by simp) σ ρ ho (hv.fl h1.fl) hcs
          exact ⟨ρ', ⟨k1, k2⟩, k3⟩
        · rintro σ ρ ρ' ho hv ⟨k1, k2⟩
          obtain ⟨σ1, q1, q2, _⟩ := h1.yes σ ρ ho hv k1 (fun _ => rfl)
          obtain ⟨σ2, s1, s2, s3, s4⟩ := h2.yes σ1 ρ ρ' q2 ((hv.agree hw q1).fl h1.fl) k2
          exact ⟨σ2, q1.trans s1 h1.grow.len, s2, s3, s4⟩
    · rw [if_neg hc] at h
      cases e1 : flatB c false false e st with
      | none => rw [e1] at h; cases h
      | some p1 =>
        obtain ⟨st1, a⟩ := p1
        rw [e1] at h
        simp only at h
        have h1 := flatB_spec e c false false st st1 a hw hf.1 ⟨fun e => absurd e hc, by simp, by simp⟩ e1
        have hin : ∀ σ, Inner false σ a ↔ a.tr σ := by intro σ; simp [Inner]
        cases e2 : flatItems c r st1 with
        | none => rw [e2] at h; cases h
        | some p2 =>
          obtain ⟨st2, cs', sv'⟩ := p2
          rw [e2] at h
          simp only [Option.some.injEq, Prod.mk.injEq] at h
          obtain ⟨rfl, rfl, rfl⟩ := h
          have h2 := flatItems_spec r c st1 st2 cs' sv' h1.grow.wf hf.2 e2
          refine ⟨h1.grow.trans h2.grow, ?_, h2.names, ?_, ?_, ?_, ?_, ?_, ?_⟩
          · intro b hb
            rcases List.mem_cons.mp hb with rfl | hb
            · exact h1.lt.mono h2.grow.len
            · exact h2.lt b hb
          · intro y hy; rw [h2.other y hy, h1.fl]
          · intro hn y b hb; rw [h2.saved hn y b hb, h1.fl]
          · intro hc' σ ρ ho hv hcs
            have k1 := h1.sound hc' σ ρ (h2.grow.ok ho) hv ((hin σ).mpr (hcs a (by simp)))
            obtain ⟨ρ', k2, k3⟩ := h2.sound hc' σ ρ ho (hv.fl h1.fl) (fun b hb => hcs b (List.mem_cons_of_mem _ hb))
            exact ⟨ρ', ⟨k1, k2⟩, k3⟩
          · rintro hc' σ ρ ρ' ho hv ⟨k1, k2⟩
            obtain ⟨q1, q2⟩ := h2.exact hc' σ ρ ρ' ho (hv.fl h1.fl) k2
            refine ⟨fun b hb => ?_, q2⟩
            rcases List.mem_cons.mp hb with rfl | hb
            · exact (hin σ).mp (h1.exact hc' σ ρ (h2.grow.ok ho) hv k1)
            · exact q1 b hb
          · rintro σ ρ ρ' ho hv ⟨k1, k2⟩
            obtain ⟨σ1, q1, q2, q3⟩ := h1.yes σ ρ ho hv k1 (by simp)
            obtain ⟨σ2, s1, s2, s3, s4⟩ := h2.yes σ1 ρ ρ' q2 ((hv.agree hw q1).fl h1.fl) k2
            refine ⟨σ2, q1.trans s1 h1.grow.len, s2, fun b hb => ?_, s4⟩
            rcases List.mem_cons.mp hb with rfl | hb
            · exact (Atom.tr_agree s1 h1.lt).mpr ((hin σ1).mp q3)
            · exact s3 b hb
          · intro _ σ ρ ho hv hn
            by_cases ht : e.True ρ
            · obtain ⟨σ1, q1, q2, q3⟩ := h1.yes σ ρ ho hv ht (by simp)
              obtain ⟨σ2, s1, s2, s3⟩ := h2.no hc σ1 ρ q2 ((hv.agree hw q1).fl h1.fl) (fun ⟨ρ', k⟩ => hn ⟨ρ', ht, k⟩)
              exact ⟨σ2, q1.trans s1 h1.grow.len, s2, fun hx => s3 fun b hb => hx b (List.mem_cons_of_mem _ hb)⟩
            · obtain ⟨σ1, q1, q2, q3⟩ := h1.no σ ρ ho hv ht (by simp)
              obtain ⟨σ2, s1, s2⟩ := h2.total hc q2
              exact ⟨σ2, q1.trans s1 h1.grow.len, s2, fun hx => q3 ((hin σ1).mpr ((Atom.tr_agree s1 h1.lt).mp (hx a (by simp))))⟩
end

end Let
end MZ
