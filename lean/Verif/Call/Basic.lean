import Verif.Call.Spec
/-!
# Calls: monotonicity and invariants
-/
namespace MZ
namespace Call
open BoolFlat (Cmp)
open Let (Atom Def St mk post out setFl restore Ok WF Grow Agree)

/-! ## More nested calls do not change a result -/

theorem both_mono {α β γ : Type} {f : α → β → Option γ} {a a' : Option (Option α)} {b b' : Option (Option β)}
    (ha : ∀ o, a = some o → a' = some o) (hb : ∀ o, b = some o → b' = some o) {o : Option γ} (h : both f a b = some o) :
    both f a' b' = some o := by
  cases a with
  | none => simp [both] at h
  | some a =>
    cases b with
    | none => cases a <;> simp [both] at h
    | some b => rw [ha a rfl, hb b rfl]; exact h

mutual
theorem IE.val_mono {A A' : Nat → List Int → Option (Option Int)} (hA : ∀ f vs o, A f vs = some o → A' f vs = some o) :
    ∀ (t : IE) (η : Nat → Int) (o : Option Int), t.val A η = some o → t.val A' η = some o
  | .lit _, η, o, h => h
  | .var _, η, o, h => h
  | .par _, η, o, h => h
  | .add s t, η, o, h => by
    simp only [IE.val] at h ⊢
    exact both_mono (IE.val_mono hA s η) (IE.val_mono hA t η) h
  | .div s t, η, o, h => by
    simp only [IE.val] at h ⊢
    exact both_mono (IE.val_mono hA s η) (IE.val_mono hA t η) h
  | .ite c p q s t, η, o, h => by
    simp only [IE.val] at h ⊢
    split
    · rename_i hc; rw [if_pos hc] at h; exact IE.val_mono hA s η o h
    · rename_i hc; rw [if_neg hc] at h; exact IE.val_mono hA t η o h
  | .let_ x s t, η, o, h => by
    simp only [IE.val] at h ⊢
    cases e : s.val A η with
    | none => rw [e] at h; cases h
    | some v =>
      rw [e] at h
      rw [IE.val_mono hA s η v e]
      cases v with
      | none => exact h
      | some v => exact IE.val_mono hA t _ o h
  | .call f as, η, o, h => by
    simp only [IE.val] at h ⊢
    cases e : as.val A η with
    | none => rw [e] at h; cases h
    | some v =>
      rw [e] at h
      rw [Args.val_mono hA as η v e]
      cases v with
      | none => exact h
      | some v => exact hA f v o h
theorem Args.val_mono {A A' : Nat → List Int → Option (Option Int)} (hA : ∀ f vs o, A f vs = some o → A' f vs = some o) :
    ∀ (t : Args) (η : Nat → Int) (o : Option (List Int)), t.val A η = some o → t.val A' η = some o
  | .nil, η, o, h => h
  | .cons s t, η, o, h => by
    simp only [Args.val] at h ⊢
    exact both_mono (IE.val_mono hA s η) (Args.val_mono hA t η) h
end

theorem BE.val_mono {A A' : Nat → List Int → Option (Option Int)} (hA : ∀ f vs o, A f vs = some o → A' f vs = some o)
    {P P' : Nat → List Int → Option Bool} (hP : ∀ f vs o, P f vs = some o → P' f vs = some o) :
    ∀ (e : BE) (η : Nat → Int) (b : Bool), e.val A P η = some b → e.val A' P' η = some b
  | .cmp c s t, η, b, h => by
    simp only [BE.val] at h ⊢
    cases e : s.val A η with
    | none => rw [e] at h; simp at h
    | some v =>
      cases e2 : t.val A η with
      | none => rw [e, e2] at h; cases v <;> simp at h
      | some w => rw [e, e2] at h; rw [IE.val_mono hA s η v e, IE.val_mono hA t η w e2]; exact h
  | .not e, η, b, h => by
    simp only [BE.val, Option.map_eq_some_iff] at h ⊢
    obtain ⟨a, h1, h2⟩ := h
    exact ⟨a, BE.val_mono hA hP e η a h1, h2⟩
  | .and x y, η, b, h => by
    simp only [BE.val] at h ⊢
    cases e : x.val A P η with
    | none => rw [e] at h; simp at h
    | some v =>
      cases e2 : y.val A P η with
      | none => rw [e, e2] at h; simp at h
      | some w => rw [e, e2] at h; rw [BE.val_mono hA hP x η v e, BE.val_mono hA hP y η w e2]; exact h
  | .or x y, η, b, h => by
    simp only [BE.val] at h ⊢
    cases e : x.val A P η with
    | none => rw [e] at h; simp at h
    | some v =>
      cases e2 : y.val A P η with
      | none => rw [e, e2] at h; simp at h
      | some w => rw [e, e2] at h; rw [BE.val_mono hA hP x η v e, BE.val_mono hA hP y η w e2]; exact h
  | .ite c p q s t, η, o, h => by
    simp only [BE.val] at h ⊢
    split
    · rename_i hc; rw [if_pos hc] at h; exact BE.val_mono hA hP s η o h
    · rename_i hc; rw [if_neg hc] at h; exact BE.val_mono hA hP t η o h
  | .call f as, η, o, h => by
    simp only [BE.val] at h ⊢
    cases e : as.val A η with
    | none => rw [e] at h; cases h
    | some v =>
      rw [e] at h
      rw [Args.val_mono hA as η v e]
      cases v with
      | none => exact h
      | some v => exact hP f v o h

theorem fn_succ (G : Prog) (g : Nat → Int) : ∀ n f vs o, G.fn g n f vs = some o → G.fn g (n + 1) f vs = some o
  | 0, f, vs, o, h => by simp [Prog.fn] at h
  | n + 1, f, vs, o, h => by
    rw [Prog.fn] at h ⊢
    cases e : G.ifuns[f]? with
    | none => rw [e] at h; cases h
    | some F =>
      rw [e] at h
      simp only at h ⊢
      by_cases hl : F.params.length ≠ vs.length
      · rw [if_pos hl] at h; cases h
      · rw [if_neg hl] at h ⊢
        cases e2 : F.body.val (G.fn g n) (bind g F.params vs) with
        | none => rw [e2] at h; cases h
        | some w => rw [e2] at h; rw [IE.val_mono (fn_succ G g n) _ _ w e2]; exact h

theorem fn_mono (G : Prog) (g : Nat → Int) {n m : Nat} (h : n ≤ m) {f : Nat} {vs : List Int} {o : Option Int}
    (he : G.fn g n f vs = some o) : G.fn g m f vs = some o := by
  induction h with
  | refl => exact he
  | step _ ih => exact fn_succ G g _ f vs o ih

theorem pr_succ (G : Prog) (g : Nat → Int) : ∀ n f vs o, G.pr g n f vs = some o → G.pr g (n + 1) f vs = some o
  | 0, f, vs, o, h => by simp [Prog.pr] at h
  | n + 1, f, vs, o, h => by
    rw [Prog.pr] at h ⊢
    cases e : G.pfuns[f]? with
    | none => rw [e] at h; cases h
    | some F =>
      rw [e] at h
      simp only at h ⊢
      by_cases hl : F.params.length ≠ vs.length
      · rw [if_pos hl] at h; cases h
      · rw [if_neg hl] at h ⊢
        cases e2 : F.body.val (G.fn g n) (G.pr g n) (bind g F.params vs) with
        | none => rw [e2] at h; cases h
        | some w => rw [e2] at h; rw [BE.val_mono (fn_succ G g n) (pr_succ G g n) _ _ w e2]; exact h

theorem pr_mono (G : Prog) (g : Nat → Int) {n m : Nat} (h : n ≤ m) {f : Nat} {vs : List Int} {o : Bool}
    (he : G.pr g n f vs = some o) : G.pr g m f vs = some o := by
  induction h with
  | refl => exact he
  | step _ ih => exact pr_succ G g _ f vs o ih

/-- The meaning of an integer expression. -/
def EvI (G : Prog) (t : IE) (g η : Nat → Int) (o : Option Int) : Prop := ∃ n, t.val (G.fn g n) η = some o
/-- The meaning of arguments. -/
def EvA (G : Prog) (t : Args) (g η : Nat → Int) (o : Option (List Int)) : Prop := ∃ n, t.val (G.fn g n) η = some o
/-- The meaning of a Boolean expression. -/
def EvB (G : Prog) (e : BE) (g η : Nat → Int) (b : Bool) : Prop := ∃ n, e.val (G.fn g n) (G.pr g n) η = some b
/-- The meaning of a function. -/
def AppI (G : Prog) (g : Nat → Int) (f : Nat) (vs : List Int) (o : Option Int) : Prop := ∃ n, G.fn g n f vs = some o
/-- The meaning of a predicate. -/
def AppP (G : Prog) (g : Nat → Int) (f : Nat) (vs : List Int) (b : Bool) : Prop := ∃ n, G.pr g n f vs = some b

theorem val_le {G : Prog} {g η : Nat → Int} {t : IE} {o : Option Int} {n m : Nat} (h : n ≤ m) (he : t.val (G.fn g n) η = some o) :
    t.val (G.fn g m) η = some o := IE.val_mono (fun _ _ _ => fn_mono G g h) t η o he

theorem valA_le {G : Prog} {g η : Nat → Int} {t : Args} {o : Option (List Int)} {n m : Nat} (h : n ≤ m) (he : t.val (G.fn g n) η = some o) :
    t.val (G.fn g m) η = some o := Args.val_mono (fun _ _ _ => fn_mono G g h) t η o he

theorem valB_le {G : Prog} {g η : Nat → Int} {t : BE} {o : Bool} {n m : Nat} (h : n ≤ m) (he : t.val (G.fn g n) (G.pr g n) η = some o) :
    t.val (G.fn g m) (G.pr g m) η = some o := BE.val_mono (fun _ _ _ => fn_mono G g h) (fun _ _ _ => pr_mono G g h) t η o he

theorem EvI.uniq {G : Prog} {t : IE} {g η : Nat → Int} {o o' : Option Int} (h : EvI G t g η o) (h' : EvI G t g η o') : o = o' := by
  obtain ⟨n, h⟩ := h
  obtain ⟨m, h'⟩ := h'
  have := val_le (Nat.le_max_left n m) h
  rw [val_le (Nat.le_max_right n m) h'] at this
  simpa using this.symm

theorem EvA.uniq {G : Prog} {t : Args} {g η : Nat → Int} {o o' : Option (List Int)} (h : EvA G t g η o) (h' : EvA G t g η o') : o = o' := by
  obtain ⟨n, h⟩ := h
  obtain ⟨m, h'⟩ := h'
  have := valA_le (Nat.le_max_left n m) h
  rw [valA_le (Nat.le_max_right n m) h'] at this
  simpa using this.symm

theorem EvB.uniq {G : Prog} {t : BE} {g η : Nat → Int} {o o' : Bool} (h : EvB G t g η o) (h' : EvB G t g η o') : o = o' := by
  obtain ⟨n, h⟩ := h
  obtain ⟨m, h'⟩ := h'
  have := valB_le (Nat.le_max_left n m) h
  rw [valB_le (Nat.le_max_right n m) h'] at this
  simpa using this.symm

theorem AppI.uniq {G : Prog} {g : Nat → Int} {f : Nat} {vs : List Int} {o o' : Option Int} (h : AppI G g f vs o) (h' : AppI G g f vs o') :
    o = o' := by
  obtain ⟨n, h⟩ := h
  obtain ⟨m, h'⟩ := h'
  have := fn_mono G g (Nat.le_max_left n m) h
  rw [fn_mono G g (Nat.le_max_right n m) h'] at this
  simpa using this.symm

theorem AppP.uniq {G : Prog} {g : Nat → Int} {f : Nat} {vs : List Int} {o o' : Bool} (h : AppP G g f vs o) (h' : AppP G g f vs o') :
    o = o' := by
  obtain ⟨n, h⟩ := h
  obtain ⟨m, h'⟩ := h'
  have := pr_mono G g (Nat.le_max_left n m) h
  rw [pr_mono G g (Nat.le_max_right n m) h'] at this
  simpa using this.symm

/-! ## Invariants -/

/-- The values of the declarations in scope. -/
def Env (X : Nat → Prop) (fl : Nat → Atom) (σ η : Nat → Int) : Prop := ∀ x, X x → (fl x).val σ = η x

structure Inv (n : Nat) (G : Prog) (s : S) : Prop where
  wf : WF s.st
  glob : ∀ x < n, s.st.fl x = .var x
  cse : ∀ f vs r b, ((f, vs), r, b) ∈ s.cse → r.Lt s.st.decls.length ∧ b.Lt s.st.decls.length ∧ ∀ σ, Ok σ s.st →
    ∃ o, AppI G (gl n σ) f (vs.map (·.val σ)) o ∧ (b.tr σ ↔ o.isSome = true) ∧ ∀ v, o = some v → r.val σ = v
  cseP : ∀ f vs a, ((f, vs), a) ∈ s.cseP → a.Lt s.st.decls.length ∧ ∀ σ, Ok σ s.st →
    ∃ o, AppP G (gl n σ) f (vs.map (·.val σ)) o ∧ (a.tr σ ↔ o = true)

theorem Inv.grow {n : Nat} {G : Prog} {s : S} (h : Inv n G s) {st' : St} (hg : Grow s.st st') (hf : ∀ x < n, st'.fl x = s.st.fl x) :
    Inv n G { s with st := st' } := by
  refine ⟨hg.wf, fun x hx => (hf x hx).trans (h.glob x hx), ?_, ?_⟩
  · intro f vs r b hm
    obtain ⟨h1, h2, h3⟩ := h.cse f vs r b hm
    exact ⟨h1.mono hg.len, h2.mono hg.len, fun σ ho => h3 σ (hg.ok ho)⟩
  · intro f vs a hm
    obtain ⟨h1, h3⟩ := h.cseP f vs a hm
    exact ⟨h1.mono hg.len, fun σ ho => h3 σ (hg.ok ho)⟩

theorem Inv.lt {n : Nat} {G : Prog} {s : S} (h : Inv n G s) {x : Nat} (hx : x < n) : x < s.st.decls.length := by
  have := h.wf.fl x
  rw [h.glob x hx] at this
  exact this

theorem Inv.gl {n : Nat} {G : Prog} {s : S} (h : Inv n G s) {σ σ' : Nat → Int} (ha : Agree s.st.decls.length σ σ') : gl n σ' = gl n σ := by
  funext x
  simp only [Call.gl]
  split
  · rename_i hx; exact ha x (h.lt hx)
  · rfl

theorem Env.agree {X : Nat → Prop} {n : Nat} {G : Prog} {s : S} (h : Inv n G s) {σ σ' η : Nat → Int} (ha : Agree s.st.decls.length σ σ')
    (he : Env X s.st.fl σ η) : Env X s.st.fl σ' η := fun x hx => (Atom.val_agree ha (h.wf.fl x)).trans (he x hx)
  where Atom.val_agree {n : Nat} {σ σ' : Nat → Int} (h : Agree n σ σ') {a : Atom} (ha : a.Lt n) : a.val σ' = a.val σ := Let.Atom.val_agree h ha

/-- `outS`. -/
theorem outS_spec {n : Nat} {G : Prog} {s : S} (h : Inv n G s) {d : Def} (hd : d.Lt s.st.decls.length) (root : Bool) (P : (Nat → Int) → Prop)
    (hP : ∀ σ, d.Prop? σ = some (P σ)) :
    Grow s.st (outS root s d).1.st ∧ Inv n G (outS root s d).1 ∧ (outS root s d).1.st.fl = s.st.fl ∧
    (outS root s d).2.Lt (outS root s d).1.st.decls.length ∧ (root = true → (outS root s d).2 = .lit 1) ∧
    (∀ σ, Ok σ (outS root s d).1.st → ((outS root s d).2.tr σ ↔ P σ)) ∧
    (∀ σ, Ok σ s.st → (root = true → P σ) → ∃ σ', Agree s.st.decls.length σ σ' ∧ Ok σ' (outS root s d).1.st) := by
  obtain ⟨h1, h2, h3, h4, h5, h6⟩ := Let.out_spec h.wf hd root P hP
  exact ⟨h1, h.grow h1 (fun x _ => congrFun h2 x), h2, h3, h4, fun σ ho => (h5 σ ho).1, h6⟩

/-- `mkS`. -/
theorem mkS_spec {n : Nat} {G : Prog} {s : S} (h : Inv n G s) {d : Def} (hd : d.Lt s.st.decls.length) :
    Grow s.st (mkS s d).1.st ∧ Inv n G (mkS s d).1 ∧ (mkS s d).1.st.fl = s.st.fl ∧ (mkS s d).2.Lt (mkS s d).1.st.decls.length ∧
    (∀ σ, Ok σ (mkS s d).1.st → d.Holds σ ((mkS s d).2.val σ)) ∧
    (∀ σ v, Ok σ s.st → d.Holds σ v → ∃ σ', Agree s.st.decls.length σ σ' ∧ Ok σ' (mkS s d).1.st) := by
  obtain ⟨h1, h2⟩ := Let.wf_mk h.wf hd
  refine ⟨h1, h.grow h1 (fun x _ => rfl), rfl, h2, fun σ ho => Let.holds_mk ho, fun σ v ho hv => ?_⟩
  obtain ⟨σ', k1, k2, _⟩ := Let.ok_mk h.wf hd ho hv
  exact ⟨σ', k1, k2⟩

theorem foldl_post (nt : List Atom) : ∀ st : St, nt.foldl post st = { st with cons := st.cons ++ nt } := by
  induction nt with
  | nil => intro st; simp
  | cons a r ih => intro st; simp [ih, post]

/-- A conjunction. -/
theorem conjS_spec {n : Nat} {G : Prog} {s : S} (h : Inv n G s) {cs : List Atom} (hd : ∀ a ∈ cs, a.Lt s.st.decls.length) (root : Bool) :
    Grow s.st (conjS root s cs).1.st ∧ Inv n G (conjS root s cs).1 ∧ (conjS root s cs).1.st.fl = s.st.fl ∧
    (conjS root s cs).2.Lt (conjS root s cs).1.st.decls.length ∧ (root = true → (conjS root s cs).2 = .lit 1) ∧
    (∀ σ, Ok σ (conjS root s cs).1.st → ((conjS root s cs).2.tr σ ↔ ∀ a ∈ cs, a.tr σ)) ∧
    (∀ σ, Ok σ s.st → (root = true → ∀ a ∈ cs, a.tr σ) → ∃ σ', Agree s.st.decls.length σ σ' ∧ Ok σ' (conjS root s cs).1.st) := by
  have h1 : ∀ σ, (Atom.lit 1).tr σ := fun σ => by simp [Atom.tr, Atom.val]
  have h0 : ∀ σ, ¬ (Atom.lit 0).tr σ := fun σ => by simp [Atom.tr, Atom.val]
  have key : ∀ σ, (∀ a ∈ cs.filter (· ≠ .lit 1), a.tr σ) ↔ ∀ a ∈ cs, a.tr σ := by
    intro σ
    constructor
    · intro hf a ha
      by_cases e : a = .lit 1
      · rw [e]; exact h1 σ
      · exact hf a (List.mem_filter.mpr ⟨ha, by simpa using e⟩)
    · intro hf a ha; exact hf a (List.mem_filter.mp ha).1
  have hlt : ∀ a ∈ cs.filter (· ≠ .lit 1), a.Lt s.st.decls.length := fun a ha => hd a (List.mem_filter.mp ha).1
  unfold conjS
  generalize cs.filter (· ≠ .lit 1) = nt at key hlt
  simp only
  by_cases e0 : nt = []
  · subst e0
    rw [if_pos rfl]
    refine ⟨Grow.refl h.wf, h, rfl, trivial, fun _ => rfl, fun σ _ => ?_, fun σ ho _ => ⟨σ, Agree.refl _ _, ho⟩⟩
    rw [← key σ]; simp [h1]
  · rw [if_neg e0]
    cases root with
    | true =>
      simp only [if_true]
      rw [foldl_post]
      have hg : Grow s.st { s.st with cons := s.st.cons ++ nt } := by
        refine ⟨List.prefix_rfl, fun b hb => List.mem_append_left _ hb, h.wf, h.wf.decls, ?_, h.wf.fl⟩
        intro b hb
        rcases List.mem_append.mp hb with hb | hb
        · exact h.wf.cons b hb
        · exact hlt b hb
      refine ⟨hg, h.grow hg (fun _ _ => rfl), rfl, trivial, fun _ => trivial, fun σ ho => ?_, fun σ ho hc => ⟨σ, Agree.refl _ _, ho.1, ?_⟩⟩
      · rw [← key σ]
        exact ⟨fun _ a ha => ho.2 a (List.mem_append_right _ ha), fun _ => h1 σ⟩
      · intro a ha
        rcases List.mem_append.mp ha with ha | ha
        · exact ho.2 a ha
        · exact (key σ).mpr (hc trivial) a ha
    | false =>
      simp only [Bool.false_eq_true, if_false]
      by_cases ez : Atom.lit 0 ∈ nt
      · rw [if_pos ez]
        refine ⟨Grow.refl h.wf, h, rfl, trivial, by simp, fun σ _ => ?_, fun σ ho _ => ⟨σ, Agree.refl _ _, ho⟩⟩
        rw [← key σ]
        exact ⟨fun hc => absurd hc (h0 σ), fun hc => hc _ ez⟩
      · rw [if_neg ez]
        have gen := mkS_spec h (d := .conj false nt) hlt
        obtain ⟨g1, g2, g3, g4, g5, g6⟩ := gen
        have hmk : Grow s.st (mkS s (.conj false nt)).1.st ∧ Inv n G (mkS s (.conj false nt)).1 ∧ (mkS s (.conj false nt)).1.st.fl = s.st.fl ∧
            (mkS s (.conj false nt)).2.Lt (mkS s (.conj false nt)).1.st.decls.length ∧ (False → (mkS s (.conj false nt)).2 = .lit 1) ∧
            (∀ σ, Ok σ (mkS s (.conj false nt)).1.st → ((mkS s (.conj false nt)).2.tr σ ↔ ∀ a ∈ cs, a.tr σ)) ∧
            (∀ σ, Ok σ s.st → (False → ∀ a ∈ cs, a.tr σ) → ∃ σ', Agree s.st.decls.length σ σ' ∧ Ok σ' (mkS s (.conj false nt)).1.st) := by
          have hp : ∀ σ, (Def.conj false nt).Prop? σ = some (∀ a ∈ nt, a.tr σ) := fun σ => by simp [Def.Prop?]
          refine ⟨g1, g2, g3, g4, fun e => e.elim, fun σ ho => ?_, fun σ ho _ => ?_⟩
          · rw [← key σ]
            exact (Def.tr_iff (hp σ) (g5 σ ho)).1
          · by_cases hq : ∀ a ∈ nt, a.tr σ
            · exact g6 σ 1 ho ((Def.holds_iff (hp σ) 1).mpr (Or.inl ⟨rfl, hq⟩))
            · exact g6 σ 0 ho ((Def.holds_iff (hp σ) 0).mpr (Or.inr ⟨rfl, hq⟩))
        match nt, hmk with
        | [], _ => exact absurd rfl e0
        | [a], _ =>
          refine ⟨Grow.refl h.wf, h, rfl, hlt a (by simp), by simp, fun σ _ => ?_, fun σ ho _ => ⟨σ, Agree.refl _ _, ho⟩⟩
          rw [← key σ]; simp
        | a :: b :: r, hmk => simpa using hmk

/-- `setS`. -/
theorem setS_inv {n : Nat} {G : Prog} {s : S} (h : Inv n G s) {x : Nat} (hx : n ≤ x) {a : Atom} (ha : a.Lt s.st.decls.length) :
    Inv n G (setS s x a) ∧ Grow s.st (setS s x a).st := by
  have hg := Let.setFl_grow (Grow.refl h.wf) x ha
  refine ⟨h.grow hg ?_, hg⟩
  intro y hy
  simp only [setFl]
  rw [if_neg (by omega)]

theorem evalP_val {X : Nat → Prop} {fl : Nat → Atom} {σ η : Nat → Int} (he : Env X fl σ η) :
    ∀ (p : PE) (v : Int), p.In X → evalP fl p = some v → p.val η = v
  | .lit w, v, _, h => by simpa [evalP, PE.val] using h
  | .var x, v, hx, h => by
    simp only [evalP] at h
    have := he x hx
    cases e : fl x with
    | lit w => rw [e] at h this; simp [Atom.val] at h this; simp only [PE.val]; omega
    | var k => rw [e] at h; cases h
  | .add s t, v, hx, h => by
    simp only [evalP] at h
    cases e1 : evalP fl s with
    | none => rw [e1] at h; simp at h
    | some a =>
      cases e2 : evalP fl t with
      | none => rw [e1, e2] at h; simp at h
      | some b =>
        rw [e1, e2] at h
        simp only [Option.some.injEq] at h
        simp only [PE.val]
        rw [evalP_val he s a hx.1 e1, evalP_val he t b hx.2 e2, h]
  | .sub s t, v, hx, h => by
    simp only [evalP] at h
    cases e1 : evalP fl s with
    | none => rw [e1] at h; simp at h
    | some a =>
      cases e2 : evalP fl t with
      | none => rw [e1, e2] at h; simp at h
      | some b =>
        rw [e1, e2] at h
        simp only [Option.some.injEq] at h
        simp only [PE.val]
        rw [evalP_val he s a hx.1 e1, evalP_val he t b hx.2 e2, h]

end Call
end MZ
