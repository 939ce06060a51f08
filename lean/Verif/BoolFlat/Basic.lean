import Verif.BoolFlat.Model

/-! Invariants of the flat model and the effect of the primitive updates. -/

namespace MZ
namespace BoolFlat

/-- The variables of a flat expression are below `n`. -/
def FE.lt (n : Nat) : FE → Prop
  | .lit _ => True
  | .var v => v < n

theorem FE.lt.mono {n m : Nat} {e : FE} (h : e.lt n) (hm : n ≤ m) : e.lt m := by
  cases e with
  | lit b => trivial
  | var v => exact Nat.lt_of_lt_of_le h hm

/-- The occurrences of flat expressions in a call, with their polarity. -/
def FC.occ : FC → List (Bool × FE)
  | .all_ es => es.map (true, ·)
  | .any_ es => es.map (true, ·)
  | .clause ps ns => ps.map (true, ·) ++ ns.map (false, ·)
  | .not_ e => [(false, e)]
  | .iff_ a b => [(true, a), (false, a), (true, b), (false, b)]
  | .xor_ a b => [(true, a), (false, a), (true, b), (false, b)]
  | .cmp .. => []
  | .pred _ => []
  | .cnt .le es _ => es.map (false, ·)
  | .cnt .lq es _ => es.map (false, ·)
  | .cnt .gr es _ => es.map (true, ·)
  | .cnt .gq es _ => es.map (true, ·)
  | .cnt .eq es _ => es.map (true, ·) ++ es.map (false, ·)
  | .cnt .nq es _ => es.map (true, ·) ++ es.map (false, ·)
  | .alias e => [(true, e)]

/-- The variables of a call are below `n`. -/
def FC.lt (n : Nat) (c : FC) : Prop := ∀ x ∈ c.occ, x.2.lt n

theorem FC.lt.mono {n m : Nat} {c : FC} (h : c.lt n) (hm : n ≤ m) : c.lt m :=
  fun x hx => (h x hx).mono hm

/-- Introduced variables have the value of their right-hand side. -/
def Canon (I : Interp) (s : St) (μ : Nat → Bool) : Prop :=
  ∀ v d, s.decls[v]? = some d → d.src = false → ∃ c, d.rhs = some c ∧ μ v = c.val I μ

/-- A flat constraint, with full reification. -/
def Con.strict (I : Interp) (μ : Nat → Bool) : Con → Prop
  | .call c => c.val I μ = true
  | .reif _ c v => μ v = c.val I μ
  | .eqv v w => μ v = μ w

/-- Everything but the definitions of introduced variables, with full reification. -/
structure Roots (I : Interp) (s : St) (μ : Nat → Bool) : Prop where
  ok : s.failed = false
  cons : ∀ c ∈ s.cons, c.strict I μ
  dom : ∀ v d b, s.decls[v]? = some d → d.dom = some b → μ v = b
  rhs : ∀ v d c, s.decls[v]? = some d → d.src = true → d.rhs = some c → μ v = c.val I μ

/-- Under `Canon` and `Roots`, every variable has the value of its right-hand side. -/
theorem val_rhs {I : Interp} {s : St} {μ} (hc : Canon I s μ) (hr : Roots I s μ) {v : Nat} {c : FC}
    (h : s.rhsOf v = some c) : μ v = c.val I μ := by
  unfold St.rhsOf at h
  cases hd : s.decls[v]? with
  | none => simp [hd] at h
  | some d =>
    simp only [hd, Option.bind_some] at h
    cases hs : d.src with
    | true => exact hr.rhs v d c hd hs h
    | false =>
      obtain ⟨c', h1, h2⟩ := hc v d hd hs
      rw [h] at h1; cases h1; exact h2

theorem val_dom {I : Interp} {s : St} {μ} (hr : Roots I s μ) {v : Nat} {b : Bool}
    (h : s.domOf v = some b) : μ v = b := by
  unfold St.domOf at h
  cases hd : s.decls[v]? with
  | none => simp [hd] at h
  | some d =>
    simp only [hd, Option.bind_some] at h
    exact hr.dom v d b hd h

/-- `ctx_mix` or `ctx_root`. -/
def MR (a : Option BCtx) : Prop := a = some .mix ∨ a = some .root

/-- How annotations may change. -/
structure AnnLe (a a' : Option BCtx) : Prop where
  pos : a ≠ none → a' = some .pos → a = some .pos
  mr : MR a → MR a'
  nn : a ≠ none → a' ≠ none

theorem AnnLe.refl (a) : AnnLe a a := ⟨fun _ h => h, fun h => h, fun h => h⟩

theorem AnnLe.trans {a b c} (h1 : AnnLe a b) (h2 : AnnLe b c) : AnnLe a c :=
  ⟨fun hn hc => h1.pos hn (h2.pos (h1.nn hn) hc), fun h => h2.mr (h1.mr h),
    fun h => h2.nn (h1.nn h)⟩

theorem AnnLe.merge (a : Option BCtx) (c : BCtx) : AnnLe a (mergeAnn a c) := by
  cases a with
  | none => exact ⟨fun h => absurd rfl h, fun h => by rcases h with h | h <;> simp at h,
      fun h => absurd rfl h⟩
  | some o =>
    constructor
    · intro _ h
      cases o <;> cases c <;> simp_all [mergeAnn]
    · intro h
      cases o <;> cases c <;> simp_all [mergeAnn, MR]
    · intro _
      cases o <;> cases c <;> simp [mergeAnn]

/-- A half-reified constraint occurs only with half-reification enabled. -/
def Con.hrOk (hr : Bool) : Con → Prop
  | .reif h _ _ => h = true → hr = true
  | _ => True

/-- How the state may change. -/
structure Ext (s s' : St) : Prop where
  len : s.decls.length ≤ s'.decls.length
  hr : s'.hr = s.hr
  get : ∀ (v : Nat) d, s.decls[v]? = some d → ∃ d', s'.decls[v]? = some d' ∧ d'.src = d.src ∧
    (∀ c, d.rhs = some c → d'.rhs = some c) ∧ (∀ b, d.dom = some b → d'.dom = some b) ∧
    AnnLe d.ann d'.ann
  cons : ∀ c ∈ s.cons, c ∈ s'.cons
  new : ∀ (v : Nat) d', s'.decls[v]? = some d' → s.decls.length ≤ v → d'.src = false
  newc : ∀ c ∈ s'.cons, c ∈ s.cons ∨ c.hrOk s.hr

theorem Ext.refl (s : St) : Ext s s :=
  ⟨Nat.le_refl _, rfl, fun _ d h => ⟨d, h, rfl, fun _ h => h, fun _ h => h, AnnLe.refl _⟩,
    fun _ h => h, fun v d' h hl => by
      exact absurd h (by rw [List.getElem?_eq_none hl]; simp), fun _ h => Or.inl h⟩

theorem Ext.trans {s s1 s2 : St} (h1 : Ext s s1) (h2 : Ext s1 s2) : Ext s s2 := by
  refine ⟨Nat.le_trans h1.len h2.len, h2.hr.trans h1.hr, ?_, fun c h => h2.cons c (h1.cons c h), ?_, ?_⟩
  · intro v d hd
    obtain ⟨d1, hd1, a1, b1, c1, e1⟩ := h1.get v d hd
    obtain ⟨d2, hd2, a2, b2, c2, e2⟩ := h2.get v d1 hd1
    exact ⟨d2, hd2, a2.trans a1, fun c h => b2 c (b1 c h), fun b h => c2 b (c1 b h), e1.trans e2⟩
  · intro v d' hd hl
    by_cases hv : s1.decls.length ≤ v
    · exact h2.new v d' hd hv
    · have : v < s1.decls.length := Nat.lt_of_not_le hv
      obtain ⟨d1, hd1⟩ : ∃ d1, s1.decls[v]? = some d1 := ⟨_, List.getElem?_eq_getElem this⟩
      have := h1.new v d1 hd1 hl
      obtain ⟨d2, hd2, a2, -⟩ := h2.get v d1 hd1
      rw [hd] at hd2; cases hd2; rw [a2]; exact this
  · intro c hc
    rcases h2.newc c hc with h | h
    · exact h1.newc c h
    · rw [h1.hr] at h; exact Or.inr h

/-- The structural invariant. -/
structure Inv (I : Interp) (s : St) : Prop where
  intro : ∀ (v : Nat) d, s.decls[v]? = some d → d.src = false → ∃ c, d.rhs = some c ∧ c.lt v
  src : ∀ (v : Nat) d c, s.decls[v]? = some d → d.src = true → d.rhs = some c →
    c.lt s.decls.length
  cse : ∀ p ∈ s.cse, p.2.lt s.decls.length ∧
    ∀ μ, Canon I s μ → Roots I s μ → p.1.val I μ = p.2.val μ

theorem Inv.rhsLt {I : Interp} {s : St} (hi : Inv I s) {v : Nat} {c : FC}
    (h : s.rhsOf v = some c) : c.lt s.decls.length := by
  unfold St.rhsOf at h
  cases hd : s.decls[v]? with
  | none => simp [hd] at h
  | some d =>
    simp only [hd, Option.bind_some] at h
    cases hs : d.src with
    | true => exact hi.src v d c hd hs h
    | false =>
      obtain ⟨c', h1, h2⟩ := hi.intro v d hd hs
      rw [h] at h1; cases h1
      have : v < s.decls.length := by
        rcases Nat.lt_or_ge v s.decls.length with h | h
        · exact h
        · rw [List.getElem?_eq_none h] at hd; cases hd
      exact h2.mono (Nat.le_of_lt this)

theorem Canon.ext {I : Interp} {s s' : St} {μ} (he : Ext s s') (hi : Inv I s)
    (hc : Canon I s' μ) : Canon I s μ := by
  intro v d hd hs
  obtain ⟨d', hd', a, b, -⟩ := he.get v d hd
  obtain ⟨c, h1, -⟩ := hi.intro v d hd hs
  obtain ⟨c', h1', h2'⟩ := hc v d' hd' (a.trans hs)
  rw [b c h1] at h1'; cases h1'
  exact ⟨c, h1, h2'⟩

/-- What a compilation step does: it extends the state, keeps the invariant, and adds the
condition `P` to the constraints. -/
structure Post (I : Interp) (s s' : St) (P : (Nat → Bool) → Prop) : Prop where
  ext : Ext s s'
  inv : Inv I s'
  sem : ∀ μ, Canon I s' μ → (Roots I s' μ ↔ Roots I s μ ∧ P μ)

theorem Post.refl {I : Interp} {s : St} (hi : Inv I s) : Post I s s (fun _ => True) :=
  ⟨Ext.refl s, hi, fun _ _ => by simp⟩

theorem Post.trans {I : Interp} {s s1 s2 : St} {P Q} (hi : Inv I s) (h1 : Post I s s1 P)
    (h2 : Post I s1 s2 Q) : Post I s s2 (fun μ => P μ ∧ Q μ) := by
  have := hi
  refine ⟨h1.ext.trans h2.ext, h2.inv, fun μ hc => ?_⟩
  rw [h2.sem μ hc, h1.sem μ (hc.ext h2.ext h1.inv), and_assoc]

theorem Post.congr {I : Interp} {s s' : St} {P Q} (h : Post I s s' P)
    (hpq : ∀ μ, Canon I s' μ → Roots I s μ → (P μ ↔ Q μ)) : Post I s s' Q := by
  refine ⟨h.ext, h.inv, fun μ hc => ?_⟩
  rw [h.sem μ hc]
  exact and_congr_right (hpq μ hc)

theorem Post.canon {I : Interp} {s s' : St} {P} (hi : Inv I s) (h : Post I s s' P) {μ}
    (hc : Canon I s' μ) : Canon I s μ := hc.ext h.ext hi

theorem Post.roots {I : Interp} {s s' : St} {P} (h : Post I s s' P) {μ}
    (hc : Canon I s' μ) (hr : Roots I s' μ) : Roots I s μ := ((h.sem μ hc).1 hr).1

/-- In state `s`, the flat expression `e` has the value `V`. -/
structure Val (I : Interp) (s : St) (e : FE) (V : (Nat → Bool) → Bool) : Prop where
  lt : e.lt s.decls.length
  val : ∀ μ, Canon I s μ → Roots I s μ → e.val μ = V μ

theorem Val.mono {I : Interp} {s s' : St} {P e V} (h : Val I s e V) (hi : Inv I s)
    (hp : Post I s s' P) : Val I s' e V :=
  ⟨h.lt.mono hp.ext.len, fun μ hc hr => h.val μ (hp.canon hi hc) (hp.roots hc hr)⟩

theorem Val.self {I : Interp} {s : St} {e : FE} (h : e.lt s.decls.length) :
    Val I s e (fun μ => e.val μ) := ⟨h, fun _ _ _ => rfl⟩

theorem Val.congr {I : Interp} {s : St} {e : FE} {V W} (h : Val I s e V)
    (hvw : ∀ μ, Canon I s μ → Roots I s μ → V μ = W μ) : Val I s e W :=
  ⟨h.lt, fun μ hc hr => (h.val μ hc hr).trans (hvw μ hc hr)⟩

/-! ### Primitive updates -/

theorem upd_get (s : St) (v : Nat) (f : Decl → Decl) (w : Nat) :
    (s.upd v f).decls[w]? = (s.decls[w]?).map (fun d => if v = w then f d else d) := by
  simp only [St.upd, List.getElem?_modify]
  rfl

theorem upd_len (s : St) (v : Nat) (f : Decl → Decl) :
    (s.upd v f).decls.length = s.decls.length := by
  simp [St.upd]

/-- An update of a declaration that keeps the source flag. -/
theorem upd_ext {s : St} {v : Nat} {f : Decl → Decl}
    (h : ∀ d, s.decls[v]? = some d → (f d).src = d.src ∧ (∀ c, d.rhs = some c → (f d).rhs = some c) ∧
      (∀ b, d.dom = some b → (f d).dom = some b) ∧ AnnLe d.ann (f d).ann) :
    Ext s (s.upd v f) := by
  refine ⟨by rw [upd_len]; exact Nat.le_refl _, rfl, ?_, fun _ h => h, ?_, fun _ h => Or.inl h⟩
  · intro w d hd
    rw [upd_get, hd]
    by_cases hvw : v = w
    · subst hvw
      refine ⟨f d, by simp, ?_⟩
      exact h d hd
    · exact ⟨d, by simp [hvw], rfl, fun _ h => h, fun _ h => h, AnnLe.refl _⟩
  · intro w d' hd hl
    rw [upd_get, List.getElem?_eq_none hl] at hd
    cases hd

theorem ann_post {I : Interp} {s : St} (hi : Inv I s) (v : Nat) (c : BCtx) :
    Post I s (addCtxAnn s v c) (fun _ => True) := by
  have hx : Ext s (addCtxAnn s v c) := upd_ext fun d _ =>
    ⟨rfl, fun _ h => h, fun _ h => h, AnnLe.merge _ _⟩
  have hg : ∀ (w : Nat) (d' : Decl), (addCtxAnn s v c).decls[w]? = some d' →
      ∃ d, s.decls[w]? = some d ∧ d'.src = d.src ∧ d'.rhs = d.rhs ∧ d'.dom = d.dom := by
    intro w d' hd
    unfold addCtxAnn at hd
    rw [upd_get] at hd
    cases hs : s.decls[w]? with
    | none => rw [hs] at hd; cases hd
    | some d =>
      rw [hs] at hd
      simp only [Option.map_some, Option.some.injEq] at hd
      refine ⟨d, rfl, ?_⟩
      subst hd
      by_cases hvw : v = w <;> simp [hvw]
  have hg' : ∀ (w : Nat) (d : Decl), s.decls[w]? = some d → ∃ d', (addCtxAnn s v c).decls[w]? = some d' ∧
      d'.src = d.src ∧ d'.rhs = d.rhs ∧ d'.dom = d.dom := by
    intro w d hd
    obtain ⟨d', h, -⟩ := hx.get w d hd
    obtain ⟨d2, h2, hh⟩ := hg w d' h
    rw [hd] at h2; cases h2
    exact ⟨d', h, hh⟩
  have hsem : ∀ μ, Canon I (addCtxAnn s v c) μ → (Roots I (addCtxAnn s v c) μ ↔ Roots I s μ) := by
    intro μ _
    constructor
    · intro h
      refine ⟨h.ok, h.cons, ?_, ?_⟩
      · intro w d b hd hb
        obtain ⟨d', h1, -, -, h4⟩ := hg' w d hd
        exact h.dom w d' b h1 (h4.trans hb)
      · intro w d c hd hs hc
        obtain ⟨d', h1, h2, h3, -⟩ := hg' w d hd
        exact h.rhs w d' c h1 (h2.trans hs) (h3.trans hc)
    · intro h
      refine ⟨h.ok, h.cons, ?_, ?_⟩
      · intro w d b hd hb
        obtain ⟨d', h1, -, -, h4⟩ := hg w d hd
        exact h.dom w d' b h1 (h4 ▸ hb)
      · intro w d c hd hs hc
        obtain ⟨d', h1, h2, h3, -⟩ := hg w d hd
        exact h.rhs w d' c h1 (h2 ▸ hs) (h3 ▸ hc)
  refine ⟨hx, ⟨?_, ?_, ?_⟩, fun μ hc => by rw [hsem μ hc]; simp⟩
  · intro w d hd hs
    obtain ⟨d', h1, h2, h3, -⟩ := hg w d hd
    rw [h3]; exact hi.intro w d' h1 (h2 ▸ hs)
  · intro w d c' hd hs hc
    obtain ⟨d', h1, h2, h3, -⟩ := hg w d hd
    have := hi.src w d' c' h1 (h2 ▸ hs) (h3 ▸ hc)
    rwa [show (addCtxAnn s v c).decls.length = s.decls.length from upd_len ..]
  · intro p hp
    have := hi.cse p hp
    rw [show (addCtxAnn s v c).decls.length = s.decls.length from upd_len ..]
    exact ⟨this.1, fun μ hc hr => this.2 μ (hc.ext hx hi) ((hsem μ hc).1 hr)⟩

theorem annFE_post {I : Interp} {s : St} (hi : Inv I s) (e : FE) (c : BCtx) :
    Post I s (annFE s e c) (fun _ => True) := by
  cases e with
  | lit b => exact Post.refl hi
  | var v => exact ann_post hi v c

theorem fail_post {I : Interp} {s : St} (hi : Inv I s) : Post I s s.fail (fun _ => False) := by
  have hx : Ext s s.fail := ⟨Nat.le_refl _, rfl,
    fun _ d h => ⟨d, h, rfl, fun _ h => h, fun _ h => h, AnnLe.refl _⟩, fun _ h => h,
    (Ext.refl s).new, fun _ h => Or.inl h⟩
  have hf : ∀ μ, ¬ Roots I s.fail μ := fun μ h => by have := h.ok; simp [St.fail] at this
  exact ⟨hx, ⟨hi.intro, hi.src, fun p hp => ⟨(hi.cse p hp).1, fun μ _ hr => absurd hr (hf μ)⟩⟩,
    fun μ _ => by simp [hf μ]⟩

theorem setDom_post {I : Interp} {s : St} (hi : Inv I s) {v : Nat} (hv : v < s.decls.length)
    {b : Bool} (h0 : s.domOf v = none ∨ s.domOf v = some b) :
    Post I s (setDom s v b) (fun μ => μ v = b) := by
  obtain ⟨d0, hd0⟩ : ∃ d0, s.decls[v]? = some d0 := ⟨_, List.getElem?_eq_getElem hv⟩
  have h0' : d0.dom = none ∨ d0.dom = some b := by
    simpa [St.domOf, hd0] using h0
  have hx : Ext s (setDom s v b) := upd_ext fun d hd => by
    rw [hd0] at hd; cases hd
    refine ⟨rfl, fun _ h => h, fun b' h => ?_, AnnLe.refl _⟩
    rcases h0' with h | h
    · simp_all
    · simp_all
  have hg : ∀ (w : Nat) (d' : Decl), (setDom s v b).decls[w]? = some d' →
      ∃ d, s.decls[w]? = some d ∧ d'.src = d.src ∧ d'.rhs = d.rhs ∧
        (d'.dom = d.dom ∨ (w = v ∧ d'.dom = some b)) := by
    intro w d' hd
    unfold setDom at hd
    rw [upd_get] at hd
    cases hs : s.decls[w]? with
    | none => rw [hs] at hd; cases hd
    | some d =>
      rw [hs] at hd
      simp only [Option.map_some, Option.some.injEq] at hd
      refine ⟨d, rfl, ?_⟩
      subst hd
      by_cases hvw : v = w <;> simp [hvw]
  have hlen : (setDom s v b).decls.length = s.decls.length := upd_len ..
  have hsem : ∀ μ, Roots I (setDom s v b) μ ↔ Roots I s μ ∧ μ v = b := by
    intro μ
    constructor
    · intro h
      refine ⟨⟨h.ok, h.cons, ?_, ?_⟩, ?_⟩
      · intro w d b' hd hb
        obtain ⟨d', h1, -, -, h4, -⟩ := hx.get w d hd
        exact h.dom w d' b' h1 (h4 b' hb)
      · intro w d c hd hs hc
        obtain ⟨d', h1, h2, h3, -⟩ := hx.get w d hd
        exact h.rhs w d' c h1 (h2.trans hs) (h3 c hc)
      · refine h.dom v { d0 with dom := some b } b ?_ rfl
        unfold setDom
        rw [upd_get, hd0]; simp
    · rintro ⟨h, hb0⟩
      refine ⟨h.ok, h.cons, ?_, ?_⟩
      · intro w d b' hd hb
        obtain ⟨d', h1, -, -, h4⟩ := hg w d hd
        rcases h4 with h4 | ⟨h4, h5⟩
        · exact h.dom w d' b' h1 (h4 ▸ hb)
        · subst h4; rw [h5] at hb; cases hb; exact hb0
      · intro w d c hd hs hc
        obtain ⟨d', h1, h2, h3, -⟩ := hg w d hd
        exact h.rhs w d' c h1 (h2 ▸ hs) (h3 ▸ hc)
  refine ⟨hx, ⟨?_, ?_, ?_⟩, fun μ _ => hsem μ⟩
  · intro w d hd hs
    obtain ⟨d', h1, h2, h3, -⟩ := hg w d hd
    rw [h3]; exact hi.intro w d' h1 (h2 ▸ hs)
  · intro w d c' hd hs hc
    obtain ⟨d', h1, h2, h3, -⟩ := hg w d hd
    rw [hlen]
    exact hi.src w d' c' h1 (h2 ▸ hs) (h3 ▸ hc)
  · intro p hp
    have := hi.cse p hp
    rw [hlen]
    exact ⟨this.1, fun μ hc hr => this.2 μ (hc.ext hx hi) ((hsem μ).1 hr).1⟩

theorem setRhs_post {I : Interp} {s : St} (hi : Inv I s) {v : Nat} (hv : v < s.decls.length)
    (h0 : s.rhsOf v = none) {c : FC} (hc : c.lt s.decls.length) :
    Post I s (setRhs s v c) (fun μ => μ v = c.val I μ) := by
  obtain ⟨d0, hd0⟩ : ∃ d0, s.decls[v]? = some d0 := ⟨_, List.getElem?_eq_getElem hv⟩
  have h0' : d0.rhs = none := by simpa [St.rhsOf, hd0] using h0
  have hs0 : d0.src = true := by
    cases hs : d0.src with
    | true => rfl
    | false =>
      obtain ⟨c', h1, -⟩ := hi.intro v d0 hd0 hs
      rw [h0'] at h1; cases h1
  have hx : Ext s (setRhs s v c) := upd_ext fun d hd => by
    rw [hd0] at hd; cases hd
    refine ⟨rfl, ?_, fun b' h => h, AnnLe.refl _⟩
    intro c' h
    rw [h0'] at h; cases h
  have hg : ∀ (w : Nat) (d' : Decl), (setRhs s v c).decls[w]? = some d' →
      ∃ d, s.decls[w]? = some d ∧ d'.src = d.src ∧ d'.dom = d.dom ∧
        ((w ≠ v ∧ d'.rhs = d.rhs) ∨ (w = v ∧ d'.rhs = some c)) := by
    intro w d' hd
    unfold setRhs at hd
    rw [upd_get] at hd
    cases hs : s.decls[w]? with
    | none => rw [hs] at hd; cases hd
    | some d =>
      rw [hs] at hd
      simp only [Option.map_some, Option.some.injEq] at hd
      refine ⟨d, rfl, ?_⟩
      subst hd
      by_cases hvw : v = w
      · simp [hvw]
      · simp [hvw, Ne.symm hvw]
  have hlen : (setRhs s v c).decls.length = s.decls.length := upd_len ..
  have hsem : ∀ μ, Roots I (setRhs s v c) μ ↔ Roots I s μ ∧ μ v = c.val I μ := by
    intro μ
    constructor
    · intro h
      refine ⟨⟨h.ok, h.cons, ?_, ?_⟩, ?_⟩
      · intro w d b' hd hb
        obtain ⟨d', h1, -, -, h4, -⟩ := hx.get w d hd
        exact h.dom w d' b' h1 (h4 b' hb)
      · intro w d c hd hs hc
        obtain ⟨d', h1, h2, h3, -⟩ := hx.get w d hd
        exact h.rhs w d' c h1 (h2.trans hs) (h3 c hc)
      · refine h.rhs v { d0 with rhs := some c } c ?_ hs0 rfl
        unfold setRhs
        rw [upd_get, hd0]; simp
    · rintro ⟨h, hb0⟩
      refine ⟨h.ok, h.cons, ?_, ?_⟩
      · intro w d b' hd hb
        obtain ⟨d', h1, -, h4, -⟩ := hg w d hd
        exact h.dom w d' b' h1 (h4 ▸ hb)
      · intro w d c' hd hs hc'
        obtain ⟨d', h1, h2, -, h3⟩ := hg w d hd
        rcases h3 with ⟨-, h3⟩ | ⟨h3, h4⟩
        · exact h.rhs w d' c' h1 (h2 ▸ hs) (h3 ▸ hc')
        · subst h3; rw [h4] at hc'; cases hc'; exact hb0
  refine ⟨hx, ⟨?_, ?_, ?_⟩, fun μ _ => hsem μ⟩
  · intro w d hd hs
    obtain ⟨d', h1, h2, -, h3⟩ := hg w d hd
    rcases h3 with ⟨-, h3⟩ | ⟨h3, h4⟩
    · rw [h3]; exact hi.intro w d' h1 (h2 ▸ hs)
    · subst h3; rw [hd0] at h1; cases h1; rw [h2, hs0] at hs; cases hs
  · intro w d c' hd hs hc'
    obtain ⟨d', h1, h2, -, h3⟩ := hg w d hd
    rw [hlen]
    rcases h3 with ⟨-, h3⟩ | ⟨h3, h4⟩
    · exact hi.src w d' c' h1 (h2 ▸ hs) (h3 ▸ hc')
    · rw [h4] at hc'; cases hc'; exact hc
  · intro p hp
    have := hi.cse p hp
    rw [hlen]
    exact ⟨this.1, fun μ hc hr => this.2 μ (hc.ext hx hi) ((hsem μ).1 hr).1⟩

theorem addCon_post {I : Interp} {s : St} (hi : Inv I s) (c : Con) (hk : c.hrOk s.hr) :
    Post I s (addCon s c) (fun μ => c.strict I μ) := by
  have hx : Ext s (addCon s c) := ⟨Nat.le_refl _, rfl,
    fun _ d h => ⟨d, h, rfl, fun _ h => h, fun _ h => h, AnnLe.refl _⟩,
    fun _ h => List.mem_append_left _ h, (Ext.refl s).new, fun c' h => by
      rcases List.mem_append.1 h with h | h
      · exact Or.inl h
      · rw [List.mem_singleton.1 h]; exact Or.inr hk⟩
  have hsem : ∀ μ, Roots I (addCon s c) μ ↔ Roots I s μ ∧ c.strict I μ := by
    intro μ
    constructor
    · intro h
      exact ⟨⟨h.ok, fun c' hc' => h.cons c' (List.mem_append_left _ hc'), h.dom, h.rhs⟩,
        h.cons c (List.mem_append_right _ (List.mem_singleton.2 rfl))⟩
    · rintro ⟨h, h0⟩
      refine ⟨h.ok, fun c' hc' => ?_, h.dom, h.rhs⟩
      rcases List.mem_append.1 hc' with hc' | hc'
      · exact h.cons c' hc'
      · rw [List.mem_singleton.1 hc']; exact h0
  exact ⟨hx, ⟨hi.intro, hi.src, fun p hp => ⟨(hi.cse p hp).1,
    fun μ hc hr => (hi.cse p hp).2 μ (hc.ext hx hi) ((hsem μ).1 hr).1⟩⟩, fun μ _ => hsem μ⟩

theorem newDecl_get (s : St) (c : FC) (b : BCtx) (w : Nat) (d : Decl)
    (h : (newDecl s c b).1.decls[w]? = some d) :
    s.decls[w]? = some d ∨ (w = s.decls.length ∧ d = ⟨false, some c, some b, none⟩) := by
  simp only [newDecl] at h
  rcases Nat.lt_or_ge w s.decls.length with hw | hw
  · left; rwa [List.getElem?_append_left hw] at h
  · right
    rw [List.getElem?_append_right hw] at h
    rcases Nat.eq_or_lt_of_le hw with hw | hw
    · subst hw; simp at h; exact ⟨rfl, h.symm⟩
    · have : w - s.decls.length ≠ 0 := by omega
      obtain ⟨k, hk⟩ := Nat.exists_eq_succ_of_ne_zero this
      rw [hk] at h; simp at h

theorem newDecl_get_old (s : St) (c : FC) (b : BCtx) {w : Nat} {d : Decl}
    (h : s.decls[w]? = some d) : (newDecl s c b).1.decls[w]? = some d := by
  have hw : w < s.decls.length := by
    rcases Nat.lt_or_ge w s.decls.length with hw | hw
    · exact hw
    · rw [List.getElem?_eq_none hw] at h; cases h
  simp only [newDecl]
  rwa [List.getElem?_append_left hw]

theorem newDecl_get_new (s : St) (c : FC) (b : BCtx) :
    (newDecl s c b).1.decls[s.decls.length]? = some ⟨false, some c, some b, none⟩ := by
  simp [newDecl]

theorem newDecl_post {I : Interp} {s : St} (hi : Inv I s) {c : FC} (hc : c.lt s.decls.length)
    (b : BCtx) : Post I s (newDecl s c b).1 (fun _ => True) ∧
      Val I (newDecl s c b).1 (.var (newDecl s c b).2) (fun μ => c.val I μ) := by
  have hlen : (newDecl s c b).1.decls.length = s.decls.length + 1 := by simp [newDecl]
  have hx : Ext s (newDecl s c b).1 := by
    refine ⟨by omega, rfl, fun w d h => ⟨d, newDecl_get_old s c b h, rfl, fun _ h => h,
      fun _ h => h, AnnLe.refl _⟩, fun _ h => h, ?_, fun _ h => Or.inl h⟩
    intro w d' hd hl
    rcases newDecl_get s c b w d' hd with h | ⟨-, h⟩
    · rw [List.getElem?_eq_none hl] at h; cases h
    · subst h; rfl
  have hsem : ∀ μ, Roots I (newDecl s c b).1 μ ↔ Roots I s μ := by
    intro μ
    constructor
    · intro h
      exact ⟨h.ok, h.cons, fun v d b' hd => h.dom v d b' (newDecl_get_old s c b hd),
        fun v d c' hd => h.rhs v d c' (newDecl_get_old s c b hd)⟩
    · intro h
      refine ⟨h.ok, h.cons, ?_, ?_⟩
      · intro v d b' hd hb
        rcases newDecl_get s c b v d hd with h1 | ⟨-, h1⟩
        · exact h.dom v d b' h1 hb
        · subst h1; cases hb
      · intro v d c' hd hs hc'
        rcases newDecl_get s c b v d hd with h1 | ⟨-, h1⟩
        · exact h.rhs v d c' h1 hs hc'
        · subst h1; cases hs
  refine ⟨⟨hx, ⟨?_, ?_, ?_⟩, fun μ _ => by rw [hsem μ]; simp⟩, ?_, ?_⟩
  · intro v d hd hs
    rcases newDecl_get s c b v d hd with h1 | ⟨h0, h1⟩
    · exact hi.intro v d h1 hs
    · subst h1; subst h0; exact ⟨c, rfl, hc⟩
  · intro v d c' hd hs hc'
    rcases newDecl_get s c b v d hd with h1 | ⟨-, h1⟩
    · exact (hi.src v d c' h1 hs hc').mono (by omega)
    · subst h1; cases hs
  · intro p hp
    have := hi.cse p hp
    exact ⟨this.1.mono (by omega), fun μ hcn hr => this.2 μ (hcn.ext hx hi) ((hsem μ).1 hr)⟩
  · show s.decls.length < _
    omega
  · intro μ hcn _
    obtain ⟨c', h1, h2⟩ := hcn _ _ (newDecl_get_new s c b) rfl
    cases h1; exact h2

theorem cseInsert_post {I : Interp} {s : St} (hi : Inv I s) {c : FC} {e : FE}
    (h : Val I s e (fun μ => c.val I μ)) : Post I s (cseInsert s c e) (fun _ => True) := by
  have hsem : ∀ μ, Roots I (cseInsert s c e) μ ↔ Roots I s μ := fun μ =>
    ⟨fun h => ⟨h.ok, h.cons, h.dom, h.rhs⟩, fun h => ⟨h.ok, h.cons, h.dom, h.rhs⟩⟩
  refine ⟨⟨Nat.le_refl _, rfl,
    fun _ d h => ⟨d, h, rfl, fun _ h => h, fun _ h => h, AnnLe.refl _⟩, fun _ h => h,
    (Ext.refl s).new, fun _ h => Or.inl h⟩, ⟨hi.intro, hi.src, ?_⟩, fun μ _ => by rw [hsem μ]; simp⟩
  intro p hp
  rcases List.mem_cons.1 hp with hp | hp
  · subst hp
    exact ⟨h.lt, fun μ hc hr => (h.val μ hc ((hsem μ).1 hr)).symm⟩
  · exact ⟨(hi.cse p hp).1, fun μ hc hr => (hi.cse p hp).2 μ hc ((hsem μ).1 hr)⟩

theorem cseFind_mem {s : St} {c : FC} {e : FE} (h : cseFind s c = some e) : (c, e) ∈ s.cse := by
  unfold cseFind at h
  cases hf : s.cse.find? (fun p => decide (p.1 = c)) with
  | none => simp [hf] at h
  | some p =>
    simp only [hf, Option.map_some, Option.some.injEq] at h
    have h1 := List.find?_some hf
    have h2 := List.mem_of_find?_eq_some hf
    simp only [decide_eq_true_eq] at h1
    obtain ⟨a, b⟩ := p
    simp only at h1 h
    subst h1; subst h
    exact h2

end BoolFlat
end MZ
