import Verif.BoolFlat.Meaning

/-! Compilation of Boolean constraints preserves the solutions. -/

namespace MZ
namespace BoolFlat

variable {I : Interp}

theorem any_congr {α : Type} {f g : α → Bool} : ∀ es : List α, (∀ e ∈ es, f e = g e) →
    es.any f = es.any g := by
  intro es
  induction es with
  | nil => intro _; rfl
  | cons a es ih =>
    intro h
    rw [List.any_cons, List.any_cons, h a (by simp), ih fun e he => h e (List.mem_cons_of_mem _ he)]

theorem all_congr {α : Type} {f g : α → Bool} : ∀ es : List α, (∀ e ∈ es, f e = g e) →
    es.all f = es.all g := by
  intro es
  induction es with
  | nil => intro _; rfl
  | cons a es ih =>
    intro h
    rw [List.all_cons, List.all_cons, h a (by simp), ih fun e he => h e (List.mem_cons_of_mem _ he)]

/-- A call depends only on the variables that occur in it. -/
theorem FC.val_congr {μ ν : Nat → Bool} {c : FC} (h : ∀ x ∈ c.occ, x.2.val μ = x.2.val ν) :
    c.val I μ = c.val I ν := by
  have hm : ∀ (es : List FE), (∀ e ∈ es, e.val μ = e.val ν) →
      es.map (FE.val μ) = es.map (FE.val ν) := fun es h => List.map_congr_left h
  cases c with
  | all_ es => exact all_congr es fun e he => h (true, e) (by simp [FC.occ, he])
  | any_ es => exact any_congr es fun e he => h (true, e) (by simp [FC.occ, he])
  | clause ps ns =>
    simp only [FC.val]
    rw [any_congr ps fun e he => h (true, e) (by simp [FC.occ, he]),
      any_congr (f := fun e => !(FE.val μ e)) ns fun e he => by
        show (!(FE.val μ e)) = !(FE.val ν e)
        rw [h (false, e) (by simp [FC.occ, he])]]
  | not_ e => simp only [FC.val]; rw [h (false, e) (by simp [FC.occ])]
  | iff_ a b =>
    simp only [FC.val]
    rw [h (true, a) (by simp [FC.occ]), h (true, b) (by simp [FC.occ])]
  | xor_ a b =>
    simp only [FC.val]
    rw [h (true, a) (by simp [FC.occ]), h (true, b) (by simp [FC.occ])]
  | cmp o s t => rfl
  | pred p => rfl
  | cnt o es t =>
    simp only [FC.val]
    rw [hm es fun e he => by
      cases o
      · exact h (false, e) (by simp [FC.occ, he])
      · exact h (false, e) (by simp [FC.occ, he])
      · exact h (true, e) (by simp [FC.occ, he])
      · exact h (true, e) (by simp [FC.occ, he])
      · exact h (true, e) (by simp [FC.occ, he])
      · exact h (true, e) (by simp [FC.occ, he])]
  | alias e => exact h (true, e) (by simp [FC.occ])

/-- Every assignment of the source variables extends to the introduced ones. -/
theorem exists_canon {s : St} (hi : Inv I s) (σ : Nat → Bool) :
    ∃ μ, Canon I s μ ∧ ∀ v d, s.decls[v]? = some d → d.src = true → μ v = σ v := by
  have key : ∀ k : Nat, ∃ μ : Nat → Bool, (∀ (v : Nat) (d : Decl), s.decls[v]? = some d → v < k →
      d.src = false → ∃ c, d.rhs = some c ∧ μ v = c.val I μ) ∧
      ∀ (v : Nat) (d : Decl), s.decls[v]? = some d → d.src = true → μ v = σ v := by
    intro k
    induction k with
    | zero => exact ⟨σ, fun v d _ h => absurd h (Nat.not_lt_zero _), fun _ _ _ _ => rfl⟩
    | succ k ih =>
      obtain ⟨μ, h1, h2⟩ := ih
      by_cases hk : ∃ d, s.decls[k]? = some d ∧ d.src = false
      · obtain ⟨d, hd, hs⟩ := hk
        obtain ⟨c, hc, hlt⟩ := hi.intro k d hd hs
        have hsame : ∀ (c' : FC) (m : Nat), m ≤ k → c'.lt m →
            c'.val I (fun v => if v = k then c.val I μ else μ v) = c'.val I μ := by
          intro c' m hm hc'
          apply FC.val_congr
          intro x hx
          have := hc' x hx
          cases hx2 : x.2 with
          | lit b => rfl
          | var v =>
            rw [hx2] at this
            have : v ≠ k := by
              have : v < m := this
              omega
            simp [FE.val, this]
        refine ⟨fun v => if v = k then c.val I μ else μ v, fun v d' hd' hv hs' => ?_,
          fun v d' hd' hs' => ?_⟩
        · rcases Nat.lt_succ_iff_lt_or_eq.1 hv with hv | hv
          · obtain ⟨c', hc', hval⟩ := h1 v d' hd' hv hs'
            obtain ⟨c'', hc'', hlt''⟩ := hi.intro v d' hd' hs'
            rw [hc'] at hc''; cases hc''
            refine ⟨c', hc', ?_⟩
            rw [hsame c' v (Nat.le_of_lt hv) hlt'', ← hval]
            simp [Nat.ne_of_lt hv]
          · subst hv
            rw [hd] at hd'; cases hd'
            exact ⟨c, hc, by rw [hsame c v (Nat.le_refl _) hlt]; simp⟩
        · have : v ≠ k := by
            rintro rfl
            rw [hd] at hd'; cases hd'; rw [hs] at hs'; cases hs'
          simp only [this, if_false]
          exact h2 v d' hd' hs'
      · refine ⟨μ, fun v d hd hv hs => ?_, h2⟩
        rcases Nat.lt_succ_iff_lt_or_eq.1 hv with hv | hv
        · exact h1 v d hd hv hs
        · subst hv; exact absurd ⟨d, hd, hs⟩ hk
  obtain ⟨μ, h1, h2⟩ := key s.decls.length
  refine ⟨μ, fun v d hd hs => h1 v d hd ?_ hs, h2⟩
  rcases Nat.lt_or_ge v s.decls.length with h | h
  · exact h
  · rw [List.getElem?_eq_none h] at hd; cases hd

/-- The canonical extension of a solution solves the flat model, whatever is half-reified. -/
theorem sat_of_roots {s : St} {μ} (hc : Canon I s μ) (hr : Roots I s μ) : Sat I s μ := by
  refine ⟨hr.ok, fun c hcm => ?_, hr.dom, fun v d c hd hrhs => ?_⟩
  · have := hr.cons c hcm
    cases c with
    | call c => exact this
    | eqv v w => exact this
    | reif h c v =>
      have this' : μ v = c.val I μ := this
      show if h = true then _ else _
      split
      · intro hv; rw [← this']; exact hv
      · exact this'
  · have : μ v = c.val I μ := val_rhs hc hr (by simp [St.rhsOf, hd, hrhs])
    split
    · intro hv; rw [← this]; exact hv
    · exact this

/-- Without half-reification, a solution of the flat model is canonical. -/
theorem roots_of_sat {s : St} {μ} (hi : Inv I s) (hh : s.hr = false)
    (hk : ∀ c ∈ s.cons, c.hrOk s.hr) (h : Sat I s μ) : Canon I s μ ∧ Roots I s μ := by
  have hrhs : ∀ v d c, s.decls[v]? = some d → d.rhs = some c → μ v = c.val I μ := by
    intro v d c hd hc
    have := h.rhs v d c hd hc
    simpa [half, hh] using this
  refine ⟨fun v d hd hs => ?_, h.ok, fun c hc => ?_, h.dom, fun v d c hd _ hc => hrhs v d c hd hc⟩
  · obtain ⟨c, hc, -⟩ := hi.intro v d hd hs
    exact ⟨c, hc, hrhs v d c hd hc⟩
  · have h1 := h.cons c hc
    have h2 := hk c hc
    cases c with
    | call c => exact h1
    | eqv v w => exact h1
    | reif x c v =>
      have hx : x = false := by
        cases x with
        | false => rfl
        | true => have := h2 rfl; rw [hh] at this; cases this
      subst hx
      simpa [Con.holds, Con.strict] using h1

/-- The source variables stay the first `n` declarations. -/
theorem compile_src {hr : Bool} {n : Nat} {items : List Item} (hsc : ∀ it ∈ items, it.scope n) {x : Nat}
    (hx : x < n) : ∃ d, (compile hr n items).decls[x]? = some d ∧ d.src = true := by
  have hp := compile_post (I := ⟨fun _ => true, fun _ => 0⟩) (hr := hr) hsc
  have h0 : (initSt hr n).decls[x]? = some ⟨true, none, none, none⟩ := by
    simp [initSt, List.getElem?_replicate, hx]
  obtain ⟨d, hd, hs, -⟩ := hp.ext.get x _ h0
  exact ⟨d, hd, hs⟩

/-- **C59** (solutions are kept).  Whether half-reification is enabled or not, every assignment of
the source variables that satisfies all items extends to a solution of the flat model. -/
theorem _root_.MZ.C59_solutions_kept (I : Interp) (hr : Bool) (n : Nat) (items : List Item)
    (hsc : ∀ it ∈ items, it.scope n) (σ : Nat → Bool) (h : ∀ it ∈ items, it.holds I σ) :
    ∃ ρ, (∀ x < n, ρ x = σ x) ∧ Sat I (compile hr n items) ρ := by
  have hp := compile_post (I := I) (hr := hr) hsc
  obtain ⟨μ, hc, hσ⟩ := exists_canon hp.inv σ
  have hag : ∀ x < n, μ x = σ x := by
    intro x hx
    obtain ⟨d, hd, hs⟩ := compile_src (hr := hr) hsc hx
    exact hσ x d hd hs
  refine ⟨μ, hag, sat_of_roots hc ((hp.sem μ hc).2 ⟨init_roots hr n μ, fun it hit => ?_⟩)⟩
  have hs := hsc it hit
  have hh := h it hit
  cases it with
  | decl v e =>
    show μ v = e.val I μ
    rw [hag v hs.1, val_congr I hag e hs.2]; exact hh
  | con e =>
    show e.val I μ = true
    rw [val_congr I hag e hs]; exact hh

/-- **C59** (nothing is added).  Without half-reification, every solution of the flat model satisfies
all items of the source model. -/
theorem _root_.MZ.C59_solutions_sound (I : Interp) (n : Nat) (items : List Item)
    (hsc : ∀ it ∈ items, it.scope n) (ρ : Nat → Bool) (h : Sat I (compile false n items) ρ) :
    ∀ it ∈ items, it.holds I ρ := by
  have hp := compile_post (I := I) (hr := false) hsc
  obtain ⟨hc, hr⟩ := roots_of_sat hp.inv hp.ext.hr (fun c hc => by
    rcases hp.ext.newc c hc with h | h
    · simp [initSt] at h
    · rw [hp.ext.hr]; exact h) h
  exact ((hp.sem ρ hc).1 hr).2

/-- **C59**.  Without half-reification, the solutions of the source model are exactly the solutions
of the flat model, restricted to the source variables. -/
theorem _root_.MZ.C59_same_solutions (I : Interp) (n : Nat) (items : List Item)
    (hsc : ∀ it ∈ items, it.scope n) (σ : Nat → Bool) :
    (∀ it ∈ items, it.holds I σ) ↔
      ∃ ρ, (∀ x < n, ρ x = σ x) ∧ Sat I (compile false n items) ρ := by
  refine ⟨C59_solutions_kept I false n items hsc σ, ?_⟩
  rintro ⟨ρ, hag, h⟩ it hit
  have hs := hsc it hit
  have hh := C59_solutions_sound I n items hsc ρ h it hit
  cases it with
  | decl v e =>
    show σ v = e.val I σ
    rw [← hag v hs.1, ← val_congr I hag e hs.2]; exact hh
  | con e =>
    show e.val I σ = true
    rw [← val_congr I hag e hs]; exact hh

/-- **C59** (inconsistency).  If the compiler reports inconsistency, with or without half-reification,
the source model has no solution. -/
theorem _root_.MZ.C59_failed_unsat (I : Interp) (hr : Bool) (n : Nat) (items : List Item)
    (hsc : ∀ it ∈ items, it.scope n) (hf : (compile hr n items).failed = true) (σ : Nat → Bool) :
    ¬ ∀ it ∈ items, it.holds I σ := by
  intro h
  obtain ⟨ρ, -, hs⟩ := C59_solutions_kept I hr n items hsc σ h
  rw [hs.ok] at hf; cases hf

/-! ### With half-reification solutions are added -/

/-- The interpretation in which no predicate holds and the terms have the given value. -/
def noPred (t : Nat → Int) : Interp := ⟨fun _ => false, t⟩

/-- A decidable form of `Sat`. -/
def satB (I : Interp) (s : St) (ρ : Nat → Bool) : Bool :=
  !s.failed &&
  s.cons.all (fun c => match c with
    | .call c => c.val I ρ
    | .reif h c v => if h then !(ρ v) || c.val I ρ else ρ v == c.val I ρ
    | .eqv v w => ρ v == ρ w) &&
  (List.range s.decls.length).all fun v => match s.decls[v]? with
    | none => true
    | some d =>
      (match d.dom with | none => true | some b => ρ v == b) &&
      (match d.rhs with
        | none => true
        | some c => if half s.hr d then !(ρ v) || c.val I ρ else ρ v == c.val I ρ)

theorem sat_of_satB {s : St} {ρ} (h : satB I s ρ = true) : Sat I s ρ := by
  unfold satB at h
  simp only [Bool.and_eq_true, Bool.not_eq_true', List.all_eq_true, List.mem_range] at h
  obtain ⟨⟨h1, h2⟩, h3⟩ := h
  have hlt : ∀ (v : Nat) (d : Decl), s.decls[v]? = some d → v < s.decls.length := by
    intro v d hd
    rcases Nat.lt_or_ge v s.decls.length with h | h
    · exact h
    · rw [List.getElem?_eq_none h] at hd; cases hd
  refine ⟨h1, fun c hc => ?_, fun v d b hd hb => ?_, fun v d c hd hc => ?_⟩
  · have := h2 c hc
    cases c with
    | call c => exact this
    | eqv v w => simpa [Con.holds] using this
    | reif h c v =>
      simp only [Con.holds]
      simp only at this
      split
      · rename_i hh
        rw [if_pos hh] at this
        intro hv
        simpa [hv] using this
      · rename_i hh
        rw [if_neg hh] at this
        simpa using this
  · have := h3 v (hlt v d hd)
    simp only [hd, hb, Bool.and_eq_true] at this
    simpa using this.1
  · have := h3 v (hlt v d hd)
    simp only [hd, hc, Bool.and_eq_true] at this
    have := this.2
    split
    · rename_i hh
      rw [if_pos hh] at this
      intro hv
      simpa [hv] using this
    · rename_i hh
      rw [if_neg hh] at this
      simpa using this

/-- A decidable form of `Item.holds`. -/
def Item.holdsB (I : Interp) (σ : Nat → Bool) : Item → Bool
  | .decl v e => σ v == e.val I σ
  | .con e => e.val I σ

theorem holdsB_iff (σ : Nat → Bool) (it : Item) : it.holdsB I σ = true ↔ it.holds I σ := by
  cases it <;> simp [Item.holdsB, Item.holds]

theorem half_fails (I : Interp) (n : Nat) (items : List Item) (ρ : Nat → Bool)
    (hs : satB I (compile true n items) ρ = true)
    (hb : items.all (Item.holdsB I ρ) = false) :
    Sat I (compile true n items) ρ ∧ ¬ ∀ it ∈ items, it.holds I ρ := by
  refine ⟨sat_of_satB hs, fun h => ?_⟩
  have : items.all (Item.holdsB I ρ) = true := List.all_eq_true.2 fun it hit =>
    (holdsB_iff ρ it).2 (h it hit)
  rw [this] at hb; cases hb

/-- **C60** fails: `b -> not not forall([p, q])`.  The call is flattened under
a negation (flatten_call.cpp 434–449): it is made an `exists` of negations but keeps the context of
the `forall`.  The flat model accepts `b = true` with both predicates false. -/
theorem _root_.MZ.C60_half_reified_quantifier_fails :
    Sat (noPred fun _ => 0) (compile true 1
      [.con (.impl (.var 0) (.not (.not (.forall_ [.pred 0, .pred 1]))))])
      (fun v => v = 0 ∨ v = 2 ∨ v = 4) ∧
    ¬ ∀ it ∈ [Item.con (.impl (.var 0) (.not (.not (.forall_ [.pred 0, .pred 1]))))],
      it.holds (noPred fun _ => 0) (fun v => v = 0 ∨ v = 2 ∨ v = 4) :=
  half_fails _ _ _ _ (by decide +kernel) (by decide +kernel)

/-- **C60** fails: `var bool: a = t > u; constraint a \/ b;`.  The declaration
gets no context annotation when its right-hand side is bound, and `ctx_pos` when it is used.  The
flat model accepts `a = false` although `t > u`. -/
theorem _root_.MZ.C60_half_reified_declaration_fails :
    Sat (noPred fun t => if t = 0 then 1 else 0) (compile true 2
      [.decl 0 (.cmp .gr 0 1 none), .con (.or (.var 0) (.var 1))]) (fun v => v = 1) ∧
    ¬ ∀ it ∈ [Item.decl 0 (.cmp .gr 0 1 none), .con (.or (.var 0) (.var 1))],
      it.holds (noPred fun t => if t = 0 then 1 else 0) (fun v => v = 1) :=
  half_fails _ _ _ _ (by decide +kernel) (by decide +kernel)

/-- **C60** fails: `constraint a; constraint not (a xor (p -> b));`.  When the
left-hand side is a literal, the other side is flattened in the context of the whole expression
before its negation was taken into account (flatten_binop.cpp 2120–2146).  The flat model accepts
`a = true`, `b = false` although `p` holds. -/
theorem _root_.MZ.C60_half_reified_xor_fails :
    Sat ⟨fun _ => true, fun _ => 0⟩ (compile true 2
      [.con (.var 0), .con (.not (.xor (.var 0) (.impl (.pred 0) (.var 1))))]) (fun v => v = 0) ∧
    ¬ ∀ it ∈ [Item.con (.var 0), .con (.not (.xor (.var 0) (.impl (.pred 0) (.var 1))))],
      it.holds ⟨fun _ => true, fun _ => 0⟩ (fun v => v = 0) :=
  half_fails _ _ _ _ (by decide +kernel) (by decide +kernel)

/-! ### A concrete model -/

/-- A model with two declarations and three constraints. -/
def sample : List Item :=
  [.decl 0 (.cmp .gr 0 1 (some 5)),
   .con (.or (.var 0) (.and (.not (.var 1)) (.exists_ [.pred 0, .var 2, .not (.var 0)]))),
   .con (.equiv (.var 2) (.xor (.var 1) (.pred 1))),
   .con (.cnt .lq [.var 0, .or (.var 1) (.var 2), .impl (.var 1) (.pred 0)] 2)]

example : ∀ it ∈ sample, it.scope 3 := by
  intro it hit
  simp only [sample, List.mem_cons, List.not_mem_nil, or_false] at hit
  rcases hit with rfl | rfl | rfl | rfl <;>
    simp [Item.scope, BE.scope, BE.scopes]

/-- The sample has solutions, and assignments that are none. -/
example : (sample.all (Item.holdsB ⟨fun p => p != 0, fun t => if t = 1 then 0 else 5⟩ (fun v => v = 0 ∨ v = 2))) = true ∧
    (sample.all (Item.holdsB ⟨fun p => p != 0, fun t => if t = 1 then 0 else 5⟩ (fun v => v = 1))) = false := by
  decide +kernel

/-- Its flat model introduces variables and is not trivially inconsistent. -/
example : (compile false 3 sample).failed = false ∧ 3 < (compile false 3 sample).decls.length := by
  decide +kernel

/-- A model the compiler finds inconsistent. -/
example : (compile false 1 [.con (.var 0), .con (.not (.var 0))]).failed = true := by
  decide +kernel

end BoolFlat
end MZ
