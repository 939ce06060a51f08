import Verif.OptCons.Lemmas
/-!
# C40, C41: the constraint optimisers preserve the solutions
-/
namespace MZ
open OptCons
open Linear (Atom LinOp SortedIdx)

/-! ## C40: linear constraints -/

/-- Linear constraints: the answer of the optimiser is right, for any number of terms, any order in which
the sort leaves them, and any domains. Missing (hence `_partial`): when an asserted inequality reduces to
a single variable, the coefficient and the right-hand side must be below `2^53`, because the quotient is
computed in floating point (`C40_large_unsound`). -/
theorem C40_linear_partial (E : Env) (hE : WF E) (idx : List Nat) (op : LinOp) (ts : List (Int × Atom))
    (k : Int) (hs : SortedIdx ts idx) (st : Status Con)
    (hsmall : op = .le → E.root = true → ∀ c a d, Linear.simplifyLinIdx idx ts 0 = .ok ([(c, a)], d) →
      |c| < 2 ^ 53 ∧ |k - d| < 2 ^ 53)
    (h : oLinear E idx op ts k = .ok st) : Right E (.lin op ts k) st := by
  unfold oLinear at h
  rw [Res.bind_eq_ok] at h
  obtain ⟨⟨ts', d⟩, h1, h⟩ := h
  refine linSimplified_right hE (fun ρ => ?_) (fun h2 h3 c a h4 => ?_) h
  · have := C12_value idx ts ts' 0 d hs h1 ρ; omega
  · subst h4; exact hsmall h2 h3 c a d h1

/-- In particular equations and disequations, and constraints that are not asserted, are always treated
correctly. -/
theorem C40_linear_eq_ne (E : Env) (hE : WF E) (idx : List Nat) (op : LinOp) (ts : List (Int × Atom))
    (k : Int) (hs : SortedIdx ts idx) (st : Status Con) (hop : op ≠ .le ∨ E.root = false)
    (h : oLinear E idx op ts k = .ok st) : Right E (.lin op ts k) st := by
  refine C40_linear_partial E hE idx op ts k hs st (fun h1 h2 => ?_) h
  rcases hop with h3 | h3
  · exact absurd h1 h3
  · rw [h3] at h2; simp at h2

/-- `2·x ≤ -(2^53 + 1)` with `x` in `-2^52 .. 0` is declared satisfied by `x = -2^52`: the rewritten
constraint admits an assignment that violates the original one. -/
theorem C40_large_unsound : ∃ (E : Env) (ts : List (Int × Atom)) (k : Int) (c' : Con) (σ : OptCons.Asg),
    WF E ∧ SortedIdx ts [0] ∧ oLinear E [0] .le ts k = .ok (.rewrite c') ∧ Respects E σ ∧
    c'.holds σ ∧ ¬ Con.holds σ (.lin .le ts k) := by
  refine ⟨⟨fun a => if a = .id 0 then some [⟨.fin (-9007199254740992), .fin 0⟩] else none, fun _ => none, true⟩,
    [(2, .id 0)], -9007199254740993, .intLe (.id 0) (.lit (-4503599627370496)),
    ⟨fun _ => -4503599627370496, fun _ => true⟩, ?_, ?_, ?_, ?_, ?_, ?_⟩
  · intro a D h
    dsimp only at h
    split at h
    · simp at h; subst h; exact ⟨by decide, by decide⟩
    · simp at h
  · exact ⟨by decide, by decide⟩
  · have e1 : Dbl.ceilDiv 9007199254740993 2 = .ok 4503599627370496 := by
      unfold Dbl.ceilDiv Dbl.div Dbl.ofInt
      rw [if_neg (by norm_num), Dbl.rnd_2_53_1, Dbl.rnd_int 2 (by norm_num),
        show (9007199254740992 : ℚ) / ((2 : ℤ) : ℚ) = ((4503599627370496 : ℤ) : ℚ) by norm_num,
        Dbl.rnd_int _ (by norm_num), Int.ceil_intCast]
      decide
    have e2 : linBound 2 (-9007199254740993) = .ok (-4503599627370496) := by
      have a1 : absV 2 = .ok 2 := by decide
      have a2 : absV (-9007199254740993) = .ok 9007199254740993 := by decide
      have a3 : safeMod 9007199254740993 2 = .ok 1 := by decide
      unfold linBound
      rw [Res.bind_eq_ok]
      refine ⟨_, a1, ?_⟩
      rw [Res.bind_eq_ok]
      refine ⟨_, a2, ?_⟩
      rw [Res.bind_eq_ok]
      refine ⟨_, a3, ?_⟩
      rw [if_neg (by decide), if_neg (by decide), if_neg (by decide), if_pos (by decide), Res.bind_eq_ok]
      exact ⟨_, e1, by decide⟩
    have e3 : Linear.simplifyLinIdx [0] [(2, .id 0)] 0 = .ok ([(2, .id 0)], 0) := by decide
    unfold oLinear
    rw [Res.bind_eq_ok]
    refine ⟨_, e3, ?_⟩
    unfold linSimplified
    dsimp only
    rw [if_pos rfl]
    unfold linLe1
    have a4 : safeMinus (-9007199254740993) 0 = .ok (-9007199254740993) := by decide
    rw [Res.bind_eq_ok]
    refine ⟨_, a4, ?_⟩
    rw [Res.bind_eq_ok]
    refine ⟨_, e2, ?_⟩
    decide
  · refine ⟨fun a D h => ?_, fun n b h => by simp at h⟩
    dsimp only at h
    split at h
    · rename_i ha
      simp at h; subst h ha
      exact ⟨_, List.mem_singleton.2 rfl, by simp [Range.Mem, Atom.eval]⟩
    · simp at h
  · simp [Con.holds, Atom.eval]
  · simp [Con.holds, LinOp.holds, Linear.sum, Atom.eval]

/-- Terms do not disappear without reason: when the answer is "nothing known", no term was removed. -/
theorem C40_linear_complete (E : Env) (idx : List Nat) (op : LinOp) (ts : List (Int × Atom)) (k : Int)
    (h : oLinear E idx op ts k = .ok .ok) :
    ∃ ts' d, Linear.simplifyLinIdx idx ts 0 = .ok (ts', d) ∧ ts.length ≤ ts'.length := by
  unfold oLinear at h
  rw [Res.bind_eq_ok] at h
  obtain ⟨⟨ts', d⟩, h1, h⟩ := h
  refine ⟨ts', d, h1, ?_⟩
  have hrest : ∀ op', linRest op' ts.length ts' d k = .ok .ok → ts.length ≤ ts'.length := by
    intro op' h
    unfold linRest at h
    split at h
    · rw [Res.bind_eq_ok] at h; obtain ⟨_, _, h⟩ := h; simp at h
    · omega
  dsimp only at h
  unfold linSimplified at h
  split at h
  · cases op <;> simp [linEmpty, verdict] at h <;> split at h <;> simp at h
  · split at h
    · split at h
      · unfold linEq1 at h
        rw [Res.bind_eq_ok] at h; obtain ⟨_, _, h⟩ := h
        rw [Res.bind_eq_ok] at h; obtain ⟨_, _, h⟩ := h
        split at h
        · rw [Res.bind_eq_ok] at h; obtain ⟨_, _, h⟩ := h
          split at h
          · split at h <;> simp at h
          · simp at h
        · simp at h
      · unfold linLe1 at h
        rw [Res.bind_eq_ok] at h; obtain ⟨_, _, h⟩ := h
        rw [Res.bind_eq_ok] at h; obtain ⟨_, _, h⟩ := h
        split at h
        · unfold linLeDom at h
          rw [Res.bind_eq_ok] at h; obtain ⟨_, _, h⟩ := h
          rw [Res.bind_eq_ok] at h; obtain ⟨_, _, h⟩ := h
          split at h <;> split at h <;> (try split at h) <;> simp at h
        · exact hrest _ h
      · exact hrest _ h
    · exact hrest _ h
  · split at h
    · rw [Res.bind_eq_ok] at h; obtain ⟨_, _, h⟩ := h
      split at h
      · simp at h
      · exact hrest _ h
    · exact hrest _ h
  · exact hrest _ h

/-- `lin_exp`: the replacement has the same value under every assignment. -/
theorem C40_lin_exp (idx : List Nat) (ts : List (Int × Atom)) (d : Int) (hs : SortedIdx ts idx)
    (e : IExp) (h : oLinExp idx ts d = .ok (.rewrite e)) (σ : OptCons.Asg) :
    e.eval σ = Linear.sum σ.int ts + d := by
  unfold oLinExp at h
  rw [Res.bind_eq_ok] at h
  obtain ⟨⟨ts', d'⟩, h1, h⟩ := h
  have hv := C12_value idx ts ts' d d' hs h1 σ.int
  rw [← hv]
  simp only [Res.ok.injEq] at h
  unfold linExpSimplified at h
  split at h
  · simp at h; subst h; simp [IExp.eval, Atom.eval, Linear.sum]
  · split at h
    · split at h
      · split at h
        · rename_i h3; simp at h; subst h
          rw [h3.1, h3.2]
          simp [IExp.eval, Linear.sum]
        · simp at h; subst h; rfl
      · simp at h; subst h; rfl
    · simp at h

/-- A constraint over three terms, one of them fixed, two of them the same variable: `3·x₀ + 2·5 - x₀ ≤ 17`
becomes `x₀ ≤ 3`. -/
example : ∃ st, oLinear ⟨fun a => if a = .id 0 then some [⟨.fin 0, .fin 9⟩] else none, fun _ => none, true⟩
      [0, 2, 1] .eq [(3, .id 0), (2, .lit 5), (-1, .id 0)] 16 = .ok st ∧
      st = .rewrite (.intEq (.id 0) (.lit 3)) := ⟨_, by decide, rfl⟩
example : SortedIdx [(3, .id 0), (2, .lit 5), (-1, .id 0)] [0, 2, 1] := ⟨by decide, by decide⟩

/-! ## C41: the other constraints -/

/-- Every answer of the optimisers of `int_div`, `int_times`, `array_int_element`, `set_in`, `bool_clause`,
`forall`, `exists`, `bool_not`, `int_ne` and `int_le` is right, for all arguments and all domains. -/
theorem C41_optimizers (E : Env) (hE : WF E) (c : Con) (hS : ∀ x S, c = .setIn x S → Normal S)
    (st : Status Con) (h : process E c = .ok st) : Right E c st := by
  have minmaxS : ∀ {a D mn mx}, E.dom a = some D → orUB (IntSet.min? D) = .ok mn → orUB (IntSet.max? D) = .ok mx →
      ∀ σ, Respects E σ → mn ≤ .fin (a.eval σ.int) ∧ .fin (a.eval σ.int) ≤ mx := fun hD h1 h2 σ hσ =>
    minmax (hE _ _ hD) (hσ.1 _ _ hD) (orUB_ok h1) (orUB_ok h2)
  cases c with
  | lin => simp [process] at h; subst h; trivial
  | intEq => simp [process] at h; subst h; trivial
  | boolEq => simp [process] at h; subst h; trivial
  | intDiv a b c =>
    simp only [process] at h
    unfold oDiv at h
    split at h
    · rename_i y x z
      rw [Res.bind_eq_ok] at h
      obtain ⟨q, h1, h⟩ := h
      obtain ⟨hy, hq⟩ := safeDiv_ok h1
      simp at h; subst h
      split
      · rename_i h2; intro σ _; simp only [Con.holds, Atom.eval]; exact ⟨hy, by rw [← hq, h2]⟩
      · rename_i h2; intro σ _; simp only [Con.holds, Atom.eval]; rintro ⟨_, h3⟩; rw [← hq] at h3; exact h2 h3
    · simp at h; subst h; trivial
  | intTimes a b c =>
    simp only [process] at h
    unfold oTimes at h
    rw [Res.bind_eq_ok] at h
    obtain ⟨r, h1, h⟩ := h
    cases r with
    | none => simp at h; subst h; trivial
    | some r =>
      simp at h; subst h
      intro σ _
      have : r.eval σ.int = a.eval σ.int * b.eval σ.int := by
        unfold timesResult at h1
        split at h1
        · rw [Res.bind_eq_ok] at h1
          obtain ⟨p, h2, h1⟩ := h1
          simp at h1; subst h1
          simp only [Atom.eval]; exact (safeMult_ok h2).1
        · simp at h1
          split at h1
          · rename_i h2; simp at h1; subst h1; simp [Atom.eval, h2]
          · split at h1
            · rename_i h2; simp at h1; subst h1; simp [Atom.eval, h2]
            · simp at h1
        · simp at h1
          split at h1
          · rename_i h2; simp at h1; subst h1; simp [Atom.eval, h2]
          · split at h1
            · rename_i h2; simp at h1; subst h1; simp [Atom.eval, h2]
            · simp at h1
        · simp at h1
      simp only [Con.holds, this]
      exact eq_comm
  | element i xs r =>
    simp only [process, Res.ok.injEq] at h
    subst h
    unfold oElement
    split
    · rename_i v
      split
      · rename_i hv
        rintro σ _ ⟨n, e, h1, h2, _⟩
        have := (List.getElem?_eq_some_iff.1 h2).1
        simp only [Atom.eval] at h1; omega
      · rename_i hv
        split
        · rename_i e he
          intro σ _
          simp only [Con.holds]
          constructor
          · intro h; exact ⟨v.toNat - 1, e, by simp only [Atom.eval]; omega, he, h⟩
          · rintro ⟨n, e', h1, h2, h3⟩
            simp only [Atom.eval] at h1
            have : n = v.toNat - 1 := by omega
            rw [this, he] at h2; simp at h2; rw [h2]; exact h3
        · rename_i he
          simp at he; omega
    · trivial
  | setIn x S =>
    have nS := hS x S rfl
    simp only [process] at h
    unfold oSetIn at h
    split at h
    · rename_i v
      simp at h; subst h
      split
      · rename_i h1; intro σ _; exact (C07_contains v S nS).1 h1
      · rename_i h1; intro σ _ h2; exact h1 ((C07_contains v S nS).2 h2)
    · rename_i hx
      split at h
      · rename_i D hD
        simp at h; subst h
        split
        · rename_i h1; intro σ hσ; exact (C07_subset D S (hE x D hD) nS).1 h1 _ (hσ.1 x D hD)
        · split
          · rename_i h1; intro σ hσ h2
            exact (C07_disjoint D S (hE x D hD) nS).1 h1 _ ⟨hσ.1 x D hD, h2⟩
          · trivial
      · rw [Res.bind_eq_ok] at h
        obtain ⟨mn, h1, h⟩ := h
        rw [Res.bind_eq_ok] at h
        obtain ⟨mx, h2, h⟩ := h
        split at h
        · rename_i v
          simp at h; subst h
          split
          · rename_i h3
            subst h3
            intro σ hσ
            have m1 := ((C07_min_max S nS v).1).1 (orUB_ok h1)
            have m2 := ((C07_min_max S nS v).2).1 (orUB_ok h2)
            simp only [Con.holds]
            show x.eval σ.int = v ↔ _
            constructor
            · intro h; rw [h]; exact m1.1
            · intro h; have := m1.2 _ h; have := m2.2 _ h; omega
          · trivial
        · simp at h; subst h; trivial
  | clause pos neg =>
    simp only [process, Res.ok.injEq] at h
    subst h
    unfold oClause
    split
    · rename_i h
      rw [clauseScan_spec _ _ (mergeSort_le _) (mergeSort_le _)] at h
      obtain ⟨n, h1, h2⟩ := h
      rw [List.mem_mergeSort, freeVars_mem] at h1 h2
      intro σ _
      cases hb : σ.bool (.var n)
      · exact .inr ⟨_, h2.1, hb⟩
      · exact .inl ⟨_, h1.1, hb⟩
    · trivial
  | conj xs =>
    simp only [process, Res.ok.injEq] at h
    subst h
    have := oForall_right E xs true (fun _ => True) (fun _ _ _ => trivial)
    cases ho : oForall E xs true <;> simp only [ho] at this
    · trivial
    · exact this
    · exact fun σ hσ => (this σ hσ).2
  | disj xs =>
    simp only [process, Res.ok.injEq] at h
    subst h
    have := oExists_right E xs true (fun _ => False) (fun _ _ _ => id)
    cases ho : oExists E xs true <;> simp only [ho] at this
    · trivial
    · exact fun σ hσ h => this σ hσ (.inr h)
    · exact this
  | boolNot a b =>
    simp only [process, Res.ok.injEq] at h
    subst h
    unfold oNot
    split
    · split
      · rename_i h; intro σ _; simp [Con.holds, BAtom.eval, h]
      · rename_i h; intro σ _; simp [Con.holds, BAtom.eval, h]
    · intro σ _
      rename_i y _ _
      simp only [Con.holds]
      show a.eval σ = (!y) ↔ a.eval σ ≠ y
      cases a.eval σ <;> cases y <;> simp
    · intro σ _
      rename_i x _ _
      simp only [Con.holds]
      show b.eval σ = (!x) ↔ x ≠ b.eval σ
      cases b.eval σ <;> cases x <;> simp
    · trivial
  | intNe a b =>
    simp only [process] at h
    have hdom : ∀ (a : Atom) (v : Int) st, neDom E a v = .ok st → Right E (.intNe a (.lit v)) st := by
      intro a v st h
      unfold neDom at h
      split at h
      · simp at h; subst h; trivial
      · rename_i D hD
        split at h
        · rename_i h1
          simp at h; subst h
          intro σ hσ h2
          simp at h1
          have := hσ.1 a D hD
          rw [show a.eval σ.int = v from h2, ← C07_contains v D (hE a D hD)] at this
          rw [this] at h1; simp at h1
        · rw [Res.bind_eq_ok] at h
          obtain ⟨mn, h2, h⟩ := h
          rw [Res.bind_eq_ok] at h
          obtain ⟨mx, h3, h⟩ := h
          simp at h; subst h
          split
          · rename_i h4
            intro σ hσ h5
            have := minmaxS hD h2 h3 σ hσ
            rw [← h4.1, ← h4.2] at this
            simp at this
            apply h5; simp only [Atom.eval]
            show a.eval σ.int = v
            omega
          · trivial
    have hsym : ∀ st, Right E (.intNe b a) st → (∀ c, st ≠ .rewrite c) → Right E (.intNe a b) st := by
      intro st h h2
      cases st with
      | ok => trivial
      | failed => intro σ hσ h3; exact h σ hσ (fun h4 => h3 h4.symm)
      | entailed => intro σ hσ h3; exact h σ hσ h3.symm
      | rewrite c => exact absurd rfl (h2 c)
    have hnr : ∀ (a : Atom) (v : Int) st, neDom E a v = .ok st → ∀ c, st ≠ .rewrite c := by
      intro a v st h c
      unfold neDom at h
      split at h
      · simp at h; subst h; simp
      · split at h
        · simp at h; subst h; simp
        · rw [Res.bind_eq_ok] at h
          obtain ⟨mn, h2, h⟩ := h
          rw [Res.bind_eq_ok] at h
          obtain ⟨mx, h3, h⟩ := h
          simp at h; subst h
          split <;> simp
    unfold oIntNe at h
    split at h
    · simp at h; subst h
      split
      · rename_i h1; intro σ _ h2; exact h2 h1
      · rename_i h1; intro σ _; exact h1
    · split at h
      · rename_i a' v sw ho
        unfold order at ho
        split at ho
        · simp at ho
          obtain ⟨rfl, rfl, -⟩ := ho
          exact hsym _ (hdom _ _ _ h) (hnr _ _ _ h)
        · simp at ho
          obtain ⟨rfl, rfl, -⟩ := ho
          exact hdom _ _ _ h
      · simp at h; subst h; trivial
  | intLe a b =>
    simp only [process] at h
    unfold oIntLe at h
    split at h
    · simp at h; subst h
      split
      · rename_i h1; intro σ _; exact h1
      · rename_i h1; intro σ _ h2; exact h1 h2
    · split at h
      · rename_i a' v sw ho
        unfold leDom at h
        split at h
        · simp at h; subst h; trivial
        · rename_i D hD
          rw [Res.bind_eq_ok] at h
          obtain ⟨mn, h2, h⟩ := h
          rw [Res.bind_eq_ok] at h
          obtain ⟨mx, h3, h⟩ := h
          have mm := minmaxS hD h2 h3
          unfold order at ho
          split at ho
          · simp at ho
            obtain ⟨rfl, rfl, rfl⟩ := ho
            simp at h; subst h
            split
            · rename_i h4
              intro σ hσ
              have := le_trans h4 (mm σ hσ).1
              simpa [Con.holds, Atom.eval] using this
            · split
              · rename_i h4
                intro σ hσ
                have := lt_of_le_of_lt (mm σ hσ).2 h4
                simpa [Con.holds, Atom.eval] using this
              · trivial
          · simp at ho
            obtain ⟨rfl, rfl, rfl⟩ := ho
            simp at h; subst h
            split
            · rename_i h4
              intro σ hσ
              have := le_trans (mm σ hσ).2 h4
              simpa [Con.holds, Atom.eval] using this
            · split
              · rename_i h4
                intro σ hσ
                have := lt_of_lt_of_le h4 (mm σ hσ).1
                simpa [Con.holds, Atom.eval] using this
              · trivial
      · simp at h; subst h; trivial

/-- The functional form of `int_times`: the replacement has the value of the product. -/
theorem C41_times_functional (a b : Atom) (e : IExp) (h : oTimesFun a b = .ok (.rewrite e)) (σ : OptCons.Asg) :
    e.eval σ = a.eval σ.int * b.eval σ.int := by
  unfold oTimesFun at h
  rw [Res.bind_eq_ok] at h
  obtain ⟨r, h1, h⟩ := h
  cases r with
  | none => simp at h
  | some r =>
    simp at h; subst h
    have := C41_optimizers ⟨fun _ => none, fun _ => none, true⟩ (fun _ _ h => by simp at h)
      (.intTimes a b r) (fun _ _ h => by simp at h) (.rewrite (.intEq r r))
      (by simp only [process, oTimes]; rw [h1]; rfl) σ ⟨fun _ _ h => by simp at h, fun _ _ h => by simp at h⟩
    have := this.1 rfl
    simp only [IExp.eval]; exact this.symm

/-- A clause that contains a free variable both positively and negatively is recognised as always true. -/
theorem C41_clause_complete (E : Env) (pos neg : List BAtom) (n : Nat) (h1 : .var n ∈ pos) (h2 : .var n ∈ neg)
    (h3 : E.bdom n = none) : process E (.clause pos neg) = .ok .entailed := by
  simp only [process]
  unfold oClause
  rw [if_pos]
  rw [clauseScan_spec _ _ (mergeSort_le _) (mergeSort_le _)]
  exact ⟨n, by rw [List.mem_mergeSort, freeVars_mem]; exact ⟨h1, h3⟩,
    by rw [List.mem_mergeSort, freeVars_mem]; exact ⟨h2, h3⟩⟩

/-- Conjunctions and disjunctions all of whose members are fixed are decided. -/
theorem C41_fixed_decided (E : Env) (xs : List BAtom)
    (h : ∀ a ∈ xs, (∃ b, a = .lit b) ∨ ∃ n b, a = .var n ∧ E.bdom n = some b) :
    process E (.conj xs) ≠ .ok .ok ∧ process E (.disj xs) ≠ .ok .ok := by
  have : oForall E xs true ≠ .ok ∧ oExists E xs true ≠ .ok := by
    induction xs with
    | nil => simp [oForall, oExists]
    | cons a xs ih =>
      have ih := ih (fun a ha => h a (by simp [ha]))
      rcases h a (by simp) with ⟨b, rfl⟩ | ⟨n, b, rfl, hb⟩
      · cases b <;> simp [oForall, oExists, ih]
      · cases b <;> simp [oForall, oExists, hb, ih]
  simpa [process] using this

/-- A membership constraint in the empty set on a variable without a domain reads the minimum of the empty
set (values.hh 603–606 only asserts that there is one): undefined behaviour. -/
theorem C41_set_in_empty_ub (E : Env) (n : Nat) (h : E.dom (.id n) = none) :
    process E (.setIn (.id n) []) = .ub := by
  simp [process, oSetIn, h, orUB, IntSet.min?]

/-- Division by the literal zero raises an error instead of an answer. -/
theorem C41_div_zero (E : Env) (x z : Int) : process E (.intDiv (.lit x) (.lit 0) (.lit z)) = .err := by
  simp [process, oDiv, safeDiv]

example : process ⟨fun a => if a = .id 0 then some [⟨.fin 2, .fin 5⟩] else none, fun _ => none, true⟩
    (.intLe (.lit 6) (.id 0)) = .ok .failed := by decide
example : process ⟨fun a => if a = .id 0 then some [⟨.fin 2, .fin 5⟩] else none, fun _ => none, true⟩
    (.element (.lit 2) [.id 7, .id 8] (.id 9)) = .ok (.rewrite (.intEq (.id 8) (.id 9))) := by decide
example : WF ⟨fun a => if a = .id 0 then some [⟨.fin 2, .fin 5⟩] else none, fun _ => none, true⟩ := by
  intro a D h
  dsimp only at h
  split at h
  · simp at h; subst h; exact ⟨by decide, by decide⟩
  · simp at h

end MZ
