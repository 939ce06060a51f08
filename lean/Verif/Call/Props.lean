import Verif.Call.Calls
/-!
# Calls: the properties
-/
namespace MZ
namespace Call
open BoolFlat (Cmp)
open Let (Atom Def St mk post out setFl restore Ok WF Grow Agree)

theorem start_inv (n : Nat) (G : Prog) : Inv n G (start n) := by
  refine ⟨⟨?_, ?_, ?_⟩, ?_, ?_, ?_⟩
  · intro k d hk
    simp only [start] at hk
    have := List.mem_of_getElem? hk
    rw [(List.mem_replicate.mp this).2]
    trivial
  · simp [start]
  · intro x
    simp only [start, List.length_replicate]
    split
    · rename_i h; exact h
    · trivial
  · intro x hx
    simp [start, hx]
  · simp [start]
  · simp [start]

theorem start_ok (n : Nat) (σ : Nat → Int) : Ok σ (start n).st := by
  refine ⟨?_, by simp [start]⟩
  intro k d hk
  simp only [start] at hk
  have := List.mem_of_getElem? hk
  rw [(List.mem_replicate.mp this).2]
  trivial

theorem flatAll_spec {fix : Bool} {n : Nat} {G : Prog} (hG : G.Fine n) (hf : fix = true ∨ G.TotArgs) (k : Nat) :
    ∀ (es : List BE) (s s' : S), Inv n G s → (∀ e ∈ es, e.In n (· < n)) → (fix = true ∨ ∀ e ∈ es, e.TotArgs) →
      flatAll fix G k es s = some s' → Step n G s s' ∧ (∀ σ, Ok σ s'.st → ∀ e ∈ es, G.True n σ e) ∧
      (∀ σ, Ok σ s.st → (∀ e ∈ es, G.True n σ e) → ∃ σ', Agree s.st.decls.length σ σ' ∧ Ok σ' s'.st)
  | [], s, s', hs, _, _, h => by
    simp only [flatAll, Option.some.injEq] at h
    subst h
    exact ⟨Step.refl hs, by simp, fun σ ho _ => ⟨σ, Agree.refl _ _, ho⟩⟩
  | e :: es, s, s', hs, hi, ht, h => by
    rw [flatAll] at h
    cases e1 : flatB (callI fix G k) (callP fix G k) true e s with
    | none => rw [e1] at h; cases h
    | some p =>
      obtain ⟨s1, a⟩ := p
      rw [e1] at h
      simp only at h
      have k1 := flatB_spec (callI_ok hG hf k) (callP_ok hG hf k) (· < n) true e _ _ _ hs (hi e (by simp)) (ht.imp id fun h => h e (by simp)) e1
      obtain ⟨k2, k3, k4⟩ := flatAll_spec hG hf k es s1 s' k1.inv (fun e he => hi e (by simp [he])) (ht.imp id fun h e he => h e (by simp [he])) h
      have env : ∀ σ, Env (· < n) s.st.fl σ (gl n σ) := fun σ x hx => by rw [hs.glob x hx]; simp [Atom.val, gl, hx]
      refine ⟨k1.toStep.trans k2, fun σ ho => ?_, fun σ ho hr => ?_⟩
      · intro e' he
        rcases List.mem_cons.mp he with rfl | he
        · obtain ⟨o, j1, j2⟩ := k1.ex σ _ (k2.grow.ok ho) (env σ)
          have : o = true := j2.mp (by rw [k1.one rfl]; exact lit1_tr σ)
          rw [this] at j1
          exact j1
        · exact k3 σ ho e' he
      · obtain ⟨σ1, q1, q2⟩ := k1.ext σ _ ho (env σ) (fun _ => hr e (by simp))
        obtain ⟨σ2, q3, q4⟩ := k4 σ1 q2 (fun e' he => by
          have := hr e' (by simp [he])
          unfold Prog.True at this ⊢
          have hg : gl n σ1 = gl n σ := hs.gl q1
          rw [hg]
          exact this)
        exact ⟨σ2, q1.trans q3 k1.grow.len, q4⟩

theorem flatAll_iff {fix : Bool} {n : Nat} {G : Prog} (hG : G.Fine n) (hf : fix = true ∨ G.TotArgs) {k : Nat} {es : List BE} {s' : S}
    (hi : ∀ e ∈ es, e.In n (· < n)) (ht : fix = true ∨ ∀ e ∈ es, e.TotArgs) (h : flatAll fix G k es (start n) = some s') (g : Nat → Int) :
    (∀ e ∈ es, G.True n g e) ↔ ∃ σ, Ok σ s'.st ∧ ∀ x < n, σ x = g x := by
  obtain ⟨k1, k2, k3⟩ := flatAll_spec hG hf k es _ _ (start_inv n G) hi ht h
  constructor
  · intro hr
    obtain ⟨σ', q1, q2⟩ := k3 g (start_ok n g) hr
    exact ⟨σ', q2, fun x hx => q1 x (by simpa [start] using hx)⟩
  · rintro ⟨σ, h1, h2⟩ e he
    have := k2 σ h1 e he
    have hg : gl n σ = gl n g := by
      funext x
      simp only [gl]
      split
      · rename_i hx; exact h2 x hx
      · rfl
    unfold Prog.True at this ⊢
    rw [hg] at this
    exact this

/-- The meaning of a constraint does not depend on the number of nested calls. -/
theorem _root_.MZ.C72_meaning (G : Prog) (n : Nat) (g : Nat → Int) (e : BE) (k k' : Nat) (b b' : Bool)
    (h : e.val (G.fn (gl n g) k) (G.pr (gl n g) k) (gl n g) = some b)
    (h' : e.val (G.fn (gl n g) k') (G.pr (gl n g) k') (gl n g) = some b') : b = b' :=
  EvB.uniq (G := G) (t := e) ⟨k, h⟩ ⟨k', h'⟩

/-- If the arguments of calls are defined for all values, by their form, then the flat model has the solutions of the model: functions are
called with the values of their arguments, also in recursive calls; calls with arguments or a result outside of their domains are undefined;
common subexpressions do not change the meaning. Missing: partial arguments (see C72_cse_fails; C72_repair is about all arguments). -/
theorem _root_.MZ.C72_call_partial (n : Nat) (G : Prog) (hG : G.Fine n) (hf : G.TotArgs) (k : Nat) (es : List BE) (s' : S)
    (hi : ∀ e ∈ es, e.In n (· < n)) (ht : ∀ e ∈ es, e.TotArgs) (h : flatAll false G k es (start n) = some s') (g : Nat → Int) :
    (∀ e ∈ es, G.True n g e) ↔ ∃ σ, Ok σ s'.st ∧ ∀ x < n, σ x = g x :=
  flatAll_iff hG (Or.inr hf) hi (Or.inr ht) h g

/-- If the entry for common subexpressions does not have the definedness of the arguments, then the flat model has the solutions of the model,
for all programs. -/
theorem _root_.MZ.C72_repair (n : Nat) (G : Prog) (hG : G.Fine n) (k : Nat) (es : List BE) (s' : S)
    (hi : ∀ e ∈ es, e.In n (· < n)) (h : flatAll true G k es (start n) = some s') (g : Nat → Int) :
    (∀ e ∈ es, G.True n g e) ↔ ∃ σ, Ok σ s'.st ∧ ∀ x < n, σ x = g x :=
  flatAll_iff hG (Or.inl rfl) hi (Or.inl rfl) h g

/-! ## Declarations have their previous values after calls -/

@[simp] theorem mkS_fl (s : S) (d : Def) : (mkS s d).1.st.fl = s.st.fl := rfl

@[simp] theorem outS_fl (root : Bool) (s : S) (d : Def) : (outS root s d).1.st.fl = s.st.fl := by
  cases root <;> rfl

@[simp] theorem conjS_fl (root : Bool) (s : S) (cs : List Atom) : (conjS root s cs).1.st.fl = s.st.fl := by
  unfold conjS
  simp only
  generalize cs.filter (· ≠ .lit 1) = nt
  split
  · rfl
  · split
    · rw [foldl_post]
    · split
      · rfl
      · split <;> rfl

mutual
theorem flatI_fl {H : HI} (hH : ∀ root f vs bs s s' r b, H root f vs bs s = some (s', r, b) → s'.st.fl = s.st.fl) (root : Bool) :
    ∀ (t : IE) (s s' : S) (r b : Atom), flatI H root t s = some (s', r, b) → s'.st.fl = s.st.fl
  | .lit _, s, s', r, b, h => by simp [flatI] at h; rw [h.1]
  | .var _, s, s', r, b, h => by simp [flatI] at h; rw [h.1]
  | .par p, s, s', r, b, h => by
    rw [flatI] at h
    cases e : evalP s.st.fl p with
    | none => rw [e] at h; cases h
    | some v => rw [e] at h; simp at h; rw [h.1]
  | .add t u, s, s', r, b, h => by
    rw [flatI] at h
    cases e1 : flatI H root t s with
    | none => rw [e1] at h; cases h
    | some p =>
      obtain ⟨s1, a1, b1⟩ := p
      rw [e1] at h
      simp only at h
      cases e2 : flatI H root u s1 with
      | none => rw [e2] at h; cases h
      | some p =>
        obtain ⟨s2, a2, b2⟩ := p
        rw [e2] at h
        simp only [Option.some.injEq, Prod.mk.injEq] at h
        rw [← h.1, conjS_fl, mkS_fl, flatI_fl hH root u _ _ _ _ e2, flatI_fl hH root t _ _ _ _ e1]
  | .div t u, s, s', r, b, h => by
    rw [flatI] at h
    cases e1 : flatI H root t s with
    | none => rw [e1] at h; cases h
    | some p =>
      obtain ⟨s1, a1, b1⟩ := p
      rw [e1] at h
      simp only at h
      cases e2 : flatI H root u s1 with
      | none => rw [e2] at h; cases h
      | some p =>
        obtain ⟨s2, a2, b2⟩ := p
        rw [e2] at h
        simp only [Option.some.injEq, Prod.mk.injEq] at h
        rw [← h.1, conjS_fl, mkS_fl, mkS_fl, flatI_fl hH root u _ _ _ _ e2, flatI_fl hH root t _ _ _ _ e1]
  | .ite o p q t u, s, s', r, b, h => by
    rw [flatI] at h
    cases e1 : evalP s.st.fl p with
    | none => rw [e1] at h; simp at h
    | some v =>
      cases e2 : evalP s.st.fl q with
      | none => rw [e1, e2] at h; simp at h
      | some w =>
        rw [e1, e2] at h
        simp only at h
        by_cases hc : o.holds v w = true
        · rw [if_pos hc] at h; exact flatI_fl hH root t _ _ _ _ h
        · rw [if_neg hc] at h; exact flatI_fl hH root u _ _ _ _ h
  | .let_ x t u, s, s', r, b, h => by
    rw [flatI] at h
    cases e1 : flatI H root t s with
    | none => rw [e1] at h; cases h
    | some p =>
      obtain ⟨s1, a1, b1⟩ := p
      rw [e1] at h
      simp only at h
      cases e2 : flatI H root u (setS s1 x a1) with
      | none => rw [e2] at h; cases h
      | some p =>
        obtain ⟨s2, a2, b2⟩ := p
        rw [e2] at h
        simp only [Option.some.injEq, Prod.mk.injEq] at h
        rw [← h.1]
        have k1 := flatI_fl hH root t _ _ _ _ e1
        have k2 := flatI_fl hH root u _ _ _ _ e2
        funext y
        simp only [setS, setFl]
        by_cases e : y = x
        · rw [if_pos e, e]
        · rw [if_neg e, conjS_fl, k2]
          simp only [setS, setFl]
          rw [if_neg e, k1]
  | .call f as, s, s', r, b, h => by
    rw [flatI] at h
    cases e1 : flatArgs H root as s with
    | none => rw [e1] at h; cases h
    | some p =>
      obtain ⟨s1, vs, bs⟩ := p
      rw [e1] at h
      rw [hH _ _ _ _ _ _ _ _ h, flatArgs_fl hH root as _ _ _ _ e1]
theorem flatArgs_fl {H : HI} (hH : ∀ root f vs bs s s' r b, H root f vs bs s = some (s', r, b) → s'.st.fl = s.st.fl) (root : Bool) :
    ∀ (t : Args) (s s' : S) (vs bs : List Atom), flatArgs H root t s = some (s', vs, bs) → s'.st.fl = s.st.fl
  | .nil, s, s', vs, bs, h => by simp [flatArgs] at h; rw [h.1]
  | .cons t r, s, s', vs, bs, h => by
    rw [flatArgs] at h
    cases e1 : flatArgs H root r s with
    | none => rw [e1] at h; cases h
    | some p =>
      obtain ⟨s1, vs1, bs1⟩ := p
      rw [e1] at h
      simp only at h
      cases e2 : flatI H root t s1 with
      | none => rw [e2] at h; cases h
      | some p =>
        obtain ⟨s2, a2, b2⟩ := p
        rw [e2] at h
        simp only [Option.some.injEq, Prod.mk.injEq] at h
        rw [← h.1, flatI_fl hH root t _ _ _ _ e2, flatArgs_fl hH root r _ _ _ _ e1]
end

theorem paramDoms_fl (root : Bool) : ∀ (ps : List Param) (vs : List Atom) (s : S), (paramDoms root ps vs s).1.st.fl = s.st.fl
  | [], _, _ => rfl
  | (_, some _) :: _, [], _ => rfl
  | (_, none) :: _, [], _ => rfl
  | (x, none) :: ps, a :: vs, s => paramDoms_fl root ps vs s
  | (x, some d) :: ps, a :: vs, s => by
    simp only [paramDoms]
    rw [paramDoms_fl root ps vs, outS_fl]

theorem bindParams_fl : ∀ (ps : List Param) (vs : List Atom) (s : S) (y : Nat), y ∉ ps.map (·.1) → (bindParams ps vs s).st.fl y = s.st.fl y
  | [], _, _, _, _ => rfl
  | _ :: _, [], _, _, _ => rfl
  | (x, d) :: ps, a :: vs, s, y, h => by
    simp only [List.map_cons, List.mem_cons, not_or] at h
    simp only [bindParams, setS, setFl]
    rw [if_neg h.1, bindParams_fl ps vs s y h.2]

theorem unbind_fl (fl : Nat → Atom) : ∀ (ps : List Param) (s : S) (y : Nat),
    (unbind fl ps s).st.fl y = if y ∈ ps.map (·.1) then fl y else s.st.fl y
  | [], s, y => by simp [unbind]
  | (x, d) :: ps, s, y => by
    simp only [unbind, setS, setFl, List.map_cons, List.mem_cons]
    by_cases e : y = x
    · rw [if_pos e, if_pos (Or.inl e), e]
    · rw [if_neg e, unbind_fl fl ps s y]
      by_cases hy : y ∈ ps.map (·.1)
      · rw [if_pos hy, if_pos (Or.inr hy)]
      · rw [if_neg hy, if_neg (fun h => h.elim e hy)]

theorem retDom_fl (root : Bool) (d : Option (List Int)) (r : Atom) (s : S) : (retDom root d r s).1.st.fl = s.st.fl := by
  cases d with
  | none => rfl
  | some d => simp [retDom]

theorem result_fl (fix root : Bool) (s : S) (bs cs : List Atom) : (result fix root s bs cs).1.1.st.fl = s.st.fl := by
  cases fix <;> simp [result]

theorem callI_fl (fix : Bool) (G : Prog) : ∀ (m : Nat) (root : Bool) (f : Nat) (vs bs : List Atom) (s s' : S) (r b : Atom),
    callI fix G m root f vs bs s = some (s', r, b) → s'.st.fl = s.st.fl
  | 0, root, f, vs, bs, s, s', r, b, h => by simp [callI] at h
  | m + 1, root, f, vs, bs, s, s', r, b, h => by
    rw [callI] at h
    cases hF : G.ifuns[f]? with
    | none => rw [hF] at h; cases h
    | some F =>
      rw [hF] at h
      simp only at h
      by_cases hlen : F.params.length ≠ vs.length
      · rw [if_pos hlen] at h; cases h
      rw [if_neg hlen] at h
      cases hc : find (f, vs) s.cse with
      | some p =>
        rw [hc] at h
        simp only [Option.some.injEq, Prod.mk.injEq] at h
        rw [← h.1, conjS_fl]
      | none =>
        rw [hc] at h
        simp only at h
        cases hb0 : flatI (callI fix G m) (root || F.total) F.body (bindParams F.params vs (paramDoms root F.params vs s).1) with
        | none => rw [hb0] at h; cases h
        | some p =>
          obtain ⟨s3, r3, b3⟩ := p
          rw [hb0] at h
          simp only [Option.some.injEq, Prod.mk.injEq] at h
          have k := flatI_fl (callI_fl fix G m) (root || F.total) F.body _ _ _ _ hb0
          rw [← h.1]
          funext y
          rw [unbind_fl]
          by_cases hy : y ∈ F.params.map (·.1)
          · rw [if_pos hy]
          · rw [if_neg hy]
            simp only
            rw [result_fl]
            have e : (if F.total = true then (s3, []) else ((retDom root F.dom r3 s3).1, b3 :: (retDom root F.dom r3 s3).2)).1.st.fl = s3.st.fl := by
              split
              · rfl
              · exact retDom_fl _ _ _ _
            rw [e, k, bindParams_fl _ _ _ _ hy, paramDoms_fl]

/-- After a call of a function, also of a recursive one, all declarations (in particular the parameters of functions whose bodies are being
flattened) have the values that they had before. -/
theorem _root_.MZ.C72_restore (fix : Bool) (G : Prog) (m : Nat) (root : Bool) (f : Nat) (vs bs : List Atom) (s s' : S) (r b : Atom)
    (h : callI fix G m root f vs bs s = some (s', r, b)) : s'.st.fl = s.st.fl := callI_fl fix G m root f vs bs s s' r b h

/-! ## What does not hold -/

/-- `function var int: f(var int: x) = x;` -/
def idProg : Prog := ⟨[⟨[(5, none)], .var 5, none, false⟩], []⟩

/-- `constraint f(let { var int: z = 10 div y } in w) = 5 \/ 0 = 0; constraint f(w) = w;` with `w` and `y` the variables of the model. -/
def cseExample : List BE :=
  [.or (.cmp .eq (.call 0 (.cons (.let_ 6 (.div (.lit 10) (.var 1)) (.var 0)) .nil)) (.lit 5)) (.cmp .eq (.lit 0) (.lit 0)),
   .cmp .eq (.call 0 (.cons (.var 0) .nil)) (.var 0)]

theorem idProg_fine : idProg.Fine 2 where
  inames := by simp [idProg]
  pnames := by simp [idProg]
  ibody := by simp [idProg, IE.In, Scope]
  pbody := by simp [idProg]
  total := by simp [idProg]

/-- The flat model of the example. -/
def cseFlat : List Def × List Atom :=
  ((flatAll false idProg 1 cseExample (start 2)).map fun s => (s.st.decls, s.st.cons)).getD ([], [])

theorem cseFlat_eq : (flatAll false idProg 1 cseExample (start 2)).isSome = true ∧
    cseFlat = ([.glob, .glob, .div (.lit 10) (.var 1), .ne0 (.var 1), .cmp .eq (.var 0) (.lit 5), .conj false [.var 3, .var 4],
      .cmp .eq (.lit 0) (.lit 0), .disj [.var 5, .var 6], .cmp .eq (.var 0) (.var 0)], [.var 7, .var 3, .var 8]) := by
  decide +kernel

/-- The definedness of the arguments of a call becomes part of the entry for common subexpressions, so a later call with the same flat
arguments is undefined when the arguments of the first call were: with `y = 0` both constraints of the example are true, but the flat model
has no solution with `y = 0`. -/
theorem _root_.MZ.C72_cse_fails : ∃ s', flatAll false idProg 1 cseExample (start 2) = some s' ∧ ∃ g : Nat → Int,
    (∀ e ∈ cseExample, idProg.True 2 g e) ∧ ¬ ∃ σ, Ok σ s'.st ∧ ∀ x < 2, σ x = g x := by
  obtain ⟨s', hs⟩ := Option.isSome_iff_exists.mp cseFlat_eq.1
  refine ⟨s', hs, fun x => if x = 0 then 1 else 0, ?_, ?_⟩
  · intro e he
    simp only [cseExample, List.mem_cons, List.not_mem_nil, or_false] at he
    rcases he with rfl | rfl
    · exact ⟨1, by decide +kernel⟩
    · exact ⟨1, by decide +kernel⟩
  · rintro ⟨σ, h1, h2⟩
    have h3 := cseFlat_eq.2
    rw [cseFlat, hs] at h3
    simp only [Option.map_some, Option.getD_some, Prod.mk.injEq] at h3
    have a1 := h1.1 3 (.ne0 (.var 1)) (by rw [h3.1]; rfl)
    have a2 := h1.2 (.var 3) (by rw [h3.2]; simp)
    have a3 := h2 1 (by omega)
    rcases (Let.Def.holds_iff (d := .ne0 (.var 1)) rfl _).mp a1 with ⟨_, h⟩ | ⟨h, _⟩
    · exact h a3
    · exact a2 h

/-- `function var int: f(var 1..5: x) :: promise_total = 10 div x;` -/
def totProg : Prog := ⟨[⟨[(5, some [1, 2, 3, 4, 5])], .div (.lit 10) (.var 5), none, true⟩], []⟩

/-- `constraint f(y) = 2 \/ y = 0;` -/
def totExample : List BE :=
  [.or (.cmp .eq (.call 0 (.cons (.var 0) .nil)) (.lit 2)) (.cmp .eq (.var 0) (.lit 0))]

/-- The flat model of the example. -/
def totFlat : List Def × List Atom :=
  ((flatAll false totProg 1 totExample (start 1)).map fun s => (s.st.decls, s.st.cons)).getD ([], [])

theorem totFlat_eq : (flatAll false totProg 1 totExample (start 1)).isSome = true ∧
    totFlat = ([.glob, .mem (.var 0) [1, 2, 3, 4, 5], .div (.lit 10) (.var 0), .ne0 (.var 0), .cmp .eq (.var 2) (.lit 2),
      .conj false [.var 1, .var 4], .cmp .eq (.var 0) (.lit 0), .disj [.var 5, .var 6]], [.var 3, .var 7]) := by
  decide +kernel

/-- The body of a function with `promise_total` is flattened in root context although the domains of its parameters are not posted in a
Boolean context, so a function must be total for all arguments, not only for those in the domains of its parameters: the function of the
example is defined for all arguments in `1..5`, the constraint is true for `y = 0`, but the flat model has no solution with `y = 0`. -/
theorem _root_.MZ.C72_total_fails : (∀ F ∈ totProg.ifuns, ∀ g vs, inDoms F.params vs = true → F.params.length = vs.length →
      ∃ v, F.body.val (totProg.fn g 0) (bind g F.params vs) = some (some v)) ∧
    ∃ s', flatAll false totProg 1 totExample (start 1) = some s' ∧ ∃ g : Nat → Int,
      (∀ e ∈ totExample, totProg.True 1 g e) ∧ ¬ ∃ σ, Ok σ s'.st ∧ ∀ x < 1, σ x = g x := by
  constructor
  · intro F hF g vs hd hl
    simp only [totProg, List.mem_singleton] at hF
    subst hF
    match vs, hl with
    | [v], _ =>
      simp only [inDoms, inDom, Bool.and_true, decide_eq_true_eq] at hd
      have : v ≠ 0 := by rintro rfl; simp at hd
      exact ⟨(10 : Int).tdiv v, by simp [IE.val, both, bind, upd, this]⟩
  · obtain ⟨s', hs⟩ := Option.isSome_iff_exists.mp totFlat_eq.1
    refine ⟨s', hs, fun _ => 0, ?_, ?_⟩
    · intro e he
      simp only [totExample, List.mem_cons, List.not_mem_nil, or_false] at he
      rcases he with rfl
      exact ⟨1, by decide +kernel⟩
    · rintro ⟨σ, h1, h2⟩
      have h3 := totFlat_eq.2
      rw [totFlat, hs] at h3
      simp only [Option.map_some, Option.getD_some, Prod.mk.injEq] at h3
      have a1 := h1.1 3 (.ne0 (.var 0)) (by rw [h3.1]; rfl)
      have a2 := h1.2 (.var 3) (by rw [h3.2]; simp)
      have a3 := h2 0 (by omega)
      rcases (Let.Def.holds_iff (d := .ne0 (.var 0)) rfl _).mp a1 with ⟨_, h⟩ | ⟨h, _⟩
      · exact h a3
      · exact a2 h

/-! ## Examples -/

/-- `function var int: f(int: k, var int: x) = if k <= 0 then x else x + f(k - 1, x) endif;`
`function var 0..3: d(var 1..5: x, var int: z) = x div z;` `function var int: t(var int: x) :: promise_total = x + x;`
`predicate p(var 1..5: x) = d(x, w) = 2 \/ x = w;` with the variable `w` of the model. -/
def exProg : Prog :=
  ⟨[⟨[(5, none), (6, none)], .ite .lq (.var 5) (.lit 0) (.var 6)
      (.add (.var 6) (.call 0 (.cons (.par (.sub (.var 5) (.lit 1))) (.cons (.var 6) .nil)))), none, false⟩,
    ⟨[(7, some [1, 2, 3, 4, 5]), (8, none)], .div (.var 7) (.var 8), some [0, 1, 2, 3], false⟩,
    ⟨[(9, none)], .add (.var 9) (.var 9), none, true⟩],
   [⟨[(10, some [1, 2, 3, 4, 5])], .or (.cmp .eq (.call 1 (.cons (.var 10) (.cons (.var 0) .nil))) (.lit 2)) (.cmp .eq (.var 10) (.var 0))⟩]⟩

theorem exProg_fine : exProg.Fine 2 where
  inames := by
    intro F hF x hx
    simp only [exProg, List.mem_cons, List.not_mem_nil, or_false] at hF
    rcases hF with rfl | rfl | rfl <;> simp at hx <;> omega
  pnames := by simp [exProg]
  ibody := by simp [exProg, IE.In, Args.In, PE.In, Scope]
  pbody := by simp [exProg, BE.In, IE.In, Args.In, Scope]
  total := by
    intro F hF ht g vs hl
    simp only [exProg, List.mem_cons, List.not_mem_nil, or_false] at hF
    rcases hF with rfl | rfl | rfl
    · cases ht
    · cases ht
    · match vs, hl with
      | [v], _ => exact ⟨0, v + v, by simp [IE.val, both, bind, upd], rfl⟩

theorem exProg_totArgs : exProg.TotArgs := by
  simp [Prog.TotArgs, exProg, IE.TotArgs, BE.TotArgs, IE.Tot, Args.Tot, Args.TotArgs]

/-- `constraint f(3, x) = 12 \/ p(x + 1); constraint p(x + 1) \/ t(x) = w; constraint f(2, x) != 7;` -/
def exCons : List BE :=
  [.or (.cmp .eq (.call 0 (.cons (.lit 3) (.cons (.var 1) .nil))) (.lit 12)) (.call 0 (.cons (.add (.var 1) (.lit 1)) .nil)),
   .or (.call 0 (.cons (.add (.var 1) (.lit 1)) .nil)) (.cmp .eq (.call 2 (.cons (.var 1) .nil)) (.var 0)),
   .cmp .nq (.call 0 (.cons (.lit 2) (.cons (.var 1) .nil))) (.lit 7)]

/-- The hypotheses are met by a program with recursion, domains, `promise_total`, a predicate and common subexpressions. -/
example : exProg.Fine 2 ∧ exProg.TotArgs ∧ (∀ e ∈ exCons, e.In 2 (· < 2)) ∧ (∀ e ∈ exCons, e.TotArgs) ∧
    (flatAll false exProg 5 exCons (start 2)).isSome = true := by
  refine ⟨exProg_fine, exProg_totArgs, ?_, ?_, by decide +kernel⟩
  · simp [exCons, BE.In, IE.In, Args.In]
  · simp [exCons, BE.TotArgs, IE.TotArgs, Args.TotArgs, Args.Tot, IE.Tot]

/-- The recursive function adds its argument `k + 1` times. -/
example : exProg.fn (fun _ => 0) 4 0 [3, 5] = some (some 20) := by decide +kernel

/-- Outside of its domain a call is undefined, and so is a call with a result outside of the domain. -/
example : exProg.fn (fun _ => 0) 1 1 [6, 1] = some none ∧ exProg.fn (fun _ => 0) 1 1 [5, 1] = some none ∧
    exProg.fn (fun _ => 0) 1 1 [5, 2] = some (some 2) := by decide +kernel

/-- The call `f(2, x)` in the third constraint uses the flat variable of the first one: there are four entries for `f`. -/
example : ((flatAll false exProg 5 exCons (start 2)).map fun s => s.cse.map fun p => (p.1.1, p.1.2.length)) =
    some [(2, 1), (1, 2), (1, 2), (0, 2), (0, 2), (0, 2), (0, 2)] := by decide +kernel

/-- The repair accepts the example of C72_cse_fails, and C72_repair says that its flat model is right. -/
example : idProg.Fine 2 ∧ (∀ e ∈ cseExample, e.In 2 (· < 2)) ∧ (flatAll true idProg 1 cseExample (start 2)).isSome = true :=
  ⟨idProg_fine, by simp [cseExample, BE.In, IE.In, Args.In], by decide +kernel⟩

end Call
end MZ
