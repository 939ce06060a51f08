import Verif.Eval.TotalE
/-!
# C58: parameter expressions are evaluated according to the relational semantics
-/
namespace MZ
namespace Eval
open Classical

/-- **C58.** Evaluation agrees with the meaning of the expression (`denE`, the relational semantics
of the language, `Verif/Eval/Spec.lean`): if it delivers a value, this value stands for the meaning
(integers fit into 64 bits, sets are normal); if it reports "undefined", the expression is undefined.
This holds for every expression, every program whose functions have an interpretation `R`, every
recursion depth, and every assignment of the parameters. -/
theorem _root_.MZ.C58_eval_sound {P : Prog Val} {P' : Prog DVal}
    {R : (b : Base) → Nat → List AnyD → Option (DVal b)} (hf : P.fns = P'.fns)
    (hg : EnvRep P.glob P'.glob) (hR : Satisfies P' R) (n : Nat) {b : Base} (e : E b)
    {env : Env} {denv : DEnv} (he : EnvRep env denv) :
    (∀ v, eval P n e env = .val v → ∃ d, denE R e denv = some d ∧ Rep b v d) ∧
    (eval P n e env = .undef → denE R e denv = none) := by
  have h := sound (callN_rep hf hg hR n) e env denv he
  refine ⟨fun v hv => ?_, fun hv => ?_⟩
  · rw [show evalE (callN P n) e env = .val v from hv] at h; exact h
  · rw [show evalE (callN P n) e env = .undef from hv] at h; exact h

/-- **C58.** Conversely, evaluation delivers the meaning whenever no number, partial sum, partial
product or size leaves the range −LLONG_MAX … LLONG_MAX, no comprehension runs over a set with
`LLONG_MAX`, the identifiers are bound and the calls are nested at most `n` deep (`okE`, `okN`,
`Verif/Eval/Fits.lean`): there is then no error and no undefined behaviour of the C++ program. -/
theorem _root_.MZ.C58_eval_complete {P : Prog Val} {P' : Prog DVal}
    {R : (b : Base) → Nat → List AnyD → Option (DVal b)} (hf : P.fns = P'.fns)
    (hg : EnvRep P.glob P'.glob) (hR : Satisfies P' R) (n : Nat) {b : Base} (e : E b)
    {env : Env} {denv : DEnv} (he : EnvRep env denv) (hok : okE R (okN P' R n) e denv) :
    (∀ d, denE R e denv = some d → ∃ v, eval P n e env = .val v ∧ Rep b v d) ∧
    (denE R e denv = none → eval P n e env = .undef) := by
  have h := sound (callN_rep hf hg hR n) e env denv he
  have h2 := fine (callN_rep hf hg hR n) (callN_fine hf hg hR n) e env denv he hok
  show (∀ d, _ → ∃ v, evalE (callN P n) e env = .val v ∧ _) ∧ (_ → evalE (callN P n) e env = .undef)
  cases hv : evalE (callN P n) e env with
  | val v =>
    rw [hv] at h
    obtain ⟨d, e1, hr⟩ := h
    refine ⟨fun d' hd => ⟨v, rfl, ?_⟩, fun hn => ?_⟩
    · rw [e1] at hd; cases hd; exact hr
    · rw [e1] at hn; cases hn
  | undef =>
    rw [hv] at h
    refine ⟨fun d' hd => ?_, fun _ => rfl⟩
    rw [show denE R e denv = none from h] at hd; cases hd
  | err => exact absurd hv h2.1
  | ub => exact absurd hv h2.2

/-- **C58.** A Boolean expression is true or false, never undefined: undefinedness inside it has made
it false. -/
theorem _root_.MZ.C58_bool_never_undefined (P : Prog Val) (n : Nat) (e : E .bool) (env : Env) :
    eval P n e env ≠ .undef := by
  unfold eval
  have hc : ∀ o : Out Bool, Out.catchU o ≠ .undef := by
    intro o; cases o <;> simp [Out.catchU]
  cases e with
  | blit b => simp [evalE]
  | var b m =>
    simp only [evalE]
    cases h : env.s .bool m <;> simp [lookup]
  | not e => simp only [evalE]; exact hc _
  | bop op l r => simp only [evalE]; exact hc _
  | icmp op l r => simp only [evalE]; exact hc _
  | scmp op l r => simp only [evalE]; exact hc _
  | isin x s => simp only [evalE]; exact hc _
  | ite cs e => simp only [evalE]; exact hc _
  | letin ds e => simp only [evalE]; exact hc _
  | bagg op a => simp only [evalE]; exact hc _
  | clause p q => simp only [evalE]; exact hc _
  | access a i => simp only [evalE]; exact hc _
  | call f as => simp only [evalE]; exact hc _

/-! ## The hypotheses are met -/

/-- No functions, no parameters. -/
def emptyEnv {V : Base → Type} : EnvOf V := ⟨fun _ _ => none, fun _ _ => none⟩

theorem emptyEnv_rep : EnvRep emptyEnv emptyEnv :=
  ⟨fun _ _ _ h => by simp [emptyEnv] at h, fun _ _ _ _ h => by simp [emptyEnv] at h,
    fun _ _ _ => rfl, fun _ _ _ => rfl⟩

/-- The literals of the examples. -/
def lit (n : Int) (h : inLL n := by decide) : E .int := .ilit n h

/-- `function int: fac(int: n) = if n <= 0 then 1 else n * fac(n-1) endif`. -/
def facFn : Fn .int where
  params := [⟨.int, 0, none⟩]
  retDom := none
  body := .ite (.cons (.icmp .lq (.var .int 0) (lit 0)) (lit 1) .nil)
    (.arith .mult (.var .int 0)
      (.call .int 0 (.cons .int (.arith .minus (.var .int 0) (lit 1)) .nil)))

/-- A program with this function only. -/
def facProg (V : Base → Type) : Prog V where
  fns := fun b f => match b, f with
    | .int, 0 => some facFn
    | _, _ => none
  glob := emptyEnv

/-- Its interpretation. -/
def facR : (b : Base) → Nat → List AnyD → Option (DVal b)
  | .int, 0, ⟨.int, n⟩ :: _ => some (n.toNat.factorial : Int)
  | _, _, _ => none

theorem facR_satisfies : Satisfies (facProg DVal) facR := by
  intro b f fn h vs
  have hfn : b = .int ∧ f = 0 := by
    cases b with
    | int => cases f with
      | zero => exact ⟨rfl, rfl⟩
      | succ f => simp [facProg] at h
    | bool => simp [facProg] at h
    | set => simp [facProg] at h
  obtain ⟨rfl, rfl⟩ := hfn
  simp only [facProg, Option.some.injEq] at h
  subst h
  have key : ∀ n : Int, (if n ≤ 0 then some (1 : Int) else some (n * ((n - 1).toNat.factorial : Int)))
      = some (n.toNat.factorial : Int) := by
    intro n
    by_cases hn : n ≤ 0
    · rw [if_pos hn, show n.toNat = 0 by omega]; rfl
    · rw [if_neg hn]
      obtain ⟨k, rfl⟩ : ∃ k : Nat, n = k + 1 := ⟨(n - 1).toNat, by omega⟩
      rw [show ((k : Int) + 1 - 1).toNat = k by omega, show ((k : Int) + 1).toNat = k + 1 by omega,
        Nat.factorial_succ]
      push_cast; rfl
  cases vs with
  | nil => rfl
  | cons v vs =>
    obtain ⟨b, n⟩ := v
    cases b with
    | bool => rfl
    | set => rfl
    | int =>
      show some (n.toNat.factorial : Int) = _
      have hset : ∀ k : Int, (EnvOf.set (facProg DVal).glob .int 0 k).s .int 0 = some k := by
        intro k; simp [EnvOf.set]
      have hR : ∀ k : Int, facR .int 0 [⟨.int, k⟩] = some (k.toNat.factorial : Int) := fun _ => rfl
      simp only [denFn, facFn, denParams, dif_pos, denE, denBrs, denArgs, close, truth, lit, hset,
        Option.bind_eq_bind, Option.bind_some, Option.getD_some, allSome, Option.map_some, hR,
        mathICmp, mathArith]
      rw [← key n]
      by_cases hn : n ≤ 0 <;> simp [hn]

example : eval (facProg Val) 10 (.call .int 0 (.cons .int (lit 5) .nil)) emptyEnv = .val 120 := by
  decide +kernel

/-- Undefinedness becomes false in the nearest Boolean expression: `1 div 0 = 1 \/ true`,
`not (1 div 0 = 1)`, and in a `let`. -/
example (P : Prog Val) (n : Nat) (env : Env) :
    eval P n (.bop .or (.icmp .eq (.arith .idiv (lit 1) (lit 0)) (lit 1)) (.blit true)) env = .val true ∧
    eval P n (.not (.icmp .eq (.arith .idiv (lit 1) (lit 0)) (lit 1))) env = .val true ∧
    eval P n (.letin (.decl .int 0 (.arith .mod (lit 7) (lit 0)) .nil) (.blit true)) env = .val false ∧
    eval P n (.arith .plus (lit 1) (.arith .idiv (lit 1) (lit 0))) env = .undef := ⟨rfl, rfl, rfl, rfl⟩

/-- `sum([x * x | x in a where x > 1])` for `a = [1, 2, 3]`. -/
example (P : Prog Val) (n : Nat) :
    eval P n (.iagg .sum (.arr (.comp (.genArr 0 [] .int (.var .int 7)
      (.icmp .gr (.var .int 0) (lit 1)) (.body (.arith .mult (.var .int 0) (.var .int 0)))))))
      ⟨fun _ _ => none, fun b m => match b with | .int => if m = 7 then some (1, [1, 2, 3]) else none | _ => none⟩
    = .val 13 := rfl

/-- An array literal is evaluated lazily: `[1 div 0, 2][2]` is 2. -/
example (P : Prog Val) (n : Nat) (env : Env) :
    eval P n (.access (.lit (.cons (.arith .idiv (lit 1) (lit 0)) (.cons (lit 2) .nil))) (lit 2)) env
      = .val 2 := rfl

theorem magLL_factorial {m : Nat} (h : m ≤ 20) : magLL (m.factorial : Int) := by
  have h1 : m.factorial ≤ (20).factorial := Nat.factorial_le h
  have h2 : (20).factorial = 2432902008176640000 := by decide +kernel
  unfold magLL LMAX; omega

theorem okFac : ∀ (n : Nat) (k : Nat), k ≤ n → n ≤ 20 →
    okN (facProg DVal) facR (n + 1) .int 0 [⟨.int, (k : Int)⟩]
  | n, k, hk, hn => by
    refine ⟨facFn, rfl, ⟨rfl, trivial⟩, ?_⟩
    intro env henv
    simp only [facFn, denParams, dif_pos, Option.some.injEq] at henv
    subst henv
    have hset : (EnvOf.set (facProg DVal).glob .int 0 (k : Int)).s .int 0 = some (k : Int) := by
      simp [EnvOf.set]
    have hR : ∀ k : Int, facR .int 0 [⟨.int, k⟩] = some (k.toNat.factorial : Int) := fun _ => rfl
    refine ⟨?_, fun d hd => by simp [facFn] at hd⟩
    simp only [facFn, okE, okBrs, okArgs, denE, denBrs, denArgs, close, truth, lit, hset, hR,
      Option.bind_eq_bind, Option.bind_some, Option.getD_some, allSome, Option.map_some,
      mathICmp, mathArith, Option.some.injEq, forall_eq', ne_eq, not_false_eq_true, true_and, and_true,
      reduceCtorEq, implies_true, decide_eq_true_eq]
    refine fun hnone => ?_
    have hk0 : ¬ ((k : Int) ≤ 0) := by
      intro h0; simp [h0] at hnone; omega
    obtain ⟨m, rfl⟩ : ∃ m, k = m + 1 := ⟨k - 1, by omega⟩
    obtain ⟨n, rfl⟩ : ∃ n', n = n' + 1 := ⟨n - 1, by omega⟩
    have hm : ((m + 1 : Nat) : Int) - 1 = (m : Int) := by omega
    refine ⟨⟨?_, ?_⟩, ?_⟩
    · rintro a b rfl rfl
      refine ⟨?_, by decide, ?_, by simp⟩
      · unfold magLL LMAX; omega
      · rintro c hc
        simp only [mathArith, Option.some.injEq] at hc
        unfold magLL LMAX; omega
    · rw [hm]; exact okFac n m (by omega) (by omega)
    · rintro a b rfl rfl
      rw [hm, Int.toNat_natCast]
      refine ⟨?_, magLL_factorial (by omega), ?_, by simp⟩
      · unfold magLL LMAX; omega
      · rintro c hc
        simp only [mathArith, Option.some.injEq] at hc
        subst hc
        have := magLL_factorial (m := m + 1) (by omega)
        rw [Nat.factorial_succ] at this
        exact_mod_cast this

/-- The hypotheses of `C58_eval_complete` hold for the factorials that fit into 64 bits. -/
theorem okFac20 : okE facR (okN (facProg DVal) facR 21) (.call .int 0 (.cons .int (lit 20) .nil))
    emptyEnv := by
  refine ⟨⟨trivial, trivial⟩, ?_⟩
  intro vs hvs
  simp only [denArgs, denE, lit, Option.map_some, allSome, Option.some.injEq] at hvs
  subst hvs
  exact okFac 20 20 (le_refl _) (le_refl _)

example : ∃ v, eval (facProg Val) 21 (.call .int 0 (.cons .int (lit 20) .nil)) emptyEnv = .val v ∧
    Rep .int v 2432902008176640000 := by
  refine (C58_eval_complete (P' := facProg DVal) rfl emptyEnv_rep facR_satisfies 21 _ emptyEnv_rep
    okFac20).1 _ ?_
  show some (((20 : Int).toNat.factorial : Nat) : Int) = _
  decide +kernel

/-- **C58** fails at the upper end of the 64-bit range: a comprehension over the set
`LLONG_MAX..LLONG_MAX` has a value, but the evaluation ends with an overflow error, because the
iterator is advanced past the last element. -/
theorem _root_.MZ.C58_iterate_max_fails (P : Prog Val) (n : Nat) (env : Env) (denv : DEnv)
    (R : (b : Base) → Nat → List AnyD → Option (DVal b)) :
    let e : E .int := .iagg .sum (.arr (.comp (.gen 0 [] (.dotdot (lit 9223372036854775807)
      (lit 9223372036854775807)) (.blit true) (.body (lit 1)))))
    eval P n e env = .err ∧ denE R e denv = some 1 := by
  refine ⟨rfl, ?_⟩
  have hA : (Finset.Icc (9223372036854775807 : Int) 9223372036854775807).sort (· ≤ ·)
      = [9223372036854775807] := by
    rw [Finset.Icc_self]; exact Finset.sort_singleton _ _
  simp only [denE, denSq, denArr, denComp, lit, Option.bind_eq_bind, Option.bind_some, hA, forIds,
    forEach, List.map_cons, List.map_nil, if_true, allSome, Option.map_some, List.flatten_cons,
    List.flatten_nil, List.append_nil, mathIAgg, List.sum_cons, List.sum_nil, add_zero]

end Eval
end MZ
