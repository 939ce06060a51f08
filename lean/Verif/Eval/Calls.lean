import Verif.Eval.Sound
/-!
# The evaluation of parameter expressions: calls of user-defined functions
-/
namespace MZ
namespace Eval
open Classical

section
variable {K : (b : Base) → Nat → List AnyVal → Out (Val b)}
  {R : (b : Base) → Nat → List AnyD → Option (DVal b)}

theorem soundParams (hK : KRep K R) : (ps : List Param) → {vs : List AnyVal} → {ds : List AnyD} →
    List.Forall₂ AnyRep vs ds → {env : Env} → {denv : DEnv} → EnvRep env denv →
    Agree EnvRep (bindParams K ps vs env) (denParams R ps ds denv)
  | [], _, _, _, env, denv, he => by simp only [bindParams, denParams]; exact ⟨_, rfl, he⟩
  | p :: ps, _, _, .nil, env, denv, he => trivial
  | ⟨pb, n, dom⟩ :: ps, _, _, .cons (l₁ := vs) (l₂ := ds) (.mk (b := b) (v := v) (d := d) h) hs,
      env, denv, he => by
    simp only [bindParams, denParams]
    by_cases hb : b = pb
    · subst hb
      rw [dif_pos rfl, dif_pos rfl]
      have he' := he.set (n := n) h
      cases dom with
      | none => exact soundParams hK ps hs he'
      | some D =>
        refine (domCheck_agree b h (sound hK D _ _ he')).bind ?_
        intro ok p hp
        cases ok with
        | true => rw [if_pos rfl, if_pos (hp.1 rfl)]; exact soundParams hK ps hs he'
        | false =>
          have hn : ¬ p := fun hp' => by simpa using hp.2 hp'
          rw [if_neg hn]; rfl
    · rw [dif_neg hb]; trivial

theorem soundFn (hK : KRep K R) {glob : Env} {dglob : DEnv} (hg : EnvRep glob dglob) {b : Base}
    (fn : Fn b) {vs : List AnyVal} {ds : List AnyD} (h : List.Forall₂ AnyRep vs ds) :
    Agree (Rep b) (evalFn K glob fn vs) (denFn R dglob fn ds) := by
  unfold evalFn denFn
  refine (soundParams hK fn.params h hg).bind ?_
  intro env denv he
  refine (sound hK fn.body env denv he).bind ?_
  intro v d hv
  cases fn.retDom with
  | none => exact ⟨d, rfl, hv⟩
  | some D =>
    refine (domCheck_agree b hv (sound hK D _ _ he)).bind ?_
    intro ok p hp
    cases ok with
    | true => rw [if_pos rfl, if_pos (hp.1 rfl)]; exact ⟨d, rfl, hv⟩
    | false =>
      have hn : ¬ p := fun hp' => by simpa using hp.2 hp'
      rw [if_neg hn]; rfl
end

theorem callN_rep {P : Prog Val} {P' : Prog DVal}
    {R : (b : Base) → Nat → List AnyD → Option (DVal b)} (hf : P.fns = P'.fns)
    (hg : EnvRep P.glob P'.glob) (hR : Satisfies P' R) (n : Nat) : KRep (callN P n) R := by
  induction n with
  | zero => intro b f vs ds _; trivial
  | succ n ih =>
    intro b f vs ds h
    simp only [callN]
    cases hfn : P.fns b f with
    | none => trivial
    | some fn =>
      rw [hR b f fn (by rw [← hf]; exact hfn) ds]
      exact soundFn ih hg fn h

end Eval
end MZ
