import Verif.Eval.Agg
/-!
# The evaluation of parameter expressions: agreement with the relational semantics
-/
namespace MZ
namespace Eval

open Classical

theorem denEs_bool (R : (b : Base) → Nat → List AnyD → Option (DVal b)) :
    (es : Es .bool) → (env : DEnv) → ∀ o ∈ denEs R es env, ∃ d, o = some d
  | .nil, _ => by simp [denEs]
  | .cons e es, env => by
    intro o ho
    simp only [denEs, List.mem_cons] at ho
    rcases ho with rfl | ho
    · exact denE_bool R e env
    · exact denEs_bool R es env o ho

theorem denSq_bool {R : (b : Base) → Nat → List AnyD → Option (DVal b)} {a : Sq .bool} {env : DEnv}
    {lo : Int} {os : List (Option Bool)} (h : denSq R a env = some (lo, os)) :
    ∀ o ∈ os, ∃ d, o = some d := by
  cases a with
  | lit es =>
    simp only [denSq, Option.some.injEq, Prod.mk.injEq] at h
    obtain ⟨_, rfl⟩ := h
    exact denEs_bool R es env
  | arr a =>
    simp only [denSq] at h
    cases hd : denArr R a env with
    | none => rw [hd] at h; simp at h
    | some p =>
      rw [hd] at h
      simp only [Option.bind_eq_bind, Option.bind_some, Option.some.injEq, Prod.mk.injEq] at h
      obtain ⟨_, rfl⟩ := h
      intro o ho; simp only [List.mem_map] at ho
      obtain ⟨d, _, rfl⟩ := ho; exact ⟨d, rfl⟩

/-- Agreement of an array: same smallest index, elements agree. -/
abbrev SqRep (b : Base) (p : Int × List (Unit → Out (Val b))) (q : Int × List (Option (DVal b))) :
    Prop := p.1 = q.1 ∧ Elems b p.2 q.2

/-- Agreement of an array of Booleans: all elements have a truth value. -/
abbrev SqRepB (p : Int × List (Unit → Out Bool)) (q : Int × List (Option Bool)) : Prop :=
  ∃ ds, q.2 = ds.map some ∧
    List.Forall₂ (fun (t : Unit → Out Bool) d => Agree (Rep .bool) (t ()) (some d)) p.2 ds

abbrev ArrRep (b : Base) (p : Int × List (Val b)) (q : Int × List (DVal b)) : Prop :=
  p.1 = q.1 ∧ List.Forall₂ (Rep b) p.2 q.2

/-- What the items of a `let` yield: while the variable `ret` is true the environments correspond;
once it is false the meaning is undefined. -/
def LetsRep (o : Out (Env × Bool)) (d : Option DEnv) : Prop :=
  match o with
  | .val (env, true) => ∃ denv, d = some denv ∧ EnvRep env denv
  | .val (_, false) => d = none
  | .undef => d = none
  | .err => True
  | .ub => True

theorem allSome_cons {α : Type} (o : Option α) (os : List (Option α)) :
    allSome (o :: os) = o >>= fun a => allSome os >>= fun l => some (a :: l) := by
  cases o with
  | none => rfl
  | some a => simp only [allSome, Option.bind_eq_bind, Option.bind_some]; cases allSome os <;> rfl

/-- Once `ret` is false it stays false. -/
theorem evalLets_false (K : (b : Base) → Nat → List AnyVal → Out (Val b)) (isBool : Bool) :
    (ds : Lets) → (env env' : Env) → (r : Bool) → evalLets K isBool ds env false = .val (env', r) →
      r = false
  | .nil, env, env', r, h => by simp [evalLets] at h; exact h.2
  | .decl b n rhs ds, env, env', r, h => by
    simp only [evalLets] at h
    cases hv : evalE K rhs env with
    | val v => rw [hv] at h; exact evalLets_false K isBool ds _ _ _ h
    | undef => rw [hv] at h; cases h
    | err => rw [hv] at h; cases h
    | ub => rw [hv] at h; cases h
  | .declDom b n rhs dom ds, env, env', r, h => by
    simp only [evalLets] at h
    cases hv : evalE K rhs env with
    | val v =>
      rw [hv] at h
      replace h : (match domCheck b v (evalE K dom (env.set b n v)) with
        | .val true => evalLets K isBool ds (env.set b n v) false
        | .val false => if isBool then evalLets K isBool ds (env.set b n v) false else .undef
        | .undef => if isBool then evalLets K isBool ds (env.set b n v) false else .undef
        | .err => .err
        | .ub => .ub) = .val (env', r) := h
      cases hd : domCheck b v (evalE K dom (env.set b n v)) with
      | val ok =>
        rw [hd] at h
        cases ok with
        | true => exact evalLets_false K isBool ds _ _ _ h
        | false =>
          cases isBool with
          | true => exact evalLets_false K true ds _ _ _ h
          | false => cases h
      | undef =>
        rw [hd] at h
        cases isBool with
        | true => exact evalLets_false K true ds _ _ _ h
        | false => cases h
      | err => rw [hd] at h; cases h
      | ub => rw [hd] at h; cases h
    | undef => rw [hv] at h; cases h
    | err => rw [hv] at h; cases h
    | ub => rw [hv] at h; cases h
  | .con mp e ds, env, env', r, h => by
    simp only [evalLets] at h
    cases hv : evalE K e env with
    | val v =>
      rw [hv] at h
      replace h : (if v = true then evalLets K isBool ds env false
        else if (isBool && mp) = true then evalLets K isBool ds env false
        else .undef) = .val (env', r) := h
      by_cases h1 : v = true
      · rw [if_pos h1] at h; exact evalLets_false K isBool ds _ _ _ h
      · rw [if_neg h1] at h
        by_cases h2 : (isBool && mp) = true
        · rw [if_pos h2] at h; exact evalLets_false K isBool ds _ _ _ h
        · rw [if_neg h2] at h; cases h
    | undef => rw [hv] at h; cases h
    | err => rw [hv] at h; cases h
    | ub => rw [hv] at h; cases h

/-- After a failure (`ret` false) the items yield `ret = false` or an exception. -/
theorem evalLets_failed (K : (b : Base) → Nat → List AnyVal → Out (Val b)) (isBool : Bool)
    (ds : Lets) (env : Env) : LetsRep (evalLets K isBool ds env false) none := by
  cases h : evalLets K isBool ds env false with
  | val p =>
    obtain ⟨env', r⟩ := p
    have := evalLets_false K isBool ds _ _ _ h
    subst this; rfl
  | undef => rfl
  | err => trivial
  | ub => trivial

/-- The branches of a conditional: the selected branch, or none. -/
def BrsRep (b : Base) (o : Out (Option (Val b))) (d : Option (Option (DVal b))) : Prop :=
  match o with
  | .val (some v) => ∃ x, d = some (some x) ∧ Rep b v x
  | .val none => d = none
  | .undef => d = some none
  | .err => True
  | .ub => True

theorem access_agree {b : Base} {lo : Int} {xs : List (Unit → Out (Val b))}
    {os : List (Option (DVal b))} (h : Elems b xs os) (j : Int) :
    Agree (Rep b) (access lo xs j >>= fun x => x ())
      (if lo ≤ j ∧ j < lo + os.length then os[(j - lo).toNat]?.join else none) := by
  have hlen : xs.length = os.length := h.length_eq
  unfold access
  by_cases hc : j < lo ∨ j > lo + xs.length - 1
  · rw [if_pos hc, if_neg (by omega)]; rfl
  · rw [if_neg hc, if_pos (by omega)]
    have hi : (j - lo).toNat < xs.length := by omega
    rw [List.getElem?_eq_getElem hi, List.getElem?_eq_getElem (hlen ▸ hi)]
    have := List.forall₂_iff_get.1 h
    exact this.2 (j - lo).toNat hi (hlen ▸ hi)

/-- A non-Boolean `let` never continues after a failure. -/
theorem evalLets_true (K : (b : Base) → Nat → List AnyVal → Out (Val b)) :
    (ds : Lets) → (env env' : Env) → (r : Bool) → evalLets K false ds env true = .val (env', r) →
      r = true
  | .nil, env, env', r, h => by simp [evalLets] at h; exact h.2
  | .decl b n rhs ds, env, env', r, h => by
    simp only [evalLets] at h
    cases hv : evalE K rhs env with
    | val v => rw [hv] at h; exact evalLets_true K ds _ _ _ h
    | undef => rw [hv] at h; cases h
    | err => rw [hv] at h; cases h
    | ub => rw [hv] at h; cases h
  | .declDom b n rhs dom ds, env, env', r, h => by
    simp only [evalLets] at h
    cases hv : evalE K rhs env with
    | val v =>
      rw [hv] at h
      replace h : (match domCheck b v (evalE K dom (env.set b n v)) with
        | .val true => evalLets K false ds (env.set b n v) true
        | .val false => if false = true then evalLets K false ds (env.set b n v) false else .undef
        | .undef => if false = true then evalLets K false ds (env.set b n v) false else .undef
        | .err => .err
        | .ub => .ub) = .val (env', r) := h
      cases hd : domCheck b v (evalE K dom (env.set b n v)) with
      | val ok =>
        rw [hd] at h
        cases ok with
        | true => exact evalLets_true K ds _ _ _ h
        | false => cases h
      | undef => rw [hd] at h; cases h
      | err => rw [hd] at h; cases h
      | ub => rw [hd] at h; cases h
    | undef => rw [hv] at h; cases h
    | err => rw [hv] at h; cases h
    | ub => rw [hv] at h; cases h
  | .con mp e ds, env, env', r, h => by
    simp only [evalLets] at h
    cases hv : evalE K e env with
    | val v =>
      rw [hv] at h
      replace h : (if v = true then evalLets K false ds env true
        else if (false && mp) = true then evalLets K false ds env false
        else .undef) = .val (env', r) := h
      by_cases h1 : v = true
      · rw [if_pos h1] at h; exact evalLets_true K ds _ _ _ h
      · rw [if_neg h1, if_neg (by simp)] at h; cases h
    | undef => rw [hv] at h; cases h
    | err => rw [hv] at h; cases h
    | ub => rw [hv] at h; cases h

theorem sqB {R : (b : Base) → Nat → List AnyD → Option (DVal b)} {a : Sq .bool} {denv : DEnv}
    {o : Out (Int × List (Unit → Out Bool))} (h : Agree (SqRep .bool) o (denSq R a denv)) :
    Agree SqRepB o (denSq R a denv) := by
  have hs := fun lo os => denSq_bool (R := R) (a := a) (env := denv) (lo := lo) (os := os)
  cases o with
  | val p =>
    obtain ⟨⟨lo, os⟩, e, _, h2⟩ := h
    obtain ⟨ds, e1, h3⟩ := elems_bool h2 (hs lo os e)
    exact ⟨_, e, ds, e1, h3⟩
  | undef => exact h
  | err => trivial
  | ub => trivial

section
variable {K : (b : Base) → Nat → List AnyVal → Out (Val b)}
  {R : (b : Base) → Nat → List AnyD → Option (DVal b)}

/-- What follows the evaluation of a `where` clause. -/
theorem where_agree {b : Base} {ob : Out Bool} {db : Option Bool} (h : Agree (Rep .bool) ob db)
    (hs : ∃ d, db = some d)
    {o : Out (List (Val b))} {d : Option (List (DVal b))} (ho : Agree (List.Forall₂ (Rep b)) o d) :
    Agree (List.Forall₂ (Rep b)) (ob >>= fun c => if c = true then o else .val [])
      (if db = some true then d else some []) := by
  obtain ⟨x, rfl⟩ := hs
  cases ob with
  | val c =>
    obtain ⟨x', e, h⟩ := h
    cases e
    have h : c = x := h
    subst h
    show Agree _ (if c = true then o else .val []) _
    cases c with
    | true => simpa using ho
    | false => simp only [Bool.false_eq_true, if_false, Option.some.injEq]; exact ⟨_, rfl, .nil⟩
  | undef => cases h
  | err => trivial
  | ub => trivial

mutual
theorem sound (hK : KRep K R) : {b : Base} → (e : E b) → (env : Env) → (denv : DEnv) →
    EnvRep env denv → Agree (Rep b) (evalE K e env) (denE R e denv)
  | _, .ilit n h, env, denv, he => by simp only [evalE, denE]; exact ⟨_, rfl, rfl, h⟩
  | _, .blit b, env, denv, he => by simp only [evalE, denE]; exact ⟨_, rfl, rfl⟩
  | _, .var b n, env, denv, he => by
    simp only [evalE, denE]
    cases h : env.s b n with
    | none => trivial
    | some v =>
      obtain ⟨d, h1, h2⟩ := he.s b n v h
      rw [h1]
      cases b with
      | int => exact ⟨d, rfl, h2⟩
      | bool => exact ⟨d, rfl, h2⟩
      | set => exact ⟨d, rfl, h2⟩
  | _, .arith op l r, env, denv, he => by
    simp only [evalE, denE]
    refine (sound hK l env denv he).bind ?_
    rintro a x ⟨rfl, ha⟩
    refine (sound hK r env denv he).bind ?_
    rintro b y ⟨rfl, hb⟩
    exact arith_agree op ha hb
  | _, .neg e, env, denv, he => by
    simp only [evalE, denE]
    refine (sound hK e env denv he).bind ?_
    rintro a x ⟨rfl, ha⟩
    exact neg_agree ha
  | _, .bool2int e, env, denv, he => by
    simp only [evalE, denE]
    refine (sound hK e env denv he).bind ?_
    intro a x h
    have h : a = x := h
    subst h
    refine ⟨_, rfl, rfl, ?_⟩
    cases a <;> decide
  | _, .not e, env, denv, he => by
    simp only [evalE, denE]
    refine Agree.catchU ((sound hK e env denv he).bind ?_)
    intro a x h
    exact ⟨_, rfl, congrArg _ h⟩
  | _, .bop op l r, env, denv, he => by
    simp only [evalE, denE]
    refine Agree.catchU ?_
    obtain ⟨a, ha⟩ := denE_bool R l denv
    obtain ⟨b, hb⟩ := denE_bool R r denv
    have h1 := sound hK l env denv he
    have h2 := sound hK r env denv he
    rw [ha] at h1 ⊢; rw [hb] at h2 ⊢
    exact bop_agree op (l := fun _ => evalE K l env) (r := fun _ => evalE K r env) h1 h2
  | _, .icmp op l r, env, denv, he => by
    simp only [evalE, denE]
    refine Agree.catchU ?_
    refine (sound hK l env denv he).bind ?_
    rintro a x ⟨rfl, _⟩
    refine (sound hK r env denv he).bind ?_
    rintro b y ⟨rfl, _⟩
    refine ⟨_, rfl, ?_⟩
    show icmp op a b = _
    rw [Bool.eq_iff_iff, icmp_eq, decide_eq_true_iff]
  | _, .scmp op l r, env, denv, he => by
    simp only [evalE, denE]
    refine Agree.catchU ?_
    refine (sound hK l env denv he).bind ?_
    intro a x ha
    refine (sound hK r env denv he).bind ?_
    intro b y hb
    refine ⟨_, rfl, ?_⟩
    show scmp op a b = _
    rw [Bool.eq_iff_iff, scmp_eq op ha hb, decide_eq_true_iff]
  | _, .isin x s, env, denv, he => by
    simp only [evalE, denE]
    refine Agree.catchU ?_
    refine (sound hK x env denv he).bind ?_
    rintro a x ⟨rfl, _⟩
    refine (sound hK s env denv he).bind ?_
    intro b y hb
    refine ⟨_, rfl, ?_⟩
    show IntSet.contains (.fin a) b = _
    rw [Bool.eq_iff_iff, contains_rep hb, decide_eq_true_iff]
  | _, .sop op l r, env, denv, he => by
    simp only [evalE, denE]
    refine (sound hK l env denv he).bind ?_
    intro a x ha
    refine (sound hK r env denv he).bind ?_
    intro b y hb
    exact sop_agree op ha hb
  | _, .dotdot l r, env, denv, he => by
    simp only [evalE, denE]
    refine (sound hK l env denv he).bind ?_
    rintro a x ⟨rfl, ha⟩
    refine (sound hK r env denv he).bind ?_
    rintro b y ⟨rfl, hb⟩
    exact ⟨_, rfl, dotdot_rep ha hb⟩
  | _, .setlit es, env, denv, he => by
    simp only [evalE, denE]
    refine (soundEs hK es env denv he).bind ?_
    intro vs ds h
    exact ⟨_, rfl, ofValues_rep h⟩
  | _, .setcomp c, env, denv, he => by
    simp only [evalE, denE]
    refine (soundComp hK c env denv he).bind ?_
    intro vs ds h
    exact ⟨_, rfl, ofValues_rep h⟩
  | b, .ite cs e, env, denv, he => by
    simp only [evalE, denE]
    refine Agree.guard ?_
    have h1 := soundBrs hK cs env denv he
    have h2 := sound hK e env denv he
    cases hb : evalBrs K cs env with
    | val o =>
      rw [hb] at h1
      cases o with
      | some v => obtain ⟨x, e1, h3⟩ := h1; rw [e1]; exact ⟨x, rfl, h3⟩
      | none => rw [show denBrs R cs denv = none from h1]; exact h2
    | undef => rw [hb] at h1; rw [show denBrs R cs denv = some none from h1]; rfl
    | err => trivial
    | ub => trivial
  | .bool, .letin ds e, env, denv, he => by
    simp only [evalE, denE, close]
    have h1 := soundLets hK true ds env denv he
    cases hl : evalLets K true ds env true with
    | val p =>
      obtain ⟨env', r⟩ := p
      rw [hl] at h1
      cases r with
      | true =>
        obtain ⟨denv', e1, h3⟩ := h1; rw [e1]
        exact Agree.catchU (sound hK e env' denv' h3)
      | false =>
        rw [show denLets R ds denv = none from h1]
        exact ⟨false, by simp [truth], rfl⟩
    | undef =>
      rw [hl] at h1; rw [show denLets R ds denv = none from h1]
      exact ⟨false, by simp [truth], rfl⟩
    | err => trivial
    | ub => trivial
  | .int, .letin ds e, env, denv, he => by
    simp only [evalE, denE, close]
    have h1 := soundLets hK false ds env denv he
    cases hl : evalLets K false ds env true with
    | val p =>
      obtain ⟨env', r⟩ := p
      rw [hl] at h1
      cases r with
      | true => obtain ⟨denv', e1, h3⟩ := h1; rw [e1]; exact sound hK e env' denv' h3
      | false => have := evalLets_true K ds _ _ _ hl; simp at this
    | undef => rw [hl] at h1; rw [show denLets R ds denv = none from h1]; rfl
    | err => trivial
    | ub => trivial
  | .set, .letin ds e, env, denv, he => by
    simp only [evalE, denE, close]
    have h1 := soundLets hK false ds env denv he
    cases hl : evalLets K false ds env true with
    | val p =>
      obtain ⟨env', r⟩ := p
      rw [hl] at h1
      cases r with
      | true => obtain ⟨denv', e1, h3⟩ := h1; rw [e1]; exact sound hK e env' denv' h3
      | false => have := evalLets_true K ds _ _ _ hl; simp at this
    | undef => rw [hl] at h1; rw [show denLets R ds denv = none from h1]; rfl
    | err => trivial
    | ub => trivial
  | _, .iagg op a, env, denv, he => by
    simp only [evalE, denE]
    refine (soundSq hK a env denv he).bind ?_
    rintro ⟨lo, xs⟩ ⟨lo', os⟩ ⟨h1, h2⟩
    simp only at h1 h2; subst h1
    exact iagg_agree op h2
  | _, .bagg op a, env, denv, he => by
    simp only [evalE, denE]
    refine Agree.catchU ?_
    refine (sqB (soundSq hK a env denv he)).bind ?_
    rintro ⟨lo, xs⟩ ⟨lo', os⟩ ⟨ds, h1, h2⟩
    simp only at h1 h2; subst h1
    rw [allSome_map_some]
    exact bagg_agree op h2
  | _, .clause p n, env, denv, he => by
    simp only [evalE, denE]
    refine Agree.catchU ?_
    refine (sqB (soundSq hK p env denv he)).bind ?_
    rintro ⟨lo, xs⟩ ⟨lo', os⟩ ⟨ds, h1, h2⟩
    simp only at h1 h2; subst h1
    rw [allSome_map_some]
    have h3 := scan_agree true (List.rel_reverse h2)
    simp only [Option.bind_eq_bind, Option.bind_some]
    have hif : ∀ (rest : Option Bool), (if true ∈ ds then some true else rest) =
        (some (decide (true ∈ ds.reverse)) >>= fun b => if b = true then some true else rest) := by
      intro rest
      by_cases hm : true ∈ ds <;> simp [hm]
    rw [hif]
    refine h3.bind ?_
    intro b b' hb
    have hb : b = b' := hb
    subst hb
    cases b with
    | true => exact ⟨true, rfl, rfl⟩
    | false =>
      refine (sqB (soundSq hK n env denv he)).bind ?_
      rintro ⟨lo, xs⟩ ⟨lo', os⟩ ⟨es, h4, h5⟩
      simp only at h4 h5; subst h4
      rw [allSome_map_some]
      have h6 := scan_agree false (List.rel_reverse h5)
      simpa only [List.mem_reverse, Option.bind_some] using h6
  | _, .min2 l r, env, denv, he => by
    simp only [evalE, denE]
    refine (sound hK l env denv he).bind ?_
    rintro a x ⟨rfl, ha⟩
    refine (sound hK r env denv he).bind ?_
    rintro b y ⟨rfl, hb⟩
    exact ⟨_, rfl, min_eq a b, by unfold inLL at *; omega⟩
  | _, .max2 l r, env, denv, he => by
    simp only [evalE, denE]
    refine (sound hK l env denv he).bind ?_
    rintro a x ⟨rfl, ha⟩
    refine (sound hK r env denv he).bind ?_
    rintro b y ⟨rfl, hb⟩
    exact ⟨_, rfl, max_eq a b, by unfold inLL at *; omega⟩
  | _, .card s, env, denv, he => by
    simp only [evalE, denE]
    refine (sound hK s env denv he).bind ?_
    intro v A h; exact card_agree h
  | _, .smin s, env, denv, he => by
    simp only [evalE, denE]
    refine (sound hK s env denv he).bind ?_
    intro v A h; exact smin_agree h
  | _, .smax s, env, denv, he => by
    simp only [evalE, denE]
    refine (sound hK s env denv he).bind ?_
    intro v A h; exact smax_agree h
  | b, .access a i, env, denv, he => by
    simp only [evalE, denE]
    refine Agree.guard ?_
    refine (soundSq hK a env denv he).bind ?_
    rintro ⟨lo, xs⟩ ⟨lo', os⟩ ⟨h1, h2⟩
    simp only at h1 h2; subst h1
    refine (sound hK i env denv he).bind ?_
    rintro j x ⟨rfl, _⟩
    exact access_agree h2 j
  | b, .call _ f as, env, denv, he => by
    simp only [evalE, denE]
    refine Agree.guard ?_
    refine (soundArgs hK as env denv he).bind ?_
    intro vs ds h
    exact hK b f vs ds h
theorem soundEs (hK : KRep K R) : {b : Base} → (es : Es b) → (env : Env) → (denv : DEnv) →
    EnvRep env denv → Agree (List.Forall₂ (Rep b)) (evalEs K es env) (allSome (denEs R es denv))
  | _, .nil, env, denv, he => by simp only [evalEs, denEs, allSome]; exact ⟨_, rfl, .nil⟩
  | _, .cons e es, env, denv, he => by
    simp only [evalEs, denEs, allSome_cons]
    refine (sound hK e env denv he).bind ?_
    intro a x ha
    refine (soundEs hK es env denv he).bind ?_
    intro l m hl
    exact ⟨_, rfl, .cons ha hl⟩
theorem soundThunks (hK : KRep K R) : {b : Base} → (es : Es b) → (env : Env) → (denv : DEnv) →
    EnvRep env denv → Elems b (thunks K es env) (denEs R es denv)
  | _, .nil, env, denv, he => by simp only [thunks, denEs]; exact .nil
  | _, .cons e es, env, denv, he => by
    simp only [thunks, denEs]
    exact .cons (sound hK e env denv he) (soundThunks hK es env denv he)
theorem soundBrs (hK : KRep K R) : {b : Base} → (cs : Brs b) → (env : Env) → (denv : DEnv) →
    EnvRep env denv → BrsRep b (evalBrs K cs env) (denBrs R cs denv)
  | _, .nil, env, denv, he => by simp only [evalBrs, denBrs]; rfl
  | b, .cons c t cs, env, denv, he => by
    simp only [evalBrs, denBrs]
    have h1 := sound hK c env denv he
    obtain ⟨x, hx⟩ := denE_bool R c denv
    rw [hx] at h1 ⊢
    have h2 := sound hK t env denv he
    have h3 := soundBrs hK cs env denv he
    cases hv : evalE K c env with
    | val v =>
      rw [hv] at h1
      obtain ⟨x', e, h4⟩ := h1
      cases e
      have h4 : v = x := h4
      subst h4
      cases v with
      | true =>
        rw [if_pos rfl]
        show BrsRep b (evalE K t env >>= fun v => Out.val (some v)) _
        cases ht : evalE K t env with
        | val w => rw [ht] at h2; obtain ⟨d, e, h5⟩ := h2; exact ⟨d, by rw [e], h5⟩
        | undef => rw [ht] at h2; rw [show denE R t denv = none from h2]; rfl
        | err => trivial
        | ub => trivial
      | false => rw [if_neg (by simp)]; exact h3
    | undef => rw [hv] at h1; cases h1
    | err => trivial
    | ub => trivial
theorem soundLets (hK : KRep K R) (isBool : Bool) : (ds : Lets) → (env : Env) → (denv : DEnv) →
    EnvRep env denv → LetsRep (evalLets K isBool ds env true) (denLets R ds denv)
  | .nil, env, denv, he => by simp only [evalLets, denLets]; exact ⟨_, rfl, he⟩
  | .decl b n rhs ds, env, denv, he => by
    simp only [evalLets, denLets]
    have h1 := sound hK rhs env denv he
    cases hv : evalE K rhs env with
    | val v =>
      rw [hv] at h1
      obtain ⟨x, e, h2⟩ := h1
      rw [e]
      exact soundLets hK isBool ds _ _ (he.set h2)
    | undef => rw [hv] at h1; rw [show denE R rhs denv = none from h1]; rfl
    | err => trivial
    | ub => trivial
  | .declDom b n rhs dom ds, env, denv, he => by
    simp only [evalLets, denLets]
    have h1 := sound hK rhs env denv he
    cases hv : evalE K rhs env with
    | val v =>
      rw [hv] at h1
      obtain ⟨x, e, h2⟩ := h1
      rw [e]
      have he' := he.set (n := n) h2
      have h3 := domCheck_agree b h2 (sound hK dom _ _ he')
      have h4 := soundLets hK isBool ds _ _ he'
      show LetsRep (match domCheck b v (evalE K dom (env.set b n v)) with
        | .val true => evalLets K isBool ds (env.set b n v) true
        | .val false => if isBool then evalLets K isBool ds (env.set b n v) false else .undef
        | .undef => if isBool then evalLets K isBool ds (env.set b n v) false else .undef
        | .err => .err
        | .ub => .ub) (inDom b x (denE R dom (denv.set b n x)) >>= fun ok =>
          if ok then denLets R ds (denv.set b n x) else none)
      cases hd : domCheck b v (evalE K dom (env.set b n v)) with
      | val ok =>
        rw [hd] at h3
        obtain ⟨p, e2, h5⟩ := h3
        rw [e2]
        cases ok with
        | true =>
          show LetsRep _ (if p then _ else none)
          rw [if_pos (h5.1 rfl)]; exact h4
        | false =>
          show LetsRep _ (if p then _ else none)
          have hp : ¬ p := fun hp => by simpa using h5.2 hp
          simp only [hp, if_false]
          cases isBool with
          | true => exact evalLets_failed K true ds _
          | false => rfl
      | undef =>
        rw [hd] at h3
        rw [show inDom b x (denE R dom (denv.set b n x)) = none from h3]
        cases isBool with
        | true => exact evalLets_failed K true ds _
        | false => rfl
      | err => trivial
      | ub => trivial
    | undef => rw [hv] at h1; rw [show denE R rhs denv = none from h1]; rfl
    | err => trivial
    | ub => trivial
  | .con mp e ds, env, denv, he => by
    simp only [evalLets, denLets]
    have h1 := sound hK e env denv he
    obtain ⟨x, hx⟩ := denE_bool R e denv
    rw [hx] at h1 ⊢
    have h2 := soundLets hK isBool ds env denv he
    cases hv : evalE K e env with
    | val v =>
      rw [hv] at h1
      obtain ⟨x', e, h4⟩ := h1
      cases e
      have h4 : v = x := h4
      subst h4
      show LetsRep (if v = true then evalLets K isBool ds env true
        else if (isBool && mp) = true then evalLets K isBool ds env false
        else .undef) _
      cases v with
      | true => rw [if_pos rfl, if_pos rfl]; exact h2
      | false =>
        rw [show (if some false = some true then denLets R ds denv else none) = none by simp]
        show LetsRep (if (isBool && mp) = true then evalLets K isBool ds env false
          else .undef) _
        by_cases h3 : (isBool && mp) = true
        · rw [if_pos h3]; exact evalLets_failed K isBool ds _
        · rw [if_neg h3]; rfl
    | undef => rw [hv] at h1; cases h1
    | err => trivial
    | ub => trivial
theorem soundSq (hK : KRep K R) : {b : Base} → (a : Sq b) → (env : Env) → (denv : DEnv) →
    EnvRep env denv → Agree (SqRep b) (evalSq K a env) (denSq R a denv)
  | _, .lit es, env, denv, he => by
    simp only [evalSq, denSq]
    exact ⟨_, rfl, rfl, soundThunks hK es env denv he⟩
  | _, .arr a, env, denv, he => by
    simp only [evalSq, denSq]
    refine (soundArr hK a env denv he).bind ?_
    rintro ⟨lo, vs⟩ ⟨lo', ds⟩ ⟨h1, h2⟩
    exact ⟨_, rfl, h1, elems_values h2⟩
theorem soundArr (hK : KRep K R) : {b : Base} → (a : Arr b) → (env : Env) → (denv : DEnv) →
    EnvRep env denv → Agree (ArrRep b) (evalArr K a env) (denArr R a denv)
  | _, .var b n, env, denv, he => by
    simp only [evalArr, denArr]
    cases h : env.a b n with
    | none => trivial
    | some p =>
      obtain ⟨lo, vs⟩ := p
      obtain ⟨_, ds, h1, h2⟩ := he.a b n lo vs h
      exact ⟨_, h1, rfl, h2⟩
  | _, .comp c, env, denv, he => by
    simp only [evalArr, denArr]
    refine (soundComp hK c env denv he).bind ?_
    intro vs ds h
    exact ⟨_, rfl, rfl, h⟩
theorem soundComp (hK : KRep K R) : {b : Base} → (c : Comp b) → (env : Env) → (denv : DEnv) →
    EnvRep env denv → Agree (List.Forall₂ (Rep b)) (evalComp K c env) (denComp R c denv)
  | _, .body e, env, denv, he => by
    simp only [evalComp, denComp]
    refine (sound hK e env denv he).bind ?_
    intro v d h
    exact ⟨_, rfl, .cons h .nil⟩
  | _, .gen n ns s w c, env, denv, he => by
    simp only [evalComp, denComp]
    refine (sound hK s env denv he).bind ?_
    intro sv A hs
    refine idsSet_agree hs ?_ (n :: ns) env denv he
    intro env' denv' he'
    exact where_agree (sound hK w env' denv' he') (denE_bool R w denv')
      (soundComp hK c env' denv' he')
  | _, .genArr n ns b' a w c, env, denv, he => by
    simp only [evalComp, denComp]
    refine (soundArr hK a env denv he).bind ?_
    rintro ⟨lo, vs⟩ ⟨lo', ds⟩ ⟨_, h2⟩
    refine idsArr_agree h2 ?_ (n :: ns) env denv he
    intro env' denv' he'
    exact where_agree (sound hK w env' denv' he') (denE_bool R w denv')
      (soundComp hK c env' denv' he')
  | _, .asn n b' e c, env, denv, he => by
    simp only [evalComp, denComp]
    refine (sound hK e env denv he).bind ?_
    intro v d h
    exact soundComp hK c _ _ (he.set h)
theorem soundArgs (hK : KRep K R) : (as : Args) → (env : Env) → (denv : DEnv) →
    EnvRep env denv → Agree (List.Forall₂ AnyRep) (evalArgs K as env) (allSome (denArgs R as denv))
  | .nil, env, denv, he => by simp only [evalArgs, denArgs, allSome]; exact ⟨_, rfl, .nil⟩
  | .cons b e as, env, denv, he => by
    simp only [evalArgs, denArgs, allSome_cons]
    have h1 := sound hK e env denv he
    have h2 := soundArgs hK as env denv he
    have : ∀ {γ : Type} (o : Option (DVal b)) (g : AnyD → Option γ),
        (o.map (fun v => (⟨b, v⟩ : AnyD)) >>= g) = (o >>= fun v => g ⟨b, v⟩) := by
      intro γ o g; cases o <;> rfl
    rw [this]
    refine h1.bind ?_
    intro a x ha
    refine h2.bind ?_
    intro l m hl
    exact ⟨_, rfl, .cons (.mk ha) hl⟩
end
end

end Eval
end MZ
