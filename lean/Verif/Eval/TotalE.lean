import Verif.Eval.Total
/-!
# The evaluation of parameter expressions: no errors without overflow, by induction on expressions
-/
namespace MZ
namespace Eval
open Classical

/-- Calls within the 64-bit range do not end with an error. -/
def KFine (K : (b : Base) → Nat → List AnyVal → Out (Val b))
    (OK : (b : Base) → Nat → List AnyD → Prop) : Prop :=
  ∀ b f vs ds, List.Forall₂ AnyRep vs ds → OK b f ds → Fine (K b f vs)

theorem access_fine {b : Base} {lo : Int} {xs : List (Unit → Out (Val b))} (j : Int)
    (hx : ∀ t ∈ xs, Fine (t ())) : Fine (access lo xs j >>= fun x => x ()) := by
  unfold access
  by_cases hc : j < lo ∨ j > lo + xs.length - 1
  · rw [if_pos hc]; exact Fine.undef
  · rw [if_neg hc]
    have hi : (j - lo).toNat < xs.length := by omega
    rw [List.getElem?_eq_getElem hi]
    exact hx _ (List.getElem_mem hi)

section
variable {K : (b : Base) → Nat → List AnyVal → Out (Val b)}
  {R : (b : Base) → Nat → List AnyD → Option (DVal b)}
  {OK : (b : Base) → Nat → List AnyD → Prop}

theorem where_fine {α : Type} {ob : Out Bool} {db : Option Bool} (h : Agree (Rep .bool) ob db)
    (hb : Fine ob) {o : Out (List α)} (ho : db = some true → Fine o) :
    Fine (ob >>= fun c => if c = true then o else .val []) := by
  refine Fine.bind h hb ?_
  intro c x e hc
  have hc : c = x := hc
  subst hc
  cases c with
  | true => exact ho e
  | false => exact Fine.val _

mutual
theorem fine (hK : KRep K R) (hF : KFine K OK) : {b : Base} → (e : E b) → (env : Env) →
    (denv : DEnv) → EnvRep env denv → okE R OK e denv → Fine (evalE K e env)
  | _, .ilit n h, env, denv, he, ok => by simp only [evalE]; exact Fine.val _
  | _, .blit b, env, denv, he, ok => by simp only [evalE]; exact Fine.val _
  | _, .var b n, env, denv, he, ok => by
    simp only [evalE]
    simp only [okE] at ok
    cases h : env.s b n with
    | none => exact absurd (he.s' b n h) ok
    | some v => exact Fine.val _
  | _, .arith op l r, env, denv, he, ok => by
    simp only [evalE]
    simp only [okE] at ok
    refine Fine.bind (sound hK l env denv he) (fine hK hF l env denv he ok.1) ?_
    rintro a x e1 ⟨rfl, ha⟩
    refine Fine.bind (sound hK r env denv he) (fine hK hF r env denv he ok.2.1) ?_
    rintro b y e2 ⟨rfl, hb⟩
    exact arith_fine (ok.2.2 _ _ e1 e2)
  | _, .neg e, env, denv, he, ok => by
    simp only [evalE]
    simp only [okE] at ok
    refine Fine.bind (sound hK e env denv he) (fine hK hF e env denv he ok.1) ?_
    rintro a x e1 ⟨rfl, ha⟩
    have hm := ok.2 _ e1
    rw [C01_neg ha, if_pos (by unfold magLL at hm; unfold inLL; unfold LMIN LMAX at *; omega)]
    exact Fine.val _
  | _, .bool2int e, env, denv, he, ok => by
    simp only [evalE]
    simp only [okE] at ok
    exact (fine hK hF e env denv he ok).bind' fun _ _ => Fine.val _
  | _, .not e, env, denv, he, ok => by
    simp only [evalE]
    simp only [okE] at ok
    exact ((fine hK hF e env denv he ok).bind' fun _ _ => Fine.val _).catchU
  | _, .bop op l r, env, denv, he, ok => by
    simp only [evalE]
    simp only [okE] at ok
    exact (bop_fine op (l := fun _ => evalE K l env) (r := fun _ => evalE K r env)
      (sound hK l env denv he) (sound hK r env denv he)
      (fine hK hF l env denv he) (fine hK hF r env denv he) ok).catchU
  | _, .icmp op l r, env, denv, he, ok => by
    simp only [evalE]
    simp only [okE] at ok
    exact ((fine hK hF l env denv he ok.1).bind' fun _ _ =>
      (fine hK hF r env denv he ok.2).bind' fun _ _ => Fine.val _).catchU
  | _, .scmp op l r, env, denv, he, ok => by
    simp only [evalE]
    simp only [okE] at ok
    exact ((fine hK hF l env denv he ok.1).bind' fun _ _ =>
      (fine hK hF r env denv he ok.2).bind' fun _ _ => Fine.val _).catchU
  | _, .isin x s, env, denv, he, ok => by
    simp only [evalE]
    simp only [okE] at ok
    exact ((fine hK hF x env denv he ok.1).bind' fun _ _ =>
      (fine hK hF s env denv he ok.2).bind' fun _ _ => Fine.val _).catchU
  | _, .sop op l r, env, denv, he, ok => by
    simp only [evalE]
    simp only [okE] at ok
    refine Fine.bind (sound hK l env denv he) (fine hK hF l env denv he ok.1) ?_
    intro a x e1 ha
    refine Fine.bind (sound hK r env denv he) (fine hK hF r env denv he ok.2) ?_
    intro b y e2 hb
    exact sop_fine op ha hb
  | _, .dotdot l r, env, denv, he, ok => by
    simp only [evalE]
    simp only [okE] at ok
    exact (fine hK hF l env denv he ok.1).bind' fun _ _ =>
      (fine hK hF r env denv he ok.2).bind' fun _ _ => Fine.val _
  | _, .setlit es, env, denv, he, ok => by
    simp only [evalE]
    simp only [okE] at ok
    exact (fineEs hK hF es env denv he ok).bind' fun _ _ => Fine.val _
  | _, .setcomp c, env, denv, he, ok => by
    simp only [evalE]
    simp only [okE] at ok
    exact (fineComp hK hF c env denv he ok).bind' fun _ _ => Fine.val _
  | b, .ite cs e, env, denv, he, ok => by
    simp only [evalE]
    simp only [okE] at ok
    refine Fine.guard ?_
    have h1 := soundBrs hK cs env denv he
    refine (fineBrs hK hF cs env denv he ok.1).bind' fun o ho => ?_
    rw [ho] at h1
    cases o with
    | some v => exact Fine.val _
    | none => exact fine hK hF e env denv he (ok.2 h1)
  | .bool, .letin ds e, env, denv, he, ok => by
    simp only [evalE]
    simp only [okE] at ok
    have h1 := soundLets hK true ds env denv he
    refine Fine.catchU ((fineLets hK hF true ds env denv true he ok.1).bind' ?_)
    rintro ⟨env', r⟩ h2
    rw [h2] at h1
    cases r with
    | true => obtain ⟨denv', e1, h3⟩ := h1; exact fine hK hF e env' denv' h3 (ok.2 _ e1)
    | false => exact Fine.val _
  | .int, .letin ds e, env, denv, he, ok => by
    simp only [evalE]
    simp only [okE] at ok
    have h1 := soundLets hK false ds env denv he
    refine (fineLets hK hF false ds env denv true he ok.1).bind' ?_
    rintro ⟨env', r⟩ h2
    have := evalLets_true K ds _ _ _ h2
    subst this
    rw [h2] at h1
    obtain ⟨denv', e1, h3⟩ := h1
    exact fine hK hF e env' denv' h3 (ok.2 _ e1)
  | .set, .letin ds e, env, denv, he, ok => by
    simp only [evalE]
    simp only [okE] at ok
    have h1 := soundLets hK false ds env denv he
    refine (fineLets hK hF false ds env denv true he ok.1).bind' ?_
    rintro ⟨env', r⟩ h2
    have := evalLets_true K ds _ _ _ h2
    subst this
    rw [h2] at h1
    obtain ⟨denv', e1, h3⟩ := h1
    exact fine hK hF e env' denv' h3 (ok.2 _ e1)
  | _, .iagg op a, env, denv, he, ok => by
    simp only [evalE]
    simp only [okE] at ok
    have h2 := fineSq hK hF a env denv he ok.1
    refine Fine.bind' h2.1 ?_
    rintro ⟨lo, xs⟩ h3
    have h1 := soundSq hK a env denv he
    rw [h3] at h1
    obtain ⟨⟨lo', os⟩, e1, h4, h5⟩ := h1
    have h4 : lo = lo' := h4
    subst h4
    exact iagg_fine h5 (h2.2 _ h3) (ok.2 _ _ e1)
  | _, .bagg op a, env, denv, he, ok => by
    simp only [evalE]
    simp only [okE] at ok
    have h2 := fineSq hK hF a env denv he ok
    exact (Fine.bind' h2.1 fun _ h3 => bagg_fine op (h2.2 _ h3)).catchU
  | _, .clause p n, env, denv, he, ok => by
    simp only [evalE]
    simp only [okE] at ok
    have h1 := fineSq hK hF p env denv he ok.1
    have h2 := fineSq hK hF n env denv he ok.2
    refine Fine.catchU (Fine.bind' h1.1 ?_)
    rintro ⟨lo, xs⟩ h3
    refine (scan_fine true fun t ht => h1.2 _ h3 t (List.mem_reverse.1 ht)).bind' fun b _ => ?_
    cases b with
    | true => exact Fine.val _
    | false =>
      refine Fine.bind' h2.1 ?_
      rintro ⟨lo, ys⟩ h4
      exact scan_fine false fun t ht => h2.2 _ h4 t (List.mem_reverse.1 ht)
  | _, .min2 l r, env, denv, he, ok => by
    simp only [evalE]
    simp only [okE] at ok
    exact (fine hK hF l env denv he ok.1).bind' fun _ _ =>
      (fine hK hF r env denv he ok.2).bind' fun _ _ => Fine.val _
  | _, .max2 l r, env, denv, he, ok => by
    simp only [evalE]
    simp only [okE] at ok
    exact (fine hK hF l env denv he ok.1).bind' fun _ _ =>
      (fine hK hF r env denv he ok.2).bind' fun _ _ => Fine.val _
  | _, .card s, env, denv, he, ok => by
    simp only [evalE]
    simp only [okE] at ok
    refine Fine.bind (sound hK s env denv he) (fine hK hF s env denv he ok.1) ?_
    intro v A e1 h; exact card_fine h (ok.2 _ e1)
  | _, .smin s, env, denv, he, ok => by
    simp only [evalE]
    simp only [okE] at ok
    refine Fine.bind (sound hK s env denv he) (fine hK hF s env denv he ok) ?_
    intro v A e1 h; exact smin_fine h
  | _, .smax s, env, denv, he, ok => by
    simp only [evalE]
    simp only [okE] at ok
    refine Fine.bind (sound hK s env denv he) (fine hK hF s env denv he ok) ?_
    intro v A e1 h; exact smax_fine h
  | b, .access a i, env, denv, he, ok => by
    simp only [evalE]
    simp only [okE] at ok
    have h1 := fineSq hK hF a env denv he ok.1
    refine Fine.guard (Fine.bind' h1.1 ?_)
    rintro ⟨lo, xs⟩ h3
    exact (fine hK hF i env denv he ok.2).bind' fun j _ => access_fine j (h1.2 _ h3)
  | b, .call _ f as, env, denv, he, ok => by
    simp only [evalE]
    simp only [okE] at ok
    refine Fine.guard ?_
    refine Fine.bind (soundArgs hK as env denv he) (fineArgs hK hF as env denv he ok.1) ?_
    intro vs ds e1 h
    exact hF b f vs ds h (ok.2 _ e1)
theorem fineEs (hK : KRep K R) (hF : KFine K OK) : {b : Base} → (es : Es b) → (env : Env) →
    (denv : DEnv) → EnvRep env denv → okEs R OK es denv → Fine (evalEs K es env)
  | _, .nil, env, denv, he, ok => by simp only [evalEs]; exact Fine.val _
  | _, .cons e es, env, denv, he, ok => by
    simp only [evalEs]
    simp only [okEs] at ok
    exact (fine hK hF e env denv he ok.1).bind' fun _ _ =>
      (fineEs hK hF es env denv he ok.2).bind' fun _ _ => Fine.val _
theorem fineThunks (hK : KRep K R) (hF : KFine K OK) : {b : Base} → (es : Es b) → (env : Env) →
    (denv : DEnv) → EnvRep env denv → okEs R OK es denv → ∀ t ∈ thunks K es env, Fine (t ())
  | _, .nil, env, denv, he, ok => by simp [thunks]
  | _, .cons e es, env, denv, he, ok => by
    simp only [okEs] at ok
    intro t ht
    simp only [thunks, List.mem_cons] at ht
    rcases ht with rfl | ht
    · exact fine hK hF e env denv he ok.1
    · exact fineThunks hK hF es env denv he ok.2 t ht
theorem fineBrs (hK : KRep K R) (hF : KFine K OK) : {b : Base} → (cs : Brs b) → (env : Env) →
    (denv : DEnv) → EnvRep env denv → okBrs R OK cs denv → Fine (evalBrs K cs env)
  | _, .nil, env, denv, he, ok => by simp only [evalBrs]; exact Fine.val _
  | b, .cons c t cs, env, denv, he, ok => by
    simp only [evalBrs]
    simp only [okBrs] at ok
    refine Fine.bind (sound hK c env denv he) (fine hK hF c env denv he ok.1) ?_
    intro v x e hv
    have hv : v = x := hv
    subst hv
    cases v with
    | true => exact (fine hK hF t env denv he (ok.2.1 e)).bind' fun _ _ => Fine.val _
    | false => exact fineBrs hK hF cs env denv he (ok.2.2 (by rw [e]; simp))
theorem fineLets (hK : KRep K R) (hF : KFine K OK) (isBool : Bool) : (ds : Lets) → (env : Env) →
    (denv : DEnv) → (ret : Bool) → EnvRep env denv → okLets R OK ds denv →
    Fine (evalLets K isBool ds env ret)
  | .nil, env, denv, ret, he, ok => by simp only [evalLets]; exact Fine.val _
  | .decl b n rhs ds, env, denv, ret, he, ok => by
    simp only [evalLets]
    simp only [okLets] at ok
    refine Fine.bind (sound hK rhs env denv he) (fine hK hF rhs env denv he ok.1) ?_
    intro v x e hv
    exact fineLets hK hF isBool ds _ _ _ (he.set hv) (ok.2 _ e)
  | .declDom b n rhs dom ds, env, denv, ret, he, ok => by
    simp only [evalLets]
    simp only [okLets] at ok
    refine Fine.bind (sound hK rhs env denv he) (fine hK hF rhs env denv he ok.1) ?_
    intro v x e hv
    have he' := he.set (n := n) hv
    obtain ⟨ok1, ok2⟩ := ok.2 _ e
    have hd := domCheck_fine b v (fine hK hF dom _ _ he' ok1)
    have hr := fun r => fineLets hK hF isBool ds _ _ r he' ok2
    show Fine (match domCheck b v (evalE K dom (env.set b n v)) with
        | .val true => evalLets K isBool ds (env.set b n v) ret
        | .val false => if isBool then evalLets K isBool ds (env.set b n v) false else .undef
        | .undef => if isBool then evalLets K isBool ds (env.set b n v) false else .undef
        | .err => .err
        | .ub => .ub)
    cases hc : domCheck b v (evalE K dom (env.set b n v)) with
    | val o =>
      cases o with
      | true => exact hr _
      | false =>
        cases isBool with
        | true => exact hr _
        | false => exact Fine.undef
    | undef =>
      cases isBool with
      | true => exact hr _
      | false => exact Fine.undef
    | err => exact absurd hc hd.1
    | ub => exact absurd hc hd.2
  | .con mp e ds, env, denv, ret, he, ok => by
    simp only [evalLets]
    simp only [okLets] at ok
    have hr := fun r => fineLets hK hF isBool ds _ _ r he ok.2
    refine (fine hK hF e env denv he ok.1).bind' fun v _ => ?_
    show Fine (if v = true then evalLets K isBool ds env ret
        else if (isBool && mp) = true then evalLets K isBool ds env false
        else .undef)
    by_cases h1 : v = true
    · rw [if_pos h1]; exact hr _
    · rw [if_neg h1]
      by_cases h2 : (isBool && mp) = true
      · rw [if_pos h2]; exact hr _
      · rw [if_neg h2]; exact Fine.undef
theorem fineSq (hK : KRep K R) (hF : KFine K OK) : {b : Base} → (a : Sq b) → (env : Env) →
    (denv : DEnv) → EnvRep env denv → okSq R OK a denv →
    Fine (evalSq K a env) ∧ ∀ p, evalSq K a env = .val p → ∀ t ∈ p.2, Fine (t ())
  | _, .lit es, env, denv, he, ok => by
    simp only [okSq] at ok
    simp only [evalSq]
    refine ⟨Fine.val _, ?_⟩
    rintro p h
    simp only [Out.val.injEq] at h
    subst h
    exact fineThunks hK hF es env denv he ok
  | _, .arr a, env, denv, he, ok => by
    simp only [okSq] at ok
    simp only [evalSq]
    have h := fineArr hK hF a env denv he ok
    cases ha : evalArr K a env with
    | val p =>
      refine ⟨Fine.val _, ?_⟩
      intro q hq
      replace hq : Out.val (p.1, p.2.map (fun v _ => Out.val v)) = Out.val q := hq
      simp only [Out.val.injEq] at hq
      subst hq
      intro t ht
      simp only [List.mem_map] at ht
      obtain ⟨v, _, rfl⟩ := ht
      exact Fine.val _
    | undef => exact ⟨Fine.undef, fun q hq => by cases hq⟩
    | err => exact absurd ha h.1
    | ub => exact absurd ha h.2
theorem fineArr (hK : KRep K R) (hF : KFine K OK) : {b : Base} → (a : Arr b) → (env : Env) →
    (denv : DEnv) → EnvRep env denv → okArr R OK a denv → Fine (evalArr K a env)
  | _, .var b n, env, denv, he, ok => by
    simp only [okArr] at ok
    simp only [evalArr]
    cases h : env.a b n with
    | none => exact absurd (he.a' b n h) ok
    | some v => exact Fine.val _
  | _, .comp c, env, denv, he, ok => by
    simp only [okArr] at ok
    simp only [evalArr]
    exact (fineComp hK hF c env denv he ok).bind' fun _ _ => Fine.val _
theorem fineComp (hK : KRep K R) (hF : KFine K OK) : {b : Base} → (c : Comp b) → (env : Env) →
    (denv : DEnv) → EnvRep env denv → okComp R OK c denv → Fine (evalComp K c env)
  | _, .body e, env, denv, he, ok => by
    simp only [okComp] at ok
    simp only [evalComp]
    exact (fine hK hF e env denv he ok).bind' fun _ _ => Fine.val _
  | _, .gen n ns s w c, env, denv, he, ok => by
    simp only [okComp] at ok
    simp only [evalComp]
    refine Fine.bind (sound hK s env denv he) (fine hK hF s env denv he ok.1) ?_
    intro sv A e1 hs
    obtain ⟨k1, k2, k3⟩ := ok.2 _ e1
    refine idsSet_fine hs k1 k2 ?_ (n :: ns) env denv he k3
    intro env' denv' he' hp
    exact where_fine (sound hK w env' denv' he') (fine hK hF w env' denv' he' hp.1)
      (fun ht => fineComp hK hF c env' denv' he' (hp.2 ht))
  | _, .genArr n ns b' a w c, env, denv, he, ok => by
    simp only [okComp] at ok
    simp only [evalComp]
    refine Fine.bind (soundArr hK a env denv he) (fineArr hK hF a env denv he ok.1) ?_
    rintro ⟨lo, vs⟩ ⟨lo', ds⟩ e1 ⟨_, h2⟩
    refine idsArr_fine h2 ?_ (n :: ns) env denv he (ok.2 _ _ e1)
    intro env' denv' he' hp
    exact where_fine (sound hK w env' denv' he') (fine hK hF w env' denv' he' hp.1)
      (fun ht => fineComp hK hF c env' denv' he' (hp.2 ht))
  | _, .asn n b' e c, env, denv, he, ok => by
    simp only [okComp] at ok
    simp only [evalComp]
    refine Fine.bind (sound hK e env denv he) (fine hK hF e env denv he ok.1) ?_
    intro v d e1 h
    exact fineComp hK hF c _ _ (he.set h) (ok.2 _ e1)
theorem fineArgs (hK : KRep K R) (hF : KFine K OK) : (as : Args) → (env : Env) →
    (denv : DEnv) → EnvRep env denv → okArgs R OK as denv → Fine (evalArgs K as env)
  | .nil, env, denv, he, ok => by simp only [evalArgs]; exact Fine.val _
  | .cons b e as, env, denv, he, ok => by
    simp only [okArgs] at ok
    simp only [evalArgs]
    exact (fine hK hF e env denv he ok.1).bind' fun _ _ =>
      (fineArgs hK hF as env denv he ok.2).bind' fun _ _ => Fine.val _
end

theorem fineParams (hK : KRep K R) (hF : KFine K OK) : (ps : List Param) → {vs : List AnyVal} →
    {ds : List AnyD} → List.Forall₂ AnyRep vs ds → {env : Env} → {denv : DEnv} → EnvRep env denv →
    okParams R OK ps ds denv → Fine (bindParams K ps vs env)
  | [], _, _, _, env, denv, he, _ => by simp only [bindParams]; exact Fine.val _
  | p :: ps, _, _, .nil, env, denv, he, ok => by simp only [okParams] at ok
  | ⟨pb, n, dom⟩ :: ps, _, _, .cons (l₁ := vs) (l₂ := ds) (.mk (b := b) (v := v) (d := d) h) hs,
      env, denv, he, ok => by
    simp only [okParams] at ok
    simp only [bindParams]
    obtain ⟨hb, ok⟩ := ok
    subst hb
    rw [dif_pos rfl]
    have he' := he.set (n := n) h
    cases dom with
    | none => exact fineParams hK hF ps hs he' ok
    | some D =>
      obtain ⟨ok1, ok2⟩ := ok
      refine Fine.bind (domCheck_agree b h (sound hK D _ _ he'))
        (domCheck_fine b v (fine hK hF D _ _ he' ok1)) ?_
      intro o p e hp
      cases o with
      | true => exact fineParams hK hF ps hs he' (ok2 p e (hp.1 rfl))
      | false => exact Fine.undef

theorem fineFn (hK : KRep K R) (hF : KFine K OK) {glob : Env} {dglob : DEnv}
    (hg : EnvRep glob dglob) {b : Base} (fn : Fn b) {vs : List AnyVal} {ds : List AnyD}
    (h : List.Forall₂ AnyRep vs ds) (ok : okFn R OK dglob fn ds) : Fine (evalFn K glob fn vs) := by
  unfold evalFn
  refine Fine.bind (soundParams hK fn.params h hg) (fineParams hK hF fn.params h hg ok.1) ?_
  intro env denv e1 he
  obtain ⟨ok1, ok2⟩ := ok.2 _ e1
  refine (fine hK hF fn.body env denv he ok1).bind' fun v _ => ?_
  cases hr : fn.retDom with
  | none => exact Fine.val _
  | some D =>
    refine (domCheck_fine b v (fine hK hF D env denv he (ok2 D hr))).bind' fun o _ => ?_
    cases o with
    | true => exact Fine.val _
    | false => exact Fine.undef
end

theorem callN_fine {P : Prog Val} {P' : Prog DVal}
    {R : (b : Base) → Nat → List AnyD → Option (DVal b)} (hf : P.fns = P'.fns)
    (hg : EnvRep P.glob P'.glob) (hR : Satisfies P' R) (n : Nat) :
    KFine (callN P n) (okN P' R n) := by
  induction n with
  | zero => intro b f vs ds _ h; simp only [okN] at h
  | succ n ih =>
    intro b f vs ds h ok
    obtain ⟨fn, h1, h2⟩ := ok
    simp only [callN]
    rw [hf, h1]
    exact fineFn (callN_rep hf hg hR n) ih hg fn h h2

end Eval
end MZ
