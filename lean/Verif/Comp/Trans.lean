import Verif.Comp.Flatten
/-!
# The rewritten generators
-/
namespace MZ
namespace Comp

theorem bindAll_map : ∀ (ds : List Nat) (t : List Val) (env : Env), ds.Nodup → t.length = ds.length → ds.map (bindAll env ds t) = t
  | [], t, env, _, h => by simp only [List.length_nil, List.length_eq_zero_iff] at h; subst h; rfl
  | d :: ds, [], env, _, h => by simp at h
  | d :: ds, v :: vs, env, hn, h => by
    obtain ⟨h1, h2⟩ := List.nodup_cons.1 hn
    rw [List.map_cons, bindAll, bindAll_map ds vs _ h2 (by simpa using h), bindAll_other _ _ _ _ h1]
    simp [upd]

theorem condVal_append (a b : List W) (env : Env) : condVal (a ++ b) env = (condVal a env && condVal b env) := by
  simp [condVal]

theorem holds_agree (n : Nat) (wh : Option W) (h : ∀ w, wh = some w → w.Local ∧ ∀ x ∈ w.fv, x < n) (a b : Env) (hab : Agree n a b) :
    holds wh a = holds wh b := by
  cases wh with
  | none => rfl
  | some w => exact w_local w (h w rfl).1 a b fun x hx => hab x ((h w rfl).2 x hx)

theorem parHolds_eq (wh : Option W) (h : ∀ w, wh = some w → w.isPar = true) : parHolds wh = holds wh := by
  cases wh with
  | none => rfl
  | some w => funext env; simp [parHolds, holds, h w rfl]

theorem core (n : Nat) (decls : List Nat) (vals : List Val) (p : Val → Bool) (ow wh : Option W) (C ws : List W) (envN env : Env)
    (hag : Agree n envN env) (hwh : ∀ e, (parHolds ow e && condVal ws e) = holds wh e)
    (hloc : ∀ w, wh = some w → w.Local ∧ ∀ x ∈ w.fv, x < n)
    (hC : ∀ t ∈ tuples vals decls.length, condVal C (bindAll envN decls t) = t.all p) :
    List.Forall₂ (Agree n)
      ((((tuples vals decls.length).map (bindAll envN decls)).filter (parHolds ow)).filter (condVal (C ++ ws)))
      (((tuples (vals.filter p) decls.length).map (bindAll env decls)).filter (holds wh)) := by
  have e1 : (((tuples vals decls.length).map (bindAll envN decls)).filter (parHolds ow)).filter (condVal (C ++ ws)) =
      ((((tuples vals decls.length).map (bindAll envN decls)).filter (condVal C)).filter (holds wh)) := by
    rw [List.filter_filter, List.filter_filter]
    congr 1
    funext e
    rw [condVal_append, ← hwh e]
    cases parHolds ow e <;> cases condVal C e <;> cases condVal ws e <;> rfl
  have e2 : ((tuples vals decls.length).map (bindAll envN decls)).filter (condVal C) =
      (tuples (vals.filter p) decls.length).map (bindAll envN decls) := by
    rw [List.filter_map, ← tuples_filter]
    congr 1
    exact List.filter_congr hC
  rw [e1, e2]
  refine forall2_filter (forall2_map_same fun t _ => agree_bindAll n _ t _ _ hag) ?_
  intro a b _ _ hab
  exact holds_agree n wh hloc a b hab

/-- The new declarations. -/
abbrev newsOf (fresh k : Nat) : List Nat := (List.range k).map (· + fresh)

theorem newsOf_nodup (fresh k : Nat) : (newsOf fresh k).Nodup :=
  List.Nodup.map (fun _ _ h => Nat.add_right_cancel h) List.nodup_range

theorem mem_newsOf (fresh k x : Nat) : x ∈ newsOf fresh k ↔ fresh ≤ x ∧ x < fresh + k := by
  simp only [newsOf, List.mem_map, List.mem_range]
  constructor
  · rintro ⟨a, h, rfl⟩; omega
  · intro h; exact ⟨x - fresh, by omega, by omega⟩

theorem asn_bind : ∀ (ds ns : List Nat) (e : Env), ds.length = ns.length → (∀ n ∈ ns, n ∉ ds) →
    evalGens ((ds.zip ns).map fun p => ⟨[p.1], .asn [p.2] (fun env => deopt (env p.2)), none⟩) e =
      [bindAll e ds (ns.map fun n => deopt (e n))]
  | [], [], e, _, _ => by simp [evalGens, bindAll]
  | d :: ds, [], e, h, _ => by simp at h
  | [], n :: ns, e, h, _ => by simp at h
  | d :: ds, n :: ns, e, h, hn => by
    rw [List.zip_cons_cons, List.map_cons, evalGens_cons, evalGens_asn _ _ rfl]
    simp only [evalVals, List.length_cons, List.length_nil, tuples, List.flatMap_cons, List.flatMap_nil, List.map_cons, List.map_nil,
      List.append_nil, bindAll]
    rw [asn_bind ds ns _ (by simpa using h) (fun m hm hm' => hn m (by simp [hm]) (by simp [hm']))]
    congr 2
    apply List.map_congr_left
    intro m hm
    have : m ≠ d := fun hmd => hn m (by simp [hm]) (by simp [hmd])
    simp [upd, this]

theorem occ_cond (ds ns : List Nat) (h : ∀ m ∈ ns, m ∉ ds) (e : Env) (t : List Val) :
    condVal (ns.map fun n => W.leaf ⟨[n], false, fun env => occurs (env n)⟩) (bindAll e ds t) = (ns.map e).all occurs := by
  simp only [condVal, List.all_map]
  rw [Bool.eq_iff_iff, List.all_eq_true, List.all_eq_true]
  refine forall_congr' fun m => forall_congr' fun hm => ?_
  simp only [Function.comp, W.val]
  rw [bindAll_other _ _ _ m (h m hm)]

theorem deopt_occurs (v : Val) (h : occurs v = true) : deopt v = v := by
  cases v <;> simp_all [deopt, occurs]

/-- What is needed of a single generator. -/
structure GenOk (n : Nat) (g : Gen) : Prop where
  ne : g.decls ≠ []
  nodup : g.decls.Nodup
  asn : g.isAsn = true → g.decls.length = 1 ∧ g.wh = none
  loc : g.src.Local
  sep : ∀ x ∈ g.src.fv, x ∉ g.decls
  whl : ∀ w, g.wh = some w → w.Local ∧ ∀ x ∈ w.fv, x < n
  bd : ∀ d ∈ g.decls, d < n
  bs : ∀ x ∈ g.src.fv, x < n
  iter : IterOk g

theorem step (n fresh : Nat) (g : Gen) (envN env : Env) (hn : n ≤ fresh) (hg : GenOk n g) (hag : Agree n envN env) :
    List.Forall₂ (Agree n) ((evalGens (transGen fresh g).1 envN).filter (condVal (transGen fresh g).2.1)) (bindings [g] env) := by
  obtain ⟨ne, nodup, asn, loc, sep, whl, bd, bs, iter⟩ := hg
  obtain ⟨decls, src, wh⟩ := g
  simp only at ne nodup asn loc sep whl bd bs
  obtain ⟨w1, w2, w3⟩ := splitWhere_spec (fun x => x < n) wh whl
  have hwh : ∀ e, (parHolds (splitWhere wh).1 e && condVal (splitWhere wh).2 e) = holds wh e := by
    intro e; rw [parHolds_eq _ w1]; exact w3 e
  rw [bindings_one]
  cases src with
  | asn fv v =>
    obtain ⟨a1, a2⟩ := asn rfl
    subst a2
    simp only [transGen]
    rw [evalGens_asn _ _ rfl]
    have : (fun e => condVal [] e) = fun _ => true := rfl
    simp only [evalVals, Src.vals, a1]
    have hv : v envN = v env := loc envN env fun x hx => hag x (bs x hx)
    rw [hv]
    have h1 : ∀ l : List Env, l.filter (condVal []) = l := by intro l; simp [condVal]
    have h2 : ∀ l : List Env, l.filter (holds none) = l := by intro l; simp [holds]
    rw [h1, h2]
    exact forall2_map_same fun t _ => agree_bindAll n _ t _ _ hag
  | par fv vals =>
    simp only [transGen]
    rw [evalGens_one _ _ rfl]
    simp only [evalVals, Src.vals]
    have hv : vals envN = vals env := loc envN env fun x hx => hag x (bs x hx)
    have := core n decls (vals envN) (fun _ => true) (splitWhere wh).1 wh [] (splitWhere wh).2 envN env hag hwh whl
      (by intro t _; simp [condVal])
    simpa [hv] using this
  | vset s =>
    obtain ⟨l1, l2, l3⟩ := loc
    have hval : s.val envN = s.val env := l1 envN env fun x hx => hag x (bs x hx)
    have hub : s.ub envN = s.ub env := l2 envN env fun x hx => hag x (bs x hx)
    have hfil : ((s.ub env).map Val.int).filter (fun v => inSet v (s.val env)) = (s.val env).map Val.int := by
      rw [List.filter_map]
      conv_rhs => rw [l3 env]
      rfl
    cases hit : s.iter with
    | some it =>
      obtain ⟨i1, i2, i3⟩ := iter s it rfl hit
      simp only at i3
      have hitv : it envN = it env := i1 envN env fun x hx => hag x (bs x hx)
      simp only [transGen, hit, Src.vals]
      rw [evalGens_cons, evalGens_one _ _ rfl]
      have hwf : ∀ e, condVal (splitWhere wh).2 e = holds wh e := by
        intro e; have := hwh e; rw [i3] at this; simpa [parHolds] using this
      have hnl : (newsOf fresh decls.length).length = decls.length := by simp
      have hdis : ∀ m ∈ newsOf fresh decls.length, m ∉ decls := by
        intro m hm hm'
        have := (mem_newsOf _ _ _).1 hm
        have := bd m hm'
        omega
      simp only [evalVals]
      have e0 : ∀ l : List Env, l.filter (parHolds none) = l := by intro l; simp [parHolds]
      rw [e0]
      have e1 : ((tuples (it envN) (newsOf fresh decls.length).length).map (bindAll envN (newsOf fresh decls.length))).flatMap
          (evalGens ((decls.zip (newsOf fresh decls.length)).map fun p => ⟨[p.1], .asn [p.2] (fun env => deopt (env p.2)), none⟩)) =
          (tuples (it envN) decls.length).map fun t => bindAll (bindAll envN (newsOf fresh decls.length) t) decls (t.map deopt) := by
        rw [List.flatMap_map, hnl]
        have : ∀ l : List (List Val), (∀ t ∈ l, t.length = decls.length) → (l.flatMap fun t => evalGens
            ((decls.zip (newsOf fresh decls.length)).map fun p => ⟨[p.1], .asn [p.2] (fun env => deopt (env p.2)), none⟩)
            (bindAll envN (newsOf fresh decls.length) t)) =
            l.map fun t => bindAll (bindAll envN (newsOf fresh decls.length) t) decls (t.map deopt) := by
          intro l
          induction l with
          | nil => intro _; rfl
          | cons t l ih =>
            intro h
            rw [List.flatMap_cons, ih fun t' ht' => h t' (by simp [ht']), List.map_cons, asn_bind _ _ _ hnl.symm hdis]
            rw [List.singleton_append]
            congr 2
            have := bindAll_map (newsOf fresh decls.length) t envN (newsOf_nodup _ _) (by rw [hnl]; exact h t (by simp))
            conv_rhs => rw [← this, List.map_map]
            rfl
        exact this _ fun t ht => tuples_length _ _ t ht
      rw [e1]
      have e2 : ∀ t ∈ tuples (it envN) decls.length,
          condVal ((newsOf fresh decls.length).map fun n => W.leaf ⟨[n], false, fun env => occurs (env n)⟩)
            (bindAll (bindAll envN (newsOf fresh decls.length) t) decls (t.map deopt)) = t.all occurs := by
        intro t ht
        have hb := bindAll_map (newsOf fresh decls.length) t envN (newsOf_nodup _ _) (by rw [hnl]; exact tuples_length _ _ t ht)
        rw [occ_cond _ _ hdis, hb]
      have e3 : (((tuples (it envN) decls.length).map fun t =>
          bindAll (bindAll envN (newsOf fresh decls.length) t) decls (t.map deopt)).filter
          (condVal (((newsOf fresh decls.length).map fun n => W.leaf ⟨[n], false, fun env => occurs (env n)⟩) ++ (splitWhere wh).2))) =
          (((tuples ((s.val env).map .int) decls.length).map fun t => bindAll (bindAll envN (newsOf fresh decls.length) t) decls t).filter
            (holds wh)) := by
        rw [← i2 env, ← hitv, ← tuples_filter]
        have : ∀ l : List (List Val), (∀ t ∈ l, t ∈ tuples (it envN) decls.length) → ((l.map fun t =>
          bindAll (bindAll envN (newsOf fresh decls.length) t) decls (t.map deopt)).filter
          (condVal (((newsOf fresh decls.length).map fun n => W.leaf ⟨[n], false, fun env => occurs (env n)⟩) ++ (splitWhere wh).2))) =
          (((l.filter fun t => t.all occurs).map fun t => bindAll (bindAll envN (newsOf fresh decls.length) t) decls t).filter
            (holds wh)) := by
          intro l
          induction l with
          | nil => intro _; rfl
          | cons t l ih =>
            intro h
            have ih' := ih fun t' ht' => h t' (by simp [ht'])
            have h2 := e2 t (h t (by simp))
            rw [List.map_cons, List.filter_cons, List.filter_cons, ih', condVal_append, h2, hwf]
            by_cases ho : t.all occurs = true
            · have hd : t.map deopt = t := by
                conv_rhs => rw [← List.map_id t]
                apply List.map_congr_left
                intro v hv
                exact deopt_occurs v (List.all_eq_true.1 ho v hv)
              rw [hd, ho, Bool.true_and, if_pos rfl, List.map_cons, List.filter_cons]
            · simp only [ho, Bool.false_and, if_false]
              rfl
        exact this _ fun t ht => ht
      rw [e3]
      refine forall2_filter (forall2_map_same fun t _ => agree_bindAll n _ t _ _ ?_) ?_
      · intro x hx
        rw [bindAll_other _ _ _ x (fun hm => by have := (mem_newsOf _ _ _).1 hm; omega)]
        exact hag x hx
      · intro a b _ _ hab
        exact holds_agree n wh whl a b hab
    | none =>
      by_cases hid : s.isId = true
      · simp only [transGen, hit, hid, if_true, Src.vals]
        rw [evalGens_one _ _ rfl]
        simp only [evalVals]
        have := core n decls ((s.ub envN).map .int) (fun v => inSet v (s.val env)) (splitWhere wh).1 wh
          (decls.map fun d => .leaf ⟨d :: s.fv, false, fun env => inSet (env d) (s.val env)⟩) (splitWhere wh).2 envN env hag hwh whl
          (by
            intro t ht
            have hb := bindAll_map decls t envN nodup (tuples_length _ _ t ht)
            conv_rhs => rw [← hb]
            have hs : s.val (bindAll envN decls t) = s.val env := by
              rw [← hval]
              exact l1 _ _ fun x hx => bindAll_other _ _ _ x (sep x hx)
            simp only [condVal, List.all_map]
            congr 1
            funext d
            simp only [Function.comp, W.val, hs])
        rw [hub, hfil] at this
        rw [hub]
        exact this
      · simp only [transGen, hit, hid, Src.vals]
        rw [if_neg (by simp), evalGens_cons, evalGens_asn _ _ rfl]
        simp only [evalVals, List.length_cons, List.length_nil, tuples, List.flatMap_cons, List.flatMap_nil, List.map_cons, List.map_nil,
          List.append_nil, bindAll]
        rw [evalGens_one _ _ rfl]
        simp only [evalVals]
        have hag' : Agree n (upd envN fresh (.set (s.val envN))) env := by
          intro x hx
          have : x ≠ fresh := by omega
          simp only [upd, this, if_false]
          exact hag x hx
        have hub' : s.ub (upd envN fresh (.set (s.val envN))) = s.ub env := l2 _ env fun x hx => hag' x (bs x hx)
        have := core n decls ((s.ub (upd envN fresh (.set (s.val envN)))).map .int) (fun v => inSet v (s.val env)) (splitWhere wh).1 wh
          (decls.map fun d => .leaf ⟨[d, fresh], false, fun env => inSet (env d) (asSet (env fresh))⟩) (splitWhere wh).2 _ env hag' hwh whl
          (by
            intro t ht
            have hb := bindAll_map decls t (upd envN fresh (.set (s.val envN))) nodup (tuples_length _ _ t ht)
            conv_rhs => rw [← hb]
            have hs : asSet (bindAll (upd envN fresh (.set (s.val envN))) decls t fresh) = s.val env := by
              rw [bindAll_other _ _ _ fresh (fun hm => by have := bd _ hm; omega)]
              simp [upd, asSet, hval]
            simp only [condVal, List.all_map]
            congr 1
            funext d
            simp only [Function.comp, W.val, hs])
        rw [hub', hfil] at this
        rw [hub']
        exact this

/-- What is known about the new conditions and declarations. -/
theorem transGen_spec (n fresh : Nat) (g : Gen) (hn : n ≤ fresh) (hg : GenOk n g) :
    fresh ≤ (transGen fresh g).2.2 ∧
    (∀ d ∈ declsOf (transGen fresh g).1, d ∈ g.decls ∨ (fresh ≤ d ∧ d < (transGen fresh g).2.2)) ∧
    (∀ w ∈ (transGen fresh g).2.1, w.Local ∧ ∀ x ∈ w.fv, (x ∈ g.decls ∨ x ∈ g.src.fv ∨ ∃ v, g.wh = some v ∧ x ∈ v.fv) ∨
      (fresh ≤ x ∧ x < (transGen fresh g).2.2)) := by
  obtain ⟨ne, nodup, asn, loc, sep, whl, bd, bs, iter⟩ := hg
  obtain ⟨decls, src, wh⟩ := g
  simp only at ne nodup asn loc sep whl bd bs
  obtain ⟨-, w2, -⟩ := splitWhere_spec (fun x => ∃ v, wh = some v ∧ x ∈ v.fv) wh (fun w hw => ⟨(whl w hw).1, fun x hx => ⟨w, hw, hx⟩⟩)
  have hws : ∀ w ∈ (splitWhere wh).2, ∀ f, w.Local ∧ ∀ x ∈ w.fv, (x ∈ decls ∨ x ∈ src.fv ∨ ∃ v, wh = some v ∧ x ∈ v.fv) ∨
      (fresh ≤ x ∧ x < f) := fun w hw f => ⟨(w2 w hw).1, fun x hx => Or.inl (Or.inr (Or.inr ((w2 w hw).2 x hx)))⟩
  cases src with
  | asn fv v => simp [transGen, declsOf]; intro d hd; exact Or.inl hd
  | par fv vals =>
    simp only [transGen, declsOf, List.append_nil]
    exact ⟨Nat.le_refl _, fun d hd => Or.inl hd, fun w hw => hws w hw _⟩
  | vset s =>
    obtain ⟨l1, l2, l3⟩ := loc
    cases hit : s.iter with
    | some it =>
      simp only [transGen, hit, declsOf]
      refine ⟨by omega, ?_, ?_⟩
      · intro d hd
        rcases List.mem_append.1 hd with hd | hd
        · exact Or.inr ((mem_newsOf _ _ _).1 hd)
        · left
          have : ∀ (ds ns : List Nat), d ∈ declsOf ((ds.zip ns).map fun p =>
              (⟨[p.1], .asn [p.2] (fun env => deopt (env p.2)), none⟩ : Gen)) → d ∈ ds := by
            intro ds
            induction ds with
            | nil => intro ns h; simp [declsOf] at h
            | cons d' ds ih =>
              intro ns h
              cases ns with
              | nil => simp [declsOf] at h
              | cons m ns =>
                simp only [List.zip_cons_cons, List.map_cons, declsOf, List.mem_append, List.mem_singleton] at h
                rcases h with h | h
                · simp [h]
                · simp [ih ns h]
          exact this _ _ hd
      · intro w hw
        rcases List.mem_append.1 hw with hw | hw
        · obtain ⟨m, hm, rfl⟩ := List.mem_map.1 hw
          refine ⟨fun a b hab => by simp [hab m (by simp)], fun x hx => Or.inr ?_⟩
          simp only [W.fv, List.mem_singleton] at hx
          subst hx
          exact (mem_newsOf _ _ _).1 hm
        · exact hws w hw _
    | none =>
      by_cases hid : s.isId = true
      · simp only [transGen, hit, hid, if_true, declsOf, List.append_nil]
        refine ⟨Nat.le_refl _, fun d hd => Or.inl hd, ?_⟩
        intro w hw
        rcases List.mem_append.1 hw with hw | hw
        · obtain ⟨d, hd, rfl⟩ := List.mem_map.1 hw
          refine ⟨fun a b hab => ?_, fun x hx => Or.inl ?_⟩
          · simp only at hab ⊢
            rw [hab d (by simp), l1 a b fun x hx => hab x (by simp [hx])]
          · simp only [W.fv, List.mem_cons] at hx
            rcases hx with rfl | hx
            · exact Or.inl hd
            · exact Or.inr (Or.inl hx)
        · exact hws w hw _
      · simp only [transGen, hit, hid]
        rw [if_neg (by simp)]
        refine ⟨by simp, ?_, ?_⟩
        · intro d hd
          simp only [declsOf, List.append_nil, List.mem_append, List.mem_singleton] at hd
          rcases hd with rfl | hd
          · exact Or.inr ⟨Nat.le_refl _, by simp⟩
          · exact Or.inl hd
        · intro w hw
          rcases List.mem_append.1 hw with hw | hw
          · obtain ⟨d, hd, rfl⟩ := List.mem_map.1 hw
            refine ⟨fun a b hab => ?_, fun x hx => ?_⟩
            · simp only at hab ⊢
              rw [hab d (by simp), hab fresh (by simp)]
            · simp only [W.fv, List.mem_cons, List.not_mem_nil, or_false] at hx
              rcases hx with rfl | rfl
              · exact Or.inl (Or.inl hd)
              · exact Or.inr ⟨Nat.le_refl _, by simp⟩
          · exact hws w hw _

theorem declsOf_append (a b : List Gen) : declsOf (a ++ b) = declsOf a ++ declsOf b := by
  induction a with
  | nil => rfl
  | cons g a ih => simp [declsOf, ih]

theorem genOk_of (n : Nat) (g : Gen) (gs : List Gen) (hs : Scoped (g :: gs)) (hb : Below n (g :: gs)) (hi : IterOk g) : GenOk n g := by
  obtain ⟨s1, s2, s3, s4, s5, s6, s7, s8⟩ := hs
  obtain ⟨b1, b2, b3⟩ := hb g (by simp)
  exact ⟨s1, s2, s4, s5, fun x hx => (s6 x hx).1, fun w hw => ⟨(s7 w hw).1, b3 w hw⟩, b1, b2, hi⟩

theorem trans_decls (n : Nat) : ∀ (gens : List Gen) (fresh : Nat), n ≤ fresh → Scoped gens → Below n gens → (∀ g ∈ gens, IterOk g) →
    fresh ≤ (trans fresh gens).2.2 ∧ ∀ d ∈ declsOf (trans fresh gens).1, d ∈ declsOf gens ∨ fresh ≤ d
  | [], fresh, _, _, _, _ => by simp [trans, declsOf]
  | g :: gs, fresh, hn, hs, hb, hi => by
    have hg := genOk_of n g gs hs hb (hi g (by simp))
    obtain ⟨t1, t2, -⟩ := transGen_spec n fresh g hn hg
    obtain ⟨i1, i2⟩ := trans_decls n gs (transGen fresh g).2.2 (by omega) hs.2.2.2.2.2.2.2 (fun g' hg' => hb g' (by simp [hg']))
      (fun g' hg' => hi g' (by simp [hg']))
    simp only [trans]
    refine ⟨Nat.le_trans t1 i1, ?_⟩
    intro d hd
    rw [declsOf_append] at hd
    simp only [declsOf, List.mem_append]
    rcases List.mem_append.1 hd with hd | hd
    · rcases t2 d hd with h | h
      · exact Or.inl (Or.inl h)
      · exact Or.inr h.1
    · rcases i2 d hd with h | h
      · exact Or.inl (Or.inr h)
      · right; omega

/-- The rewritten generators with the conditions generate the same. -/
theorem trans_ok (n : Nat) : ∀ (gens : List Gen) (fresh : Nat) (envN env : Env), n ≤ fresh → Scoped gens → Below n gens →
    (∀ g ∈ gens, IterOk g) → Agree n envN env →
    List.Forall₂ (Agree n) ((evalGens (trans fresh gens).1 envN).filter (condVal (trans fresh gens).2.1)) (bindings gens env)
  | [], fresh, envN, env, _, _, _, _, hag => by
    simp only [trans, evalGens, bindings]
    have : [envN].filter (condVal []) = [envN] := by simp [condVal]
    rw [this]
    exact .cons hag .nil
  | g :: gs, fresh, envN, env, hn, hs, hb, hi, hag => by
    have hg := genOk_of n g gs hs hb (hi g (by simp))
    obtain ⟨t1, t2, t3⟩ := transGen_spec n fresh g hn hg
    have hb' : Below n gs := fun g' hg' => hb g' (by simp [hg'])
    have hi' : ∀ g' ∈ gs, IterOk g' := fun g' hg' => hi g' (by simp [hg'])
    obtain ⟨i1, i2⟩ := trans_decls n gs (transGen fresh g).2.2 (by omega) hs.2.2.2.2.2.2.2 hb' hi'
    rw [bindings_cons]
    simp only [trans]
    rw [evalGens_append]
    have e1 : ∀ l : List Env, (l.flatMap (evalGens (trans (transGen fresh g).2.2 gs).1)).filter
        (condVal ((transGen fresh g).2.1 ++ (trans (transGen fresh g).2.2 gs).2.1)) =
        (l.filter (condVal (transGen fresh g).2.1)).flatMap fun v =>
          (evalGens (trans (transGen fresh g).2.2 gs).1 v).filter (condVal (trans (transGen fresh g).2.2 gs).2.1) := by
      intro l
      induction l with
      | nil => rfl
      | cons v l ih =>
        rw [List.flatMap_cons, List.filter_append, ih, List.filter_cons]
        have hv : ∀ u ∈ evalGens (trans (transGen fresh g).2.2 gs).1 v,
            condVal (transGen fresh g).2.1 u = condVal (transGen fresh g).2.1 v := by
          intro u hu
          simp only [condVal]
          rw [Bool.eq_iff_iff, List.all_eq_true, List.all_eq_true]
          refine forall_congr' fun w => forall_congr' fun hw => ?_
          rw [w_local w (t3 w hw).1 u v]
          intro x hx
          apply evalGens_other _ _ _ hu
          intro hd
          obtain ⟨-, -, s3, -, -, s6, s7, -⟩ := hs
          rcases i2 x hd with h | h
          · rcases (t3 w hw).2 x hx with (k | k | ⟨w', k1, k2⟩) | k
            · exact s3 x k h
            · exact (s6 x k).2 h
            · exact (s7 w' k1).2 x k2 h
            · have : x < n := by
                have : ∀ gs : List Gen, Below n gs → x ∈ declsOf gs → x < n := by
                  intro gs
                  induction gs with
                  | nil => intro _ h; simp [declsOf] at h
                  | cons g0 gs ih =>
                    intro hb h
                    simp only [declsOf, List.mem_append] at h
                    rcases h with h | h
                    · exact (hb g0 (by simp)).1 x h
                    · exact ih (fun g' hg' => hb g' (by simp [hg'])) h
                exact this gs hb' h
              omega
          · rcases (t3 w hw).2 x hx with (k | k | ⟨w', k1, k2⟩) | k
            · have := hg.bd x k; omega
            · have := hg.bs x k; omega
            · have := (hg.whl w' k1).2 x k2; omega
            · omega
        have e2 : (evalGens (trans (transGen fresh g).2.2 gs).1 v).filter
            (condVal ((transGen fresh g).2.1 ++ (trans (transGen fresh g).2.2 gs).2.1)) =
            if condVal (transGen fresh g).2.1 v = true then
              (evalGens (trans (transGen fresh g).2.2 gs).1 v).filter (condVal (trans (transGen fresh g).2.2 gs).2.1) else [] := by
          split
          · rename_i hc
            apply List.filter_congr
            intro u hu
            rw [condVal_append, hv u hu, hc, Bool.true_and]
          · rename_i hc
            rw [List.filter_eq_nil_iff]
            intro u hu
            rw [condVal_append, hv u hu]
            simp [hc]
        rw [e2]
        split
        · rw [List.flatMap_cons]
        · rw [List.nil_append]
    rw [e1]
    exact forall2_flatMap (fun a b hab => trans_ok n gs _ a b (by omega) hs.2.2.2.2.2.2.2 hb' hi' hab) (step n fresh g envN env hn hg hag)

end Comp
end MZ
