import Verif.Comp.Move
import Mathlib.Data.List.Forall2
/-!
# Flattening does not change what a comprehension generates
-/
namespace MZ
namespace Comp

/-- The two assign the same values to the declarations with numbers below `n`. -/
def Agree (n : Nat) (a b : Env) : Prop := ∀ x, x < n → a x = b x

/-- All declarations in the generators have numbers below `n`. -/
def Below (n : Nat) (gens : List Gen) : Prop :=
  ∀ g ∈ gens, (∀ d ∈ g.decls, d < n) ∧ (∀ x ∈ g.src.fv, x < n) ∧ ∀ w, g.wh = some w → ∀ x ∈ w.fv, x < n

/-- If `set2iter` is used then it returns the elements of the set in order with absent elements between them, and the where clause
of the generator has no fixed conjunct. -/
def IterOk (g : Gen) : Prop :=
  ∀ s it, g.src = .vset s → s.iter = some it →
    LocalTo s.fv it ∧ (∀ env, (it env).filter occurs = (s.val env).map .int) ∧ (splitWhere g.wh).1 = none

/-! ## Splitting where clauses -/

theorem w_local : ∀ (w : W), w.Local → LocalTo w.fv w.val
  | .leaf _, h => h
  | .and l r, h => by
    intro a b hab
    simp only [W.val]
    rw [w_local l h.1 a b (fun x hx => hab x (by simp [W.fv, hx])), w_local r h.2 a b (fun x hx => hab x (by simp [W.fv, hx]))]

/-- The condition is local and about some of the declarations. -/
def Fine (F : Nat → Prop) (w : W) : Prop := w.Local ∧ ∀ x ∈ w.fv, F x

theorem putSide_spec (F : Nat → Prop) (w : W) (st : List (W × W) × List W × List W) (hw : Fine F w)
    (ht : ∀ p ∈ st.1, Fine F p.1 ∧ Fine F p.2) (hp : ∀ w ∈ st.2.1, w.isPar = true) (hws : ∀ w ∈ st.2.2, Fine F w) :
    (∀ p ∈ (putSide w st).1, Fine F p.1 ∧ Fine F p.2) ∧ (∀ v ∈ (putSide w st).2.1, v.isPar = true) ∧
    (∀ v ∈ (putSide w st).2.2, Fine F v) ∧
    (∀ env, (((putSide w st).1.all fun p => p.1.val env && p.2.val env) && (putSide w st).2.1.all (·.val env) &&
      (putSide w st).2.2.all (·.val env)) =
      (w.val env && ((st.1.all fun p => p.1.val env && p.2.val env) && st.2.1.all (·.val env) && st.2.2.all (·.val env)))) := by
  unfold putSide
  by_cases h : w.isPar = true
  · rw [if_pos h]
    refine ⟨ht, ?_, hws, fun env => ?_⟩
    · intro v hv
      rcases List.mem_append.1 hv with hv | hv
      · exact hp v hv
      · simp only [List.mem_singleton] at hv; subst hv; exact h
    · simp only [List.all_append, List.all_cons, List.all_nil, Bool.and_true]
      cases w.val env <;> simp
  · rw [if_neg h]
    cases w with
    | and a b =>
      refine ⟨?_, hp, hws, fun env => ?_⟩
      · intro p hp'
        rcases List.mem_cons.1 hp' with rfl | hp'
        · exact ⟨⟨hw.1.1, fun x hx => hw.2 x (by simp [W.fv, hx])⟩, ⟨hw.1.2, fun x hx => hw.2 x (by simp [W.fv, hx])⟩⟩
        · exact ht p hp'
      · simp only [List.all_cons, W.val, Bool.and_assoc]
    | leaf c =>
      refine ⟨ht, hp, ?_, fun env => ?_⟩
      · intro v hv
        rcases List.mem_append.1 hv with hv | hv
        · exact hws v hv
        · simp only [List.mem_singleton] at hv; subst hv; exact hw
      · simp only [List.all_append, List.all_cons, List.all_nil, Bool.and_true, W.val]
        cases c.val env <;> simp

theorem splitLoop_spec (F : Nat → Prop) : ∀ (n : Nat) (todo : List (W × W)) (par ws : List W), todoSize todo ≤ n →
    (∀ p ∈ todo, Fine F p.1 ∧ Fine F p.2) → (∀ w ∈ par, w.isPar = true) → (∀ w ∈ ws, Fine F w) →
    (∀ w ∈ (splitLoop todo par ws).1, w.isPar = true) ∧ (∀ w ∈ (splitLoop todo par ws).2, Fine F w) ∧
    (∀ env, ((splitLoop todo par ws).1.all (·.val env) && (splitLoop todo par ws).2.all (·.val env)) =
      ((todo.all fun p => p.1.val env && p.2.val env) && par.all (·.val env) && ws.all (·.val env)))
  | n, [], par, ws, _, _, hp, hws => by
    rw [splitLoop]
    exact ⟨hp, hws, fun env => by simp⟩
  | n, (l, r) :: s, par, ws, hn, ht, hp, hws => by
    have e0 : todoSize ((l, r) :: s) = l.size + r.size + todoSize s := rfl
    have e1 := putSide_size l (putSide r (s, par, ws))
    have e2 := putSide_size r (s, par, ws)
    simp only at e2
    have := W.size_pos l
    obtain ⟨n, rfl⟩ : ∃ m, n = m + 1 := ⟨n - 1, by omega⟩
    obtain ⟨a1, a2, a3, a4⟩ := putSide_spec F r (s, par, ws) (ht (l, r) (by simp)).2 (fun p hp => ht p (by simp [hp])) hp hws
    obtain ⟨b1, b2, b3, b4⟩ := putSide_spec F l _ (ht (l, r) (by simp)).1 a1 a2 a3
    obtain ⟨c1, c2, c3⟩ := splitLoop_spec F n _ _ _ (by omega) b1 b2 b3
    rw [splitLoop]
    refine ⟨c1, c2, fun env => ?_⟩
    rw [c3 env, b4 env, a4 env]
    simp only [List.all_cons, Bool.and_assoc]

theorem putSide_nil (w : W) (st : List (W × W) × List W × List W) (h : (putSide w st).2.2 = [])
    (hp : ∀ p ∈ (putSide w st).1, p.1.isPar = true ∧ p.2.isPar = true) :
    st.2.2 = [] ∧ w.isPar = true ∧ ∀ p ∈ st.1, p.1.isPar = true ∧ p.2.isPar = true := by
  unfold putSide at h hp
  by_cases hw : w.isPar = true
  · rw [if_pos hw] at h hp
    exact ⟨h, hw, hp⟩
  · rw [if_neg hw] at h hp
    cases w with
    | and a b =>
      simp only at h hp
      have := hp (a, b) (by simp)
      exfalso; apply hw; simp only [W.isPar, this.1, this.2, Bool.and_self]
    | leaf c => simp at h

theorem splitLoop_nil : ∀ (n : Nat) (todo : List (W × W)) (par ws : List W), todoSize todo ≤ n → (splitLoop todo par ws).2 = [] →
    ws = [] ∧ ∀ p ∈ todo, p.1.isPar = true ∧ p.2.isPar = true
  | n, [], par, ws, _, h => by rw [splitLoop] at h; exact ⟨h, by simp⟩
  | n, (l, r) :: s, par, ws, hn, h => by
    have e0 : todoSize ((l, r) :: s) = l.size + r.size + todoSize s := rfl
    have e1 := putSide_size l (putSide r (s, par, ws))
    have e2 := putSide_size r (s, par, ws)
    simp only at e2
    have := W.size_pos l
    obtain ⟨n, rfl⟩ : ∃ m, n = m + 1 := ⟨n - 1, by omega⟩
    rw [splitLoop] at h
    obtain ⟨c1, c2⟩ := splitLoop_nil n _ _ _ (by omega) h
    obtain ⟨b1, b2, b3⟩ := putSide_nil l _ c1 c2
    obtain ⟨a1, a2, a3⟩ := putSide_nil r _ b1 b3
    refine ⟨a1, fun p hp => ?_⟩
    rcases List.mem_cons.1 hp with rfl | hp
    · exact ⟨b2, a2⟩
    · exact a3 p hp

theorem parWhere_spec : ∀ (ws : List W), (∀ w ∈ ws, w.isPar = true) →
    (∀ w, parWhere ws = some w → w.isPar = true) ∧ ∀ env, holds (parWhere ws) env = ws.all (·.val env)
  | [], _ => ⟨by simp [parWhere], fun env => rfl⟩
  | [a], h => ⟨by simp only [parWhere, Option.some.injEq]; rintro w rfl; exact h a (by simp), fun env => by simp [parWhere, holds]⟩
  | [a, b], h => ⟨by
      simp only [parWhere, Option.some.injEq]; rintro w rfl
      simp [W.isPar, h a (by simp), h b (by simp)], fun env => by simp [parWhere, holds, W.val]⟩
  | a :: b :: c :: r, h => ⟨by simp only [parWhere, Option.some.injEq]; rintro w rfl; rfl, fun env => rfl⟩

/-- Splitting a where clause: the fixed part and the variable conjuncts together mean the same. -/
theorem splitWhere_spec (F : Nat → Prop) (wh : Option W) (hw : ∀ w, wh = some w → Fine F w) :
    (∀ w, (splitWhere wh).1 = some w → w.isPar = true) ∧ (∀ w ∈ (splitWhere wh).2, Fine F w) ∧
    (∀ env, (holds (splitWhere wh).1 env && condVal (splitWhere wh).2 env) = holds wh env) := by
  cases wh with
  | none => exact ⟨by simp [splitWhere], by simp [splitWhere], fun env => rfl⟩
  | some w =>
    have hf := hw w rfl
    unfold splitWhere
    simp only
    by_cases hp : w.isPar = true
    · rw [if_pos hp]
      exact ⟨by simp only [Option.some.injEq]; rintro v rfl; exact hp, by simp, fun env => by simp [holds, condVal]⟩
    · rw [if_neg hp]
      cases w with
      | leaf c =>
        refine ⟨by simp, ?_, fun env => by simp [holds, condVal]⟩
        intro v hv
        simp only [List.mem_singleton] at hv; subst hv; exact hf
      | and l r =>
        obtain ⟨c1, c2, c3⟩ := splitLoop_spec F _ [(l, r)] [] [] (Nat.le_refl _) (by
          intro p hp
          simp only [List.mem_singleton] at hp; subst hp
          exact ⟨⟨hf.1.1, fun x hx => hf.2 x (by simp [W.fv, hx])⟩, ⟨hf.1.2, fun x hx => hf.2 x (by simp [W.fv, hx])⟩⟩) (by simp) (by simp)
        obtain ⟨d1, d2⟩ := parWhere_spec _ c1
        refine ⟨d1, c2, fun env => ?_⟩
        simp only [d2 env, condVal]
        rw [c3 env]
        simp [holds, W.val]

theorem splitWhere_nil (wh : Option W) (h : (splitWhere wh).2 = []) : (splitWhere wh).1 = wh ∧ ∀ w, wh = some w → w.isPar = true := by
  cases wh with
  | none => exact ⟨rfl, by simp⟩
  | some w =>
    unfold splitWhere at h ⊢
    simp only at h ⊢
    by_cases hp : w.isPar = true
    · rw [if_pos hp]
      exact ⟨rfl, by simp only [Option.some.injEq]; rintro v rfl; exact hp⟩
    · rw [if_neg hp] at h
      cases w with
      | leaf c => simp at h
      | and l r =>
        simp only at h
        have := (splitLoop_nil _ _ _ _ (Nat.le_refl _) h).2 (l, r) (by simp)
        exfalso; apply hp; simp only [W.isPar, this.1, this.2, Bool.and_self]

/-! ## Evaluation -/

/-- What evaluation does with where clauses. -/
def parHolds (wh : Option W) (env : Env) : Bool :=
  match wh with
  | none => true
  | some w => if w.isPar then w.val env else true

theorem evalDecls_eq (vals : List Val) (wh : Option W) (rest : Env → List Env) : ∀ (ds : List Nat) (env : Env),
    evalDecls vals wh rest ds env = (((tuples vals ds.length).map (bindAll env ds)).filter (parHolds wh)).flatMap rest
  | [], env => by
    cases wh with
    | none =>
      simp only [evalDecls, List.length_nil, tuples, List.map_cons, List.map_nil, bindAll, List.filter_cons, parHolds]
      simp
    | some w =>
      simp only [evalDecls, List.length_nil, tuples, List.map_cons, List.map_nil, bindAll, List.filter_cons, parHolds]
      by_cases h1 : w.isPar = true
      · by_cases h2 : w.val env = true
        · simp [h1, h2]
        · simp [h1, h2]
      · simp [h1]
  | d :: ds, env => by
    simp only [evalDecls, List.length_cons, tuples, List.map_flatMap, List.filter_flatMap, List.flatMap_assoc, List.map_map]
    congr 1
    funext v
    rw [evalDecls_eq vals wh rest ds (upd env d v)]
    congr 2

theorem evalGens_cons (g : Gen) (gs : List Gen) (env : Env) : evalGens (g :: gs) env = (evalGens [g] env).flatMap (evalGens gs) := by
  simp only [evalGens]
  have h1 : (fun env : Env => [env]) = fun e => [id e] := rfl
  split
  · rw [evalDecls_eq, evalDecls_eq, List.flatMap_assoc]; simp
  · rw [evalDecls_eq, evalDecls_eq, List.flatMap_assoc]; simp

theorem evalGens_append : ∀ (a b : List Gen) (env : Env), evalGens (a ++ b) env = (evalGens a env).flatMap (evalGens b)
  | [], b, env => by simp [evalGens]
  | g :: a, b, env => by
    rw [List.cons_append, evalGens_cons, evalGens_cons g a, List.flatMap_assoc]
    congr 1
    funext e
    exact evalGens_append a b e

theorem evalGens_one (g : Gen) (env : Env) (ha : g.isAsn = false) :
    evalGens [g] env = ((tuples (evalVals g.src env) g.decls.length).map (bindAll env g.decls)).filter (parHolds g.wh) := by
  simp only [evalGens, ha]
  rw [if_neg (by simp), evalDecls_eq]
  simp

theorem evalGens_asn (g : Gen) (env : Env) (ha : g.isAsn = true) :
    evalGens [g] env = (tuples (evalVals g.src env) g.decls.length).map (bindAll env g.decls) := by
  simp only [evalGens, ha, if_true]
  rw [evalDecls_eq]
  simp [parHolds]

theorem bindings_one (g : Gen) (env : Env) :
    bindings [g] env = ((tuples (g.src.vals env) g.decls.length).map (bindAll env g.decls)).filter (holds g.wh) := by
  simp [bindings]

theorem bindings_cons (g : Gen) (gs : List Gen) (env : Env) : bindings (g :: gs) env = (bindings [g] env).flatMap (bindings gs) := by
  rw [bindings_one]; rfl

theorem bindAll_other : ∀ (ds : List Nat) (vs : List Val) (env : Env) (x : Nat), x ∉ ds → bindAll env ds vs x = env x
  | [], vs, env, x, _ => by simp [bindAll]
  | d :: ds, [], env, x, _ => by simp [bindAll]
  | d :: ds, v :: vs, env, x, h => by
    simp only [List.mem_cons, not_or] at h
    rw [bindAll, bindAll_other ds vs _ x h.2]
    simp [upd, h.1]

theorem agree_bindAll (n : Nat) : ∀ (ds : List Nat) (vs : List Val) (a b : Env), Agree n a b → Agree n (bindAll a ds vs) (bindAll b ds vs)
  | [], vs, a, b, h => by simpa [bindAll] using h
  | d :: ds, [], a, b, h => by simpa [bindAll] using h
  | d :: ds, v :: vs, a, b, h => by
    rw [bindAll, bindAll]
    apply agree_bindAll n ds vs
    intro x hx
    simp only [upd]
    split
    · rfl
    · exact h x hx

theorem tuples_length (vals : List Val) : ∀ (n : Nat) (t : List Val), t ∈ tuples vals n → t.length = n
  | 0, t, h => by simp only [tuples, List.mem_singleton] at h; subst h; rfl
  | n + 1, t, h => by
    simp only [tuples, List.mem_flatMap, List.mem_map] at h
    obtain ⟨v, -, t', h, rfl⟩ := h
    simp [tuples_length vals n t' h]

theorem tuples_filter (p : Val → Bool) (vals : List Val) : ∀ (n : Nat), (tuples vals n).filter (fun t => t.all p) = tuples (vals.filter p) n
  | 0 => by simp [tuples]
  | n + 1 => by
    simp only [tuples, List.filter_flatMap, ← tuples_filter p vals n]
    have : ∀ l : List Val, (l.flatMap fun v => ((tuples vals n).map (v :: ·)).filter fun t => t.all p) =
        (l.filter p).flatMap fun v => ((tuples vals n).filter fun t => t.all p).map (v :: ·) := by
      intro l
      induction l with
      | nil => rfl
      | cons v l ih =>
        rw [List.flatMap_cons, ih, List.filter_cons]
        by_cases hp : p v = true
        · rw [if_pos hp, List.flatMap_cons]
          congr 1
          rw [List.filter_map]
          congr 2
          funext t
          simp [hp]
        · rw [if_neg hp]
          have : ((tuples vals n).map (v :: ·)).filter (fun t => t.all p) = [] := by
            rw [List.filter_eq_nil_iff]
            intro t ht
            simp only [List.mem_map] at ht
            obtain ⟨t', -, rfl⟩ := ht
            simp [hp]
          rw [this, List.nil_append]
    exact this vals

/-- Evaluation only changes the declarations of the generators. -/
theorem evalGens_other : ∀ (gens : List Gen) (env v : Env), v ∈ evalGens gens env → ∀ x, x ∉ declsOf gens → v x = env x
  | [], env, v, h, x, _ => by simp only [evalGens, List.mem_singleton] at h; rw [h]
  | g :: gs, env, v, h, x, hx => by
    rw [evalGens_cons] at h
    simp only [declsOf, List.mem_append, not_or] at hx
    obtain ⟨e, h1, h2⟩ := List.mem_flatMap.1 h
    rw [evalGens_other gs e v h2 x hx.2]
    have : ∃ t, e = bindAll env g.decls t := by
      by_cases ha : g.isAsn = true
      · rw [evalGens_asn g env ha] at h1
        obtain ⟨t, -, h⟩ := List.mem_map.1 h1
        exact ⟨t, h.symm⟩
      · rw [evalGens_one g env (by simpa using ha)] at h1
        obtain ⟨t, -, h⟩ := List.mem_map.1 (List.mem_filter.1 h1).1
        exact ⟨t, h.symm⟩
    obtain ⟨t, rfl⟩ := this
    exact bindAll_other _ _ _ _ hx.1

/-! ## The two lists of bindings -/

theorem forall2_flatMap {α β γ δ : Type} {R : α → β → Prop} {S : γ → δ → Prop} {f : α → List γ} {g : β → List δ}
    (hfg : ∀ a b, R a b → List.Forall₂ S (f a) (g b)) : ∀ {as : List α} {bs : List β}, List.Forall₂ R as bs →
    List.Forall₂ S (as.flatMap f) (bs.flatMap g) := by
  intro as bs h
  induction h with
  | nil => exact .nil
  | cons h _ ih =>
    rw [List.flatMap_cons, List.flatMap_cons]
    exact List.rel_append (hfg _ _ h) ih

theorem forall2_filter {α β : Type} {R : α → β → Prop} {p : α → Bool} {q : β → Bool} : ∀ {as : List α} {bs : List β},
    List.Forall₂ R as bs → (∀ a b, a ∈ as → b ∈ bs → R a b → p a = q b) → List.Forall₂ R (as.filter p) (bs.filter q) := by
  intro as bs h
  induction h with
  | nil => intro _; exact .nil
  | @cons a b as bs h _ ih =>
    intro hpq
    have ih' := ih fun a b ha hb hab => hpq a b (by simp [ha]) (by simp [hb]) hab
    rw [List.filter_cons, List.filter_cons, hpq a b (by simp) (by simp) h]
    split
    · exact .cons h ih'
    · exact ih'

theorem forall2_map_same {α β γ : Type} {R : β → γ → Prop} {f : α → β} {g : α → γ} : ∀ {l : List α},
    (∀ a ∈ l, R (f a) (g a)) → List.Forall₂ R (l.map f) (l.map g)
  | [], _ => .nil
  | a :: l, h => .cons (h a (by simp)) (forall2_map_same fun b hb => h b (by simp [hb]))

end Comp
end MZ
