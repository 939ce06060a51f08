import Verif.Comp.Trans
/-!
# Comprehensions with variable conditions
-/
namespace MZ
namespace Comp

/-- A comprehension under an assignment: every element is defined, or the whole is undefined. -/
def total {α : Type} : List (Option α) → Option (List α)
  | [] => some []
  | none :: _ => none
  | some a :: r => (total r).map (a :: ·)

/-- The value only depends on declarations with numbers below `n`. -/
def Resp {β : Type} (n : Nat) (e : Env → β) : Prop := ∀ a b, Agree n a b → e a = e b

theorem trans_nil : ∀ (gens : List Gen) (fresh : Nat), Scoped gens → (trans fresh gens).2.1 = [] → (trans fresh gens).1 = gens
  | [], _, _, _ => rfl
  | g :: gs, fresh, hs, h => by
    simp only [trans, List.append_eq_nil_iff] at h ⊢
    have ih := trans_nil gs (transGen fresh g).2.2 hs.2.2.2.2.2.2.2 h.2
    rw [ih]
    have hne := hs.1
    have h1 := h.1
    obtain ⟨decls, src, wh⟩ := g
    simp only at hne
    cases src with
    | asn fv v => rfl
    | par fv vals =>
      simp only [transGen] at h1 ⊢
      rw [(splitWhere_nil wh h1).1]; rfl
    | vset s =>
      exfalso
      cases hit : s.iter with
      | some it =>
        simp only [transGen, hit, List.append_eq_nil_iff, List.map_eq_nil_iff, List.range_eq_nil, List.length_eq_zero_iff] at h1
        exact hne h1.1
      | none =>
        simp only [transGen, hit] at h1
        split at h1 <;>
          · simp only [List.append_eq_nil_iff, List.map_eq_nil_iff] at h1
            exact hne h1.1

theorem flatGens_ok (n fresh : Nat) (gens : List Gen) (env : Env) (hn : n ≤ fresh) (hs : Scoped gens) (hb : Below n gens)
    (hi : ∀ g ∈ gens, IterOk g) :
    List.Forall₂ (Agree n) ((evalGens (flatGens fresh gens).1 env).filter (condVal (flatGens fresh gens).2)) (bindings gens env) := by
  have := trans_ok n gens fresh env env hn hs hb hi (fun _ _ => rfl)
  simp only [flatGens]
  by_cases he : (trans fresh gens).2.1 = []
  · rw [he, trans_nil gens fresh hs he] at this
    simp only [he, List.isEmpty_nil, if_true]
    exact this
  · have hf : (trans fresh gens).2.1.isEmpty = false := by simpa using he
    simp only [hf]
    exact this

theorem forall2_map_eq {α β γ : Type} {R : α → β → Prop} {f : α → γ} {g : β → γ} (h : ∀ a b, R a b → f a = g b) :
    ∀ {as : List α} {bs : List β}, List.Forall₂ R as bs → as.map f = bs.map g := by
  intro as bs hab
  induction hab with
  | nil => rfl
  | cons hr _ ih => rw [List.map_cons, List.map_cons, h _ _ hr, ih]

theorem sum_opt (p : Env → Bool) (e : Env → Option Int) : ∀ l : List Env,
    (total (l.map fun v => if p v then e v else some 0)).map List.sum = (total ((l.filter p).map e)).map List.sum
  | [] => rfl
  | v :: l => by
    have ih := sum_opt p e l
    rw [List.map_cons, List.filter_cons]
    by_cases hp : p v = true
    · rw [if_pos hp, if_pos hp, List.map_cons]
      cases e v with
      | none => rfl
      | some x =>
        simp only [total, Option.map_map]
        revert ih
        cases total (l.map fun v => if p v then e v else some 0) <;> cases total ((l.filter p).map e) <;> simp
    · rw [if_neg hp, if_neg hp]
      simp only [total, Option.map_map]
      rw [← ih]
      cases total (l.map fun v => if p v then e v else some 0) <;> simp

theorem sum_par (p : Env → Bool) (e : Env → Option Int) : ∀ l : List Env, (∀ v ∈ l, (e v).isSome = true) →
    (l.map fun v => (e v).map fun x => (if p v then 1 else 0) * x) = l.map fun v => if p v then e v else some 0
  | [], _ => rfl
  | v :: l, h => by
    rw [List.map_cons, List.map_cons, sum_par p e l fun u hu => h u (by simp [hu])]
    congr 1
    obtain ⟨x, hx⟩ := Option.isSome_iff_exists.1 (h v (by simp))
    rw [hx]
    cases p v <;> simp

theorem other_opt (p : Env → Bool) (e : Env → Option Int) : ∀ l : List Env,
    (total (l.map fun v => if p v then (e v).map some else some none)).map (List.filterMap id) = total ((l.filter p).map e)
  | [] => rfl
  | v :: l => by
    have ih := other_opt p e l
    rw [List.map_cons, List.filter_cons]
    by_cases hp : p v = true
    · rw [if_pos hp, if_pos hp, List.map_cons]
      cases e v with
      | none => rfl
      | some x =>
        simp only [total, Option.map_some, Option.map_map]
        rw [← ih]
        cases total (l.map fun v => if p v then (e v).map some else some none) <;> simp
    · rw [if_neg hp, if_neg hp, ← ih]
      simp only [total, Option.map_map]
      cases total (l.map fun v => if p v then (e v).map some else some none) <;> simp

/-- **C69**: the flattened comprehension, with its variable where clauses and generators over set variables rewritten, means the same
as the comprehension, under every assignment: in `forall` and `exists`, in `sum` if its elements are variables, or fixed and
defined, and everywhere else, where the elements whose conditions are false are absent. -/
theorem _root_.MZ.C69_flatten_partial (n fresh : Nat) (gens : List Gen) (env : Env) (hn : n ≤ fresh) (hs : Scoped gens)
    (hb : Below n gens) (hi : ∀ g ∈ gens, IterOk g) :
    (∀ e : Env → Bool, Resp n e →
      (elemsForall (flatGens fresh gens).1 (flatGens fresh gens).2 e env).all id = (bindings gens env).all e) ∧
    (∀ e : Env → Bool, Resp n e →
      (elemsExists (flatGens fresh gens).1 (flatGens fresh gens).2 e env).any id = (bindings gens env).any e) ∧
    (∀ e : Env → Option Int, Resp n e →
      (total (elemsSum false (flatGens fresh gens).1 (flatGens fresh gens).2 e env)).map List.sum =
        (total ((bindings gens env).map e)).map List.sum) ∧
    (∀ e : Env → Option Int, Resp n e → (∀ v ∈ evalGens (flatGens fresh gens).1 env, (e v).isSome = true) →
      (total (elemsSum true (flatGens fresh gens).1 (flatGens fresh gens).2 e env)).map List.sum =
        (total ((bindings gens env).map e)).map List.sum) ∧
    (∀ e : Env → Option Int, Resp n e →
      (total (elemsOther (flatGens fresh gens).1 (flatGens fresh gens).2 e env)).map (List.filterMap id) =
        total ((bindings gens env).map e)) := by
  have h := flatGens_ok n fresh gens env hn hs hb hi
  have hm : ∀ {β : Type} (e : Env → β), Resp n e →
      ((evalGens (flatGens fresh gens).1 env).filter (condVal (flatGens fresh gens).2)).map e = (bindings gens env).map e :=
    fun e he => forall2_map_eq he h
  refine ⟨fun e he => ?_, fun e he => ?_, fun e he => ?_, fun e he hd => ?_, fun e he => ?_⟩
  · have := congrArg (fun l => l.all id) (hm e he)
    simp only [List.all_map, Function.id_comp] at this
    rw [← this]
    simp only [elemsForall, List.all_map, List.all_filter, Function.id_comp]
  · have := congrArg (fun l => l.any id) (hm e he)
    simp only [List.any_map, Function.id_comp] at this
    rw [← this]
    simp only [elemsExists, List.any_map, List.any_filter, Function.id_comp]
  · rw [← hm e he, ← sum_opt]
    rfl
  · rw [← hm e he, ← sum_opt, ← sum_par _ _ _ hd]
    rfl
  · rw [← hm e he, ← other_opt]
    rfl

/-! ## The two steps together -/

theorem rebuildGen_mem (wm : List (Nat × Cond)) (src : Src) : ∀ (ds acc : List Nat), ∀ g ∈ rebuildGen wm src acc ds,
    (∀ d ∈ g.decls, d ∈ acc ∨ d ∈ ds) ∧ ∀ w, g.wh = some w → ∀ c ∈ w.leaves, ∃ d, (d, c) ∈ wm
  | [], acc, g, h => by simp [rebuildGen] at h
  | d :: ds, acc, g, h => by
    rw [rebuildGen.eq_def] at h
    simp only at h
    split at h
    · rename_i c cs hw
      rcases List.mem_cons.1 h with h | h
      · subst h
        refine ⟨fun x hx => ?_, fun w hw' c' hc' => ?_⟩
        · simp only [List.mem_append, List.mem_singleton] at hx
          rcases hx with h | h
          · exact Or.inl h
          · exact Or.inr (by simp [h])
        · simp only [Option.some.injEq] at hw'
          subst hw'
          have := conj_leaves c cs
          rw [this, ← hw, mem_whereMap] at hc'
          exact ⟨d, hc'⟩
      · obtain ⟨k1, k2⟩ := rebuildGen_mem wm src ds [] g h
        refine ⟨fun x hx => ?_, k2⟩
        rcases k1 x hx with h | h
        · simp at h
        · exact Or.inr (by simp [h])
    · split at h
      · simp only [List.mem_singleton] at h
        subst h
        refine ⟨fun x hx => ?_, by simp⟩
        simp only [List.mem_append, List.mem_singleton] at hx
        rcases hx with h | h
        · exact Or.inl h
        · exact Or.inr (by simp [h])
      · obtain ⟨k1, k2⟩ := rebuildGen_mem wm src _ _ g h
        refine ⟨fun x hx => ?_, k2⟩
        rcases k1 x hx with h | h
        · simp only [List.mem_append, List.mem_singleton] at h
          rcases h with h | h
          · exact Or.inl h
          · exact Or.inr (by simp [h])
        · exact Or.inr (by simp [h])

theorem rebuild_mem (wm : List (Nat × Cond)) : ∀ (gens r : List Gen), rebuild wm gens = some r → ∀ g ∈ r,
    ∃ g0 ∈ gens, g.src = g0.src ∧ (∀ d ∈ g.decls, d ∈ g0.decls) ∧
      (g.wh = g0.wh ∨ ∀ w, g.wh = some w → ∀ c ∈ w.leaves, ∃ d, (d, c) ∈ wm)
  | [], r, h, g, hg => by simp only [rebuild, Option.some.injEq] at h; subst h; simp at hg
  | g0 :: gs, r, h, g, hg => by
    simp only [rebuild] at h
    cases hr : rebuild wm gs with
    | none => rw [hr] at h; cases h
    | some r' =>
      rw [hr] at h
      simp only at h
      have ih := rebuild_mem wm gs r' hr g
      by_cases ha : g0.isAsn = true
      · rw [if_pos ha] at h
        split at h
        · cases h
          rcases List.mem_cons.1 hg with h | h
          · subst h; exact ⟨g, by simp, rfl, fun d hd => hd, Or.inl rfl⟩
          · obtain ⟨g1, h1, h2⟩ := ih h
            exact ⟨g1, by simp [h1], h2⟩
        · cases h
      · rw [if_neg ha] at h
        cases h
        rcases List.mem_append.1 hg with h | h
        · obtain ⟨k1, k2⟩ := rebuildGen_mem wm g0.src _ _ g h
          refine ⟨g0, by simp, (rebuildGen_shape wm g0.src _ _ g h).2, fun d hd => ?_, Or.inr k2⟩
          rcases k1 d hd with h | h
          · simp at h
          · exact h
        · obtain ⟨g1, h1, h2⟩ := ih h
          exact ⟨g1, by simp [h1], h2⟩

theorem typecheck_below (n : Nat) (gens gens' : List Gen) (hb : Below n gens) (h : typecheck gens = some gens') : Below n gens' := by
  intro g hg
  obtain ⟨g0, h0, h1, h2, h3⟩ := rebuild_mem _ gens gens' h g hg
  obtain ⟨b1, b2, b3⟩ := hb g0 h0
  refine ⟨fun d hd => b1 d (h2 d hd), by rw [h1]; exact b2, fun w hw x hx => ?_⟩
  rcases h3 with h3 | h3
  · exact b3 w (by rw [← h3]; exact hw) x hx
  · obtain ⟨c, hc, hxc⟩ := fv_of_leaves w x hx
    obtain ⟨d, hd⟩ := h3 w hw c hc
    rw [mem_whereParts] at hd
    obtain ⟨g1, hg1, -, hl⟩ := (mem_allParts gens c).1 hd.1
    cases hw1 : g1.wh with
    | none => rw [hw1] at hl; simp [leavesOf] at hl
    | some w1 =>
      rw [hw1] at hl
      exact (hb g1 hg1).2.2 w1 hw1 x (leaves_fv w1 c hl x hxc)

/-- **C69**: the type checker and flattening together, for solver libraries that do not implement `set2iter`. -/
theorem _root_.MZ.C69_comprehension (n fresh : Nat) (gens : List Gen) (env : Env) (hn : n ≤ fresh) (hs : Scoped gens)
    (hb : Below n gens) (hi : ∀ g ∈ gens, ∀ s, g.src = .vset s → s.iter = none) :
    ∃ gens', typecheck gens = some gens' ∧
    (∀ e : Env → Bool, Resp n e →
      (elemsForall (flatGens fresh gens').1 (flatGens fresh gens').2 e env).all id = (bindings gens env).all e) ∧
    (∀ e : Env → Bool, Resp n e →
      (elemsExists (flatGens fresh gens').1 (flatGens fresh gens').2 e env).any id = (bindings gens env).any e) ∧
    (∀ e : Env → Option Int, Resp n e →
      (total (elemsSum false (flatGens fresh gens').1 (flatGens fresh gens').2 e env)).map List.sum =
        (total ((bindings gens env).map e)).map List.sum) ∧
    (∀ e : Env → Option Int, Resp n e →
      (total (elemsOther (flatGens fresh gens').1 (flatGens fresh gens').2 e env)).map (List.filterMap id) =
        total ((bindings gens env).map e)) := by
  obtain ⟨gens', h1, h2, -, h4⟩ := C69_typecheck gens hs
  obtain ⟨a, b, c, -, d⟩ := C69_flatten_partial n fresh gens' env hn h2 (typecheck_below n gens gens' hb h1) (by
    intro g hg s it h5 h6
    obtain ⟨g0, h0, h7, -, -⟩ := rebuild_mem _ gens gens' h1 g hg
    rw [hi g0 h0 s (by rw [← h7]; exact h5)] at h6
    cases h6)
  rw [h4] at a b c d
  exact ⟨gens', h1, a, b, c, d⟩

/-- **C69**: without variable conditions and set variables the comprehension is evaluated as it is. -/
theorem _root_.MZ.C69_eval (gens : List Gen) (env : Env) (hp : ∀ g ∈ gens, ∀ w, g.wh = some w → w.isPar = true)
    (ha : ∀ g ∈ gens, g.isAsn = true → g.wh = none)
    (hv : ∀ g ∈ gens, ∀ s, g.src ≠ .vset s) : evalGens gens env = bindings gens env := by
  induction gens generalizing env with
  | nil => rfl
  | cons g gs ih =>
    rw [evalGens_cons, bindings_cons]
    have h1 : evalGens [g] env = bindings [g] env := by
      have e1 : evalVals g.src env = g.src.vals env := by
        cases hsrc : g.src with
        | vset s => exact absurd hsrc (hv g (by simp) s)
        | par fv vals => rfl
        | asn fv v => rfl
      rw [bindings_one]
      by_cases h : g.isAsn = true
      · rw [evalGens_asn g env h, e1, ha g (by simp) h]
        have h2 : ∀ l : List Env, l.filter (holds none) = l := by intro l; simp [holds]
        rw [h2]
      · rw [evalGens_one g env (by simpa using h), e1, parHolds_eq _ (hp g (by simp))]
    rw [h1]
    congr 1
    funext e
    exact ih e (fun g' hg' => hp g' (by simp [hg'])) (fun g' hg' => ha g' (by simp [hg'])) (fun g' hg' => hv g' (by simp [hg']))

/-! ## Deviations -/

/-- A set variable with the value {1, 2} for which `set2iter` is implemented. -/
def exIter : VSet := ⟨[], true, fun _ => [1, 2], fun _ => [1, 2, 3], some fun _ => [.int 1, .int 2, .absent]⟩

/-- **C69 (deviation)**: if the library implements `set2iter` then fixed conjuncts of the where clause of a generator over a set
variable are dropped: `forall (i in S where false) (false)` is false. -/
theorem _root_.MZ.C69_set2iter_fails :
    ∃ (n fresh : Nat) (gens : List Gen) (env : Env) (e : Env → Bool), n ≤ fresh ∧ Scoped gens ∧ Below n gens ∧ Resp n e ∧
      (bindings gens env).all e = true ∧ (elemsForall (flatGens fresh gens).1 (flatGens fresh gens).2 e env).all id = false := by
  refine ⟨1, 1, [⟨[0], .vset exIter, some (.leaf ⟨[], true, fun _ => false⟩)⟩], fun _ => .absent, fun _ => false,
    Nat.le_refl _, ?_, ?_, fun _ _ _ => rfl, by decide, by decide⟩
  · refine ⟨by simp, by simp, by simp [declsOf], by simp [Gen.isAsn], ⟨fun _ _ _ => rfl, fun _ _ _ => rfl, fun _ => rfl⟩,
      by simp [Src.fv, exIter], ?_, trivial⟩
    intro w hw
    simp only [Option.some.injEq] at hw
    subst hw
    exact ⟨fun _ _ _ => rfl, by simp [W.fv]⟩
  · intro g hg
    simp only [List.mem_singleton] at hg
    subst hg
    refine ⟨by simp, by simp [Src.fv, exIter], ?_⟩
    intro w hw
    simp only [Option.some.injEq] at hw
    subst hw
    simp [W.fv]

/-- `i in {1, 2}`, with a variable condition that holds if `i` is 1. -/
def exSum : List Gen := [⟨[0], .par [] (fun _ => [.int 1, .int 2]), some (.leaf ⟨[0], false, fun env => decide (env 0 = .int 1)⟩)⟩]

theorem exSum_scoped : Scoped exSum ∧ Below 1 exSum := by
  refine ⟨⟨by simp, by simp, by simp [declsOf], by simp [Gen.isAsn], fun _ _ _ => rfl, by simp [Src.fv], ?_, trivial⟩, ?_⟩
  · intro w hw
    simp only [Option.some.injEq] at hw
    subst hw
    exact ⟨fun a b h => by simp [h 0 (by simp)], by simp [W.fv, declsOf]⟩
  · intro g hg
    simp only [exSum, List.mem_singleton] at hg
    subst hg
    refine ⟨by simp, by simp [Src.fv], ?_⟩
    intro w hw
    simp only [Option.some.injEq] at hw
    subst hw
    simp [W.fv]

/-- **C69 (deviation)**: a `sum` with fixed elements is undefined if an element is undefined whose condition is false:
`sum (i in 1..2 where x[i]) (a[i])` for an array `a` with index set `1..1`. -/
theorem _root_.MZ.C69_sum_fails :
    ∃ (n fresh : Nat) (gens : List Gen) (env : Env) (e : Env → Option Int), n ≤ fresh ∧ Scoped gens ∧ Below n gens ∧
      (∀ g ∈ gens, IterOk g) ∧ Resp n e ∧ (total ((bindings gens env).map e)).map List.sum = some 5 ∧
      (total (elemsSum true (flatGens fresh gens).1 (flatGens fresh gens).2 e env)).map List.sum = none := by
  refine ⟨1, 1, exSum, fun _ => .absent, fun env => if env 0 = .int 1 then some 5 else none, Nat.le_refl _, exSum_scoped.1,
    exSum_scoped.2, ?_, fun a b h => by simp [h 0 (by omega)], by decide, by decide⟩
  intro g hg s it h
  simp only [exSum, List.mem_singleton] at hg
  subst hg
  cases h

/-! ## Examples -/

/-- `[.. | i, j in 1..3 where i < j /\ b(i), S = .., k in S where k > i]`, with set variable `S = {2, 3}`. -/
def exGens : List Gen :=
  [⟨[0, 1], .par [] (fun _ => [.int 1, .int 2, .int 3]), some (.and
      (.leaf ⟨[0, 1], true, fun env => match env 0, env 1 with | .int a, .int b => decide (a < b) | _, _ => false⟩)
      (.leaf ⟨[0], false, fun env => decide (env 0 ≠ .int 2)⟩))⟩,
   ⟨[2], .vset ⟨[1], false, fun env => match env 1 with | .int b => [b, b + 1] | _ => [],
      fun env => match env 1 with | .int b => [b, b + 1, b + 2] | _ => [], none⟩,
    some (.leaf ⟨[0], true, fun env => decide (env 0 ≠ .int 3)⟩)⟩]

example : (bindings exGens (fun _ => .absent)).map (fun e => (e 0, e 1, e 2)) =
    [(.int 1, .int 2, .int 2), (.int 1, .int 2, .int 3), (.int 1, .int 3, .int 3), (.int 1, .int 3, .int 4)] := by decide

/-- The generators after the type checker: `i in 1..3 where b(i) /\ i != 3, j in 1..3 where i < j, k in S`. -/
example : (typecheck exGens).map (fun gs => gs.map fun g => (g.decls, (leavesOf g.wh).map Cond.fv)) =
    some [([0], [[0], [0]]), ([1], [[0, 1]]), ([2], [])] := by
  simp [typecheck, exGens, allParts, Gen.isAsn, partsOf, partsLoop, whereParts, latest, firstIn, vId, find, gmapFrom, rebuild,
    rebuildGen, whereMap, conj, leavesOf, W.leaves, skip]

example : Scoped exGens := by
  refine ⟨by simp, by simp, by simp [declsOf], by simp [Gen.isAsn], fun _ _ _ => rfl, by simp [Src.fv], ?_,
    by simp, by simp, by simp [declsOf], by simp [Gen.isAsn], ⟨?_, ?_, ?_⟩, by simp [Src.fv, declsOf], ?_, trivial⟩
  · intro w hw
    simp only [Option.some.injEq] at hw
    subst hw
    exact ⟨⟨fun a b h => by simp [h 0 (by simp), h 1 (by simp)], fun a b h => by simp [h 0 (by simp)]⟩, by simp [W.fv, declsOf]⟩
  · intro a b h; simp [h 1 (by simp)]
  · intro a b h; simp [h 1 (by simp)]
  · intro env
    simp only
    split <;> simp <;> omega
  · intro w hw
    simp only [Option.some.injEq] at hw
    subst hw
    exact ⟨fun a b h => by simp [h 0 (by simp)], by simp [W.fv, declsOf]⟩

end Comp
end MZ
