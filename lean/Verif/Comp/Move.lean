import Verif.Comp.Spec
import Mathlib.Data.List.Nodup
import Mathlib.Tactic.ByContra
import Mathlib.Tactic.Conv
/-!
# The type checker does not change what a comprehension generates
-/
namespace MZ
namespace Comp

/-! ## Parts of where clauses -/

/-- The conjuncts from left to right. -/
def W.leaves : W → List Cond
  | .leaf c => [c]
  | .and l r => l.leaves ++ r.leaves

theorem leaves_val : ∀ (w : W) (env : Env), w.val env = w.leaves.all fun c => c.val env
  | .leaf c, env => by simp [W.val, W.leaves]
  | .and l r, env => by simp [W.val, W.leaves, leaves_val l, leaves_val r]

theorem leaves_fv : ∀ (w : W) (c : Cond), c ∈ w.leaves → ∀ x ∈ c.fv, x ∈ w.fv
  | .leaf c', c, h, x, hx => by
    simp only [W.leaves, List.mem_singleton] at h; subst h; exact hx
  | .and l r, c, h, x, hx => by
    simp only [W.leaves, List.mem_append] at h
    simp only [W.fv, List.mem_append]
    rcases h with h | h
    · exact Or.inl (leaves_fv l c h x hx)
    · exact Or.inr (leaves_fv r c h x hx)

theorem leaves_local : ∀ (w : W), w.Local → ∀ c ∈ w.leaves, LocalTo c.fv c.val
  | .leaf c', hl, c, h => by
    simp only [W.leaves, List.mem_singleton] at h; subst h; exact hl
  | .and l r, hl, c, h => by
    simp only [W.leaves, List.mem_append] at h
    rcases h with h | h
    · exact leaves_local l hl.1 c h
    · exact leaves_local r hl.2 c h

theorem partsLoop_eq (stack : List W) (acc : List Cond) : partsLoop stack acc = acc ++ stack.flatMap W.leaves := by
  match stack with
  | [] => simp [partsLoop]
  | .leaf c :: s => rw [partsLoop, partsLoop_eq s]; simp [W.leaves]
  | .and l r :: s => rw [partsLoop, partsLoop_eq (l :: r :: s)]; simp [W.leaves]
termination_by stackSize stack
decreasing_by
  · simp [stackSize, W.size]
  · simp only [stackSize, W.size]; omega

/-- The conjuncts of a where clause. -/
def leavesOf : Option W → List Cond
  | none => []
  | some w => w.leaves

theorem partsOf_eq (wh : Option W) : partsOf wh = leavesOf wh := by
  cases wh with
  | none => rfl
  | some w => simp [partsOf, partsLoop_eq, leavesOf]

theorem holds_eq (wh : Option W) (env : Env) : holds wh env = (leavesOf wh).all fun c => c.val env := by
  cases wh with
  | none => rfl
  | some w => exact leaves_val w env

theorem conj_leaves (c : Cond) (cs : List Cond) : (conj c cs).leaves = c :: cs := by
  have : ∀ (cs : List Cond) (w : W), (cs.foldl (fun w c => W.and w (.leaf c)) w).leaves = w.leaves ++ cs := by
    intro cs
    induction cs with
    | nil => simp
    | cons c cs ih => intro w; simp [ih, W.leaves]
  simp [conj, this, W.leaves]

/-! ## Generators as a sequence of declarations -/

/-- A declaration with what it ranges over and the conditions that are tested after it. -/
abbrev Item := Nat × Src × List Cond

/-- What is generated by such a sequence. -/
def flat : List Item → Env → List Env
  | [], env => [env]
  | it :: r, env => (it.2.1.vals env).flatMap fun v =>
      if it.2.2.all (fun c => c.val (upd env it.1 v)) then flat r (upd env it.1 v) else []

/-- The sequence for the declarations of one generator: its conditions are tested after the last one. -/
def mkItems (src : Src) (cs : List Cond) : List Nat → List Item
  | [] => []
  | [d] => [(d, src, cs)]
  | d :: d' :: ds => (d, src, []) :: mkItems src cs (d' :: ds)

/-- The sequence for the generators. -/
def items : List Gen → List Item
  | [] => []
  | g :: gs => mkItems g.src (leavesOf g.wh) g.decls ++ items gs

theorem upd_other {env : Env} {d x : Nat} {v : Val} (h : x ≠ d) : upd env d v x = env x := by simp [upd, h]

theorem vals_local {src : Src} (h : src.Local) {env env' : Env} (he : ∀ x ∈ src.fv, env x = env' x) :
    src.vals env = src.vals env' := by
  cases src with
  | par fv vals => exact h env env' he
  | vset s => simp only [Src.vals]; rw [h.1 env env' he]
  | asn fv v => simp only [Src.vals]; rw [h env env' he]

theorem flat_mkItems (src : Src) (hs : src.Local) (cs : List Cond) (r : List Item) (vals : List Val) :
    ∀ (ds : List Nat) (env : Env), ds ≠ [] → (∀ x ∈ src.fv, x ∉ ds) → src.vals env = vals →
      flat (mkItems src cs ds ++ r) env =
        (((tuples vals ds.length).map (bindAll env ds)).filter (fun e => cs.all fun c => c.val e)).flatMap (flat r)
  | [], _, h, _, _ => absurd rfl h
  | [d], env, _, hx, hv => by
    simp only [mkItems, List.singleton_append, flat, hv, List.length_singleton, tuples, List.map_cons, List.map_nil,
      List.map_flatMap, bindAll]
    clear hv hx
    induction vals with
    | nil => simp
    | cons v vs ih =>
      simp only [List.flatMap_cons, List.filter_append, List.flatMap_append, ih]
      congr 1
      by_cases h : (cs.all fun c => c.val (upd env d v)) = true
      · simp [h]
      · simp [h]
  | d :: d' :: ds, env, _, hx, hv => by
    have hne : ∀ v, src.vals (upd env d v) = vals := by
      intro v
      rw [← hv]
      apply vals_local hs
      intro x hxx
      have := hx x hxx
      exact upd_other (by intro h; subst h; simp at this)
    have ih := fun v => flat_mkItems src hs cs r vals (d' :: ds) (upd env d v) (by simp)
      (fun x hxx => by have := hx x hxx; simp only [List.mem_cons, not_or] at this ⊢; exact this.2) (hne v)
    have h1 : flat (mkItems src cs (d :: d' :: ds) ++ r) env =
        vals.flatMap fun v => flat (mkItems src cs (d' :: ds) ++ r) (upd env d v) := by
      simp only [mkItems, List.cons_append, flat, hv, List.all_nil, if_true]
    rw [h1]
    simp only [ih]
    rw [show (d :: d' :: ds).length = (d' :: ds).length + 1 from rfl]
    rw [tuples, List.map_flatMap, List.filter_flatMap, List.flatMap_assoc]
    simp only [List.map_map]
    rfl

theorem flat_append (l r : List Item) (env : Env) : flat (l ++ r) env = (flat l env).flatMap (flat r) := by
  induction l generalizing env with
  | nil => simp [flat]
  | cons it l ih =>
    simp only [List.cons_append, flat, List.flatMap_assoc]
    congr 1
    funext v
    split
    · exact ih _
    · simp

/-- What is generated, as a sequence of declarations. -/
theorem bindings_flat : ∀ (gens : List Gen), Scoped gens → ∀ env, bindings gens env = flat (items gens) env
  | [], _, env => rfl
  | g :: gs, h, env => by
    obtain ⟨h1, h2, h3, h4, h5, h6, h7, h8⟩ := h
    rw [items, flat_mkItems g.src h5 _ _ _ g.decls env h1 (fun x hx => (h6 x hx).1) rfl, bindings]
    have : flat (items gs) = bindings gs := by funext e; rw [bindings_flat gs h8]
    rw [this]
    congr 2
    funext e
    exact holds_eq g.wh e

/-! ## Testing conditions earlier or later -/

/-- The sequence without conditions. -/
def bare (l : List Item) : List Item := l.map fun it => (it.1, it.2.1, [])

/-- All conditions. -/
def condsOf (l : List Item) : List Cond := l.flatMap fun it => it.2.2

/-- No condition uses a declaration that comes after the place where it is tested. -/
def Attached : List Item → Prop
  | [] => True
  | it :: r => (∀ c ∈ it.2.2, LocalTo c.fv c.val ∧ ∀ x ∈ c.fv, x ∉ r.map Prod.fst) ∧ Attached r

theorem flat_agree : ∀ (l : List Item) (env e : Env), e ∈ flat l env → ∀ x, x ∉ l.map Prod.fst → e x = env x
  | [], env, e, h, x, _ => by simp only [flat, List.mem_singleton] at h; rw [h]
  | it :: r, env, e, h, x, hx => by
    simp only [flat, List.mem_flatMap] at h
    obtain ⟨v, _, hv⟩ := h
    split at hv
    · simp only [List.map_cons, List.mem_cons, not_or] at hx
      rw [flat_agree r _ e hv x hx.2, upd_other hx.1]
    · simp at hv

theorem flat_filter : ∀ (l : List Item), Attached l → ∀ env,
    flat l env = (flat (bare l) env).filter fun e => (condsOf l).all fun c => c.val e
  | [], _, env => by simp [flat, bare, condsOf]
  | it :: r, h, env => by
    have ih := flat_filter r h.2
    simp only [bare, List.map_cons, flat, List.all_nil, if_true, List.filter_flatMap]
    congr 1
    funext v
    have hc : ∀ e ∈ flat (bare r) (upd env it.1 v), (it.2.2.all fun c => c.val e) = it.2.2.all fun c => c.val (upd env it.1 v) := by
      intro e he
      rw [Bool.eq_iff_iff]
      simp only [List.all_eq_true]
      have : ∀ c ∈ it.2.2, c.val e = c.val (upd env it.1 v) := by
        intro c hc
        obtain ⟨hl, hx⟩ := h.1 c hc
        apply hl
        intro x hxx
        apply flat_agree _ _ _ he
        have := hx x hxx
        simpa [bare] using this
      constructor
      · intro h c hc; rw [← this c hc]; exact h c hc
      · intro h c hc; rw [this c hc]; exact h c hc
    have hsplit : ∀ e, ((condsOf (it :: r)).all fun c => c.val e) = ((it.2.2.all fun c => c.val e) && (condsOf r).all fun c => c.val e) := by
      intro e; simp [condsOf, List.all_append]
    split
    · rename_i hv
      rw [ih]
      apply List.filter_congr
      intro e he
      rw [hsplit, hc e he, hv, Bool.true_and]
    · rename_i hv
      symm
      rw [List.filter_eq_nil_iff]
      intro e he
      rw [hsplit, hc e he]
      simp [hv]

/-- Two sequences with the same declarations and the same conditions generate the same. -/
theorem flat_same (l l' : List Item) (h : Attached l) (h' : Attached l') (hb : bare l = bare l')
    (hc : ∀ c, c ∈ condsOf l ↔ c ∈ condsOf l') (env : Env) : flat l env = flat l' env := by
  rw [flat_filter l h, flat_filter l' h', hb]
  apply List.filter_congr
  intro e _
  rw [Bool.eq_iff_iff]
  simp only [List.all_eq_true]
  exact ⟨fun g c k => g c ((hc c).2 k), fun g c k => g c ((hc c).1 k)⟩

/-! ## The declaration a part is moved to -/

theorem declsOf_gmap : ∀ (gens : List Gen) (i : Nat), (gmapFrom i gens).map Prod.fst = declsOf gens
  | [], i => rfl
  | g :: gs, i => by
    simp only [gmapFrom, List.map_append, List.map_map, declsOf, declsOf_gmap gs]
    congr 1
    induction g.decls with
    | nil => rfl
    | cons d ds ih => simp [ih]

theorem find_some : ∀ (l : List (Nat × Nat)) (k d g j : Nat), find l k d = some (g, j) → k ≤ j ∧ l[j - k]? = some (d, g)
  | [], k, d, g, j, h => by simp [find] at h
  | (d', g') :: l, k, d, g, j, h => by
    simp only [find] at h
    split at h
    · rename_i hd
      subst hd
      simp only [Option.some.injEq, Prod.mk.injEq] at h
      obtain ⟨rfl, rfl⟩ := h
      exact ⟨Nat.le_refl _, by simp⟩
    · obtain ⟨h1, h2⟩ := find_some l (k + 1) d g j h
      refine ⟨by omega, ?_⟩
      rw [show j - k = (j - (k + 1)) + 1 by omega, List.getElem?_cons_succ, h2]

theorem find_none : ∀ (l : List (Nat × Nat)) (k d : Nat), find l k d = none → d ∉ l.map Prod.fst
  | [], k, d, _ => by simp
  | (d', g') :: l, k, d, h => by
    simp only [find] at h
    split at h
    · cases h
    · rename_i hd
      simp only [List.map_cons, List.mem_cons, not_or]
      exact ⟨fun e => hd e.symm, find_none l (k + 1) d h⟩

/-- The number of declarations before a generator. -/
def start (gens : List Gen) (g : Nat) : Nat := (declsOf (gens.take g)).length

theorem start_succ : ∀ (gens : List Gen) (i : Nat) (g : Gen), gens[i]? = some g → start gens (i + 1) = start gens i + g.decls.length
  | [], i, g, h => by simp at h
  | g' :: gs, 0, g, h => by
    simp only [List.getElem?_cons_zero, Option.some.injEq] at h
    subst h
    simp [start, declsOf]
  | g' :: gs, i + 1, g, h => by
    simp only [List.getElem?_cons_succ] at h
    have := start_succ gs i g h
    simp only [start, List.take_succ_cons, declsOf, List.length_append] at this ⊢
    omega

theorem gmap_get : ∀ (gens : List Gen) (o i : Nat) (g : Gen) (j d : Nat), gens[i]? = some g → g.decls[j]? = some d →
    (gmapFrom o gens)[start gens i + j]? = some (d, o + i)
  | [], o, i, g, j, d, h, _ => by simp at h
  | g' :: gs, o, 0, g, j, d, h, hd => by
    simp only [List.getElem?_cons_zero, Option.some.injEq] at h
    subst h
    have hj : j < g'.decls.length := by
      rcases Nat.lt_or_ge j g'.decls.length with h' | h'
      · exact h'
      · rw [List.getElem?_eq_none h'] at hd; cases hd
    simp only [start, List.take_zero, declsOf, List.length_nil, Nat.zero_add, gmapFrom]
    rw [List.getElem?_append_left (by simpa using hj)]
    simp [hd]
  | g' :: gs, o, i + 1, g, j, d, h, hd => by
    simp only [List.getElem?_cons_succ] at h
    have := gmap_get gs (o + 1) i g j d h hd
    simp only [gmapFrom, start, List.take_succ_cons, declsOf, List.length_append] at this ⊢
    rw [List.getElem?_append_right (by simp; omega)]
    rw [List.length_map, show g'.decls.length + (declsOf (List.take i gs)).length + j - g'.decls.length =
      (declsOf (List.take i gs)).length + j by omega, this]
    congr 2
    omega

theorem gmap_inv : ∀ (gens : List Gen) (o k d i : Nat), (gmapFrom o gens)[k]? = some (d, i) →
    ∃ g j, o ≤ i ∧ gens[i - o]? = some g ∧ g.decls[j]? = some d ∧ k = start gens (i - o) + j
  | [], o, k, d, i, h => by simp [gmapFrom] at h
  | g :: gs, o, k, d, i, h => by
    simp only [gmapFrom] at h
    rcases Nat.lt_or_ge k g.decls.length with hk | hk
    · rw [List.getElem?_append_left (by simpa using hk), List.getElem?_map] at h
      cases hg : g.decls[k]? with
      | none => rw [hg] at h; simp at h
      | some d' =>
        rw [hg] at h
        simp only [Option.map_some, Option.some.injEq, Prod.mk.injEq] at h
        obtain ⟨rfl, rfl⟩ := h
        exact ⟨g, k, Nat.le_refl _, by simp, hg, by simp [start, declsOf]⟩
    · rw [List.getElem?_append_right (by simpa using hk), List.length_map] at h
      obtain ⟨g', j, h1, h2, h3, h4⟩ := gmap_inv gs (o + 1) _ d i h
      refine ⟨g', j, by omega, ?_, h3, ?_⟩
      · rw [show i - o = (i - (o + 1)) + 1 by omega, List.getElem?_cons_succ, h2]
      · rw [show i - o = (i - (o + 1)) + 1 by omega]
        simp only [start, List.take_succ_cons, declsOf, List.length_append] at h4 ⊢
        omega

/-- The state of the visitor: a declaration at this position, of a generator that is not an assignment. -/
def Good (gens : List Gen) (st : Nat × Nat) : Prop :=
  ∃ i g, (gmapFrom 0 gens)[st.1]? = some (st.2, i) ∧ gens[i]? = some g ∧ g.isAsn = false

theorem scoped_get : ∀ (gens : List Gen), Scoped gens → ∀ (i : Nat) (g : Gen), gens[i]? = some g →
    g.decls ≠ [] ∧ (g.isAsn = true → g.decls.length = 1)
  | [], _, i, g, h => by simp at h
  | g' :: gs, hs, 0, g, h => by
    simp only [List.getElem?_cons_zero, Option.some.injEq] at h
    subst h
    exact ⟨hs.1, fun ha => (hs.2.2.2.1 ha).1⟩
  | g' :: gs, hs, i + 1, g, h => scoped_get gs hs.2.2.2.2.2.2.2 i g (by simpa using h)

theorem skip_good (gens : List Gen) (hs : Scoped gens) (t : Nat) (gt : Gen) (ht : gens[t]? = some gt) (hta : gt.isAsn = false) :
    ∀ (fuel i : Nat) (st : Nat × Nat) (g : Gen), gens[i]? = some g → i ≤ t → t < i + fuel →
      (gmapFrom 0 gens)[st.1]? = some (st.2, i) →
      Good gens (skip gens fuel i st) ∧ st.1 ≤ (skip gens fuel i st).1
  | 0, i, st, g, _, h1, h2, _ => by omega
  | fuel + 1, i, st, g, hg, h1, h2, hst => by
    have htl : t < gens.length := by
      rcases Nat.lt_or_ge t gens.length with h' | h'
      · exact h'
      · rw [List.getElem?_eq_none h'] at ht; cases ht
    by_cases ha : g.isAsn = true
    · have hit : i ≠ t := by
        rintro rfl
        rw [hg] at ht; cases ht
        rw [ha] at hta; cases hta
      obtain ⟨g', hg'⟩ : ∃ g', gens[i + 1]? = some g' := ⟨_, List.getElem?_eq_getElem (by omega)⟩
      obtain ⟨d, ds, hd⟩ := List.exists_cons_of_ne_nil (scoped_get gens hs (i + 1) g' hg').1
      have hlen := (scoped_get gens hs i g hg).2 ha
      have hstep : skip gens (fuel + 1) i st = skip gens fuel (i + 1) (st.1 + 1, d) := by
        simp only [skip, hg, hg', hd]
        rw [if_pos ⟨ha, by omega⟩]
      obtain ⟨g2, j, -, k1, k2, k3⟩ := gmap_inv gens 0 st.1 st.2 i hst
      simp only [Nat.sub_zero] at k1 k3
      rw [hg] at k1; cases k1
      have hj : j = 0 := by
        have : j < g.decls.length := by
          rcases Nat.lt_or_ge j g.decls.length with h' | h'
          · exact h'
          · rw [List.getElem?_eq_none h'] at k2; cases k2
        omega
      have hnew := gmap_get gens 0 (i + 1) g' 0 d hg' (by simp [hd])
      rw [start_succ gens i g hg, hlen] at hnew
      simp only [Nat.add_zero, Nat.zero_add] at hnew
      obtain ⟨r1, r2⟩ := skip_good gens hs t gt ht hta fuel (i + 1) (st.1 + 1, d) g' hg' (by omega) (by omega)
        (by simp only; rw [k3, hj]; simpa using hnew)
      rw [hstep]
      exact ⟨r1, by simp only at r2; omega⟩
    · have hstep : skip gens (fuel + 1) i st = st := by
        simp only [skip]
        split
        · rename_i g1 g2 e1 e2
          rw [hg] at e1; cases e1
          rw [if_neg (by simp [ha])]
        · rfl
      rw [hstep]
      exact ⟨⟨i, g, hst, hg, by simpa using ha⟩, Nat.le_refl _⟩

theorem vId_good (gens : List Gen) (hs : Scoped gens) (t : Nat) (gt : Gen) (ht : gens[t]? = some gt) (hta : gt.isAsn = false)
    (st : Nat × Nat) (d : Nat) (hd : ∀ i k, find (gmapFrom 0 gens) 0 d = some (i, k) → i ≤ t) (hst : Good gens st) :
    Good gens (vId gens st d) ∧ st.1 ≤ (vId gens st d).1 ∧
      (∀ i k, find (gmapFrom 0 gens) 0 d = some (i, k) → k ≤ (vId gens st d).1) := by
  unfold vId
  cases hf : find (gmapFrom 0 gens) 0 d with
  | none => exact ⟨hst, Nat.le_refl _, fun i k h => by cases h⟩
  | some p =>
    obtain ⟨g, k⟩ := p
    simp only
    split
    · rename_i hk
      obtain ⟨-, h2⟩ := find_some _ 0 d g k hf
      rw [Nat.sub_zero] at h2
      obtain ⟨gg, j, -, k1, -, -⟩ := gmap_inv gens 0 k d g h2
      simp only [Nat.sub_zero] at k1
      have htl : t < gens.length := by
        rcases Nat.lt_or_ge t gens.length with h' | h'
        · exact h'
        · rw [List.getElem?_eq_none h'] at ht; cases ht
      obtain ⟨r1, r2⟩ := skip_good gens hs t gt ht hta gens.length g (k, d) gg k1 (hd g k hf) (by omega) h2
      simp only at r2
      refine ⟨r1, by omega, fun i k' h => ?_⟩
      cases h
      exact r2
    · rename_i hk
      exact ⟨hst, Nat.le_refl _, fun i k' h => by cases h; omega⟩

theorem fold_good (gens : List Gen) (hs : Scoped gens) (t : Nat) (gt : Gen) (ht : gens[t]? = some gt) (hta : gt.isAsn = false) :
    ∀ (fv : List Nat) (st : Nat × Nat), (∀ d ∈ fv, ∀ i k, find (gmapFrom 0 gens) 0 d = some (i, k) → i ≤ t) → Good gens st →
      Good gens (fv.foldl (vId gens) st) ∧ st.1 ≤ (fv.foldl (vId gens) st).1 ∧
        ∀ d ∈ fv, ∀ i k, find (gmapFrom 0 gens) 0 d = some (i, k) → k ≤ (fv.foldl (vId gens) st).1
  | [], st, _, hst => ⟨hst, Nat.le_refl _, by simp⟩
  | d :: fv, st, hd, hst => by
    obtain ⟨a1, a2, a3⟩ := vId_good gens hs t gt ht hta st d (hd d (by simp)) hst
    obtain ⟨b1, b2, b3⟩ := fold_good gens hs t gt ht hta fv (vId gens st d) (fun x hx => hd x (by simp [hx])) a1
    rw [List.foldl_cons]
    refine ⟨b1, by omega, ?_⟩
    intro x hx i k hf
    rcases List.mem_cons.1 hx with h | h
    · subst h
      have := a3 i k hf
      omega
    · exact b3 x h i k hf

theorem firstIn_good : ∀ (gens pre : List Gen), Scoped (pre ++ gens) → (∀ g ∈ pre, g.isAsn = true) →
    (∃ g ∈ gens, g.isAsn = false) → ∃ st, firstIn pre.length gens = some st ∧ Good (pre ++ gens) st
  | [], pre, _, _, h => by simp at h
  | g :: gs, pre, hs, hp, h => by
    have hget : (pre ++ g :: gs)[pre.length]? = some g := by simp
    by_cases ha : g.isAsn = true
    · simp only [firstIn, ha, if_true]
      have := firstIn_good gs (pre ++ [g]) (by simpa using hs)
        (by intro g' hg'; rcases List.mem_append.1 hg' with h' | h'
            · exact hp g' h'
            · simp only [List.mem_singleton] at h'; subst h'; exact ha)
        (by obtain ⟨g', h1, h2⟩ := h
            rcases List.mem_cons.1 h1 with h' | h'
            · subst h'; rw [ha] at h2; cases h2
            · exact ⟨g', h', h2⟩)
      simpa using this
    · obtain ⟨d, ds, hd⟩ := List.exists_cons_of_ne_nil (scoped_get _ hs _ g hget).1
      simp only [firstIn, ha, Bool.false_eq_true, if_false, hd]
      refine ⟨_, rfl, pre.length, g, ?_, hget, by simpa using ha⟩
      have h1 := gmap_get (pre ++ g :: gs) 0 pre.length g 0 d hget (by simp [hd])
      have h2 : start (pre ++ g :: gs) pre.length = pre.length := by
        unfold start
        rw [List.take_left']
        · have hall : ∀ g' ∈ pre, g'.decls.length = 1 := by
            intro g' hg'
            obtain ⟨k, hk, rfl⟩ := List.getElem_of_mem hg'
            exact (scoped_get _ hs k pre[k] (by rw [List.getElem?_append_left hk, List.getElem?_eq_getElem hk])).2 (hp _ hg')
          clear h1 hget hs hp
          induction pre with
          | nil => rfl
          | cons g' pre ih =>
            simp only [declsOf, List.length_append, List.length_cons]
            rw [ih (fun x hx => hall x (by simp [hx])), hall g' (by simp)]
            omega
        · rfl
      rw [h2] at h1
      simpa using h1

theorem scoped_later : ∀ (gens : List Gen), Scoped gens → ∀ (t i : Nat) (g g' : Gen) (w : W) (x : Nat), gens[t]? = some g →
    g.wh = some w → x ∈ w.fv → t < i → gens[i]? = some g' → x ∉ g'.decls
  | [], _, t, i, g, g', w, x, h, _, _, _, _ => by simp at h
  | g0 :: gs, hs, 0, i, g, g', w, x, h, hw, hx, hi, hg' => by
    simp only [List.getElem?_cons_zero, Option.some.injEq] at h
    subst h
    obtain ⟨i, rfl⟩ : ∃ i', i = i' + 1 := ⟨i - 1, by omega⟩
    simp only [List.getElem?_cons_succ] at hg'
    have := (hs.2.2.2.2.2.2.1 w hw).2 x hx
    intro hx'
    apply this
    clear this hs
    induction gs generalizing i with
    | nil => simp at hg'
    | cons g1 gs ih =>
      simp only [declsOf, List.mem_append]
      cases i with
      | zero =>
        simp only [List.getElem?_cons_zero, Option.some.injEq] at hg'
        subst hg'; exact Or.inl hx'
      | succ i => exact Or.inr (ih i (by omega) (by simpa using hg'))
  | g0 :: gs, hs, t + 1, i, g, g', w, x, h, hw, hx, hi, hg' => by
    obtain ⟨i, rfl⟩ : ∃ i', i = i' + 1 := ⟨i - 1, by omega⟩
    exact scoped_later gs hs.2.2.2.2.2.2.2 t i g g' w x (by simpa using h) hw hx (by omega) (by simpa using hg')

theorem scoped_wh : ∀ (gens : List Gen), Scoped gens → ∀ g ∈ gens, (∀ w, g.wh = some w → w.Local) ∧ (g.isAsn = true → g.wh = none)
  | [], _, g, h => by simp at h
  | g0 :: gs, hs, g, h => by
    rcases List.mem_cons.1 h with h | h
    · subst h; exact ⟨fun w hw => (hs.2.2.2.2.2.2.1 w hw).1, fun ha => (hs.2.2.2.1 ha).2⟩
    · exact scoped_wh gs hs.2.2.2.2.2.2.2 g h

theorem mem_allParts (gens : List Gen) (c : Cond) : c ∈ allParts gens ↔ ∃ g ∈ gens, g.isAsn = false ∧ c ∈ leavesOf g.wh := by
  induction gens with
  | nil => simp [allParts]
  | cons g gs ih =>
    simp only [allParts, List.mem_append, ih, List.mem_cons, exists_eq_or_imp]
    constructor
    · rintro (h | h)
      · split at h
        · simp at h
        · rename_i ha
          rw [partsOf_eq] at h
          exact Or.inl ⟨by simpa using ha, h⟩
      · exact Or.inr h
    · rintro (⟨h1, h2⟩ | h)
      · exact Or.inl (by rw [if_neg (by simp [h1]), partsOf_eq]; exact h2)
      · exact Or.inr h

theorem latest_ok (gens : List Gen) (hs : Scoped gens) (c : Cond) (hc : c ∈ allParts gens) :
    ∃ st, latest gens c = some st.2 ∧ Good gens st ∧
      ∀ x ∈ c.fv, ∀ i k, find (gmapFrom 0 gens) 0 x = some (i, k) → k ≤ st.1 := by
  obtain ⟨g, hg, ha, hcl⟩ := (mem_allParts gens c).1 hc
  obtain ⟨t, htl, rfl⟩ := List.getElem_of_mem hg
  have ht : gens[t]? = some gens[t] := List.getElem?_eq_getElem htl
  obtain ⟨st, h1, h2⟩ := firstIn_good gens [] hs (by simp) ⟨_, hg, ha⟩
  simp only [List.length_nil] at h1
  simp only [List.nil_append] at h2
  have hle : ∀ d ∈ c.fv, ∀ i k, find (gmapFrom 0 gens) 0 d = some (i, k) → i ≤ t := by
    intro d hd i k hf
    obtain ⟨-, f2⟩ := find_some _ 0 d i k hf
    rw [Nat.sub_zero] at f2
    obtain ⟨g', j, -, k1, k2, -⟩ := gmap_inv gens 0 k d i f2
    simp only [Nat.sub_zero] at k1
    by_contra hcon
    cases hw : gens[t].wh with
    | none => rw [hw] at hcl; simp [leavesOf] at hcl
    | some w =>
      rw [hw] at hcl
      exact scoped_later gens hs t i _ g' w d ht hw (leaves_fv w c hcl d hd) (by omega) k1 (List.mem_of_getElem? k2)
  obtain ⟨r1, r2, r3⟩ := fold_good gens hs t _ ht ha c.fv st hle h2
  exact ⟨_, by simp only [latest, h1], r1, r3⟩

theorem scoped_nodup : ∀ (gens : List Gen), Scoped gens → (declsOf gens).Nodup
  | [], _ => by simp [declsOf]
  | g :: gs, hs => by
    simp only [declsOf]
    rw [List.nodup_append]
    exact ⟨hs.2.1, scoped_nodup gs hs.2.2.2.2.2.2.2, fun a ha b hb hab => by
      subst hab; exact hs.2.2.1 a ha hb⟩

theorem mem_whereParts (gens : List Gen) : ∀ (cs : List Cond) (d : Nat) (c : Cond),
    (d, c) ∈ whereParts gens cs ↔ c ∈ cs ∧ latest gens c = some d
  | [], d, c => by simp [whereParts]
  | c' :: cs, d, c => by
    simp only [whereParts]
    cases hl : latest gens c' with
    | none =>
      simp only [mem_whereParts gens cs, List.mem_cons]
      constructor
      · rintro ⟨h1, h2⟩; exact ⟨Or.inr h1, h2⟩
      · rintro ⟨h1 | h1, h2⟩
        · subst h1; rw [hl] at h2; cases h2
        · exact ⟨h1, h2⟩
    | some d' =>
      simp only [List.mem_cons, Prod.mk.injEq, mem_whereParts gens cs]
      constructor
      · rintro (⟨rfl, rfl⟩ | ⟨h1, h2⟩)
        · exact ⟨Or.inl rfl, hl⟩
        · exact ⟨Or.inr h1, h2⟩
      · rintro ⟨h1 | h1, h2⟩
        · subst h1; rw [hl] at h2; cases h2; exact Or.inl ⟨rfl, rfl⟩
        · exact Or.inr ⟨h1, h2⟩

theorem mem_whereMap (wm : List (Nat × Cond)) (d : Nat) (c : Cond) : c ∈ whereMap wm d ↔ (d, c) ∈ wm := by
  simp only [whereMap, List.mem_map, List.mem_filter, decide_eq_true_eq]
  constructor
  · rintro ⟨⟨d', c'⟩, ⟨h1, h2⟩, h3⟩
    simp only at h2 h3
    subst h2; subst h3; exact h1
  · intro h; exact ⟨(d, c), ⟨h, rfl⟩, rfl⟩

/-! ## The new generators -/

theorem items_append (a b : List Gen) : items (a ++ b) = items a ++ items b := by
  induction a with
  | nil => rfl
  | cons g a ih => simp [items, ih]

theorem mkItems_snoc (src : Src) (cs : List Cond) : ∀ (acc : List Nat) (d : Nat),
    mkItems src cs (acc ++ [d]) = acc.map (fun d => (d, src, [])) ++ [(d, src, cs)]
  | [], d => rfl
  | [a], d => rfl
  | a :: b :: acc, d => by
    have := mkItems_snoc src cs (b :: acc) d
    simp only [List.cons_append] at this ⊢
    rw [mkItems, this]
    rfl

theorem items_rebuildGen (wm : List (Nat × Cond)) (src : Src) : ∀ (ds acc : List Nat), ds ≠ [] →
    items (rebuildGen wm src acc ds) = acc.map (fun d => (d, src, [])) ++ ds.map fun d => (d, src, whereMap wm d)
  | [], acc, h => absurd rfl h
  | d :: ds, acc, _ => by
    cases hw : whereMap wm d with
    | cons c cs =>
      simp only [rebuildGen, hw, items, leavesOf, conj_leaves, mkItems_snoc, List.map_cons, List.append_assoc, List.singleton_append]
      cases ds with
      | nil => simp [rebuildGen, items]
      | cons d' ds => rw [items_rebuildGen wm src (d' :: ds) [] (by simp)]; rfl
    | nil =>
      cases ds with
      | nil => simp [rebuildGen, hw, items, leavesOf, mkItems_snoc]
      | cons d' ds =>
        have : rebuildGen wm src acc (d :: d' :: ds) = rebuildGen wm src (acc ++ [d]) (d' :: ds) := by
          conv_lhs => rw [rebuildGen.eq_def]
          simp only [hw]
        rw [this, items_rebuildGen wm src (d' :: ds) (acc ++ [d]) (by simp)]
        simp [hw]

/-- The sequence of declarations with the parts that are moved to them. -/
def newItems (wm : List (Nat × Cond)) : List Gen → List Item
  | [] => []
  | g :: gs => g.decls.map (fun d => (d, g.src, if g.isAsn then [] else whereMap wm d)) ++ newItems wm gs

theorem rebuild_some (wm : List (Nat × Cond)) : ∀ (gens : List Gen), Scoped gens →
    (∀ g ∈ gens, g.isAsn = true → ∀ d ∈ g.decls, whereMap wm d = []) →
    ∃ r, rebuild wm gens = some r ∧ items r = newItems wm gens
  | [], _, _ => ⟨[], rfl, rfl⟩
  | g :: gs, hs, ha => by
    obtain ⟨r, h1, h2⟩ := rebuild_some wm gs hs.2.2.2.2.2.2.2 (fun g' hg' => ha g' (by simp [hg']))
    simp only [rebuild, h1]
    by_cases hg : g.isAsn = true
    · obtain ⟨l1, l2⟩ := hs.2.2.2.1 hg
      have hall : g.decls.all (fun d => (whereMap wm d).isEmpty) = true := by
        rw [List.all_eq_true]
        intro d hd
        rw [ha g (by simp) hg d hd]; rfl
      rw [if_pos hg, if_pos hall]
      refine ⟨_, rfl, ?_⟩
      simp only [items, newItems, h2, hg, if_true, l2, leavesOf]
      obtain ⟨d, hd⟩ := List.length_eq_one_iff.1 l1
      rw [hd]; rfl
    · rw [if_neg hg]
      refine ⟨_, rfl, ?_⟩
      rw [items_append, items_rebuildGen wm g.src g.decls [] hs.1, h2]
      simp only [newItems, hg, List.map_nil, List.nil_append]
      rfl

theorem newItems_fst (wm : List (Nat × Cond)) : ∀ gens, (newItems wm gens).map Prod.fst = declsOf gens
  | [] => rfl
  | g :: gs => by
    simp only [newItems, List.map_append, List.map_map, declsOf, newItems_fst wm gs]
    congr 1
    induction g.decls with
    | nil => rfl
    | cons d ds ih => rw [List.map_cons, ih]; rfl

theorem attached_of_pos : ∀ (l : List Item), (∀ (k : Nat) (it : Item), l[k]? = some it → ∀ c ∈ it.2.2, LocalTo c.fv c.val ∧
    ∀ x ∈ c.fv, ∀ k', k < k' → (l.map Prod.fst)[k']? ≠ some x) → Attached l
  | [], _ => trivial
  | it :: r, h => by
    refine ⟨fun c hc => ?_, attached_of_pos r fun k it' hit c hc => ?_⟩
    · obtain ⟨h1, h2⟩ := h 0 it rfl c hc
      refine ⟨h1, fun x hx hxr => ?_⟩
      obtain ⟨k, hk⟩ := List.getElem?_of_mem hxr
      exact h2 x hx (k + 1) (by omega) (by simpa using hk)
    · obtain ⟨h1, h2⟩ := h (k + 1) it' (by simpa using hit) c hc
      exact ⟨h1, fun x hx k' hk' => by have := h2 x hx (k' + 1) (by omega); simpa using this⟩

theorem attached_items : ∀ (gens : List Gen), Scoped gens → Attached (items gens) ∧ (items gens).map Prod.fst = declsOf gens
  | [], _ => ⟨trivial, rfl⟩
  | g :: gs, hs => by
    obtain ⟨a1, a2⟩ := attached_items gs hs.2.2.2.2.2.2.2
    have hl : ∀ c ∈ leavesOf g.wh, LocalTo c.fv c.val ∧ ∀ x ∈ c.fv, x ∉ declsOf gs := by
      intro c hc
      cases hw : g.wh with
      | none => rw [hw] at hc; simp [leavesOf] at hc
      | some w =>
        rw [hw] at hc
        obtain ⟨k1, k2⟩ := hs.2.2.2.2.2.2.1 w hw
        exact ⟨leaves_local w k1 c hc, fun x hx => k2 x (leaves_fv w c hc x hx)⟩
    have hmk : ∀ ds : List Nat, Attached (mkItems g.src (leavesOf g.wh) ds ++ items gs) ∧
        (mkItems g.src (leavesOf g.wh) ds ++ items gs).map Prod.fst = ds ++ declsOf gs := by
      intro ds
      induction ds with
      | nil => exact ⟨a1, by simpa [mkItems] using a2⟩
      | cons d ds ih =>
        cases ds with
        | nil =>
          refine ⟨⟨fun c hc => ?_, a1⟩, by simp [mkItems, a2]⟩
          obtain ⟨k1, k2⟩ := hl c hc
          exact ⟨k1, fun x hx hx' => k2 x hx (by rw [← a2]; exact hx')⟩
        | cons d' ds =>
          refine ⟨⟨by simp, ih.1⟩, ?_⟩
          simp only [mkItems, List.cons_append, List.map_cons]
          rw [ih.2]
          rfl
    exact hmk g.decls

theorem condsOf_items : ∀ (gens : List Gen), Scoped gens → condsOf (items gens) = gens.flatMap fun g => leavesOf g.wh
  | [], _ => rfl
  | g :: gs, hs => by
    have hmk : ∀ ds : List Nat, ds ≠ [] → condsOf (mkItems g.src (leavesOf g.wh) ds) = leavesOf g.wh := by
      intro ds
      induction ds with
      | nil => intro h; exact absurd rfl h
      | cons d ds ih =>
        intro _
        cases ds with
        | nil => simp [mkItems, condsOf]
        | cons d' ds =>
          have := ih (by simp)
          simp only [condsOf, mkItems, List.flatMap_cons, List.nil_append] at this ⊢
          exact this
    have ih := condsOf_items gs hs.2.2.2.2.2.2.2
    simp only [condsOf] at hmk ih
    simp only [condsOf, items, List.flatMap_append, List.flatMap_cons, hmk g.decls hs.1, ih]

theorem bare_items (wm : List (Nat × Cond)) : ∀ gens, bare (items gens) = bare (newItems wm gens)
  | [] => rfl
  | g :: gs => by
    have hmk : ∀ (cs : List Cond) (ds : List Nat), bare (mkItems g.src cs ds) = ds.map fun d => (d, g.src, []) := by
      intro cs ds
      induction ds with
      | nil => rfl
      | cons d ds ih =>
        cases ds with
        | nil => rfl
        | cons d' ds =>
          simp only [bare, mkItems, List.map_cons] at ih ⊢
          rw [ih]
    have ih := bare_items wm gs
    simp only [bare] at hmk ih
    simp only [bare, items, newItems, List.map_append, hmk, ih, List.map_map]
    rfl

/-- Static scoping in terms of the sequence of declarations. -/
def IS : List Item → Prop
  | [] => True
  | it :: r => it.1 ∉ r.map Prod.fst ∧ it.2.1.Local ∧ (∀ x ∈ it.2.1.fv, x ≠ it.1 ∧ x ∉ r.map Prod.fst) ∧ IS r

theorem IS_bare : ∀ (l : List Item), IS (bare l) ↔ IS l
  | [] => Iff.rfl
  | it :: r => by
    have h1 : (bare r).map Prod.fst = r.map Prod.fst := by simp [bare]
    have h2 : bare (it :: r) = (it.1, it.2.1, []) :: bare r := rfl
    rw [h2]
    simp only [IS, h1, IS_bare r]

theorem IS_items : ∀ (gens : List Gen), Scoped gens → IS (items gens)
  | [], _ => trivial
  | g :: gs, hs => by
    have ih := IS_items gs hs.2.2.2.2.2.2.2
    have hf := (attached_items gs hs.2.2.2.2.2.2.2).2
    obtain ⟨-, s2, s3, -, s5, s6, -, -⟩ := hs
    have : ∀ ds : List Nat, ds.Nodup → (∀ d ∈ ds, d ∉ declsOf gs) → (∀ x ∈ g.src.fv, x ∉ ds) →
        IS (mkItems g.src (leavesOf g.wh) ds ++ items gs) ∧
        (mkItems g.src (leavesOf g.wh) ds ++ items gs).map Prod.fst = ds ++ declsOf gs := by
      intro ds
      induction ds with
      | nil => intro _ _ _; exact ⟨ih, by simpa [mkItems] using hf⟩
      | cons d ds ihd =>
        intro h1 h2 h3
        obtain ⟨k1, k2⟩ := ihd (List.nodup_cons.1 h1).2 (fun d' hd' => h2 d' (by simp [hd'])) (fun x hx hx' => h3 x hx (by simp [hx']))
        have hcons : ∀ cs : List Cond, ∀ l, IS l → l.map Prod.fst = ds ++ declsOf gs → IS ((d, g.src, cs) :: l) := by
          intro cs l hl1 hl2
          refine ⟨?_, s5, fun x hx => ⟨fun hxd => h3 x hx (by simp [hxd]), ?_⟩, hl1⟩
          · rw [hl2]
            simp only [List.mem_append, not_or]
            exact ⟨(List.nodup_cons.1 h1).1, h2 d (by simp)⟩
          · rw [hl2]
            simp only [List.mem_append, not_or]
            exact ⟨fun hx' => h3 x hx (by simp [hx']), (s6 x hx).2⟩
        cases ds with
        | nil => exact ⟨hcons _ _ ih (by simpa using hf), by simp [mkItems, hf]⟩
        | cons d' ds =>
          refine ⟨hcons _ _ k1 k2, ?_⟩
          simp only [mkItems, List.cons_append, List.map_cons]
          rw [k2]; rfl
    exact (this g.decls s2 s3 (fun x hx => (s6 x hx).1)).1

theorem w_of_leaves : ∀ (w : W), (∀ c ∈ w.leaves, LocalTo c.fv c.val) → w.Local
  | .leaf c, h => h c (by simp [W.leaves])
  | .and l r, h => ⟨w_of_leaves l fun c hc => h c (by simp [W.leaves, hc]), w_of_leaves r fun c hc => h c (by simp [W.leaves, hc])⟩

theorem fv_of_leaves : ∀ (w : W) (x : Nat), x ∈ w.fv → ∃ c ∈ w.leaves, x ∈ c.fv
  | .leaf c, x, h => ⟨c, by simp [W.leaves], h⟩
  | .and l r, x, h => by
    simp only [W.fv, List.mem_append] at h
    rcases h with h | h
    · obtain ⟨c, h1, h2⟩ := fv_of_leaves l x h; exact ⟨c, by simp [W.leaves, h1], h2⟩
    · obtain ⟨c, h1, h2⟩ := fv_of_leaves r x h; exact ⟨c, by simp [W.leaves, h1], h2⟩

theorem mkItems_fst (src : Src) (cs : List Cond) : ∀ ds, (mkItems src cs ds).map Prod.fst = ds
  | [] => rfl
  | [d] => rfl
  | d :: d' :: ds => by
    have := mkItems_fst src cs (d' :: ds)
    rw [mkItems, List.map_cons, this]

theorem items_fst : ∀ gens, (items gens).map Prod.fst = declsOf gens
  | [] => rfl
  | g :: gs => by rw [items, List.map_append, mkItems_fst, items_fst gs]; rfl

theorem scoped_of_items : ∀ (gens : List Gen),
    (∀ g ∈ gens, g.decls ≠ [] ∧ (g.isAsn = true → g.decls.length = 1 ∧ g.wh = none)) → IS (items gens) → Attached (items gens) →
    Scoped gens
  | [], _, _, _ => trivial
  | g :: gs, hg, hi, ha => by
    have hfst := items_fst gs
    have hmk : ∀ ds : List Nat, ds ≠ [] → IS (mkItems g.src (leavesOf g.wh) ds ++ items gs) →
        Attached (mkItems g.src (leavesOf g.wh) ds ++ items gs) →
        ds.Nodup ∧ (∀ d ∈ ds, d ∉ declsOf gs) ∧ g.src.Local ∧ (∀ x ∈ g.src.fv, x ∉ ds ∧ x ∉ declsOf gs) ∧
        (∀ c ∈ leavesOf g.wh, LocalTo c.fv c.val ∧ ∀ x ∈ c.fv, x ∉ declsOf gs) ∧ IS (items gs) ∧ Attached (items gs) := by
      intro ds
      induction ds with
      | nil => intro h; exact absurd rfl h
      | cons d ds ih =>
        intro _ h1 h2
        cases ds with
        | nil =>
          simp only [mkItems, List.singleton_append, IS, Attached, hfst] at h1 h2
          exact ⟨by simp, by simpa using h1.1, h1.2.1, fun x hx => by simpa using h1.2.2.1 x hx, h2.1, h1.2.2.2, h2.2⟩
        | cons d' ds =>
          obtain ⟨i1, i2, i3, i4, i5, i6, i7⟩ := ih (by simp) h1.2.2.2 h2.2
          have hf : ((mkItems g.src (leavesOf g.wh) (d' :: ds)).append (items gs)).map Prod.fst = (d' :: ds) ++ declsOf gs := by
            have := mkItems_fst g.src (leavesOf g.wh) (d' :: ds)
            rw [List.append_eq, List.map_append, this, hfst]
          have q1 := h1.1
          have q2 := h1.2.2.1
          rw [hf] at q1 q2
          simp only [List.mem_append, not_or] at q1 q2
          refine ⟨List.nodup_cons.2 ⟨q1.1, i1⟩, ?_, i3, ?_, i5, i6, i7⟩
          · intro e he
            rcases List.mem_cons.1 he with h | h
            · subst h; exact q1.2
            · exact i2 e h
          · intro x hx
            refine ⟨?_, (i4 x hx).2⟩
            intro hx'
            rcases List.mem_cons.1 hx' with h | h
            · exact (q2 x hx).1 h
            · exact (i4 x hx).1 h
    obtain ⟨r1, r2, r3, r4, r5, r6, r7⟩ := hmk g.decls (hg g (by simp)).1 hi ha
    refine ⟨(hg g (by simp)).1, r1, r2, (hg g (by simp)).2, r3, r4, fun w hw => ?_,
      scoped_of_items gs (fun g' hg' => hg g' (by simp [hg'])) r6 r7⟩
    rw [hw] at r5
    refine ⟨w_of_leaves w fun c hc => (r5 c hc).1, fun x hx => ?_⟩
    obtain ⟨c, h1, h2⟩ := fv_of_leaves w x hx
    exact (r5 c h1).2 x h2

theorem rebuildGen_shape (wm : List (Nat × Cond)) (src : Src) : ∀ (ds acc : List Nat), ∀ g ∈ rebuildGen wm src acc ds,
    g.decls ≠ [] ∧ g.src = src
  | [], acc, g, h => by simp [rebuildGen] at h
  | d :: ds, acc, g, h => by
    rw [rebuildGen.eq_def] at h
    simp only at h
    split at h
    · rcases List.mem_cons.1 h with h | h
      · subst h; exact ⟨by simp, rfl⟩
      · exact rebuildGen_shape wm src ds [] g h
    · split at h
      · simp only [List.mem_singleton] at h
        subst h; exact ⟨by simp, rfl⟩
      · exact rebuildGen_shape wm src _ _ g h

theorem rebuild_shape (wm : List (Nat × Cond)) : ∀ (gens r : List Gen),
    (∀ g ∈ gens, g.decls ≠ [] ∧ (g.isAsn = true → g.decls.length = 1 ∧ g.wh = none)) → rebuild wm gens = some r →
    ∀ g ∈ r, g.decls ≠ [] ∧ (g.isAsn = true → g.decls.length = 1 ∧ g.wh = none)
  | [], r, _, h => by simp only [rebuild, Option.some.injEq] at h; subst h; simp
  | g :: gs, r, hg, h => by
    simp only [rebuild] at h
    cases hr : rebuild wm gs with
    | none => rw [hr] at h; cases h
    | some r' =>
      have ih := rebuild_shape wm gs r' (fun g' hg' => hg g' (by simp [hg'])) hr
      rw [hr] at h
      simp only at h
      by_cases ha : g.isAsn = true
      · rw [if_pos ha] at h
        split at h
        · cases h
          intro g' hg'
          rcases List.mem_cons.1 hg' with h | h
          · subst h; exact hg _ (by simp)
          · exact ih g' h
        · cases h
      · rw [if_neg ha] at h
        cases h
        intro g' hg'
        rcases List.mem_append.1 hg' with h | h
        · obtain ⟨k1, k2⟩ := rebuildGen_shape wm g.src _ _ g' h
          refine ⟨k1, fun hb => ?_⟩
          exfalso; apply ha
          unfold Gen.isAsn at hb ⊢
          rw [← k2]; exact hb
        · exact ih g' h

theorem scoped_shape : ∀ (gens : List Gen), Scoped gens →
    ∀ g ∈ gens, g.decls ≠ [] ∧ (g.isAsn = true → g.decls.length = 1 ∧ g.wh = none)
  | [], _, g, h => by simp at h
  | g0 :: gs, hs, g, h => by
    rcases List.mem_cons.1 h with h | h
    · subst h; exact ⟨hs.1, hs.2.2.2.1⟩
    · exact scoped_shape gs hs.2.2.2.2.2.2.2 g h

/-- **C69**: the type checker splits where clauses into their conjuncts, moves each of them to the first place where all
declarations in it have a value, and splits generators accordingly. This never fails, and the new generators generate the same
elements in the same order. -/
theorem _root_.MZ.C69_typecheck (gens : List Gen) (hs : Scoped gens) :
    ∃ gens', typecheck gens = some gens' ∧ Scoped gens' ∧ declsOf gens' = declsOf gens ∧
      ∀ env, bindings gens' env = bindings gens env := by
  have hnd := scoped_nodup gens hs
  have hdm := declsOf_gmap gens 0
  -- positions are unique
  have huniq : ∀ (k k' d i : Nat), (gmapFrom 0 gens)[k]? = some (d, i) → (declsOf gens)[k']? = some d → k = k' := by
    intro k k' d i h1 h2
    have h3 : (declsOf gens)[k]? = some d := by rw [← hdm, List.getElem?_map, h1]; rfl
    have l1 : k < (declsOf gens).length := (List.getElem?_eq_some_iff.1 h3).1
    have l2 : k' < (declsOf gens).length := (List.getElem?_eq_some_iff.1 h2).1
    rw [List.getElem?_eq_getElem l1] at h3
    rw [List.getElem?_eq_getElem l2] at h2
    exact (List.Nodup.getElem_inj_iff hnd).1 (by rw [Option.some.inj h3, Option.some.inj h2])
  have hwm : ∀ d c, c ∈ whereMap (whereParts gens (allParts gens)) d ↔ c ∈ allParts gens ∧ latest gens c = some d := by
    intro d c
    rw [mem_whereMap, mem_whereParts]
  obtain ⟨r, hr, hri⟩ := rebuild_some (whereParts gens (allParts gens)) gens hs (by
    intro g hg ha d hd
    rw [List.eq_nil_iff_forall_not_mem]
    intro c hc
    obtain ⟨h1, h2⟩ := (hwm d c).1 hc
    obtain ⟨st, k1, ⟨i, g', k2, k3, k4⟩, -⟩ := latest_ok gens hs c h1
    rw [h2] at k1
    have hst : st.2 = d := (Option.some.inj k1).symm
    rw [hst] at k2
    obtain ⟨t, htl, rfl⟩ := List.getElem_of_mem hg
    obtain ⟨j, hj⟩ := List.getElem?_of_mem hd
    have g1 := gmap_get gens 0 t _ j d (List.getElem?_eq_getElem htl) hj
    have e1 := huniq _ _ d _ k2 (by rw [← hdm, List.getElem?_map, g1]; rfl)
    rw [e1, g1] at k2
    simp only [Nat.zero_add, Option.some.injEq, Prod.mk.injEq, true_and] at k2
    subst k2
    rw [List.getElem?_eq_getElem htl] at k3
    cases k3
    rw [ha] at k4; cases k4)
  have hfst := newItems_fst (whereParts gens (allParts gens)) gens
  have hnew : ∀ (it : Item), it ∈ newItems (whereParts gens (allParts gens)) gens → ∀ c ∈ it.2.2,
      c ∈ whereMap (whereParts gens (allParts gens)) it.1 := by
    intro it
    generalize whereParts gens (allParts gens) = wm
    clear hs hnd hdm huniq hwm hr hri hfst
    induction gens with
    | nil => intro h; simp [newItems] at h
    | cons g gs ih =>
      intro h c hc
      simp only [newItems, List.mem_append, List.mem_map] at h
      rcases h with ⟨d, hd, rfl⟩ | h
      · simp only at hc ⊢
        split at hc
        · simp at hc
        · exact hc
      · exact ih h c hc
  have hatt : Attached (newItems (whereParts gens (allParts gens)) gens) := by
    apply attached_of_pos
    intro k it hit c hc
    obtain ⟨h1, h2⟩ := (hwm it.1 c).1 (hnew it (List.mem_of_getElem? hit) c hc)
    refine ⟨?_, ?_⟩
    · obtain ⟨g, hg, -, hcl⟩ := (mem_allParts gens c).1 h1
      cases hw : g.wh with
      | none => rw [hw] at hcl; simp [leavesOf] at hcl
      | some w =>
        rw [hw] at hcl
        exact leaves_local w ((scoped_wh gens hs g hg).1 w hw) c hcl
    · intro x hx k' hk' hk
      rw [hfst] at hk
      obtain ⟨st, k1, ⟨i, g', k2, -, -⟩, k4⟩ := latest_ok gens hs c h1
      rw [h2] at k1
      have hst : st.2 = it.1 := (Option.some.inj k1).symm
      rw [hst] at k2
      have e1 := huniq _ k it.1 _ k2 (by rw [← hfst, List.getElem?_map, hit]; rfl)
      cases hf : find (gmapFrom 0 gens) 0 x with
      | none =>
        have := find_none _ _ _ hf
        rw [hdm] at this
        exact this (List.mem_of_getElem? hk)
      | some p =>
        obtain ⟨pi, pk⟩ := p
        have := k4 x hx pi pk hf
        obtain ⟨-, f2⟩ := find_some _ 0 x pi pk hf
        rw [Nat.sub_zero] at f2
        have := huniq _ _ x _ f2 hk
        omega
  have hsr : Scoped r := by
    refine scoped_of_items r (rebuild_shape _ gens r (scoped_shape gens hs) hr) ?_ (by rw [hri]; exact hatt)
    rw [hri, ← IS_bare, ← bare_items, IS_bare]
    exact IS_items gens hs
  refine ⟨r, hr, hsr, by rw [← items_fst, hri, hfst], fun env => ?_⟩
  rw [bindings_flat gens hs, bindings_flat r hsr, hri]
  refine flat_same _ _ hatt (attached_items gens hs).1 (bare_items _ gens).symm ?_ env
  · intro c
    rw [condsOf_items gens hs]
    simp only [List.mem_flatMap]
    constructor
    · intro h
      simp only [condsOf, List.mem_flatMap] at h
      obtain ⟨it, h1, h2⟩ := h
      obtain ⟨k1, -⟩ := (hwm it.1 c).1 (hnew it h1 c h2)
      obtain ⟨g, hg, -, hcl⟩ := (mem_allParts gens c).1 k1
      exact ⟨g, hg, hcl⟩
    · rintro ⟨g, hg, hcl⟩
      have hc : c ∈ allParts gens := by
        rw [mem_allParts]
        refine ⟨g, hg, ?_, hcl⟩
        by_contra ha
        rw [(scoped_wh gens hs g hg).2 (by simpa using ha)] at hcl
        simp [leavesOf] at hcl
      obtain ⟨st, k1, ⟨i, g', k2, k3, k4⟩, -⟩ := latest_ok gens hs c hc
      obtain ⟨g2, j, -, m1, m2, -⟩ := gmap_inv gens 0 st.1 st.2 i k2
      simp only [Nat.sub_zero] at m1
      rw [k3] at m1; cases m1
      simp only [condsOf, List.mem_flatMap]
      refine ⟨(st.2, g'.src, whereMap (whereParts gens (allParts gens)) st.2), ?_, (hwm st.2 c).2 ⟨hc, k1⟩⟩
      have hmem : g' ∈ gens := List.mem_of_getElem? k3
      generalize whereParts gens (allParts gens) = wm
      clear hatt hsr hs hnd hdm huniq hwm hr hri hfst hnew k1 k2 k3 hc hg hcl
      induction gens with
      | nil => simp at hmem
      | cons g0 gs ih =>
        simp only [newItems, List.mem_append, List.mem_map]
        rcases List.mem_cons.1 hmem with h | h
        · subst h
          exact Or.inl ⟨st.2, List.mem_of_getElem? m2, by simp [k4]⟩
        · exact Or.inr (ih h)

end Comp
end MZ
