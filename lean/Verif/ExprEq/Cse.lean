import Verif.ExprEq.Hash
import Mathlib.Data.List.Basic
/-!
# Common subexpression elimination

The map from expressions that have been flattened to their results: `EnvI::cseMapInsert`,
`cseMapFind`, `cseMapRemove` (lib/flatten.cpp 972–1032), `Call::commutativeNormalized`
(lib/ast.cpp 963–1046), `EnvI::CSEMap::fixWeakRefs` (flatten_internal.hh 330–343) and
`KeepAliveMap` (hash.hh 280–313).

The hash table is a list of entries in an arbitrary order; the order may change at any time
(`Reach.perm`). `C66_hash_table` shows that comparing only the entries with the same hash
value finds the same entries.
-/
namespace MZ
namespace ExprEq

/-- The condition of a result (`EE::b`, `WW::b`): the node `constants.literalTrue`, which the
program recognises by its address, or another expression. -/
inductive Cond where
  | litTrue
  | expr (e : E)
deriving Inhabited

/-- flatten_internal.hh 325 `WW`: a result and the condition under which it is defined. -/
structure WW where
  r : E
  b : Cond
deriving Inhabited

/-- The map. -/
abbrev M := List (E × WW)

/-- What the functions use of the rest of the program. -/
structure Cfg where
  /-- the declaration of a function is annotated with `no_cse` -/
  noCse : Nat → Bool
  /-- the declaration of a function is annotated with `promise_commutative` -/
  comm : Nat → Bool
  /-- `Type::isPar` (see C16) -/
  par : Nat → Bool
  /-- `constants.ids.bool_.not_` -/
  notName : List Nat
  /-- `std::sort` with `com_sort` (ast.cpp 964–1021) -/
  sort : List E → List E
  /-- `eval_array_lit`: type, dimensions and elements of the array literal -/
  evalArr : E → Nat × List Int × List E
  /-- the hash value computed for a new node -/
  newHash : E → Nat

/-- `_type` and `_hash` of a node. -/
def hd? : E → Option Hd
  | .nul => none
  | .intU _ => none
  | .fltU _ => none
  | .int hd _ => some hd
  | .flt hd _ => some hd
  | .setI hd _ => some hd
  | .setF hd _ => some hd
  | .setV hd _ => some hd
  | .bool hd _ => some hd
  | .str hd _ => some hd
  | .id hd _ _ _ => some hd
  | .anon hd _ => some hd
  | .arr hd _ _ => some hd
  | .acc hd _ _ => some hd
  | .fld hd _ _ => some hd
  | .comp hd _ _ _ _ => some hd
  | .ite hd _ _ => some hd
  | .bin hd _ _ _ => some hd
  | .un hd _ _ => some hd
  | .call hd _ _ _ => some hd
  | .vd hd _ _ _ => some hd
  | .lets hd _ _ => some hd
  | .ti hd _ _ => some hd
  | .tiid hd _ _ => some hd

/-- `Expression::type(e).isPar()` (ast.hh 578–586: unboxed literals are parameters). -/
def isPar (C : Cfg) (e : E) : Bool :=
  match hd? e with
  | some h => C.par h.ty
  | none => true

/-- `Expression::isa<ArrayLit>`. -/
def isArr : E → Bool
  | .arr _ _ _ => true
  | _ => false

/-- `Expression::isa<Id>`. -/
def isId : E → Bool
  | .id _ _ _ _ => true
  | _ => false

/-- A new node: the constructors end with `rehash()`. -/
def fresh (C : Cfg) (e : E) : E := setHash (C.newHash e) e

/-- ast.cpp 963–1046 `Call::commutativeNormalized`. The new call has the default type, and the
new array literal has one dimension that begins at 1. -/
def normalized (C : Cfg) (n : List Nat) (d : Option Nat) (args : List E) : E :=
  match args with
  | [a] =>
    let al := C.evalArr a
    let es := C.sort al.2.2
    fresh C (.call ⟨0, 0⟩ n d [fresh C (.arr ⟨al.1, 0⟩ [1, es.length] es)])
  | _ => fresh C (.call ⟨0, 0⟩ n d (C.sort args))

/-- flatten.cpp 982–984, 1021–1029: the key under which an expression is stored and sought. -/
def cseKey (C : Cfg) : E → E
  | .call h n (some d) args => if C.comm d then normalized C n (some d) args else .call h n (some d) args
  | e => e

/-- `KeepAliveMap::insert`: nothing happens if there is an equal key. -/
def ins (flat : Nat → Option Nat) (m : M) (k : E) (w : WW) : M :=
  if m.any (fun p => equal flat p.1 k) then m else (k, w) :: m

/-- `KeepAliveMap::remove`: at most one entry is erased. -/
def rem (flat : Nat → Option Nat) (m : M) (k : E) : M := m.eraseP (fun p => equal flat p.1 k)

/-- `_type` of a key (only used for calls). -/
def tyOf (e : E) : Nat :=
  match hd? e with
  | some h => h.ty
  | none => 0

/-- flatten.cpp 979–982: the function of a call must not be used for common subexpressions. -/
def skipped (C : Cfg) : E → Bool
  | .call _ _ (some d) _ => C.noCse d
  | _ => false

/-- flatten.cpp 987–993: the entry for the negation, if the expression is the negation of a
variable and the result is a variable. -/
def negEntry (C : Cfg) (e : E) (w : WW) : Option (E × WW) :=
  match e, w.b with
  | .call _ n d (x :: _), .litTrue =>
    if n = C.notName ∧ isId x = true ∧ isId w.r = true then
      some (fresh C (.call ⟨tyOf (cseKey C e), 0⟩ n d [w.r]), ⟨x, .litTrue⟩)
    else none
  | _, _ => none

/-- flatten.cpp 972–995 `EnvI::cseMapInsert`. -/
def cseInsert (C : Cfg) (flat : Nat → Option Nat) (m : M) (e : E) (w : WW) : M :=
  if isPar C e && !isArr e then m
  else if skipped C e then m
  else
    let m1 := ins flat m (cseKey C e) w
    match negEntry C e w with
    | some (k, v) => ins flat m1 k v
    | none => m1

/-- flatten.cpp 1004–1006: the declaration of a result that is an identifier or a declaration. -/
def declOf : E → Option Nat
  | .id _ d _ _ => d
  | .vd _ _ (.id _ d _ _) _ => d
  | _ => none

/-- Whether the result is a null pointer. -/
def isNul : E → Bool
  | .nul => true
  | _ => false

/-- flatten.cpp 996–1031 `EnvI::cseMapFind`: the new map and what has been found. `alive d`: the
declaration is in `varOccurrences` and its item is not removed. -/
def cseFind (C : Cfg) (flat : Nat → Option Nat) (alive : Nat → Bool) (m : M) (e : E) :
    M × Option WW :=
  let k := cseKey C e
  match m.find? (fun p => equal flat p.1 k) with
  | none => (m, none)
  | some p =>
    if isNul p.2.r then (rem flat m k, none)
    else
      match declOf p.2.r with
      | some d => if alive d then (m, some p.2) else (rem flat m k, none)
      | none => (m, some p.2)

/-- flatten.cpp 1032 `EnvI::cseMapRemove`: the expression is not normalised. -/
def cseRemove (flat : Nat → Option Nat) (m : M) (e : E) : M := rem flat m e

/-- flatten_internal.hh 332–342 `CSEMap::fixWeakRefs`: the keys of entries whose result or
condition is not marked are collected and then erased one after the other. `marked` is
`Expression::hasMark`; the node `literalTrue` is always marked. -/
def fixWeakRefs (flat : Nat → Option Nat) (marked : E → Bool) (m : M) : M :=
  let dead := m.filter fun p =>
    !(marked p.2.r && match p.2.b with
      | .litTrue => true
      | .expr e => marked e)
  dead.foldl (fun m p => rem flat m p.1) m

/-! ## Specification -/

/-- What the expressions mean, and which values are Boolean, true, and undefined. -/
structure Ctx (α : Type) where
  S : Sem α
  p : List Nat → Int → Bool
  boolean : α → Prop
  true' : α → Prop
  undef : α → Prop

/-- The condition of a result holds. -/
def Ctx.holds {α : Type} (X : Ctx α) : Cond → Prop
  | .litTrue => True
  | .expr e => X.true' (sem X.S e)

/-- A result stands for an expression: it has the value of the expression if the condition holds,
and the expression is undefined if it does not. -/
def Ctx.Means {α : Type} (X : Ctx α) (e : E) (w : WW) : Prop :=
  (X.holds w.b → sem X.S e = sem X.S w.r) ∧ (¬ X.holds w.b → X.undef (sem X.S e))

/-- The assumptions on the rest of the program: sorting permutes, `eval_array_lit` returns an
array with the same value, functions that are promised to be commutative do not depend on the
order of their arguments (or of the elements of their only argument, nor on its index set), and
a variable is the negation of its negation. -/
structure Ctx.Ok {α : Type} (X : Ctx α) (C : Cfg) : Prop where
  sort_perm : ∀ l, (C.sort l).Perm l
  eval : ∀ a, Wf X.p a → WfL X.p (C.evalArr a).2.2 ∧
    sem X.S a = X.S.arr (C.evalArr a).1 (C.evalArr a).2.1 (semL X.S (C.evalArr a).2.2)
  comm : ∀ n d as bs, C.comm d = true → as.Perm bs →
    X.S.call n (some d) as = X.S.call n (some d) bs
  comm1 : ∀ n d t i j as bs, C.comm d = true → as.Perm bs →
    X.S.call n (some d) [X.S.arr t i as] = X.S.call n (some d) [X.S.arr t j bs]
  neg : ∀ d x, X.boolean x → X.S.call C.notName d [X.S.call C.notName d [x]] = x

/-- The declarations in the flat model have the values of the declarations they stand for. -/
def Ctx.FlatOk {α : Type} (X : Ctx α) (flat : Nat → Option Nat) : Prop :=
  ∀ d f, flat d = some f → X.S.var d = X.S.var f

/-- The arguments of negations are Boolean, and there is one. -/
def Ctx.Typed {α : Type} (X : Ctx α) (C : Cfg) : E → Prop
  | .call _ n _ args => n = C.notName → ∃ a, args = [a] ∧ X.boolean (sem X.S a)
  | _ => True

/-- The maps that can arise: every sequence of insertions of correct results, searches, removals,
garbage collections and changes of the order, where `flat`, the variables of the flat model and
the marks may be different each time. `upd`: the nodes of keys and results may be changed in place
(identifiers are redirected when variables are unified) if their meanings stay the same. -/
inductive Reach {α : Type} (X : Ctx α) (C : Cfg) : M → Prop
  | empty : Reach X C []
  | insert {m} (flat : Nat → Option Nat) (e : E) (w : WW) : Reach X C m → Wf X.p e → Wf X.p w.r →
      X.Typed C e → X.Means e w → Reach X C (cseInsert C flat m e w)
  | find {m} (flat : Nat → Option Nat) (alive : Nat → Bool) (e : E) : Reach X C m →
      Reach X C (cseFind C flat alive m e).1
  | remove {m} (flat : Nat → Option Nat) (e : E) : Reach X C m → Reach X C (cseRemove flat m e)
  | gc {m} (flat : Nat → Option Nat) (marked : E → Bool) : Reach X C m →
      Reach X C (fixWeakRefs flat marked m)
  | perm {m m'} : Reach X C m → m'.Perm m → Reach X C m'
  | upd {m} (f : E → E) (g : WW → WW) : Reach X C m →
      (∀ e, Wf X.p e → Wf X.p (f e) ∧ sem X.S (f e) = sem X.S e) →
      (∀ w, sem X.S (g w).r = sem X.S w.r ∧ (X.holds (g w).b ↔ X.holds w.b)) →
      Reach X C (m.map fun q => (f q.1, g q.2))

/-! ## Proofs -/

theorem sem_setHash {α : Type} (S : Sem α) (h : Nat) (e : E) : sem S (setHash h e) = sem S e := by
  cases e <;> simp [setHash, sem]

theorem Wf_setHash (p : List Nat → Int → Bool) (h : Nat) (e : E) : Wf p (setHash h e) ↔ Wf p e := by
  cases e <;> simp [setHash, Wf]

theorem sem_fresh {α : Type} (S : Sem α) (C : Cfg) (e : E) : sem S (fresh C e) = sem S e :=
  sem_setHash S _ e

theorem Wf_fresh (p : List Nat → Int → Bool) (C : Cfg) (e : E) : Wf p (fresh C e) ↔ Wf p e :=
  Wf_setHash p _ e

theorem semL_eq {α : Type} (S : Sem α) : ∀ es, semL S es = es.map (sem S)
  | [] => by simp [semL]
  | e :: es => by simp [semL, semL_eq S es]

theorem WfL_iff (p : List Nat → Int → Bool) : ∀ es, WfL p es ↔ ∀ e ∈ es, Wf p e
  | [] => by simp [WfL]
  | e :: es => by simp [WfL, WfL_iff p es]

theorem semL_perm {α : Type} (S : Sem α) {as bs : List E} (h : as.Perm bs) :
    (semL S as).Perm (semL S bs) := by
  rw [semL_eq, semL_eq]; exact h.map _

theorem WfL_perm {p : List Nat → Int → Bool} {as bs : List E} (h : as.Perm bs) :
    WfL p as ↔ WfL p bs := by
  rw [WfL_iff, WfL_iff]; exact ⟨fun w e m => w e (h.mem_iff.2 m), fun w e m => w e (h.mem_iff.1 m)⟩

theorem normalized_ok {α : Type} {X : Ctx α} {C : Cfg} (ok : X.Ok C) (n : List Nat) (d : Nat)
    (args : List E) (hd : C.comm d = true) (wf : WfL X.p args) :
    Wf X.p (normalized C n (some d) args) ∧
      sem X.S (normalized C n (some d) args) = X.S.call n (some d) (semL X.S args) := by
  unfold normalized
  split
  · rename_i a
    have ea := ok.eval a wf.1
    have hp := ok.sort_perm (C.evalArr a).2.2
    refine ⟨?_, ?_⟩
    · rw [Wf_fresh]
      simp only [Wf, WfL, Wf_fresh, and_true]
      exact (WfL_perm hp).2 ea.1
    · rw [sem_fresh]
      simp only [sem, semL, sem_fresh, ea.2]
      exact ok.comm1 _ _ _ _ _ _ _ hd (semL_perm X.S hp)
  · have hp := ok.sort_perm args
    refine ⟨?_, ?_⟩
    · rw [Wf_fresh]
      simp only [Wf]
      exact (WfL_perm hp).2 wf
    · rw [sem_fresh]
      simp only [sem]
      exact ok.comm _ _ _ _ hd (semL_perm X.S hp)

theorem cseKey_ok {α : Type} {X : Ctx α} {C : Cfg} (ok : X.Ok C) (e : E) (wf : Wf X.p e) :
    Wf X.p (cseKey C e) ∧ sem X.S (cseKey C e) = sem X.S e := by
  unfold cseKey
  split
  · rename_i h n d args
    split
    · rename_i hd
      have := normalized_ok ok n d args hd (by simpa [Wf] using wf)
      simpa [sem] using this
    · exact ⟨wf, rfl⟩
  · exact ⟨wf, rfl⟩

/-- The invariant: every entry has a well-formed key and a correct result. -/
def Inv {α : Type} (X : Ctx α) (m : M) : Prop := ∀ q ∈ m, Wf X.p q.1 ∧ X.Means q.1 q.2

theorem rem_subset (flat : Nat → Option Nat) (m : M) (k : E) : rem flat m k ⊆ m :=
  List.eraseP_subset

theorem Inv.subset {α : Type} {X : Ctx α} {m m' : M} (i : Inv X m) (h : m' ⊆ m) : Inv X m' :=
  fun q hq => i q (h hq)

theorem ins_inv {α : Type} {X : Ctx α} {flat : Nat → Option Nat} {m : M} {k : E} {w : WW}
    (i : Inv X m) (wf : Wf X.p k) (hm : X.Means k w) : Inv X (ins flat m k w) := by
  unfold ins
  split
  · exact i
  · intro q hq
    rcases List.mem_cons.1 hq with rfl | hq
    · exact ⟨wf, hm⟩
    · exact i q hq

theorem negEntry_ok {α : Type} {X : Ctx α} {C : Cfg} (ok : X.Ok C) {e : E} {w : WW}
    (wfr : Wf X.p w.r) (ty : X.Typed C e) (hm : X.Means e w) {k : E} {v : WW}
    (h : negEntry C e w = some (k, v)) : Wf X.p k ∧ X.Means k v := by
  unfold negEntry at h
  split at h
  · rename_i hd n d x xs hb
    split at h
    · rename_i hc
      simp only [Option.some.injEq, Prod.mk.injEq] at h
      obtain ⟨rfl, rfl⟩ := h
      obtain ⟨a, ha, hbool⟩ := ty hc.1
      obtain ⟨rfl, rfl⟩ : x = a ∧ xs = [] := by simpa using ha
      refine ⟨by rw [Wf_fresh]; simpa [Wf, WfL] using wfr, ?_, ?_⟩
      · intro _
        have h1 := hm.1 (by rw [hb]; trivial)
        rw [sem_fresh]
        simp only [sem, semL] at h1 ⊢
        rw [← h1, hc.1]
        exact ok.neg d _ hbool
      · intro hn; exact absurd trivial hn
    · cases h
  · cases h

theorem Means_congr {α : Type} {X : Ctx α} {a b : E} {w : WW} (h : sem X.S a = sem X.S b)
    (hm : X.Means a w) : X.Means b w := by
  unfold Ctx.Means at *; rwa [← h]

theorem fold_rem_subset (flat : Nat → Option Nat) : ∀ (dead m : M),
    dead.foldl (fun m p => rem flat m p.1) m ⊆ m
  | [], m => fun _ h => h
  | q :: dead, m => by
    simp only [List.foldl_cons]
    exact fun x hx => rem_subset flat m q.1 (fold_rem_subset flat dead _ hx)

theorem cseFind_subset (C : Cfg) (flat : Nat → Option Nat) (alive : Nat → Bool) (m : M) (e : E) :
    (cseFind C flat alive m e).1 ⊆ m := by
  unfold cseFind
  simp only
  split
  · exact fun _ h => h
  · split
    · exact rem_subset ..
    · split
      · split
        · exact fun _ h => h
        · exact rem_subset ..
      · exact fun _ h => h

theorem Reach.inv {α : Type} {X : Ctx α} {C : Cfg} (ok : X.Ok C) {m : M} (h : Reach X C m) :
    Inv X m := by
  induction h with
  | empty => intro q hq; cases hq
  | insert flat e w _ wf wfr ty hm ih =>
    unfold cseInsert
    split
    · exact ih
    · split
      · exact ih
      · have hk := cseKey_ok ok e wf
        have i1 : Inv X (ins flat _ (cseKey C e) w) := ins_inv ih hk.1 (Means_congr hk.2.symm hm)
        simp only
        split
        · rename_i k v hv
          have := negEntry_ok ok wfr ty hm hv
          exact ins_inv i1 this.1 this.2
        · exact i1
  | find flat alive e _ ih => exact ih.subset (cseFind_subset ..)
  | remove flat e _ ih => exact ih.subset (rem_subset ..)
  | gc flat marked _ ih => exact ih.subset (fold_rem_subset ..)
  | perm _ hp ih => exact ih.subset (fun q hq => hp.mem_iff.1 hq)
  | upd f g _ hf hg ih =>
    intro q hq
    obtain ⟨q', hq', rfl⟩ := List.mem_map.1 hq
    have i := ih q' hq'
    have hf := hf q'.1 i.1
    have hg := hg q'.2
    refine ⟨hf.1, ?_, ?_⟩
    · intro hb; rw [hf.2, hg.1]; exact i.2.1 (hg.2.1 hb)
    · intro hb; rw [hf.2]; exact i.2.2 (fun h => hb (hg.2.2 h))

theorem cseFind_some {C : Cfg} {flat : Nat → Option Nat} {alive : Nat → Bool} {m : M} {e : E} {w : WW}
    (h : (cseFind C flat alive m e).2 = some w) :
    (∃ k, (k, w) ∈ m ∧ equal flat k (cseKey C e) = true) ∧ w.r ≠ .nul ∧
      (∀ d, declOf w.r = some d → alive d = true) := by
  unfold cseFind at h
  simp only at h
  split at h
  · cases h
  · rename_i q hq
    have hmem := List.mem_of_find?_eq_some hq
    have heq := List.find?_some hq
    split at h
    · cases h
    · rename_i hn
      have hn' : q.2.r ≠ .nul := by intro hh; rw [hh] at hn; simp [isNul] at hn
      split at h
      · rename_i d hd
        split at h
        · rename_i ha
          simp only [Option.some.injEq] at h
          subst h
          exact ⟨⟨q.1, hmem, heq⟩, hn', fun d' h' => by rw [hd] at h'; cases h'; exact ha⟩
        · cases h
      · rename_i hd
        simp only [Option.some.injEq] at h
        subst h
        exact ⟨⟨q.1, hmem, heq⟩, hn', fun d' h' => by rw [hd] at h'; cases h'⟩

/-- **C66, common subexpressions are correct**: after any sequence of operations, the result that
is found for an expression stands for that expression, even if it was inserted for another one. -/
theorem _root_.MZ.C66_cse_sound {α : Type} (X : Ctx α) (C : Cfg) (ok : X.Ok C) (m : M)
    (h : Reach X C m) (flat : Nat → Option Nat) (hf : X.FlatOk flat) (alive : Nat → Bool) (e : E)
    (wf : Wf X.p e) (w : WW) (hw : (cseFind C flat alive m e).2 = some w) : X.Means e w := by
  obtain ⟨⟨k, hk, he⟩, _, _⟩ := cseFind_some hw
  have i := h.inv ok _ hk
  have hk := cseKey_ok ok e wf
  exact Means_congr ((equal_sem hf i.1 hk.1 he).trans hk.2) i.2

/-- **C66, only variables of the flat model are found**: the result is not a null pointer, and if
it is a variable, it is declared in the flat model and has not been removed. -/
theorem _root_.MZ.C66_cse_alive (C : Cfg) (flat : Nat → Option Nat) (alive : Nat → Bool) (m : M)
    (e : E) (w : WW) (hw : (cseFind C flat alive m e).2 = some w) :
    w.r ≠ .nul ∧ (∀ t d g s, w.r = .id t (some d) g s → alive d = true) ∧
      (∀ t ti t' d g s i, w.r = .vd t ti (.id t' (some d) g s) i → alive d = true) := by
  have h := cseFind_some hw
  exact ⟨h.2.1, fun t d g s he => h.2.2 d (by rw [he]; rfl),
    fun t ti t' d g s i he => h.2.2 d (by rw [he]; rfl)⟩

theorem any_ins_of_any {flat : Nat → Option Nat} {m : M} {k k' : E} {w : WW}
    (h : m.any (fun p => equal flat p.1 k) = true) :
    (ins flat m k' w).any (fun p => equal flat p.1 k) = true := by
  unfold ins
  split
  · exact h
  · simp [h]

theorem any_ins_self (flat : Nat → Option Nat) (m : M) (k : E) (w : WW) :
    (ins flat m k w).any (fun p => equal flat p.1 k) = true := by
  unfold ins
  split
  · assumption
  · simp [equal_refl]

/-- **C66, what has been inserted is found**: directly after the insertion of a variable
expression of a function without `no_cse` there is a result for it, if the variables of the results in
the map are still in the flat model. -/
theorem _root_.MZ.C66_cse_complete (C : Cfg) (flat : Nat → Option Nat) (alive : Nat → Bool) (m : M)
    (e : E) (w : WW) (hp : isPar C e = false ∨ isArr e = true) (hs : skipped C e = false)
    (ha : ∀ q ∈ cseInsert C flat m e w, q.2.r ≠ .nul ∧ ∀ d, declOf q.2.r = some d → alive d = true) :
    ∃ v, (cseFind C flat alive (cseInsert C flat m e w) e).2 = some v := by
  have hany : (cseInsert C flat m e w).any (fun p => equal flat p.1 (cseKey C e)) = true := by
    have hp' : (isPar C e && !isArr e) = false := by rcases hp with h | h <;> simp [h]
    unfold cseInsert
    simp only [hp', hs, Bool.false_eq_true, if_false]
    split
    · exact any_ins_of_any (any_ins_self ..)
    · exact any_ins_self ..
  revert ha hany
  generalize cseInsert C flat m e w = m'
  intro ha hany
  cases hq : m'.find? (fun p => equal flat p.1 (cseKey C e)) with
  | none =>
    rw [List.find?_eq_none] at hq
    obtain ⟨q, hq1, hq2⟩ := List.any_eq_true.1 hany
    exact absurd hq2 (hq q hq1)
  | some q =>
    have := ha q (List.mem_of_find?_eq_some hq)
    have hn : isNul q.2.r = false := by
      cases hr : q.2.r <;> simp [isNul]
      exact this.1 hr
    unfold cseFind
    simp only [hq, hn, Bool.false_eq_true, if_false]
    split
    · rename_i d hd
      rw [if_pos (this.2 d hd)]
      exact ⟨_, rfl⟩
    · exact ⟨_, rfl⟩

/-- **C66, the first result stays**: inserting a second result for an equal expression leaves the
map as it is (unless the expression is a negation, for which the converse entry is added). -/
theorem _root_.MZ.C66_cse_first (C : Cfg) (flat : Nat → Option Nat) (m : M) (e : E) (w : WW)
    (q : E × WW) (hq : q ∈ m) (he : equal flat q.1 (cseKey C e) = true) (hn : negEntry C e w = none) :
    cseInsert C flat m e w = m := by
  unfold cseInsert
  split
  · rfl
  · split
    · rfl
    · simp only [hn]
      unfold ins
      rw [if_pos (List.any_eq_true.2 ⟨q, hq, he⟩)]

/-- **C66, `no_cse` is respected**: a call of a function with this annotation is not inserted. -/
theorem _root_.MZ.C66_no_cse (C : Cfg) (flat : Nat → Option Nat) (m : M) (h : Hd) (n : List Nat)
    (d : Nat) (args : List E) (w : WW) (hd : C.noCse d = true) :
    cseInsert C flat m (.call h n (some d) args) w = m := by
  simp [cseInsert, skipped, hd]

/-- The keys are pairwise different. -/
def Distinct (flat : Nat → Option Nat) (m : M) : Prop :=
  m.Pairwise fun a b => equal flat a.1 b.1 = false ∧ equal flat b.1 a.1 = false

theorem ins_distinct {p : List Nat → Int → Bool} {flat : Nat → Option Nat} {m : M} {k : E} {w : WW}
    (hm : ∀ q ∈ m, Wf p q.1) (hk : Wf p k) (d : Distinct flat m) : Distinct flat (ins flat m k w) := by
  unfold ins
  split
  · exact d
  · rename_i h
    refine List.pairwise_cons.2 ⟨?_, d⟩
    intro q hq
    have h1 : equal flat q.1 k = false := by
      cases hh : equal flat q.1 k
      · rfl
      · exact absurd (List.any_eq_true.2 ⟨q, hq, hh⟩) h
    refine ⟨?_, h1⟩
    cases hh : equal flat k q.1
    · rfl
    · rw [equal_symm hk (hm q hq) hh] at h1; exact h1

theorem rem_distinct {flat : Nat → Option Nat} {m : M} {k : E} (d : Distinct flat m) :
    Distinct flat (rem flat m k) := d.sublist List.eraseP_sublist

theorem fold_rem_distinct {flat : Nat → Option Nat} : ∀ {dead m : M}, Distinct flat m →
    Distinct flat (dead.foldl (fun m p => rem flat m p.1) m)
  | [], _, d => d
  | k :: dead, m, d => by
    rw [List.foldl_cons]
    exact fold_rem_distinct (dead := dead) (rem_distinct d)

/-- **C66, no two keys of the map are equal**, as long as `flat` does not change: the operations
keep this. -/
theorem _root_.MZ.C66_distinct {α : Type} (X : Ctx α) (C : Cfg) (ok : X.Ok C)
    (flat : Nat → Option Nat) (m : M) (hr : Reach X C m) (d : Distinct flat m) :
    (∀ e w, Wf X.p e → Wf X.p w.r → X.Typed C e → X.Means e w → Distinct flat (cseInsert C flat m e w)) ∧
    (∀ alive e, Distinct flat (cseFind C flat alive m e).1) ∧
    (∀ e, Distinct flat (cseRemove flat m e)) ∧
    (∀ marked, Distinct flat (fixWeakRefs flat marked m)) := by
  refine ⟨?_, ?_, fun e => rem_distinct d, fun marked => fold_rem_distinct d⟩
  · intro e w wf wfr ty hm
    have inv := hr.inv ok
    unfold cseInsert
    split
    · exact d
    · split
      · exact d
      · have hk := cseKey_ok ok e wf
        have d1 : Distinct flat (ins flat m (cseKey C e) w) :=
          ins_distinct (fun q hq => (inv q hq).1) hk.1 d
        have i1 : Inv X (ins flat m (cseKey C e) w) := ins_inv inv hk.1 (Means_congr hk.2.symm hm)
        simp only
        split
        · rename_i k v hv
          exact ins_distinct (fun q hq => (i1 q hq).1) (negEntry_ok ok wfr ty hm hv).1 d1
        · exact d1
  · intro alive e
    unfold cseFind
    simp only
    split
    · exact d
    · split
      · exact rem_distinct d
      · split
        · split
          · exact d
          · exact rem_distinct d
        · exact d

theorem rem_none {p : List Nat → Int → Bool} {flat : Nat → Option Nat} {m : M} {k : E}
    (hm : ∀ q ∈ m, Wf p q.1) (hk : Wf p k) (d : Distinct flat m) :
    ∀ q ∈ rem flat m k, equal flat q.1 k = false := by
  unfold rem
  induction m with
  | nil => intro q hq; cases hq
  | cons a m ih =>
    intro q hq
    have dc := List.pairwise_cons.1 d
    by_cases ha : equal flat a.1 k = true
    · rw [List.eraseP_cons_of_pos (p := fun q : E × WW => equal flat q.1 k) ha] at hq
      cases hh : equal flat q.1 k
      · rfl
      · have h2 := equal_symm (hm q (List.mem_cons_of_mem _ hq)) hk hh
        have := equal_trans (hm a (List.mem_cons_self ..)) hk (hm q (List.mem_cons_of_mem _ hq)) ha h2
        rw [(dc.1 q hq).1] at this
        cases this
    · rw [List.eraseP_cons_of_neg (p := fun q : E × WW => equal flat q.1 k) ha] at hq
      rcases List.mem_cons.1 hq with rfl | hq
      · simpa using ha
      · exact ih (fun q hq => hm q (List.mem_cons_of_mem _ hq)) dc.2 q hq

/-- **C66, after the removal of an expression nothing is found for it** (so it is flattened again),
unless its function is promised to be commutative. -/
theorem _root_.MZ.C66_remove_partial {α : Type} (X : Ctx α) (C : Cfg) (ok : X.Ok C)
    (flat : Nat → Option Nat) (alive : Nat → Bool) (m : M) (hr : Reach X C m) (d : Distinct flat m)
    (e : E) (wf : Wf X.p e) (hc : ∀ h n d args, e = .call h n (some d) args → C.comm d = false) :
    (cseFind C flat alive (cseRemove flat m e) e).2 = none := by
  have hk : cseKey C e = e := by
    unfold cseKey
    split
    · rename_i h n d args
      rw [if_neg (by rw [hc h n d args rfl]; simp)]
    · rfl
  have inv := hr.inv ok
  have hn := rem_none (fun q hq => (inv q hq).1) wf d
  have : (cseRemove flat m e).find? (fun p => equal flat p.1 (cseKey C e)) = none := by
    rw [List.find?_eq_none, hk]
    intro q hq
    rw [hn q hq]; simp
  unfold cseFind
  simp only [this]

/-- **C66, removing leaves the other expressions alone**: what is found for an expression that is
not equal to the removed one does not change. -/
theorem _root_.MZ.C66_remove_other {α : Type} (X : Ctx α) (C : Cfg) (ok : X.Ok C)
    (flat : Nat → Option Nat) (alive : Nat → Bool) (m : M) (hr : Reach X C m)
    (e e' : E) (wf : Wf X.p e) (wf' : Wf X.p e') (hne : equal flat e (cseKey C e') = false) :
    (cseFind C flat alive (cseRemove flat m e) e').2 = (cseFind C flat alive m e').2 := by
  have inv := hr.inv ok
  have wk := (cseKey_ok ok e' wf').1
  have hfind : ∀ m : M, (∀ q ∈ m, Wf X.p q.1) →
      (rem flat m e).find? (fun p => equal flat p.1 (cseKey C e')) =
        m.find? (fun p => equal flat p.1 (cseKey C e')) := by
    intro m
    induction m with
    | nil => intro _; rfl
    | cons a m ih =>
      intro hw
      unfold rem at ih ⊢
      by_cases ha : equal flat a.1 e = true
      · rw [List.eraseP_cons_of_pos (p := fun q : E × WW => equal flat q.1 e) ha]
        have hak : equal flat a.1 (cseKey C e') = false := by
          cases hh : equal flat a.1 (cseKey C e')
          · rfl
          · have wa := hw a (List.mem_cons_self ..)
            rw [equal_trans wf wa wk (equal_symm wa wf ha) hh] at hne
            exact hne
        rw [List.find?_cons]
        simp only [hak]
      · rw [List.eraseP_cons_of_neg (p := fun q : E × WW => equal flat q.1 e) ha,
          List.find?_cons, List.find?_cons, ih (fun q hq => hw q (List.mem_cons_of_mem _ hq))]
  have := hfind m (fun q hq => (inv q hq).1)
  unfold cseFind cseRemove
  simp only [this]
  cases m.find? (fun p => equal flat p.1 (cseKey C e')) with
  | none => rfl
  | some q =>
    simp only
    split
    · rfl
    · split
      · split <;> rfl
      · rfl

theorem fold_rem_mem {p : List Nat → Int → Bool} {flat : Nat → Option Nat} : ∀ {dead m : M},
    (∀ q ∈ m, Wf p q.1) → (∀ q ∈ dead, Wf p q.1) → Distinct flat m →
    ∀ q, q ∈ dead.foldl (fun m p => rem flat m p.1) m ↔
      q ∈ m ∧ ∀ k ∈ dead, equal flat q.1 k.1 = false
  | [], m, _, _, _, q => by simp
  | k :: dead, m, hm, hd, d, q => by
    have hk := hd k (List.mem_cons_self ..)
    have hsub := rem_subset flat m k.1
    rw [List.foldl_cons, fold_rem_mem (fun q hq => hm q (hsub hq))
      (fun q hq => hd q (List.mem_cons_of_mem _ hq)) (rem_distinct d) q]
    constructor
    · intro ⟨h1, h2⟩
      refine ⟨hsub h1, fun k' hk' => ?_⟩
      rcases List.mem_cons.1 hk' with rfl | hk'
      · exact rem_none hm hk d q h1
      · exact h2 k' hk'
    · intro ⟨h1, h2⟩
      refine ⟨?_, fun k' hk' => h2 k' (List.mem_cons_of_mem _ hk')⟩
      unfold rem
      refine (List.mem_eraseP_of_neg (p := fun q : E × WW => equal flat q.1 k.1) ?_).2 h1
      simp [h2 k (List.mem_cons_self ..)]

/-- A result in the map points to marked nodes only. -/
def Live (marked : E → Bool) (w : WW) : Prop :=
  marked w.r = true ∧ ∀ e, w.b = .expr e → marked e = true

/-- **C66, no result refers to a collected node**: after a garbage collection the map contains
exactly the entries whose result and condition are marked. -/
theorem _root_.MZ.C66_gc {α : Type} (X : Ctx α) (C : Cfg) (ok : X.Ok C)
    (flat : Nat → Option Nat) (marked : E → Bool) (m : M) (hr : Reach X C m) (d : Distinct flat m)
    (q : E × WW) : q ∈ fixWeakRefs flat marked m ↔ q ∈ m ∧ Live marked q.2 := by
  have inv := hr.inv ok
  have hl : ∀ q : E × WW, ((!(marked q.2.r && match q.2.b with
      | .litTrue => true
      | .expr e => marked e)) = true) ↔ ¬ Live marked q.2 := by
    intro q
    unfold Live
    cases hb : q.2.b <;> cases hr : marked q.2.r <;> simp
  unfold fixWeakRefs
  simp only
  rw [fold_rem_mem (fun q hq => (inv q hq).1) (fun q hq => (inv q (List.mem_of_mem_filter hq)).1) d q]
  refine and_congr_right fun hq => ?_
  constructor
  · intro h
    by_contra hn
    have := h q (List.mem_filter.2 ⟨hq, (hl q).2 hn⟩)
    rw [equal_refl] at this
    cases this
  · intro h k hk
    obtain ⟨hk1, hk2⟩ := List.mem_filter.1 hk
    have hkd := (hl k).1 hk2
    have hne : q ≠ k := fun hh => hkd (hh ▸ h)
    have : ∀ m : M, Distinct flat m → q ∈ m → k ∈ m → equal flat q.1 k.1 = false := by
      intro m
      induction m with
      | nil => intro _ h; cases h
      | cons a m ih =>
        intro d hq hk
        have dc := List.pairwise_cons.1 d
        rcases List.mem_cons.1 hq with h1 | h1
        · rcases List.mem_cons.1 hk with h2 | h2
          · exact absurd (h1.trans h2.symm) hne
          · rw [h1]; exact (dc.1 k h2).1
        · rcases List.mem_cons.1 hk with h2 | h2
          · rw [h2]; exact (dc.1 q h1).2
          · exact ih dc.2 h1 h2
    exact this m d hq hk1

/-! ## Concrete cases -/

/-- `f` (declaration 1) is promised to be commutative, `g` (declaration 2) is not. -/
def exC : Cfg where
  noCse := fun _ => false
  comm := fun d => d == 1
  par := fun t => t == 0
  notName := [110]
  sort := List.reverse
  evalArr := fun a => (0, [], [a])
  newHash := fun _ => 5

/-- The variables `x`, `y` and `r` and the calls `f(x, y)` and `g(x, y)`. -/
def exX : E := .id ⟨3, 1⟩ (some 11) [120] (-1)
def exY : E := .id ⟨3, 2⟩ (some 12) [121] (-1)
def exR : E := .id ⟨3, 3⟩ (some 13) [114] (-1)
def exF (a b : E) : E := .call ⟨3, 4⟩ [102] (some 1) [a, b]
def exG (a b : E) : E := .call ⟨3, 4⟩ [103] (some 2) [a, b]

/-- **C66, calls of commutative functions are not removed**: they are inserted and sought with
sorted arguments (and a type that is not set), but removed as they are. The post-processing of
constraints (flatten.cpp 4930–5030) removes the right hand side of a reified constraint whose
control variable has become true and flattens the constraint again; for such a function it finds
the old result, and the constraint is lost. -/
theorem _root_.MZ.C66_remove_fails : ∃ (C : Cfg) (flat : Nat → Option Nat) (m : M) (e : E) (w : WW),
    m = cseInsert C flat [] e w ∧
      (cseFind C flat (fun _ => true) (cseRemove flat m e) e).2 = some w :=
  ⟨exC, fun _ => none, _, exF exX exY, ⟨exR, .litTrue⟩, rfl, rfl⟩

/-- A meaning: Boolean values, `f` and array literals are conjunctions. -/
def exX' : Ctx Bool where
  S :=
    { nul := false, int := fun _ => false, flt := fun _ => false, setI := fun _ _ => false,
      setF := fun _ _ => false, setV := fun _ _ => false, bool := fun b => b,
      str := fun _ => false, var := fun d => d != 11 && d != 13, unresolved := fun _ _ => false,
      anon := fun _ => false, arr := fun _ _ es => es.all id, acc := fun v _ => v,
      fld := fun v _ => v, comp := fun _ v _ _ => v, ite := fun _ v => v, bin := fun _ v _ => v,
      un := fun _ v => v,
      call := fun n _ as => match as with
        | [x] => if n = [110] then !x else x
        | as => as.all id
      vd := fun _ v _ => v, lets := fun _ v => v, ti := fun _ _ v => v, tiid := fun _ => false }
  p := fun _ _ => true
  boolean := fun _ => True
  true' := fun v => v = true
  undef := fun _ => False

theorem all_perm {as bs : List Bool} (h : as.Perm bs) : as.all id = bs.all id := by
  rw [Bool.eq_iff_iff, List.all_eq_true, List.all_eq_true]
  exact ⟨fun w e m => w e (h.mem_iff.2 m), fun w e m => w e (h.mem_iff.1 m)⟩

theorem exOk : exX'.Ok exC where
  sort_perm := fun l => List.reverse_perm l
  eval := fun a wf => by simpa [exC, exX', WfL, semL] using wf
  comm := fun n d as bs _ h => by
    have hl := h.length_eq
    match as, bs, hl with
    | [], [], _ => rfl
    | [a], [b], _ => rw [List.perm_singleton.1 h]
    | a :: a' :: as, b :: b' :: bs, _ => exact all_perm h
  comm1 := fun n d t i j as bs _ h => by simp [exX', all_perm h]
  neg := fun d x _ => by simp [exX', exC]

/-- The meaning of the flat model below: `r` is `f(x, y)`. -/
example : exX'.Means (exF exX exY) ⟨exR, .litTrue⟩ := by
  simp [Ctx.Means, Ctx.holds, exF, exX, exY, exR, sem, semL, exX']

/-- A map that can arise in which `f(x, y)` is found after a garbage collection. -/
example : ∃ m, Reach exX' exC m ∧ Distinct (fun _ => none) m ∧
    (cseFind exC (fun _ => none) (fun _ => true) m (exF exX exY)).2 = some ⟨exR, .litTrue⟩ :=
  ⟨fixWeakRefs (fun _ => none) (fun _ => true)
      (cseInsert exC (fun _ => none) [] (exF exX exY) ⟨exR, .litTrue⟩),
    .gc _ _ (.insert _ _ _ .empty (by simp [exF, exX, exY, Wf, WfL, exX'])
      (by simp [exR, Wf, exX']) (by simp [exF, Ctx.Typed, exC])
      (by simp [Ctx.Means, Ctx.holds, exF, exX, exY, exR, sem, semL, exX'])),
    List.pairwise_singleton .., rfl⟩

/-- After `r = not x` has been inserted, `x` is found for `not r`. -/
example : (cseFind exC (fun _ => none) (fun _ => true)
    (cseInsert exC (fun _ => none) [] (.call ⟨3, 4⟩ [110] (some 2) [exX]) ⟨exR, .litTrue⟩)
      (.call ⟨3, 5⟩ [110] (some 2) [exR])).2 = some ⟨exX, .litTrue⟩ := rfl

/-- `g(x, y)` is removed. -/
example : (cseFind exC (fun _ => none) (fun _ => true)
    (cseRemove (fun _ => none)
      (cseInsert exC (fun _ => none) [] (exG exX exY) ⟨exR, .litTrue⟩) (exG exX exY))
      (exG exX exY)).2 = none := rfl

end ExprEq
end MZ
