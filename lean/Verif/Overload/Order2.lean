import Verif.Overload.Props
import Mathlib.Data.List.Sort
/-!
# C61: the table does not depend on the order of the declarations; where overload resolution goes wrong
-/
namespace MZ
namespace Overload
open Types

/-- **C61**. The order of the table is a strict weak order, as `std::sort` requires. -/
theorem _root_.MZ.C61_order_partial {v : List Entry} (h : NoMix v) : StrictWeak v := h.strictWeak

/-- Of two declarations with the same signature exactly one is a definition. -/
def Proper (fs : List Fn) : Prop := ∀ f ∈ fs, ∀ g ∈ fs, SameSig f g → f = g ∨ f.body ≠ g.body

theorem nodup_step {fs : List Fn} {v v' : List Entry} {f : Fn} (h : TInv fs v) (hn : v.Nodup)
    (hr : registerFn v f = some v') : v'.Nodup := by
  rcases registerFn_cases (fun e he => (h.src e he).1) hr with ⟨rfl, h1⟩ | ⟨rfl, -⟩ | ⟨l, e, r, rfl, rfl, h1, h2, h3⟩
  · rw [List.nodup_append]
    refine ⟨hn, by simp, ?_⟩
    intro a ha b hb hab
    rw [List.mem_singleton.1 hb] at hab
    exact (h1 a ha).1 (by rw [hab]; rfl)
  · exact hn
  · have hsep : ∀ e' ∈ l ++ r, e' ≠ f.entry := by
      intro e' he' hc
      have hu := h.uniq
      rw [List.pairwise_append, List.pairwise_cons] at hu
      rcases List.mem_append.1 he' with g | g
      · have := hu.2.2 e' g e (.head _) (by rw [hc]; exact tysEq_symm h1)
        rw [h2] at this
        exact absurd this.2 (by decide)
      · have := hu.2.1.1 e' g (by rw [hc]; exact h1)
        rw [h2] at this
        exact absurd this.1 (by decide)
    rw [List.nodup_append, List.nodup_cons] at hn ⊢
    refine ⟨hn.1, ⟨fun hc => hsep _ (List.mem_append_right _ hc) rfl, hn.2.1.2⟩, ?_⟩
    intro a ha b hb hab
    rcases List.mem_cons.1 hb with rfl | hb
    · exact hsep a (List.mem_append_left _ ha) hab
    · exact hn.2.2 a ha b (.tail _ hb) hab

theorem built_nodup {fs : List Fn} {v : List Entry} (h : Built fs v) (hids : Ids fs) : v.Nodup := by
  induction h with
  | nil => exact .nil
  | @step fs v f v' v'' hb hr hs ih =>
    have hi : Ids fs := fun a ha b hb => hids a (List.mem_append_left _ ha) b (List.mem_append_left _ hb)
    exact hs.1.nodup_iff.2 (nodup_step (built_inv hb hi) (ih hi) hr)

theorem TInv.uniq2 {fs : List Fn} {v : List Entry} (h : TInv fs v) {a b : Entry} (ha : a ∈ v) (hb : b ∈ v) (hab : a ≠ b) :
    SameSig a.fi b.fi → a.fi.body = true ∧ b.fi.body = true := by
  haveI : Std.Symm (fun e e' : Entry => SameSig e.fi e'.fi → e.fi.body = true ∧ e'.fi.body = true) :=
    ⟨fun a b hab hs => (hab (tysEq_symm hs)).symm⟩
  exact h.uniq.forall ha hb hab

theorem TInv.mem_iff {fs : List Fn} {v : List Entry} (h : TInv fs v) (hp : Proper fs) (e : Entry) :
    e ∈ v ↔ e = e.fi.entry ∧ Final fs e.fi := by
  constructor
  · intro he
    obtain ⟨h1, h2⟩ := h.src e he
    refine ⟨h1, h2, ?_⟩
    cases hb : e.fi.body with
    | true => exact .inl rfl
    | false =>
      refine .inr fun g hg hs => ?_
      rcases hp g hg e.fi h2 hs with rfl | hne
      · rfl
      · have hgb : g.body = true := by
          rw [hb] at hne; simpa using hne
        have hgm := h.body g hg hgb
        have : e ≠ g.entry := by
          intro hc
          rw [hc] at hb
          have : g.body = false := hb
          rw [hgb] at this; cases this
        have := h.uniq2 he hgm this (tysEq_symm hs)
        rw [hb] at this
        exact absurd this.1 (by decide)
  · rintro ⟨h1, h2⟩
    rw [h1]
    exact h2.mem h

theorem key_sig {e e' : Entry} (h : ∀ t ∈ e.t, Sig t) (h' : ∀ t ∈ e'.t, Sig t) (hk : e.key = e'.key) : tysEq e.t e'.t = true := by
  unfold Entry.key at hk
  simp only [List.cons.injEq] at hk
  exact (tysEq_iff h h').2 hk.2

/-- **C61**. The order of the declarations is irrelevant: the table of overloads, and with it the result of every search, is the same. -/
theorem _root_.MZ.C61_declaration_order_partial {fs fs' : List Fn} {v v' : List Entry} (hperm : fs'.Perm fs)
    (hb : Built fs v) (hb' : Built fs' v') (hids : Ids fs) (hm : NoMixFns fs) (hp : Proper fs) :
    v = v' ∧ ∀ (T : Tab) (strict : Bool) (args : List Ty), matchCall T strict v args = matchCall T strict v' args ∧
      matchTypes T strict v args = matchTypes T strict v' args := by
  have hids' : Ids fs' := fun a ha b hb => hids a (hperm.subset ha) b (hperm.subset hb)
  have hp' : Proper fs' := fun a ha b hb => hp a (hperm.subset ha) b (hperm.subset hb)
  have hm' : NoMixFns fs' := NoMix.perm hm (hperm.map _)
  have hi := built_inv hb hids
  have hi' := built_inv hb' hids'
  have hfin : ∀ f, Final fs f ↔ Final fs' f := by
    intro f
    unfold Final
    simp only [hperm.mem_iff]
  have hvv : v.Perm v' := by
    rw [List.perm_ext_iff_of_nodup (built_nodup hb hids) (built_nodup hb' hids')]
    intro e
    rw [hi.mem_iff hp, hi'.mem_iff hp', hfin]
  have hs := built_sorted hb hids hm
  have hs' := built_sorted hb' hids' hm'
  have : v = v' := by
    refine hvv.eq_of_pairwise (le := fun a b => a.key ≤ b.key) ?_ hs hs'
    intro a b ha hb' hab hba
    have hb := hvv.symm.subset hb'
    have hnm := hi.noMix hm
    have hk := key_sig (hnm.1 a ha) (hnm.1 b hb) (le_antisymm hab hba)
    obtain ⟨a1, a2⟩ := hi.src a ha
    obtain ⟨b1, b2⟩ := hi.src b hb
    by_contra hne
    have hu := hi.uniq2 ha hb hne
    have hsig : SameSig a.fi b.fi := by
      rw [a1, b1] at hk; exact hk
    have hbd := hu hsig
    rcases hp _ a2 _ b2 hsig with h | h
    · exact hne (by rw [a1, b1, h])
    · exact h (hbd.1.trans hbd.2.symm)
  subst this
  exact ⟨rfl, fun _ _ _ => ⟨rfl, rfl⟩⟩

/-! ### Where it goes wrong -/

/-- Insertion sort with the order of the table: what `std::sort` does to a short range (`__insertion_sort` of
libstdc++: to the front if smaller than the first element, otherwise moved left past the greater elements). -/
def insertE (e : Entry) (v : List Entry) : List Entry :=
  if v.head?.any (compare e) then e :: v
  else (v.reverse.takeWhile (compare e) ++ e :: v.reverse.dropWhile (compare e)).reverse

def tInt : Ty := ⟨.int, false, false, false, false, false, 0, 0⟩
def tBool : Ty := ⟨.bool, false, false, false, false, false, 0, 0⟩
/-- An enumeration. -/
def tE (k : Nat) : Ty := ⟨.int, false, false, false, false, false, k, 0⟩
/-- `array[$T] of int`. -/
def tAny : Ty := ⟨.int, false, false, false, false, false, 0, -1⟩
/-- `array[int] of E`: the type table knows the entry 2. -/
def tArrE : Ty := ⟨.int, false, false, false, false, false, 2, 1⟩

def fn1 (id : Nat) (t : Ty) : Fn := ⟨id, [⟨some "x", t, false⟩], true, tInt⟩

def tabE : Tab := ⟨fun k => if k = 2 then [0, 1] else [], fun _ => 2⟩

/-- **C61** fails in general: the order of the table is not transitive. `array[int] of E` comes before `array[$T] of int` (it is a
subtype), which comes before the enumeration `E`, which comes before `array[int] of E` (the integer a type is compared by has the
enumeration above the dimensions). -/
theorem _root_.MZ.C61_order_fails :
    compare (fn1 0 tArrE).entry (fn1 1 tAny).entry = true ∧ compare (fn1 1 tAny).entry (fn1 2 (tE 1)).entry = true ∧
    compare (fn1 2 (tE 1)).entry (fn1 0 tArrE).entry = true ∧
    ¬ StrictWeak [(fn1 0 tArrE).entry, (fn1 1 tAny).entry, (fn1 2 (tE 1)).entry] := by
  have h1 : compare (fn1 0 tArrE).entry (fn1 1 tAny).entry = true := by decide +kernel
  have h2 : compare (fn1 1 tAny).entry (fn1 2 (tE 1)).entry = true := by decide +kernel
  have h3 : compare (fn1 2 (tE 1)).entry (fn1 0 tArrE).entry = true := by decide +kernel
  refine ⟨h1, h2, h3, fun h => ?_⟩
  have h4 := h.trans _ (by simp) _ (by simp) _ (by simp) h1 h2
  have h5 := h.trans _ (by simp) _ (by simp) _ (by simp) h4 h3
  rw [h.irrefl _ (by simp)] at h5
  cases h5

/-- The declarations `f(bool)`, `f(array[$T] of int)`, `f(E)`, `f(array[int] of E)`. -/
def cyc : List Fn := [fn1 3 tBool, fn1 1 tAny, fn1 2 (tE 1), fn1 0 tArrE]

/-- **C61** fails in general: the call `f(a)` of an `array[int] of E` takes `f(array[$T] of int)`, although `f(array[int] of E)` is
declared; with the declarations in another order it takes the right one. The tables are those of insertion sort. -/
theorem _root_.MZ.C61_most_specific_fails :
    (∃ v, Built cyc v ∧ v = (cyc.map Fn.entry).foldl (fun v e => insertE e v) [] ∧ matchCall tabE true v [tArrE] = .fn (fn1 1 tAny)) ∧
    (∃ v, Built [fn1 0 tArrE, fn1 1 tAny, fn1 2 (tE 1), fn1 3 tBool] v ∧ matchCall tabE true v [tArrE] = .fn (fn1 0 tArrE)) ∧
    Final cyc (fn1 0 tArrE) ∧ Accepts tabE true (fn1 0 tArrE) [tArrE] ∧ MoreSpecific (fn1 0 tArrE) (fn1 1 tAny) 1 := by
  refine ⟨⟨[(fn1 3 tBool).entry, (fn1 1 tAny).entry, (fn1 2 (tE 1)).entry, (fn1 0 tArrE).entry], ?_, by decide +kernel, by decide +kernel⟩,
    ⟨[(fn1 3 tBool).entry, (fn1 0 tArrE).entry, (fn1 1 tAny).entry, (fn1 2 (tE 1)).entry], ?_, by decide +kernel⟩, ⟨by decide, .inl rfl⟩,
    ok_iff.1 (by decide +kernel), (atLeast_iff (by decide)).1 (by decide +kernel), fun h => ?_⟩
  · have b1 : Built [fn1 3 tBool] [(fn1 3 tBool).entry] :=
      .step (v' := [(fn1 3 tBool).entry]) .nil (by decide +kernel) ⟨.refl _, fun _ => by decide +kernel⟩
    have b2 : Built [fn1 3 tBool, fn1 1 tAny] [(fn1 3 tBool).entry, (fn1 1 tAny).entry] :=
      .step (v' := [(fn1 3 tBool).entry, (fn1 1 tAny).entry]) b1 (by decide +kernel) ⟨.refl _, fun _ => by decide +kernel⟩
    have b3 : Built [fn1 3 tBool, fn1 1 tAny, fn1 2 (tE 1)] [(fn1 3 tBool).entry, (fn1 1 tAny).entry, (fn1 2 (tE 1)).entry] :=
      .step (v' := [(fn1 3 tBool).entry, (fn1 1 tAny).entry, (fn1 2 (tE 1)).entry]) b2 (by decide +kernel)
        ⟨.refl _, fun _ => by decide +kernel⟩
    refine .step (v' := [(fn1 3 tBool).entry, (fn1 1 tAny).entry, (fn1 2 (tE 1)).entry, (fn1 0 tArrE).entry]) b3 (by decide +kernel)
        ⟨.refl _, fun h => absurd ?_ C61_order_fails.2.2.2⟩
    exact ⟨fun e he => h.irrefl e (by simp at he ⊢; tauto), fun a ha b hb c hc => h.trans a (by simp at ha ⊢; tauto) b (by simp at hb ⊢; tauto) c (by simp at hc ⊢; tauto),
      fun a ha b hb c hc => h.incomp a (by simp at ha ⊢; tauto) b (by simp at hb ⊢; tauto) c (by simp at hc ⊢; tauto)⟩
  · have b1 : Built [fn1 0 tArrE] [(fn1 0 tArrE).entry] :=
      .step (v' := [(fn1 0 tArrE).entry]) .nil (by decide +kernel) ⟨.refl _, fun _ => by decide +kernel⟩
    have b2 : Built [fn1 0 tArrE, fn1 1 tAny] [(fn1 0 tArrE).entry, (fn1 1 tAny).entry] :=
      .step (v' := [(fn1 0 tArrE).entry, (fn1 1 tAny).entry]) b1 (by decide +kernel) ⟨.refl _, fun _ => by decide +kernel⟩
    have b3 : Built [fn1 0 tArrE, fn1 1 tAny, fn1 2 (tE 1)] [(fn1 0 tArrE).entry, (fn1 1 tAny).entry, (fn1 2 (tE 1)).entry] :=
      .step (v' := [(fn1 0 tArrE).entry, (fn1 1 tAny).entry, (fn1 2 (tE 1)).entry]) b2 (by decide +kernel)
        ⟨.refl _, fun h => absurd h C61_order_fails.2.2.2⟩
    refine .step (v' := [(fn1 0 tArrE).entry, (fn1 1 tAny).entry, (fn1 2 (tE 1)).entry, (fn1 3 tBool).entry]) b3 (by decide +kernel)
        ⟨by decide, fun h => absurd ?_ C61_order_fails.2.2.2⟩
    exact ⟨fun e he => h.irrefl e (by simp at he ⊢; tauto), fun a ha b hb c hc => h.trans a (by simp at ha ⊢; tauto) b (by simp at hb ⊢; tauto) c (by simp at hc ⊢; tauto),
      fun a ha b hb c hc => h.incomp a (by simp at ha ⊢; tauto) b (by simp at hb ⊢; tauto) c (by simp at hc ⊢; tauto)⟩
  · have := (atLeast_iff (by decide)).2 h
    revert this
    decide +kernel

/-- `predicate f(E: x);` without a body. -/
def declE : Fn := ⟨0, [⟨some "x", tE 1, false⟩], false, tBool⟩
/-- `predicate f(F: x) = ...;` -/
def defF : Fn := ⟨1, [⟨some "x", tE 2, false⟩], true, tBool⟩

/-- **C61** fails in general: a declaration is dropped when a definition for another enumeration follows, and a call that only the
dropped declaration accepts is rejected. -/
theorem _root_.MZ.C61_found_fails :
    ∃ v, Built [declE, defF] v ∧ Accepts tabE true declE [tE 1] ∧ declE.tys ≠ defF.tys ∧ ¬ Accepts tabE true defF [tE 1] ∧
      matchCall tabE true v [tE 1] = .none := by
  refine ⟨[defF.entry], ?_, ok_iff.1 (by decide +kernel), by decide, fun h => ?_, by decide +kernel⟩
  · exact .step (v' := [defF.entry]) (.step (fs := []) (f := declE) (v' := [declE.entry]) (v'' := [declE.entry]) .nil (by decide +kernel)
      ⟨.refl _, fun _ => by decide +kernel⟩) (by decide +kernel) ⟨.refl _, fun _ => by decide +kernel⟩
  · have := ok_iff.2 h
    revert this
    decide +kernel

/-! ### The hypotheses can be met -/

def tVarInt : Ty := ⟨.int, true, false, false, false, false, 0, 0⟩
def tFloat : Ty := ⟨.float, false, false, false, false, false, 0, 0⟩

/-- `f(int)`, `f(var int)`, `f(float, int: y = 0)`. -/
def fns : List Fn :=
  [fn1 0 tVarInt, fn1 1 tInt, ⟨2, [⟨some "x", tFloat, false⟩, ⟨some "y", tInt, true⟩], true, tInt⟩]

theorem fns_noMix : NoMixFns fns := by
  have hs : ∀ t ∈ [tVarInt, tInt, tFloat], Sig t := by
    intro t ht
    simp only [List.mem_cons, List.not_mem_nil, or_false] at ht
    rcases ht with rfl | rfl | rfl
    · exact ⟨by unfold Base5; decide, rfl, by unfold Ty.Wf; decide⟩
    · exact ⟨by unfold Base5; decide, rfl, by unfold Ty.Wf; decide⟩
    · exact ⟨by unfold Base5; decide, rfl, by unfold Ty.Wf; decide⟩
  have hd : ∀ e ∈ fns.map Fn.entry, ∀ t ∈ e.t, t ∈ [tVarInt, tInt, tFloat] := by decide
  have h0 : ∀ t ∈ [tVarInt, tInt, tFloat], t.typeId = 0 := by decide
  refine ⟨fun e he t ht => hs t (hd e he t ht), ?_⟩
  intro e he e' he' i a b ha hb _ _ _ _ _
  exact ⟨h0 a (hd e he a (List.mem_of_getElem? ha)), h0 b (hd e' he' b (List.mem_of_getElem? hb))⟩

theorem fns_built : Built fns [(fn1 1 tInt).entry, (fn1 0 tVarInt).entry, (fns[2]).entry] := by
  refine .step (fs := [fn1 0 tVarInt, fn1 1 tInt]) (f := fns[2]) (v' := [(fn1 1 tInt).entry, (fn1 0 tVarInt).entry, (fns[2]).entry])
    (.step (fs := [fn1 0 tVarInt]) (f := fn1 1 tInt) (v := [(fn1 0 tVarInt).entry]) (v' := [(fn1 0 tVarInt).entry, (fn1 1 tInt).entry])
      (v'' := [(fn1 1 tInt).entry, (fn1 0 tVarInt).entry])
      (.step (fs := []) (f := fn1 0 tVarInt) (v' := [(fn1 0 tVarInt).entry]) .nil (by decide +kernel) ⟨.refl _, fun _ => by decide +kernel⟩)
      (by decide +kernel) ⟨by decide, fun _ => by decide +kernel⟩) (by decide +kernel) ⟨.refl _, fun _ => by decide +kernel⟩

/-- A call `f(1)`: of the three overloads that accept it, `f(int)` is chosen; the theorem with defaults applies. -/
example : matchCall tabE true [(fn1 1 tInt).entry, (fn1 0 tVarInt).entry, (fns[2]).entry] [tInt] = .fn (fn1 1 tInt) ∧
    ¬ MoreSpecific (fn1 0 tVarInt) (fn1 1 tInt) 1 := by
  refine ⟨by decide +kernel, ?_⟩
  have hu : Uniform fns := by
    intro f hf g hg j a b ha hb _ _ _
    have h0 : ∀ f ∈ fns, ∀ t ∈ f.tys, t.typeId = 0 := by decide
    rw [h0 f hf a (List.mem_of_getElem? ha), h0 g hg b (List.mem_of_getElem? hb)]
  have hgr : ∀ f ∈ fns, ∀ t ∈ f.tys, Ground t := by
    intro f hf t ht
    have h0 : ∀ f ∈ fns, ∀ t ∈ f.tys, Base5 t ∧ t.any = false ∧ t.typeId = 0 := by unfold Base5; decide
    obtain ⟨h1, h2, h3⟩ := h0 f hf t ht
    exact ⟨h1, h2, fun _ _ => h3⟩
  exact C61_most_specific_default_partial (args := [tInt]) (T := tabE) (strict := true) fns_built (by unfold Ids; decide) fns_noMix hgr hu (by decide) (by decide +kernel)
    ⟨by decide, .inl rfl⟩ (ok_iff.1 (by decide +kernel))

/-- A call with an argument of type `bot` is accepted by all three overloads, and `C61_bottom` applies. -/
example : envSub tabE true (mkPar (fn1 1 tInt).ret) (fns[2]).ret = true := by
  have h := C61_bottom (T := tabE) (strict := true) (args := [Types.bot]) (f := fn1 1 tInt) (g := fns[2]) fns_built (by unfold Ids; decide)
    ⟨Types.bot, by simp, rfl⟩ (by decide) (by decide +kernel) ⟨by decide, .inl rfl⟩ (ok_iff.1 (by decide +kernel))
  exact h.resolve_left (by decide)

example : Proper fns := by unfold Proper SameSig; decide +kernel

end Overload
end MZ
