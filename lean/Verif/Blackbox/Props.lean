import Verif.Blackbox.Spec
import Mathlib.Tactic.SplitIfs
import Mathlib.Tactic.Push

/-!
# Black-box propagators: the properties
-/

namespace MZ
namespace Blackbox

/-! ## Parameters -/

/-- What `classify` finds, as seen from the whole list of parameters. -/
structure Found (ts : List Ty) (n : Nat) (c : Cls) : Prop where
  ints : ∀ i : Nat, c.ints = some i → i < n ∧ ∃ t, ts[i]? = some t ∧ t.IsInts
  floats : ∀ i : Nat, c.floats = some i → i < n ∧ ∃ t, ts[i]? = some t ∧ t.IsFloats
  intsAll : c.valid = true → ∀ (i : Nat) (t : Ty), i < n → ts[i]? = some t → t.IsInts → c.ints = some i
  floatsAll : c.valid = true → ∀ (i : Nat) (t : Ty), i < n → ts[i]? = some t → t.IsFloats → c.floats = some i
  others : c.valid = true → ∀ (i : Nat) (t : Ty), i < n → ts[i]? = some t → t.var = true → t.IsInts ∨ t.IsFloats
  legal : LegalParams ts → c.valid = true

theorem isInts_of {t : Ty} (h : t.var = true) (hp : t.plain = true) (ho : t.opt = false) (hd : t.dim = 1) (hb : t.base = .int) : t.IsInts := by
  cases t; simp_all [Ty.IsInts]

theorem isFloats_of {t : Ty} (h : t.var = true) (hp : t.plain = true) (ho : t.opt = false) (hd : t.dim = 1) (hb : t.base = .float) :
    t.IsFloats := by
  cases t; simp_all [Ty.IsFloats]

theorem Found.step {ts : List Ty} {n : Nat} {c : Cls} (hf : Found ts n c) {t : Ty} (ht : ts[n]? = some t)
    (hp : t.var = true → t.plain = true ∧ t.opt = false) : Found ts (n + 1) (classify1 c n t) := by
  have key : ∀ (i : Nat) (s : Ty), i < n + 1 → ts[i]? = some s → i < n ∨ (i = n ∧ s = t) := by
    intro i s hi hs
    rcases Nat.lt_succ_iff_lt_or_eq.1 hi with h | h
    · exact Or.inl h
    · subst h
      rw [ht] at hs
      exact Or.inr ⟨rfl, (Option.some.inj hs).symm⟩
  unfold classify1
  by_cases hv : t.var = true
  · obtain ⟨hpl, hop⟩ := hp hv
    rw [if_pos hv]
    by_cases h1 : t.dim = 1 ∧ t.plain = true ∧ t.base = .int
    · rw [if_pos h1]
      have hI := isInts_of hv hpl hop h1.1 h1.2.2
      have hnF : ¬ t.IsFloats := by
        intro h; rw [h] at h1; simp at h1
      refine ⟨?_, ?_, ?_, ?_, ?_, ?_⟩
      · intro i hi
        simp only [Option.some.injEq] at hi
        subst hi
        exact ⟨Nat.lt_succ_self _, t, ht, hI⟩
      · intro i hi
        obtain ⟨a, b⟩ := hf.floats i hi
        exact ⟨Nat.lt_succ_of_lt a, b⟩
      · intro hval i s hi hs hsI
        simp only [Bool.and_eq_true] at hval
        rcases key i s hi hs with h | ⟨rfl, rfl⟩
        · have := hf.intsAll hval.1 i s h hs hsI
          rw [this] at hval
          simp at hval
        · rfl
      · intro hval i s hi hs hsF
        simp only [Bool.and_eq_true] at hval
        rcases key i s hi hs with h | ⟨rfl, rfl⟩
        · exact hf.floatsAll hval.1 i s h hs hsF
        · exact absurd hsF hnF
      · intro hval i s hi hs hsv
        simp only [Bool.and_eq_true] at hval
        rcases key i s hi hs with h | ⟨rfl, rfl⟩
        · exact hf.others hval.1 i s h hs hsv
        · exact Or.inl hI
      · intro hl
        simp only [Bool.and_eq_true]
        refine ⟨hf.legal hl, ?_⟩
        cases hci : c.ints with
        | none => rfl
        | some i =>
          obtain ⟨a, s, hs, hsI⟩ := hf.ints i hci
          have := hl.2.1 i n s t hs ht hsI hI
          omega
    · rw [if_neg h1]
      by_cases h2 : t.dim = 1 ∧ t.plain = true ∧ t.base = .float
      · rw [if_pos h2]
        have hF := isFloats_of hv hpl hop h2.1 h2.2.2
        have hnI : ¬ t.IsInts := by
          intro h; rw [h] at h2; simp at h2
        refine ⟨?_, ?_, ?_, ?_, ?_, ?_⟩
        · intro i hi
          obtain ⟨a, b⟩ := hf.ints i hi
          exact ⟨Nat.lt_succ_of_lt a, b⟩
        · intro i hi
          simp only [Option.some.injEq] at hi
          subst hi
          exact ⟨Nat.lt_succ_self _, t, ht, hF⟩
        · intro hval i s hi hs hsI
          simp only [Bool.and_eq_true] at hval
          rcases key i s hi hs with h | ⟨rfl, rfl⟩
          · exact hf.intsAll hval.1 i s h hs hsI
          · exact absurd hsI hnI
        · intro hval i s hi hs hsF
          simp only [Bool.and_eq_true] at hval
          rcases key i s hi hs with h | ⟨rfl, rfl⟩
          · have := hf.floatsAll hval.1 i s h hs hsF
            rw [this] at hval
            simp at hval
          · rfl
        · intro hval i s hi hs hsv
          simp only [Bool.and_eq_true] at hval
          rcases key i s hi hs with h | ⟨rfl, rfl⟩
          · exact hf.others hval.1 i s h hs hsv
          · exact Or.inr hF
        · intro hl
          simp only [Bool.and_eq_true]
          refine ⟨hf.legal hl, ?_⟩
          cases hci : c.floats with
          | none => rfl
          | some i =>
            obtain ⟨a, s, hs, hsI⟩ := hf.floats i hci
            have := hl.2.2 i n s t hs ht hsI hF
            omega
      · rw [if_neg h2]
        refine ⟨?_, ?_, by simp, by simp, by simp, ?_⟩
        · intro i hi
          obtain ⟨a, b⟩ := hf.ints i hi
          exact ⟨Nat.lt_succ_of_lt a, b⟩
        · intro i hi
          obtain ⟨a, b⟩ := hf.floats i hi
          exact ⟨Nat.lt_succ_of_lt a, b⟩
        · intro hl
          exfalso
          rcases hl.1 t (List.mem_of_getElem? ht) hv with h | h
          · exact h1 (by rw [h]; simp)
          · exact h2 (by rw [h]; simp)
  · rw [if_neg hv]
    have hnI : ¬ t.IsInts := by
      intro h; rw [h] at hv; simp at hv
    have hnF : ¬ t.IsFloats := by
      intro h; rw [h] at hv; simp at hv
    refine ⟨?_, ?_, ?_, ?_, ?_, hf.legal⟩
    · intro i hi
      obtain ⟨a, b⟩ := hf.ints i hi
      exact ⟨Nat.lt_succ_of_lt a, b⟩
    · intro i hi
      obtain ⟨a, b⟩ := hf.floats i hi
      exact ⟨Nat.lt_succ_of_lt a, b⟩
    · intro hval i s hi hs hsI
      rcases key i s hi hs with h | ⟨rfl, rfl⟩
      · exact hf.intsAll hval i s h hs hsI
      · exact absurd hsI hnI
    · intro hval i s hi hs hsI
      rcases key i s hi hs with h | ⟨rfl, rfl⟩
      · exact hf.floatsAll hval i s h hs hsI
      · exact absurd hsI hnF
    · intro hval i s hi hs hsv
      rcases key i s hi hs with h | ⟨rfl, rfl⟩
      · exact hf.others hval i s h hs hsv
      · exact absurd hsv hv

theorem classify_found (all : List Ty) (hp : ∀ t ∈ all, t.var = true → t.plain = true ∧ t.opt = false) :
    ∀ (ts : List Ty) (n : Nat) (c : Cls), (∀ k : Nat, all[n + k]? = ts[k]?) → Found all n c → Found all (n + ts.length) (classify c n ts) := by
  intro ts
  induction ts with
  | nil => intro n c _ hf; exact hf
  | cons t ts ih =>
    intro n c hall hf
    have ht : all[n]? = some t := by simpa using hall 0
    have := ih (n + 1) (classify1 c n t) (fun k => by
      have := hall (k + 1)
      rw [List.getElem?_cons_succ] at this
      rw [← this]; congr 1; omega) (hf.step ht (hp t (List.mem_of_getElem? ht)))
    simpa only [classify, List.length_cons, Nat.add_assoc, Nat.add_comm 1] using this

/-- The result of the loop over all parameters. -/
def cls (ts : List Ty) : Cls := classify ⟨none, none, [], true⟩ 0 ts

theorem cls_found (ts : List Ty) (hp : ∀ t ∈ ts, t.var = true → t.plain = true ∧ t.opt = false) : Found ts ts.length (cls ts) := by
  have := classify_found ts hp ts 0 ⟨none, none, [], true⟩ (fun k => by rw [Nat.zero_add])
    ⟨by simp, by simp, by simp, by simp, by simp, fun _ => rfl⟩
  rw [Nat.zero_add] at this
  exact this

theorem cls_valid (ts : List Ty) (hp : ∀ t ∈ ts, t.var = true → t.plain = true ∧ t.opt = false) :
    (cls ts).valid = true ↔ LegalParams ts := by
  have hf := cls_found ts hp
  have hlt : ∀ (i : Nat) (t : Ty), ts[i]? = some t → i < ts.length := fun i t h => (List.getElem?_eq_some_iff.1 h).1
  refine ⟨fun hv => ⟨?_, ?_, ?_⟩, hf.legal⟩
  · intro t ht htv
    obtain ⟨i, hi, he⟩ := List.mem_iff_getElem.1 ht
    exact hf.others hv i t hi (by rw [List.getElem?_eq_getElem hi, he]) htv
  · intro i j s t hs ht hsI htI
    have h1 := hf.intsAll hv i s (hlt _ _ hs) hs hsI
    rw [hf.intsAll hv j t (hlt _ _ ht) ht htI] at h1
    exact (Option.some.inj h1).symm
  · intro i j s t hs ht hsI htI
    have h1 := hf.floatsAll hv i s (hlt _ _ hs) hs hsI
    rw [hf.floatsAll hv j t (hlt _ _ ht) ht htI] at h1
    exact (Option.some.inj h1).symm

theorem pred_iff {t : Ty} (hp : t.var = true → t.plain = true ∧ t.opt = false) :
    (t.dim = 0 ∧ t.var = true ∧ t.base = .bool) ↔ t.IsPred := by
  cases t; simp_all [Ty.IsPred]; constructor
  · rintro ⟨rfl, rfl, rfl⟩; simp_all
  · rintro ⟨rfl, rfl, -, -, rfl⟩; simp

theorem list_iff {t : Ty} (hp : t.var = true → t.plain = true ∧ t.opt = false) :
    (t.dim = 1 ∧ t.var = true ∧ (t.base = .int ∨ t.base = .float)) ↔ t.IsInts ∨ t.IsFloats := by
  cases t; simp_all [Ty.IsInts, Ty.IsFloats]; constructor
  · rintro ⟨rfl, rfl, rfl | rfl⟩ <;> simp_all
  · rintro (⟨rfl, rfl, -, -, rfl⟩ | ⟨rfl, rfl, -, -, rfl⟩) <;> simp

/-- The annotation with the source. -/
def source (f : Fn) : Option Source :=
  match f.exec with
  | some n => some (Source.mk n false)
  | none => f.dll.map fun n => Source.mk n true

theorem synthesize_eq (f : Fn) : synthesize f =
    if !f.isValue && !f.isBounds then .unchanged
    else if f.isValue && f.isBounds then .error
    else if f.hasBody then .error
    else match source f with
      | none => .error
      | some src =>
        if !(cls f.params).valid then .error
        else if f.isBounds then
          if f.ret.dim = 0 ∧ f.ret.var = true ∧ f.ret.base = .bool then
            .body (.bounds (toArg (cls f.params).ints) (toArg (cls f.params).floats) f.userReason) src else .error
        else if f.ret.dim = 0 ∧ f.ret.var = true ∧ f.ret.base = .bool then
          .body (.checker (toArg (cls f.params).ints) (toArg (cls f.params).floats)) src
        else if f.ret.dim = 1 ∧ f.ret.var = true ∧ (f.ret.base = .int ∨ f.ret.base = .float) then
          if f.parOverload then
            .body (.func (toArg (cls f.params).ints) (toArg (cls f.params).floats) (f.ret.base = .int) (cls f.params).parArgs) src else .error
        else .error := rfl

theorem source_none (f : Fn) : source f = none ↔ ¬ (f.exec ≠ none ∨ f.dll ≠ none) := by
  unfold source
  cases f.exec <;> cases f.dll <;> simp

/-- **C95**: declarations without the annotations are left alone; the others get a body if they are as documented, and an error otherwise.  Partial:
for declarations in which no type of variables is a set or optional. -/
theorem _root_.MZ.C95_accepted_partial (f : Fn) (hp : f.Plain) :
    (synthesize f = .unchanged ↔ f.isValue = false ∧ f.isBounds = false) ∧ ((∃ b s, synthesize f = .body b s) ↔ Legal f) := by
  have hr := hp f.ret (Or.inl rfl)
  have hv := cls_valid f.params fun t ht => hp t (Or.inr ht)
  have h1 := pred_iff hr
  have h2 := list_iff hr
  rw [synthesize_eq]
  unfold Legal
  rw [← hv, ← h1, ← h2]
  have hs := source_none f
  cases hsrc : source f with
  | none =>
    have hs' := hs.1 hsrc
    cases f.isValue <;> cases f.isBounds <;> cases f.hasBody <;> simp_all
  | some src =>
    have hs' : f.exec ≠ none ∨ f.dll ≠ none := by
      by_contra h
      rw [hs.2 h] at hsrc; cases hsrc
    have hs'' : (f.exec ≠ none ∨ f.dll ≠ none) = True := by simp [hs']
    rw [hs'']
    cases hval : (cls f.params).valid
    · cases f.isValue <;> cases f.isBounds <;> cases f.hasBody <;> simp
    · by_cases c1 : f.ret.dim = 0 ∧ f.ret.var = true ∧ f.ret.base = .bool
      · cases f.isValue <;> cases f.isBounds <;> cases f.hasBody <;> simp [c1]
      · by_cases c2 : f.ret.dim = 1 ∧ f.ret.var = true ∧ (f.ret.base = .int ∨ f.ret.base = .float)
        · cases f.isValue <;> cases f.isBounds <;> cases f.hasBody <;> cases f.parOverload <;> simp [c1, c2]
        · cases f.isValue <;> cases f.isBounds <;> cases f.hasBody <;> simp [c1, c2]

/-- **C95**: a function that returns `list of var set of int` is accepted, against the documentation. -/
theorem _root_.MZ.C95_set_result_fails : ∃ f b s, synthesize f = .body b s ∧ ¬ Legal f :=
  ⟨⟨true, false, false, some "f", none, ⟨true, 1, false, false, .int⟩, [], false, true⟩, _, _, rfl, by
    intro h
    rcases h.2.2.2.2.2 rfl with h | ⟨h | h, -⟩ <;> simp [Ty.IsPred, Ty.IsInts, Ty.IsFloats] at h⟩

/-- **C95**: a parameter `list of var opt int` is accepted, against the documentation. -/
theorem _root_.MZ.C95_optional_fails : ∃ f b s, synthesize f = .body b s ∧ ¬ Legal f ∧ f.ret.IsPred :=
  ⟨⟨true, false, false, some "f", none, ⟨true, 0, true, false, .bool⟩, [⟨true, 1, true, true, .int⟩], false, true⟩, _, _, rfl, by
    intro h
    rcases h.2.2.2.1.1 _ List.mem_cons_self rfl with h | h <;> simp [Ty.IsInts, Ty.IsFloats] at h, rfl⟩

/-! ## Meaning of the bodies -/

theorem flatMap_nil {α β : Type} (f : α → List β) (vs : List α) (h : ∀ v ∈ vs, f v = []) : vs.flatMap f = [] := by
  induction vs with
  | nil => rfl
  | cons v vs ih => rw [List.flatMap_cons, h v List.mem_cons_self, ih fun w hw => h w (List.mem_cons_of_mem _ hw)]; rfl

theorem flatMap_single {α β : Type} (f : α → List β) (vs : List α) : ∀ (i : Nat), (∀ (j : Nat) (v : α), vs[j]? = some v → j ≠ i → f v = []) →
    ∀ v, vs[i]? = some v → vs.flatMap f = f v := by
  induction vs with
  | nil => intro i _ v hv; simp at hv
  | cons w vs ih =>
    intro i h v hv
    rw [List.flatMap_cons]
    cases i with
    | zero =>
      simp only [List.getElem?_cons_zero, Option.some.injEq] at hv
      subst hv
      rw [flatMap_nil f vs, List.append_nil]
      intro u hu
      obtain ⟨k, hk, rfl⟩ := List.mem_iff_getElem.1 hu
      exact h (k + 1) _ (by rw [List.getElem?_cons_succ, List.getElem?_eq_getElem hk]) (by omega)
    | succ i =>
      rw [h 0 w rfl (by omega), List.nil_append]
      exact ih i (fun j u hu hj => h (j + 1) u (by simpa using hu) (by omega)) v (by simpa using hv)

theorem Fits.get : ∀ {ts : List Ty} {vs : List Val}, Fits ts vs → ∀ (i : Nat),
    (∀ t, ts[i]? = some t → ∃ v, vs[i]? = some v) ∧
    (∀ v, vs[i]? = some v → ∃ t, ts[i]? = some t ∧
      (t.var = true → (t.base = .int → ∃ l, v = .ints l) ∧ (t.base = .float → ∃ l, v = .floats l)) ∧ (t.var = false → v = .fixed))
  | [], [], _, i => by simp
  | [], _ :: _, h, _ => absurd h (by simp [Fits])
  | _ :: _, [], h, _ => absurd h (by simp [Fits])
  | t :: ts, v :: vs, h, 0 => by
    refine ⟨fun _ _ => ⟨v, rfl⟩, ?_⟩
    intro w hw
    simp only [List.getElem?_cons_zero, Option.some.injEq] at hw
    subst hw
    exact ⟨t, rfl, h.1, h.2.1⟩
  | t :: ts, v :: vs, h, i + 1 => by
    simpa using Fits.get h.2.2 i

theorem args_ok {ts : List Ty} {vs : List Val} (hp : ∀ t ∈ ts, t.var = true → t.plain = true ∧ t.opt = false) (hv : (cls ts).valid = true)
    (hfit : Fits ts vs) :
    (toArg (cls ts).ints).ints vs = intsOf vs ∧ (toArg (cls ts).floats).floats vs = floatsOf vs := by
  have hf := cls_found ts hp
  have hlt : ∀ (i : Nat) (t : Ty), ts[i]? = some t → i < ts.length := fun i t h => (List.getElem?_eq_some_iff.1 h).1
  have hI : ∀ (j : Nat) (l : List Int), vs[j]? = some (.ints l) → (cls ts).ints = some j := by
    intro j l hj
    obtain ⟨t, ht, h1, h2⟩ := (hfit.get j).2 _ hj
    cases htv : t.var with
    | false => cases h2 htv
    | true =>
      rcases hf.others hv j t (hlt _ _ ht) ht htv with h | h
      · exact hf.intsAll hv j t (hlt _ _ ht) ht h
      · obtain ⟨l', hl⟩ := (h1 htv).2 (by rw [h])
        cases hl
  have hF : ∀ (j : Nat) (l : List Rat), vs[j]? = some (.floats l) → (cls ts).floats = some j := by
    intro j l hj
    obtain ⟨t, ht, h1, h2⟩ := (hfit.get j).2 _ hj
    cases htv : t.var with
    | false => cases h2 htv
    | true =>
      rcases hf.others hv j t (hlt _ _ ht) ht htv with h | h
      · obtain ⟨l', hl⟩ := (h1 htv).1 (by rw [h])
        cases hl
      · exact hf.floatsAll hv j t (hlt _ _ ht) ht h
  constructor
  · cases hc : (cls ts).ints with
    | none =>
      refine (flatMap_nil _ vs ?_).symm
      intro v hvv
      obtain ⟨k, hk, rfl⟩ := List.mem_iff_getElem.1 hvv
      cases hval : vs[k] with
      | ints l =>
        have := hI k l (by rw [List.getElem?_eq_getElem hk, hval])
        rw [hc] at this; cases this
      | _ => rfl
    | some i =>
      obtain ⟨-, t, ht, -⟩ := hf.ints i hc
      obtain ⟨v, hvi⟩ := (hfit.get i).1 t ht
      have := flatMap_single Val.intList vs i (by
        intro j w hw hne
        cases w with
        | ints l =>
          have := hI j l hw
          rw [hc] at this
          exact absurd (Option.some.inj this).symm hne
        | _ => rfl) v hvi
      simp only [toArg, Arg.ints, hvi, intsOf]
      rw [this]
      cases v <;> rfl
  · cases hc : (cls ts).floats with
    | none =>
      refine (flatMap_nil _ vs ?_).symm
      intro v hvv
      obtain ⟨k, hk, rfl⟩ := List.mem_iff_getElem.1 hvv
      cases hval : vs[k] with
      | floats l =>
        have := hF k l (by rw [List.getElem?_eq_getElem hk, hval])
        rw [hc] at this; cases this
      | _ => rfl
    | some i =>
      obtain ⟨-, t, ht, -⟩ := hf.floats i hc
      obtain ⟨v, hvi⟩ := (hfit.get i).1 t ht
      have := flatMap_single Val.floatList vs i (by
        intro j w hw hne
        cases w with
        | floats l =>
          have := hF j l hw
          rw [hc] at this
          exact absurd (Option.some.inj this).symm hne
        | _ => rfl) v hvi
      simp only [toArg, Arg.floats, hvi, floatsOf]
      rw [this]
      cases v <;> rfl

theorem classify_parArgs (ts : List Ty) : ∀ (n : Nat) (c : Cls), (classify c n ts).valid = true →
    c.valid = true ∧ (classify c n ts).parArgs = c.parArgs ++ (ts.zipIdx n).map fun ti => if ti.1.var then .lb ti.2 else .pass ti.2 := by
  induction ts with
  | nil => intro n c h; exact ⟨h, by simp [classify]⟩
  | cons t ts ih =>
    intro n c h
    obtain ⟨h1, h2⟩ := ih (n + 1) (classify1 c n t) h
    rw [classify, h2, List.zipIdx_cons, List.map_cons]
    unfold classify1 at h1 ⊢
    split_ifs at h1 ⊢ <;> simp_all

/-- **C95**: the body of an accepted predicate with values is true exactly if the external function gives the single output 1 for the
integers and floats among the arguments. -/
theorem _root_.MZ.C95_checker (f : Fn) (hp : f.Plain) (hl : Legal f) (hval : f.isValue = true) (hr : f.ret.IsPred) (vs : List Val)
    (hfit : Fits f.params vs) (ext : Extern) :
    ∃ b s, synthesize f = .body b s ∧ (b.Holds ext vs ↔ ext (intsOf vs) (floatsOf vs) = ([1], [])) := by
  obtain ⟨b, s, hb⟩ := (C95_accepted_partial f hp).2.2 hl
  refine ⟨b, s, hb, ?_⟩
  have hv : (cls f.params).valid = true := (cls_valid f.params fun t ht => hp t (Or.inr ht)).2 hl.2.2.2.1
  obtain ⟨a1, a2⟩ := args_ok (fun t ht => hp t (Or.inr ht)) hv hfit
  have hnb : f.isBounds = false := by
    have := hl.1
    cases h : f.isBounds <;> simp_all
  rw [synthesize_eq] at hb
  have hret := (pred_iff (hp f.ret (Or.inl rfl))).2 hr
  simp only [hval, hnb, hl.2.1, hv] at hb
  cases hs : source f with
  | none => rw [hs] at hb; simp at hb
  | some src =>
    rw [hs] at hb
    simp [hret] at hb
    obtain ⟨rfl, rfl⟩ := hb
    simp only [Body.Holds, blackbox, a1, a2]
    constructor
    · rintro ⟨r, -, h, rfl⟩
      exact h
    · intro h
      exact ⟨1, by omega, h, rfl⟩

/-- **C95**: the body of an accepted function has the outputs of the external function as its value, if there are as many of them as the `par` overload
gives for the lower bounds of the lists of variables and the fixed arguments, and no value otherwise. -/
theorem _root_.MZ.C95_function (f : Fn) (hp : f.Plain) (hl : Legal f) (hval : f.isValue = true) (vs : List Val)
    (hfit : Fits f.params vs) (ext : Extern) (n : Nat) :
    (f.ret.IsInts → ∃ b s, synthesize f = .body b s ∧
      ∀ out, b.HasInts ext vs n out ↔ out.length = n ∧ ext (intsOf vs) (floatsOf vs) = (out, [])) ∧
    (f.ret.IsFloats → ∃ b s, synthesize f = .body b s ∧
      ∀ out, b.HasFloats ext vs n out ↔ out.length = n ∧ ext (intsOf vs) (floatsOf vs) = ([], out)) ∧
    (f.ret.IsInts ∨ f.ret.IsFloats → ∃ a b k s, synthesize f =
      .body (.func a b k (f.params.zipIdx.map fun ti => if ti.1.var then .lb ti.2 else .pass ti.2)) s) := by
  have hv : (cls f.params).valid = true := (cls_valid f.params fun t ht => hp t (Or.inr ht)).2 hl.2.2.2.1
  obtain ⟨a1, a2⟩ := args_ok (fun t ht => hp t (Or.inr ht)) hv hfit
  have hnb : f.isBounds = false := by
    have := hl.1
    cases h : f.isBounds <;> simp_all
  have hpar := (classify_parArgs f.params 0 _ hv).2
  have hs : ∃ src, source f = some src := by
    cases h : source f with
    | none => exact absurd hl.2.2.1 ((source_none f).1 h)
    | some src => exact ⟨src, rfl⟩
  obtain ⟨src, hs⟩ := hs
  have hb : f.ret.IsInts ∨ f.ret.IsFloats → synthesize f = .body (.func (toArg (cls f.params).ints) (toArg (cls f.params).floats)
      (f.ret.base = .int) (cls f.params).parArgs) src := by
    intro hr
    have hover : f.parOverload = true := by
      rcases hl.2.2.2.2.2 hval with h | ⟨-, h⟩
      · rw [h] at hr; simp [Ty.IsInts, Ty.IsFloats] at hr
      · exact h
    have hd := (list_iff (hp f.ret (Or.inl rfl))).2 hr
    have hd0 : ¬ (f.ret.dim = 0 ∧ f.ret.var = true ∧ f.ret.base = .bool) := by
      rw [hd.1]; simp
    rw [synthesize_eq]
    simp only [hval, hnb, hl.2.1, hv, hs]
    rw [if_neg (by simp), if_neg (by simp), if_neg (by simp), if_neg (by simp), if_neg (by simp), if_neg hd0, if_pos hd, if_pos hover]
  refine ⟨fun hr => ⟨_, _, hb (Or.inl hr), ?_⟩, fun hr => ⟨_, _, hb (Or.inr hr), ?_⟩, fun hr =>
    ⟨toArg (cls f.params).ints, toArg (cls f.params).floats, decide (f.ret.base = .int), src, ?_⟩⟩
  · intro out
    have : (decide (f.ret.base = Base.int)) = true := by rw [hr]; rfl
    rw [this]
    simp only [Body.HasInts, blackbox, a1, a2]
  · intro out
    have : (decide (f.ret.base = Base.int)) = false := by rw [hr]; rfl
    rw [this]
    simp only [Body.HasFloats, blackbox, a1, a2]
  · rw [hb hr]
    congr 2

/-- **C95**: an accepted bounds propagator gets the variables of the lists in its arguments, and the user's reasons if there are any. -/
theorem _root_.MZ.C95_bounds (f : Fn) (hp : f.Plain) (hl : Legal f) (hbnd : f.isBounds = true) (vs : List Val) (hfit : Fits f.params vs) :
    ∃ a b s, synthesize f = .body (.bounds a b f.userReason) s ∧ a.ints vs = intsOf vs ∧ b.floats vs = floatsOf vs := by
  have hv : (cls f.params).valid = true := (cls_valid f.params fun t ht => hp t (Or.inr ht)).2 hl.2.2.2.1
  obtain ⟨a1, a2⟩ := args_ok (fun t ht => hp t (Or.inr ht)) hv hfit
  have hnv : f.isValue = false := by
    have := hl.1
    cases h : f.isValue <;> simp_all
  have hret := (pred_iff (hp f.ret (Or.inl rfl))).2 (hl.2.2.2.2.1 hbnd)
  cases hs : source f with
  | none => exact absurd hl.2.2.1 ((source_none f).1 hs)
  | some src =>
    refine ⟨_, _, src, ?_, a1, a2⟩
    rw [synthesize_eq]
    simp only [hbnd, hnv, hl.2.1, hv, hs]
    rw [if_neg (by simp), if_neg (by simp), if_neg (by simp), if_neg (by simp), if_pos trivial, if_pos hret]

/-- **C95**: the generated call is annotated with the executable, or without one with the library. -/
theorem _root_.MZ.C95_source (f : Fn) (b : Body) (s : Source) (h : synthesize f = .body b s) :
    (s.isLibrary = false ∧ f.exec = some s.name) ∨ (s.isLibrary = true ∧ f.exec = none ∧ f.dll = some s.name) := by
  have hs : source f = some s := by
    rw [synthesize_eq] at h
    cases hs : source f with
    | none => rw [hs] at h; split_ifs at h
    | some src =>
      rw [hs] at h
      simp only at h
      split_ifs at h <;> (injection h with _ h; rw [h])
  unfold source at hs
  cases he : f.exec with
  | some n => rw [he] at hs; cases hs; exact Or.inl ⟨rfl, rfl⟩
  | none =>
    cases hd : f.dll with
    | none => rw [he, hd] at hs; cases hs
    | some n => rw [he, hd] at hs; cases hs; exact Or.inr ⟨rfl, rfl, rfl⟩

/-- A function with a list of integers, a fixed parameter and a list of floats. -/
def exFn : Fn := ⟨true, false, false, none, some "lib", ⟨true, 1, true, false, .float⟩,
  [⟨true, 1, true, false, .int⟩, ⟨false, 0, true, false, .int⟩, ⟨true, 1, true, false, .float⟩], false, true⟩

example : exFn.Plain ∧ Legal exFn ∧ exFn.ret.IsFloats ∧ Fits exFn.params [.ints [3, 4], .fixed, .floats [1]] ∧
    synthesize exFn = .body (.func (.param 0) (.param 2) false [.lb 0, .pass 1, .lb 2]) ⟨"lib", true⟩ ∧
    LegalParams exFn.params := by
  have hp : exFn.Plain := by
    intro t ht hv
    simp only [exFn, List.mem_cons, List.not_mem_nil, or_false] at ht
    rcases ht with rfl | rfl | rfl | rfl <;> simp_all
  have hl := ((C95_accepted_partial exFn hp).2.1 ⟨_, _, rfl⟩)
  exact ⟨hp, hl, rfl, by simp [exFn, Fits], rfl, hl.2.2.2.1⟩

/-- A checker and a bounds propagator. -/
example : (∃ b s, synthesize { exFn with ret := ⟨true, 0, true, false, .bool⟩ } = .body b s) ∧
    synthesize { exFn with isValue := false, isBounds := true, ret := ⟨true, 0, true, false, .bool⟩ } =
      .body (.bounds (.param 0) (.param 2) false) ⟨"lib", true⟩ ∧
    synthesize { exFn with params := exFn.params ++ exFn.params } = .error := ⟨⟨_, _, rfl⟩, rfl, rfl⟩

/-! ## Reasons -/

theorem readLits_flat (ls : List (Int × PropBnd)) (r : List Int) :
    readLits ls.length ((ls.flatMap fun l => [l.1, l.2.toInt]) ++ r) = some (ls, r) := by
  induction ls with
  | nil => rfl
  | cons l ls ih =>
    obtain ⟨j, b⟩ := l
    simp only [List.length_cons, List.flatMap_cons, List.cons_append, List.nil_append, readLits]
    rw [ih]
    cases b <;> simp [PropBnd.toInt]

theorem readCounted_flat (ls : List (Int × PropBnd)) (r : List Int) : readCounted (flattenLiterals ls ++ r) = some (ls, r) := by
  simp only [flattenLiterals, List.cons_append, readCounted]
  rw [if_pos (by omega), Int.toNat_natCast, readLits_flat]

/-- **C95**: from the numbers passed for the reasons, a solver that knows the number of variables can read the reasons back. -/
theorem _root_.MZ.C95_reason_format (r : List Entry) : readReason r.length (flatReason r) = some r := by
  induction r with
  | nil => rfl
  | cons e r ih =>
    have : flatReason (e :: r) = e.var :: (flattenLiterals e.lower ++ (flattenLiterals e.upper ++ flatReason r)) := by
      simp [flatReason]
    rw [this]
    simp only [List.length_cons, readReason, readCounted_flat]
    simp [readCounted_flat, ih]

/-- **C95**: the default reason has one entry for each variable, in order, and in it every bound of every variable explains both changes; other
literals do not occur. -/
theorem _root_.MZ.C95_default_reason (n : Nat) :
    (defaultReason n).length = n ∧
    (∀ i : Nat, i < n → ((defaultReason n)[i]?).map Entry.var = some ((i : Int) + 1)) ∧
    ∀ e ∈ defaultReason n, ∀ (j : Int) (b : PropBnd), ((j, b) ∈ e.lower ↔ 1 ≤ j ∧ j ≤ n) ∧ ((j, b) ∈ e.upper ↔ 1 ≤ j ∧ j ≤ n) := by
  refine ⟨by simp [defaultReason], ?_, ?_⟩
  · intro i hi
    simp [defaultReason, hi]
  · intro e he j b
    simp only [defaultReason, List.mem_map, List.mem_range] at he
    obtain ⟨i, hi, rfl⟩ := he
    simp only [and_self_iff]
    rw [List.mem_flatMap]
    simp only [List.mem_range, List.mem_cons, Prod.mk.injEq, List.not_mem_nil, or_false]
    constructor
    · rintro ⟨k, hk, ⟨rfl, -⟩ | ⟨rfl, -⟩⟩ <;> omega
    · rintro ⟨h1, h2⟩
      refine ⟨(j - 1).toNat, by omega, ?_⟩
      cases b
      · exact Or.inl ⟨by omega, rfl⟩
      · exact Or.inr ⟨by omega, rfl⟩

example : flatReason (defaultReason 1) = [1, 2, 1, 1, 1, 2, 2, 1, 1, 1, 2] := by decide +kernel

end Blackbox
end MZ
