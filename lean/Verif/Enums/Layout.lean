import Verif.Enums.Sets

/-! The items generated for the parts of a declaration are laid out one after the other. -/

namespace MZ
namespace Enums

/-- What is generated for a part that comes after `off` values. -/
def FitsPart (es : List Enum) (off : Nat) : Part → Gen → Prop
  | .ids names, .ids prev names' => names' = names ∧ prev.getD 0 = off
  | .anon _, .anon => True
  | .anonSet _, .anon => True
  | .cons c a, .cons k => k.name = c ∧ k.At off ∧ resolve es a = some (k.elems, k.ty, k.text)
  | _, _ => False

/-- The same for all parts. -/
def Laid (es : List Enum) (vs : List (List Val)) (X : Str) : Nat → List Part → List Gen → Prop
  | _, [], [] => True
  | off, p :: ps, g :: gs => FitsPart es off p g ∧ Laid es vs X (off + (partVals vs X off p).length) ps gs
  | _, _, _ => False

/-- The cardinalities that are recorded: none for an empty list of identifiers. -/
def ext (vs : List (List Val)) (X : Str) : Nat → List Part → List Int
  | _, [] => []
  | off, p :: ps =>
    (if p = .ids [] then [] else [((off + (partVals vs X off p).length : Nat) : Int)]) ++
      ext vs X (off + (partVals vs X off p).length) ps

/-- The argument refers to declarations before `k`. -/
def Arg.Before (k : Nat) : Arg → Prop
  | .enum j => j < k
  | .ints _ => True
  | .sub j _ => j < k

def Part.Before (k : Nat) : Part → Prop
  | .cons _ a => a.Before k
  | _ => True

/-- The enumerated types `es` are those of the declarations `ds` with the values `vs`. -/
structure EnvRel (ds : List Decl) (es : List Enum) (vs : List (List Val)) : Prop where
  len_es : es.length = ds.length
  len_vs : vs.length = ds.length
  row : ∀ (k : Nat) (d : Decl), ds[k]? = some d → ∃ e : Enum, es[k]? = some e ∧ e.name = d.name ∧
    vs[k]? = some (declVals vs d) ∧ e.card = (declVals vs d).length ∧ e.pcs = ext vs d.name 0 d.parts ∧
    Laid es vs d.name 0 d.parts e.gens ∧ ∀ p ∈ d.parts, p.Before k ∧ p.Ok vs

theorem getD_of_some {α} {l : List α} {k : Nat} {a d : α} (h : l[k]? = some a) : l.getD k d = a := by
  rw [List.getD_eq_getElem?_getD, h]
  rfl

theorem getD_append_of_lt {α} {l t : List α} {k : Nat} {d : α} (h : k < l.length) : (l ++ t).getD k d = l.getD k d := by
  rw [List.getD_eq_getElem?_getD, List.getD_eq_getElem?_getD, List.getElem?_append_left h]

theorem partVals_append {vs t : List (List Val)} {X off} {p : Part} (h : p.Before vs.length) :
    partVals (vs ++ t) X off p = partVals vs X off p := by
  cases p with
  | ids names => rfl
  | anon n => rfl
  | anonSet s => rfl
  | cons c a =>
    cases a with
    | ints s => rfl
    | enum k => simp only [partVals, getD_append_of_lt (show k < vs.length from h)]
    | sub k s => simp only [partVals, getD_append_of_lt (show k < vs.length from h)]

theorem partsVals_append {vs t : List (List Val)} {X} : ∀ {ps : List Part} {off}, (∀ p ∈ ps, p.Before vs.length) →
    partsVals (vs ++ t) X off ps = partsVals vs X off ps
  | [], _, _ => rfl
  | p :: ps, off, h => by
    rw [partsVals, partsVals, partVals_append (h p List.mem_cons_self),
      partsVals_append (fun q hq => h q (List.mem_cons_of_mem _ hq))]

theorem ext_append {vs t : List (List Val)} {X} : ∀ {ps : List Part} {off}, (∀ p ∈ ps, p.Before vs.length) →
    ext (vs ++ t) X off ps = ext vs X off ps
  | [], _, _ => rfl
  | p :: ps, off, h => by
    rw [ext, ext, partVals_append (h p List.mem_cons_self),
      ext_append (fun q hq => h q (List.mem_cons_of_mem _ hq))]

theorem resolve_append {es t : List Enum} {a : Arg} {r} (h : resolve es a = some r) : resolve (es ++ t) a = some r := by
  cases a with
  | ints s => exact h
  | enum k =>
    simp only [resolve, Option.bind_eq_bind, Option.bind_eq_some_iff] at h ⊢
    obtain ⟨e, he, h⟩ := h
    exact ⟨e, by rw [List.getElem?_append_left (List.getElem?_eq_some_iff.1 he).1, he], h⟩
  | sub k s =>
    simp only [resolve, Option.bind_eq_bind, Option.bind_eq_some_iff] at h ⊢
    obtain ⟨e, he, h⟩ := h
    exact ⟨e, by rw [List.getElem?_append_left (List.getElem?_eq_some_iff.1 he).1, he], h⟩

theorem fitsPart_append {es t : List Enum} {off : Nat} {p : Part} {g : Gen} (h : FitsPart es off p g) :
    FitsPart (es ++ t) off p g := by
  cases p <;> cases g <;> simp only [FitsPart] at h ⊢ <;> try exact h
  exact ⟨h.1, h.2.1, resolve_append h.2.2⟩

theorem laid_append {es t : List Enum} {vs u : List (List Val)} {X} : ∀ {ps : List Part} {gs : List Gen} {off},
    (∀ p ∈ ps, p.Before vs.length) → Laid es vs X off ps gs → Laid (es ++ t) (vs ++ u) X off ps gs
  | [], [], _, _, _ => trivial
  | p :: ps, g :: gs, off, hb, h => by
    refine ⟨fitsPart_append h.1, ?_⟩
    rw [partVals_append (hb p List.mem_cons_self)]
    exact laid_append (fun q hq => hb q (List.mem_cons_of_mem _ hq)) h.2
  | [], _ :: _, _, _, h => h.elim
  | _ :: _, [], _, _, h => h.elim

theorem ok_append {vs t : List (List Val)} {p : Part} (h : p.Ok vs) : p.Ok (vs ++ t) := by
  cases p with
  | ids names => trivial
  | anon n => exact h
  | anonSet s => trivial
  | cons c a =>
    cases a with
    | ints s => exact h
    | enum k =>
      have h : k < vs.length := h
      show k < (vs ++ t).length
      rw [List.length_append]
      omega
    | sub k s =>
      obtain ⟨h1, h2, h3⟩ : k < vs.length ∧ _ := h
      refine ⟨by rw [List.length_append]; omega, h2, ?_⟩
      rw [getD_append_of_lt h1]
      exact h3

theorem before_of_ok {vs : List (List Val)} {p : Part} (h : p.Ok vs) : p.Before vs.length := by
  cases p with
  | ids names => trivial
  | anon n => trivial
  | anonSet s => trivial
  | cons c a =>
    cases a with
    | ints s => trivial
    | enum k => exact h
    | sub k s => exact h.1

/-- The argument of a constructor has as many elements as the part has values. -/
theorem resolve_ok {ds es vs} (hR : EnvRel ds es vs) {a : Arg} (h : a.Ok vs) (X : Str) (off : Nat) (c : Str) :
    ∃ s ty t, resolve es a = some (s, ty, t) ∧ IsSet s ∧ (partVals vs X off (.cons c a)).length = s.length := by
  cases a with
  | ints s => exact ⟨s, none, _, rfl, h, by simp [partVals]⟩
  | enum k =>
    have h : k < vs.length := h
    have hk : k < ds.length := by rw [← hR.len_vs]; exact h
    obtain ⟨e, he, h1, h2, h3, -⟩ := hR.row k _ (List.getElem?_eq_getElem hk)
    refine ⟨e.set, some k, e.text, by simp [resolve, he], isSet_upTo _, ?_⟩
    simp only [partVals, List.length_map, getD_of_some h2, Enum.set, upTo_length, h3]
    simp
  | sub k s =>
    obtain ⟨h1, h2, h3⟩ : k < vs.length ∧ _ := h
    have hk : k < ds.length := by rw [← hR.len_vs]; exact h1
    obtain ⟨e, he, -⟩ := hR.row k _ (List.getElem?_eq_getElem hk)
    exact ⟨s, some k, genericText (e.text false false), by simp only [resolve, he, Option.bind_eq_bind, Option.bind_some], h2,
      by simp [partVals]⟩

/-- One round of the loop. -/
theorem step_ok {ds es vs} (hR : EnvRel ds es vs) {X : Str} {off : Nat} {pcs : List Int} {p : Part} (h : p.Ok vs)
    (hp : pcs.getLast?.getD 0 = off) :
    ∃ g pcs', step es pcs p = some (g, pcs') ∧ FitsPart es off p g ∧
      pcs'.getLast?.getD 0 = ((off + (partVals vs X off p).length : Nat) : Int) ∧
      pcs' = pcs ++ (if p = .ids [] then [] else [((off + (partVals vs X off p).length : Nat) : Int)]) := by
  cases p with
  | ids names =>
    refine ⟨_, _, rfl, ⟨rfl, hp⟩, ?_, ?_⟩
    · by_cases hn : names = []
      · subst hn
        simpa [partVals] using hp
      · rw [if_neg hn, List.getLast?_concat]
        simp [plusPrev_eq, hp, partVals]
    · by_cases hn : names = []
      · subst hn
        simp
      · rw [if_neg hn, if_neg (by simpa using hn), plusPrev_eq, hp]
        simp [partVals]
  | anon n =>
    have hn : 0 ≤ n := h
    refine ⟨_, _, rfl, trivial, ?_, ?_⟩
    · rw [List.getLast?_concat, plusPrev_eq, hp]
      simp [partVals]
      omega
    · rw [if_neg (by simp), plusPrev_eq, hp]
      simp [partVals]
      omega
  | anonSet s =>
    refine ⟨_, _, rfl, trivial, ?_, ?_⟩
    · rw [List.getLast?_concat, plusPrev_eq, hp]
      simp [partVals]
    · rw [if_neg (by simp), plusPrev_eq, hp]
      simp [partVals]
  | cons c a =>
    obtain ⟨s, ty, t, h1, h2, h3⟩ := resolve_ok hR (show a.Ok vs from h) X off c
    refine ⟨.cons ⟨c, s, ty, t, pcs.getLast?, pcs.getLast?.getD 0 - (minOr0 s - 1)⟩, pcs ++ [plusPrev pcs.getLast? s.length], by simp only [step, h1, Option.bind_eq_bind, Option.bind_some],
      ⟨rfl, ⟨h2, hp, by rw [hp]⟩, h1⟩, ?_, ?_⟩
    · rw [List.getLast?_concat, plusPrev_eq, hp, h3]
      simp
    · rw [if_neg (by simp), plusPrev_eq, hp, h3]
      simp

/-- All rounds of the loop. -/
theorem steps_ok {ds es vs} (hR : EnvRel ds es vs) {X : Str} : ∀ {ps : List Part} {off : Nat} {pcs : List Int},
    (∀ p ∈ ps, p.Ok vs) → pcs.getLast?.getD 0 = off →
    ∃ gs pcs', steps es pcs ps = some (gs, pcs') ∧ Laid es vs X off ps gs ∧
      pcs'.getLast?.getD 0 = ((off + (partsVals vs X off ps).length : Nat) : Int) ∧
      pcs' = pcs ++ ext vs X off ps
  | [], off, pcs, _, hp => ⟨[], pcs, rfl, trivial, by simpa [partsVals] using hp, by simp [ext]⟩
  | p :: ps, off, pcs, h, hp => by
    obtain ⟨g, pcs1, h1, h2, h3, h4⟩ := step_ok hR (X := X) (h p List.mem_cons_self) hp
    obtain ⟨gs, pcs2, k1, k2, k3, k4⟩ := steps_ok hR (X := X) (ps := ps) (fun q hq => h q (List.mem_cons_of_mem _ hq)) h3
    refine ⟨g :: gs, pcs2, by simp only [steps, h1, k1, Option.bind_eq_bind, Option.bind_some], ⟨h2, k2⟩, ?_, ?_⟩
    · rw [k3, partsVals, List.length_append]
      congr 1
      omega
    · rw [k4, h4, ext, List.append_assoc]

theorem build_ok {ds es vs} (hR : EnvRel ds es vs) {d : Decl} (h : ∀ p ∈ d.parts, p.Ok vs) :
    ∃ e, build es d = some e ∧ EnvRel (ds ++ [d]) (es ++ [e]) (vs ++ [declVals vs d]) := by
  obtain ⟨gs, pcs, h1, h2, h3, h4⟩ := steps_ok hR (X := d.name) (ps := d.parts) (off := 0) (pcs := []) h rfl
  refine ⟨⟨d.name, pcs.getLast?.getD 0, pcs, gs⟩, by simp only [build, h1, Option.bind_eq_bind, Option.bind_some], ?_⟩
  refine ⟨by simp [hR.len_es], by simp [hR.len_vs], ?_⟩
  intro k d' hk
  by_cases hl : k < ds.length
  · rw [List.getElem?_append_left hl] at hk
    obtain ⟨e, e1, e2, e3, e4, e5, e6, e7⟩ := hR.row k d' hk
    have hb : ∀ p ∈ d'.parts, p.Before vs.length := fun p hp => before_of_ok (e7 p hp).2
    have hv : declVals (vs ++ [declVals vs d]) d' = declVals vs d' := partsVals_append hb
    refine ⟨e, ?_, e2, ?_, ?_, ?_, laid_append hb e6, fun p hp => ⟨(e7 p hp).1, ok_append (e7 p hp).2⟩⟩
    · rw [List.getElem?_append_left (by rw [hR.len_es]; exact hl), e1]
    · rw [List.getElem?_append_left (by rw [hR.len_vs]; exact hl), e3, hv]
    · rw [hv, e4]
    · rw [ext_append hb, e5]
  · have hk' := (List.getElem?_eq_some_iff.1 hk).1
    rw [List.length_append, List.length_singleton] at hk'
    have : k = ds.length := by omega
    subst this
    rw [List.getElem?_append_right (Nat.le_refl _)] at hk
    simp only [Nat.sub_self, List.getElem?_cons_zero, Option.some.injEq] at hk
    subst hk
    have hb : ∀ p ∈ d.parts, p.Before vs.length := fun p hp => before_of_ok (h p hp)
    have hv : declVals (vs ++ [declVals vs d]) d = declVals vs d := partsVals_append hb
    refine ⟨{ name := d.name, card := pcs.getLast?.getD 0, pcs := pcs, gens := gs }, ?_, rfl, ?_, ?_, ?_, ?_, ?_⟩
    · rw [List.getElem?_append_right (by rw [hR.len_es]), hR.len_es]
      simp
    · rw [List.getElem?_append_right (by rw [hR.len_vs]), hR.len_vs, hv]
      simp
    · rw [hv]
      show pcs.getLast?.getD 0 = _
      rw [h3]
      simp [declVals]
    · rw [ext_append hb]
      show pcs = _
      rw [h4]
      rfl
    · exact laid_append hb h2
    · intro p hp
      refine ⟨?_, ok_append (h p hp)⟩
      have := hb p hp
      rw [hR.len_vs] at this
      exact this

theorem buildAll_ok : ∀ {ds1 : List Decl} {ds es vs}, EnvRel ds es vs → OkFrom vs ds1 →
    ∃ es', buildAll es ds1 = some es' ∧ EnvRel (ds ++ ds1) es' (valsFrom vs ds1)
  | [], ds, es, vs, hR, _ => ⟨es, rfl, by simpa [valsFrom] using hR⟩
  | d :: ds1, ds, es, vs, hR, h => by
    obtain ⟨e, h1, h2⟩ := build_ok hR h.1
    obtain ⟨es', h3, h4⟩ := buildAll_ok h2 h.2
    refine ⟨es', by simp only [buildAll, h1, Option.bind_eq_bind, Option.bind_some, h3], ?_⟩
    rw [List.append_assoc, List.singleton_append] at h4
    exact h4

/-- Well-formed declarations are translated. -/
theorem buildAll_rel {ds : List Decl} (h : Ok ds) : ∃ es, buildAll [] ds = some es ∧ EnvRel ds es (vals ds) := by
  have h0 : EnvRel [] [] [] := ⟨rfl, rfl, by simp⟩
  obtain ⟨es, h1, h2⟩ := buildAll_ok h0 h
  exact ⟨es, h1, by simpa [vals] using h2⟩

theorem rel_of_build {ds : List Decl} (h : Ok ds) {es} (hb : buildAll [] ds = some es) : EnvRel ds es (vals ds) := by
  obtain ⟨es', h1, h2⟩ := buildAll_rel h
  rw [hb] at h1
  cases h1
  exact h2

end Enums
end MZ
