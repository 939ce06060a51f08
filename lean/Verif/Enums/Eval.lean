import Verif.Enums.Layout
import Mathlib.Data.List.Nodup
import Mathlib.Data.List.Flatten

/-! Evaluating the expression of a value gives its position. -/

namespace MZ
namespace Enums

theorem firstIdx_get {α β} {f : α → Option β} : ∀ {es : List α} {n k : Nat} {e : α} {b : β}, es[k]? = some e → f e = some b →
    (∀ j e', j < k → es[j]? = some e' → f e' = none) → firstIdx f n es = some (n + k, b)
  | [], n, k, e, b, h, _, _ => by simp at h
  | a :: es, n, 0, e, b, h, hb, _ => by
    simp only [List.getElem?_cons_zero, Option.some.injEq] at h
    subst h
    simp [firstIdx, hb]
  | a :: es, n, k + 1, e, b, h, hb, hn => by
    have ha : f a = none := hn 0 a (by omega) rfl
    simp only [firstIdx, ha]
    rw [firstIdx_get (es := es) (k := k) (by simpa using h) hb
      (fun j e' hj he' => hn (j + 1) e' (by omega) (by simpa using he'))]
    congr 2
    omega

theorem nodup_disjoint {α β} {f : α → List β} {l : List α} (h : (l.flatMap f).Nodup) {i j : Nat} {a b : α} (hij : i ≠ j)
    (ha : l[i]? = some a) (hb : l[j]? = some b) {x : β} (hx : x ∈ f a) : x ∉ f b := by
  rw [List.nodup_flatMap] at h
  have hp := List.pairwise_iff_getElem.1 h.2
  obtain ⟨i1, rfl⟩ := List.getElem?_eq_some_iff.1 ha
  obtain ⟨j1, rfl⟩ := List.getElem?_eq_some_iff.1 hb
  intro hx'
  rcases Nat.lt_or_gt_of_ne hij with e | e
  · exact hp i j i1 j1 e hx hx'
  · exact hp j i j1 i1 e hx' hx

/-- The values of a part that is not a list of identifiers are not identifiers, and so on. -/
theorem id_of_part {vs X off} {p : Part} {i : Nat} {n : Str} (h : (partVals vs X off p)[i]? = some (.id n)) :
    ∃ names, p = .ids names ∧ names[i]? = some n := by
  cases p with
  | ids names =>
    simp only [partVals, List.getElem?_map, Option.map_eq_some_iff, Val.id.injEq] at h
    obtain ⟨a, h1, rfl⟩ := h
    exact ⟨names, rfl, h1⟩
  | anon k => simp [partVals] at h
  | anonSet s => simp [partVals] at h
  | cons c a => cases a <;> simp [partVals] at h

theorem app_of_part {vs X off} {p : Part} {i : Nat} {c : Str} {y : Val} (h : (partVals vs X off p)[i]? = some (.app c y)) :
    ∃ a, p = .cons c a := by
  cases p with
  | ids names => simp [partVals] at h
  | anon k => simp [partVals] at h
  | anonSet s => simp [partVals] at h
  | cons c' a =>
    cases a <;> simp only [partVals, List.getElem?_map, Option.map_eq_some_iff, Val.app.injEq] at h <;>
    · obtain ⟨_, _, rfl, _⟩ := h
      exact ⟨_, rfl⟩

theorem anon_of_part {vs X off} {p : Part} {i : Nat} {X' : Str} {v : Int} (h : (partVals vs X off p)[i]? = some (.anon X' v)) :
    X' = X ∧ v = ((off + i + 1 : Nat) : Int) := by
  have key : ∀ k : Nat, ((List.range k).map (fun i => Val.anon X (off + i + 1 : Nat)))[i]? = some (.anon X' v) →
      X' = X ∧ v = ((off + i + 1 : Nat) : Int) := by
    intro k h
    simp only [List.getElem?_map, Option.map_eq_some_iff, Val.anon.injEq] at h
    obtain ⟨j, hj, h1, h2⟩ := h
    obtain ⟨hj1, hj2⟩ := List.getElem?_eq_some_iff.1 hj
    rw [List.getElem_range] at hj2
    subst hj2
    exact ⟨h1.symm, h2.symm⟩
  cases p with
  | ids names => simp [partVals] at h
  | anon k => exact key _ h
  | anonSet s => exact key _ h
  | cons c a => cases a <;> simp [partVals] at h

theorem int_of_part {vs X off} {p : Part} {i : Nat} {v : Int} : (partVals vs X off p)[i]? ≠ some (.int v) := by
  intro h
  cases p with
  | ids names => simp [partVals] at h
  | anon k => simp [partVals] at h
  | anonSet s => simp [partVals] at h
  | cons c a => cases a <;> simp [partVals] at h

/-- A value of a declaration is a value of one of its parts. -/
theorem parts_get {vs X} : ∀ {ps : List Part} {off i : Nat} {x : Val}, (partsVals vs X off ps)[i]? = some x →
    ∃ p ∈ ps, ∃ off' i', off + i = off' + i' ∧ (partVals vs X off' p)[i']? = some x
  | [], _, _, _, h => by simp [partsVals] at h
  | p :: ps, off, i, x, h => by
    rw [partsVals] at h
    by_cases hi : i < (partVals vs X off p).length
    · rw [List.getElem?_append_left hi] at h
      exact ⟨p, List.mem_cons_self, off, i, rfl, h⟩
    · rw [List.getElem?_append_right (by omega)] at h
      obtain ⟨q, hq, off', i', h1, h2⟩ := parts_get h
      exact ⟨q, List.mem_cons_of_mem _ hq, off', i', by omega, h2⟩

theorem id_mem {vs X} {ps : List Part} {off i : Nat} {n : Str} (h : (partsVals vs X off ps)[i]? = some (.id n)) :
    n ∈ ps.flatMap Part.names := by
  obtain ⟨p, hp, off', i', h1, h2⟩ := parts_get h
  obtain ⟨names, rfl, h3⟩ := id_of_part h2
  exact List.mem_flatMap.2 ⟨_, hp, List.mem_of_getElem? h3⟩

theorem app_mem {vs X} {ps : List Part} {off i : Nat} {c : Str} {y : Val} (h : (partsVals vs X off ps)[i]? = some (.app c y)) :
    c ∈ ps.flatMap Part.conss := by
  obtain ⟨p, hp, off', i', h1, h2⟩ := parts_get h
  obtain ⟨a, rfl⟩ := app_of_part h2
  exact List.mem_flatMap.2 ⟨_, hp, by simp [Part.conss]⟩

theorem idxOf_none {n : Str} {names : List Str} (h : n ∉ names) : names.idxOf? n = none := by
  rw [List.idxOf?_eq_none_iff]
  exact h

theorem idxOf_some {n : Str} {names : List Str} (hd : names.Nodup) {i : Nat} (h : names[i]? = some n) :
    names.idxOf? n = some i := by
  obtain ⟨hi, rfl⟩ := List.getElem?_eq_some_iff.1 h
  rw [List.idxOf?_eq_some_iff]
  refine ⟨hi, by simp, ?_⟩
  intro j hj
  have : names[j] ≠ names[i] := fun e => absurd ((List.Nodup.getElem_inj_iff hd).1 e) (by omega)
  simpa using this

/-- The constant of an identifier has the position of the identifier as its value. -/
theorem ident_get {es : List Enum} {vs X} {ub : Int} : ∀ {ps : List Part} {gs : List Gen} {off i : Nat} {n : Str},
    Laid es vs X off ps gs → (ps.flatMap Part.names).Nodup → (partsVals vs X off ps)[i]? = some (.id n) →
    identValue ub n gs = toEnum (upTo ub) ((off + i + 1 : Nat) : Int)
  | [], [], _, _, _, _, _, h => by simp [partsVals] at h
  | [], _ :: _, _, _, _, h, _, _ => h.elim
  | _ :: _, [], _, _, _, h, _, _ => h.elim
  | p :: ps, g :: gs, off, i, n, hl, hd, hx => by
    rw [List.flatMap_cons, List.nodup_append] at hd
    obtain ⟨d1, d2, d3⟩ := hd
    rw [partsVals] at hx
    have rest : ∀ (hi : ¬ i < (partVals vs X off p).length), n ∈ ps.flatMap Part.names ∧
        identValue ub n gs = toEnum (upTo ub) ((off + i + 1 : Nat) : Int) := by
      intro hi
      rw [List.getElem?_append_right (by omega)] at hx
      refine ⟨id_mem hx, ?_⟩
      rw [ident_get hl.2 d2 hx]
      congr 2
      omega
    cases p with
    | ids names =>
      cases g with
      | anon => exact hl.1.elim
      | cons c => exact hl.1.elim
      | ids prev names' =>
        obtain ⟨rfl, hp⟩ := hl.1
        by_cases hi : i < (partVals vs X off (.ids names')).length
        · rw [List.getElem?_append_left hi] at hx
          obtain ⟨names'', e, hn⟩ := id_of_part hx
          cases e
          have e2 : (off : Int) + ((i : Int) + 1) = ((off + i + 1 : Nat) : Int) := by push_cast; omega
          simp only [identValue, idxOf_some (show names'.Nodup from d1) hn, plusPrev_eq, hp, e2]
        · obtain ⟨h1, h2⟩ := rest hi
          have : n ∉ names' := fun hm => d3 n hm n h1 rfl
          simp only [identValue, idxOf_none this]
          exact h2
    | anon k =>
      have hi : ¬ i < (partVals vs X off (.anon k)).length := by
        intro hi
        rw [List.getElem?_append_left hi] at hx
        obtain ⟨_, e, _⟩ := id_of_part hx
        cases e
      cases g with
      | ids prev names => exact hl.1.elim
      | cons c => exact hl.1.elim
      | anon => exact (rest hi).2
    | anonSet s =>
      have hi : ¬ i < (partVals vs X off (.anonSet s)).length := by
        intro hi
        rw [List.getElem?_append_left hi] at hx
        obtain ⟨_, e, _⟩ := id_of_part hx
        cases e
      cases g with
      | ids prev names => exact hl.1.elim
      | cons c => exact hl.1.elim
      | anon => exact (rest hi).2
    | cons c a =>
      have hi : ¬ i < (partVals vs X off (.cons c a)).length := by
        intro hi
        rw [List.getElem?_append_left hi] at hx
        obtain ⟨_, e, _⟩ := id_of_part hx
        cases e
      cases g with
      | ids prev names => exact hl.1.elim
      | anon => exact hl.1.elim
      | cons k => exact (rest hi).2

theorem ident_none {es : List Enum} {vs X} {ub : Int} {n : Str} : ∀ {ps : List Part} {gs : List Gen} {off : Nat},
    Laid es vs X off ps gs → n ∉ ps.flatMap Part.names → identValue ub n gs = none
  | [], [], _, _, _ => rfl
  | [], _ :: _, _, h, _ => h.elim
  | _ :: _, [], _, h, _ => h.elim
  | p :: ps, g :: gs, off, hl, hn => by
    rw [List.flatMap_cons, List.mem_append, not_or] at hn
    have ih := ident_none (ub := ub) hl.2 hn.2
    cases p with
    | ids names =>
      cases g with
      | anon => exact hl.1.elim
      | cons c => exact hl.1.elim
      | ids prev names' =>
        obtain ⟨rfl, hp⟩ := hl.1
        simp only [identValue, idxOf_none (show n ∉ names' from hn.1)]
        exact ih
    | anon k => cases g with
      | anon => exact ih
      | cons c => exact hl.1.elim
      | ids _ _ => exact hl.1.elim
    | anonSet k => cases g with
      | anon => exact ih
      | cons c => exact hl.1.elim
      | ids _ _ => exact hl.1.elim
    | cons c a => cases g with
      | cons c => exact ih
      | anon => exact hl.1.elim
      | ids _ _ => exact hl.1.elim

theorem findCons_none {es : List Enum} {vs X} {c : Str} : ∀ {ps : List Part} {gs : List Gen} {off : Nat},
    Laid es vs X off ps gs → c ∉ ps.flatMap Part.conss → findCons c gs = none
  | [], [], _, _, _ => rfl
  | [], _ :: _, _, h, _ => h.elim
  | _ :: _, [], _, h, _ => h.elim
  | p :: ps, g :: gs, off, hl, hn => by
    rw [List.flatMap_cons, List.mem_append, not_or] at hn
    have ih := findCons_none hl.2 hn.2
    cases p with
    | ids names => cases g with
      | ids _ _ => exact ih
      | anon => exact hl.1.elim
      | cons c => exact hl.1.elim
    | anon k => cases g with
      | anon => exact ih
      | cons c => exact hl.1.elim
      | ids _ _ => exact hl.1.elim
    | anonSet k => cases g with
      | anon => exact ih
      | cons c => exact hl.1.elim
      | ids _ _ => exact hl.1.elim
    | cons c' a => cases g with
      | anon => exact hl.1.elim
      | ids _ _ => exact hl.1.elim
      | cons k =>
        have h1 : k.name = c' := hl.1.1
        have : ¬ k.name = c := by
          rw [h1]
          intro e
          exact hn.1 (by simp [Part.conss, e])
        simp only [findCons, if_neg this]
        exact ih

/-- The constructor of a part is found by its name, and its values have their positions. -/
theorem findCons_part {es : List Enum} {vs X} {c : Str} {a : Arg} : ∀ {ps : List Part} {gs : List Gen} {off : Nat},
    Laid es vs X off ps gs → (ps.flatMap Part.conss).Nodup → Part.cons c a ∈ ps →
    ∃ (k : Cons) (off' : Nat), findCons c gs = some k ∧ k.name = c ∧ k.At off' ∧ resolve es a = some (k.elems, k.ty, k.text) ∧
      off ≤ off' ∧ ∀ i x, (partVals vs X off' (.cons c a))[i]? = some x → (partsVals vs X off ps)[off' + i - off]? = some x
  | [], [], _, _, _, h => by simp at h
  | [], _ :: _, _, h, _, _ => h.elim
  | _ :: _, [], _, h, _, _ => h.elim
  | p :: ps, g :: gs, off, hl, hd, hm => by
    rw [List.flatMap_cons, List.nodup_append] at hd
    obtain ⟨d1, d2, d3⟩ := hd
    by_cases hp : p = .cons c a
    · subst hp
      cases g with
      | anon => exact hl.1.elim
      | ids _ _ => exact hl.1.elim
      | cons k =>
        obtain ⟨h1, h2, h3⟩ := hl.1
        refine ⟨k, off, by simp [findCons, h1], h1, h2, h3, Nat.le_refl _, ?_⟩
        intro i x hx
        rw [partsVals, Nat.add_sub_cancel_left, List.getElem?_append_left (List.getElem?_eq_some_iff.1 hx).1]
        exact hx
    · have hm' : Part.cons c a ∈ ps := by
        rcases List.mem_cons.1 hm with e | e
        · exact absurd e.symm hp
        · exact e
      obtain ⟨k, off', h1, h2, h3, h4, h5, h6⟩ := findCons_part hl.2 d2 hm'
      have hc : c ∈ ps.flatMap Part.conss := List.mem_flatMap.2 ⟨_, hm', by simp [Part.conss]⟩
      refine ⟨k, off', ?_, h2, h3, h4, by omega, ?_⟩
      · cases p with
        | ids names => cases g with
          | ids _ _ => exact h1
          | anon => exact hl.1.elim
          | cons c => exact hl.1.elim
        | anon k => cases g with
          | anon => exact h1
          | cons c => exact hl.1.elim
          | ids _ _ => exact hl.1.elim
        | anonSet k => cases g with
          | anon => exact h1
          | cons c => exact hl.1.elim
          | ids _ _ => exact hl.1.elim
        | cons c' a' => cases g with
          | anon => exact hl.1.elim
          | ids _ _ => exact hl.1.elim
          | cons k' =>
            have e1 : k'.name = c' := hl.1.1
            have : ¬ k'.name = c := by
              rw [e1]
              intro e
              exact d3 c' (by simp [Part.conss]) c hc e
            simp only [findCons, if_neg this]
            exact h1
      · intro i x hx
        rw [partsVals, List.getElem?_append_right (by omega)]
        have := h6 i x hx
        rw [← this]
        congr 1
        omega

/-- The constructor of a value is found by its name. -/
theorem findCons_get {es : List Enum} {vs X} {c : Str} {y : Val} : ∀ {ps : List Part} {gs : List Gen} {off i : Nat},
    Laid es vs X off ps gs → (ps.flatMap Part.conss).Nodup → (partsVals vs X off ps)[i]? = some (.app c y) →
    ∃ (k : Cons) (a : Arg) (off' i' : Nat), findCons c gs = some k ∧ Part.cons c a ∈ ps ∧ k.At off' ∧ off + i = off' + i' ∧
      resolve es a = some (k.elems, k.ty, k.text) ∧ (partVals vs X off' (.cons c a))[i']? = some (.app c y)
  | [], [], _, _, _, _, h => by simp [partsVals] at h
  | [], _ :: _, _, _, h, _, _ => h.elim
  | _ :: _, [], _, _, h, _, _ => h.elim
  | p :: ps, g :: gs, off, i, hl, hd, hx => by
    rw [List.flatMap_cons, List.nodup_append] at hd
    obtain ⟨d1, d2, d3⟩ := hd
    rw [partsVals] at hx
    by_cases hi : i < (partVals vs X off p).length
    · rw [List.getElem?_append_left hi] at hx
      obtain ⟨a, rfl⟩ := app_of_part hx
      cases g with
      | anon => exact hl.1.elim
      | ids _ _ => exact hl.1.elim
      | cons k =>
        obtain ⟨h1, h2, h3⟩ := hl.1
        exact ⟨k, a, off, i, by simp [findCons, h1], List.mem_cons_self, h2, rfl, h3, hx⟩
    · rw [List.getElem?_append_right (by omega)] at hx
      obtain ⟨k, a, off', i', h1, h2, h3, h4, h5, h6⟩ := findCons_get hl.2 d2 hx
      have hc := app_mem hx
      refine ⟨k, a, off', i', ?_, List.mem_cons_of_mem _ h2, h3, by omega, h5, h6⟩
      cases p with
      | ids names => cases g with
        | ids _ _ => exact h1
        | anon => exact hl.1.elim
        | cons c => exact hl.1.elim
      | anon k => cases g with
        | anon => exact h1
        | cons c => exact hl.1.elim
        | ids _ _ => exact hl.1.elim
      | anonSet k => cases g with
        | anon => exact h1
        | cons c => exact hl.1.elim
        | ids _ _ => exact hl.1.elim
      | cons c' a' => cases g with
        | anon => exact hl.1.elim
        | ids _ _ => exact hl.1.elim
        | cons k' =>
          have e1 : k'.name = c' := hl.1.1
          have : ¬ k'.name = c := by
            rw [e1]
            intro e
            exact d3 c' (by simp [Part.conss]) c hc e
          simp only [findCons, if_neg this]
          exact h1

/-- The expression of a value evaluates to the position of the value. -/
theorem eval_ok {ds es vs} (hR : EnvRel ds es vs) (hD : Distinct ds) : ∀ (n k : Nat) (v : List Val), k < n → vs[k]? = some v →
    ∀ (i : Nat) (x : Val), v[i]? = some x → evalVal es x = some (some k, (i : Int) + 1) := by
  intro n
  induction n with
  | zero => intro k v hk; omega
  | succ n ih =>
    intro k v hk hv i x hx
    by_cases hlt : k < n
    · exact ih k v hlt hv i x hx
    have : k = n := by omega
    subst this
    have hkd : k < ds.length := by rw [← hR.len_vs]; exact (List.getElem?_eq_some_iff.1 hv).1
    obtain ⟨e, r1, r2, r3, r4, r5, r6, r7⟩ := hR.row k _ (List.getElem?_eq_getElem hkd)
    rw [hv] at r3
    cases r3
    have hil := (List.getElem?_eq_some_iff.1 hx).1
    have hmem : ((0 + i + 1 : Nat) : Int) ∈ upTo e.card := mem_upTo.2 ⟨by omega, by rw [r4]; omega⟩
    have e0 : ((0 + i + 1 : Nat) : Int) = (i : Int) + 1 := by push_cast; omega
    have row : ∀ j e', j < k → es[j]? = some e' → ∃ d', ds[j]? = some d' ∧ e'.name = d'.name ∧
        Laid es vs d'.name 0 d'.parts e'.gens := by
      intro j e' hj he'
      obtain ⟨e'', q1, q2, q3, q4, q5, q6, -⟩ := hR.row j _ (List.getElem?_eq_getElem (by omega : j < ds.length))
      rw [he'] at q1
      cases q1
      exact ⟨_, List.getElem?_eq_getElem (by omega), q2, q6⟩
    have hdk : ds[k]? = some ds[k] := List.getElem?_eq_getElem hkd
    cases x with
    | int w =>
      obtain ⟨p, hp, off', i', h1, h2⟩ := parts_get hx
      exact absurd h2 int_of_part
    | id nm =>
      have hnm := id_mem hx
      have nd : (ds[k].parts.flatMap Part.names).Nodup := (List.nodup_flatMap.1 hD.1).1 _ (List.getElem_mem hkd)
      have h1 := ident_get (ub := e.card) r6 nd hx
      rw [toEnum_mem hmem] at h1
      simp only [evalVal]
      rw [firstIdx_get r1 h1 ?_]
      · simp [e0]
      · intro j e' hj he'
        obtain ⟨d', q1, q2, q3⟩ := row j e' hj he'
        exact ident_none q3 (nodup_disjoint hD.1 (by omega : k ≠ j) hdk q1 hnm)
    | anon X w =>
      obtain ⟨p, hp, off', i', h1, h2⟩ := parts_get hx
      obtain ⟨rfl, rfl⟩ := anon_of_part h2
      have hfi : firstIdx (fun e : Enum => if e.name = ds[k].name then some e else none) 0 es = some (0 + k, e) := by
        refine firstIdx_get r1 (by simp [r2]) ?_
        intro j e' hj he'
        obtain ⟨d', q1, q2, q3⟩ := row j e' hj he'
        rw [if_neg]
        rw [q2]
        intro e
        obtain ⟨q, rfl⟩ := List.getElem?_eq_some_iff.1 q1
        have := List.pairwise_iff_getElem.1 hD.2.2 j k (by simpa using q) (by simpa using hkd) hj
        simp only [List.getElem_map] at this
        exact this e
      have e1 : ((off' + i' + 1 : Nat) : Int) = (i : Int) + 1 := by omega
      rw [e0] at hmem
      simp only [evalVal, hfi, Option.bind_eq_bind, Option.bind_some, e1, Enum.set, toEnum_mem hmem, Nat.zero_add]
    | app c y =>
      have hcm := app_mem hx
      have nd : (ds[k].parts.flatMap Part.conss).Nodup := (List.nodup_flatMap.1 hD.2.1).1 _ (List.getElem_mem hkd)
      obtain ⟨f, a, off', i', f1, f2, f3, f4, f5, f6⟩ := findCons_get r6 nd hx
      have hfi : firstIdx (fun e : Enum => (findCons c e.gens).map (fun f => (e, f))) 0 es = some (0 + k, e, f) := by
        refine firstIdx_get r1 (by simp [f1]) ?_
        intro j e' hj he'
        obtain ⟨d', q1, q2, q3⟩ := row j e' hj he'
        simp only [Option.map_eq_none_iff]
        exact findCons_none q3 (nodup_disjoint hD.2.1 (by omega : k ≠ j) hdk q1 hcm)
      have hbo := r7 _ f2
      have key : ∃ w, evalVal es y = some (f.ty, w) ∧ f.elems[i']? = some w := by
        cases a with
        | ints s =>
          simp only [resolve, Option.some.injEq, Prod.mk.injEq] at f5
          simp only [partVals, List.getElem?_map, Option.map_eq_some_iff, Val.app.injEq, true_and] at f6
          obtain ⟨w, hw, rfl⟩ := f6
          exact ⟨w, by rw [← f5.2.1]; rfl, by rw [← f5.1]; exact hw⟩
        | enum j =>
          simp only [resolve, Option.bind_eq_bind, Option.bind_eq_some_iff, Option.some.injEq, Prod.mk.injEq] at f5
          obtain ⟨ej, he, h1, h2, h3⟩ := f5
          have hj : j < k := hbo.1
          obtain ⟨e', q1, q2, q3, q4, -⟩ := hR.row j _ (List.getElem?_eq_getElem (by omega : j < ds.length))
          rw [he] at q1
          cases q1
          simp only [partVals, getD_of_some q3, List.getElem?_map, Option.map_eq_some_iff, Val.app.injEq, true_and] at f6
          obtain ⟨y', hy, rfl⟩ := f6
          refine ⟨(i' : Int) + 1, ?_, ?_⟩
          · rw [← h2]
            exact ih j _ hj q3 i' y' hy
          · rw [← h1, Enum.set, upTo_get, if_pos]
            have := (List.getElem?_eq_some_iff.1 hy).1
            omega
        | sub j s =>
          simp only [resolve, Option.bind_eq_bind, Option.bind_eq_some_iff, Option.some.injEq, Prod.mk.injEq] at f5
          obtain ⟨ej, he, h1, h2, h3⟩ := f5
          have hj : j < k := hbo.1
          obtain ⟨o1, o2, o3⟩ : j < vs.length ∧ _ := hbo.2
          obtain ⟨e', q1, q2, q3, q4, -⟩ := hR.row j _ (List.getElem?_eq_getElem (by omega : j < ds.length))
          rw [he] at q1
          cases q1
          simp only [partVals, List.getElem?_map, Option.map_eq_some_iff, Val.app.injEq, true_and] at f6
          obtain ⟨w, hw, rfl⟩ := f6
          obtain ⟨b1, b2⟩ := o3 w (List.mem_of_getElem? hw)
          rw [getD_of_some q3] at b2 ⊢
          have hwl : (w - 1).toNat < (declVals vs ds[j]).length := by omega
          refine ⟨w, ?_, by rw [← h1]; exact hw⟩
          rw [getD_of_some (List.getElem?_eq_getElem hwl), ← h2]
          have := ih j _ hj q3 (w - 1).toNat _ (List.getElem?_eq_getElem hwl)
          have hw1 : ((w - 1).toNat : Int) + 1 = w := by omega
          rw [hw1] at this
          exact this
      obtain ⟨w, k1, k2⟩ := key
      have e1 : ((off' + i' + 1 : Nat) : Int) = (i : Int) + 1 := by omega
      have happ := apply_get f3 e.set k2
      rw [e1, Enum.set, toEnum_mem (by rw [← e0]; exact hmem)] at happ
      simp only [evalVal, hfi, Option.bind_eq_bind, Option.bind_some, k1, if_true, Enum.set, happ, Nat.zero_add]

end Enums
end MZ
