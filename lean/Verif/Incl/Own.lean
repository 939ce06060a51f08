import Verif.Incl.Load
/-!
# Ownership and iteration
-/
namespace MZ
namespace Incl

/-- Each model but the first has one owner, which is an earlier model. -/
structure Own (st : St) : Prop where
  pos : 0 < st.models.length
  range : ∀ (k : Nat) (x : M), st.models[k]? = some x → ∀ j o, PItem.inc j o ∈ x.items → 0 < j ∧ j < st.models.length
  owner : ∀ j, 0 < j → j < st.models.length → ∃ p < j, ∀ (k : Nat) (x : M), st.models[k]? = some x →
    x.items.count (.inc j true) = if k = p then 1 else 0
  seen : ∀ n j, lookup st.seen n = some j → 0 < j ∧ j < st.models.length
  files : ∀ w ∈ st.files, w.m < st.models.length

theorem own_add {st : St} (h : Own st) {m : Nat} {p : PItem} (hp : ∀ j o, p = .inc j o → o = false ∧ 0 < j ∧ j < st.models.length) :
    Own { st with models := addItem st.models m p } := by
  refine ⟨by simpa [length_addItem] using h.pos, ?_, ?_, ?_, ?_⟩
  · intro k x hx j o hj
    rw [length_addItem]
    simp only [getElem?_addItem, Option.map_eq_some_iff] at hx
    obtain ⟨y, h1, h2⟩ := hx
    subst h2
    split at hj
    · rcases List.mem_append.mp hj with hj | hj
      · exact h.range k y h1 j o hj
      · exact (hp j o (List.mem_singleton.mp hj).symm).2
    · exact h.range k y h1 j o hj
  · intro j h1 h2
    simp only [length_addItem] at h2
    obtain ⟨q, hq, ho⟩ := h.owner j h1 h2
    refine ⟨q, hq, fun k x hx => ?_⟩
    simp only [getElem?_addItem, Option.map_eq_some_iff] at hx
    obtain ⟨y, h1, h2⟩ := hx
    rw [← ho k y h1]
    subst h2
    split
    · simp only [List.count_append]
      have : List.count (PItem.inc j true) [p] = 0 := by
        rw [List.count_eq_zero, List.mem_singleton]
        intro e
        have := (hp j true e.symm).1
        cases this
      omega
    · rfl
  · intro n j hj; simp only [length_addItem]; exact h.seen n j hj
  · intro w hw; simp only [length_addItem]; exact h.files w hw

theorem own_new {st : St} (h : Own st) {m : Nat} (hm : m < st.models.length) (n : String) (par : Option Nat) {fl : List W}
    (hfl : ∀ w ∈ fl, w.m = st.models.length ∨ w ∈ st.files) {sn : List (String × Nat)}
    (hsn : ∀ a j, lookup sn a = some j → j = st.models.length ∨ lookup st.seen a = some j) :
    Own { models := addItem (st.models ++ [⟨n, par, []⟩]) m (.inc st.models.length true), files := fl, seen := sn } := by
  have hlen : (addItem (st.models ++ [⟨n, par, []⟩]) m (.inc st.models.length true)).length = st.models.length + 1 := by
    simp [length_addItem]
  have hget : ∀ (k : Nat) (x : M), (addItem (st.models ++ [⟨n, par, []⟩]) m (.inc st.models.length true))[k]? = some x →
      (∃ y : M, st.models[k]? = some y ∧ x.items = if m = k then y.items ++ [.inc st.models.length true] else y.items) ∨
      k = st.models.length ∧ x.items = [] := by
    intro k x hx
    rw [getElem?_addItem, Option.map_eq_some_iff] at hx
    obtain ⟨y, h0, h2⟩ := hx
    rcases getElem?_snoc_cases h0 with h1 | ⟨h1, e⟩
    · refine Or.inl ⟨y, h1, ?_⟩
      subst h2
      split <;> rfl
    · subst e
      rw [if_neg (by omega)] at h2
      subst h2
      exact Or.inr ⟨h1, rfl⟩
  have hno : ∀ (k : Nat) (y : M), st.models[k]? = some y → y.items.count (.inc st.models.length true) = 0 := by
    intro k y hy
    rw [List.count_eq_zero]
    intro hc
    have := h.range k y hy _ _ hc
    omega
  refine ⟨by simp only [hlen]; omega, ?_, ?_, ?_, ?_⟩
  · intro k x hx j o hj
    simp only [hlen]
    rcases hget k x hx with ⟨y, h1, h2⟩ | ⟨_, h2⟩
    · rw [h2] at hj
      have hpos := h.pos
      split at hj
      · rcases List.mem_append.mp hj with hj | hj
        · have := h.range k y h1 j o hj; omega
        · have := List.mem_singleton.mp hj; cases this; omega
      · have := h.range k y h1 j o hj; omega
    · rw [h2] at hj; cases hj
  · intro j h1 h2
    simp only [hlen] at h2
    by_cases e : j = st.models.length
    · subst e
      refine ⟨m, hm, fun k x hx => ?_⟩
      rcases hget k x hx with ⟨y, g1, g2⟩ | ⟨g1, g2⟩
      · rw [g2]
        by_cases e : m = k
        · rw [if_pos e, if_pos e.symm, List.count_append, hno k y g1]; simp
        · rw [if_neg e, if_neg (Ne.symm e), hno k y g1]
      · rw [g2, if_neg (by omega)]; rfl
    · obtain ⟨q, hq, ho⟩ := h.owner j h1 (by omega)
      refine ⟨q, hq, fun k x hx => ?_⟩
      rcases hget k x hx with ⟨y, g1, g2⟩ | ⟨g1, g2⟩
      · rw [g2, ← ho k y g1]
        split
        · rw [List.count_append]
          have : List.count (PItem.inc j true) [PItem.inc st.models.length true] = 0 := by
            rw [List.count_eq_zero, List.mem_singleton]
            intro e'; cases e'; exact e rfl
          omega
        · rfl
      · rw [g2, if_neg (by omega)]; rfl
  · intro a j hj
    simp only [hlen]
    have hpos := h.pos
    rcases hsn a j hj with e | hj
    · omega
    · have := h.seen a j hj; omega
  · intro w hw
    simp only [hlen]
    rcases hfl w hw with e | hw
    · omega
    · have := h.files w hw; omega

theorem own_includeItem (fs : FS) (paths : List String) {m : Nat} (file : String) {st : St} (h : Own st) (hm : m < st.models.length)
    (f : String) : Own (includeItem fs paths m file st f) ∧ st.models.length ≤ (includeItem fs paths m file st f).models.length := by
  unfold includeItem
  simp only
  cases hl : lookup st.seen (canon fs paths file f) with
  | some j =>
    refine ⟨own_add h ?_, by simp [length_addItem]⟩
    intro j' o e
    cases e
    exact ⟨rfl, h.seen _ j hl⟩
  | none =>
    refine ⟨own_new h hm _ _ ?_ ?_, by simp [length_addItem]⟩
    · intro w hw
      rcases List.mem_cons.mp hw with e | hw
      · subst e; exact Or.inl rfl
      · exact Or.inr hw
    · intro a j hj
      simp only [lookup] at hj
      split at hj
      · cases hj; exact Or.inl rfl
      · exact Or.inr hj

theorem own_parseItems (fs : FS) (paths : List String) {m : Nat} (file : String) : ∀ (l : List Src) {st : St}, Own st →
    m < st.models.length → Own (parseItems fs paths m file l st)
  | [], st, h, _ => h
  | .inc f :: l, st, h, hm => by
    obtain ⟨h1, h2⟩ := own_includeItem fs paths file h hm f
    exact own_parseItems fs paths file l h1 (by omega)
  | .other n :: l, st, h, hm => by
    refine own_parseItems fs paths file l (own_add (p := .other n) h ?_) (by simpa [length_addItem] using hm)
    intro j o e; cases e

theorem own_deprecated (fs : FS) {m : Nat} (file : String) : ∀ (paths : List String) {st : St}, Own st → m < st.models.length →
    Own (deprecated fs m file paths st) ∧ m < (deprecated fs m file paths st).models.length
  | [], st, h, hm => ⟨h, hm⟩
  | ip :: ips, st, h, hm => by
    unfold deprecated
    simp only
    split
    · refine own_deprecated fs file ips (own_new h hm _ _ ?_ ?_) (by simp [length_addItem]; omega)
      · intro w hw
        simp only [List.mem_cons] at hw
        rcases hw with e | e | hw
        · subst e; exact Or.inl rfl
        · subst e; exact Or.inl rfl
        · exact Or.inr hw
      · intro a j hj
        split at hj
        · exact Or.inr hj
        · simp only [lookup] at hj
          split at hj
          · cases hj; exact Or.inl rfl
          · exact Or.inr hj
    · exact own_deprecated fs file ips h hm

theorem own_step {fs : FS} {paths : List String} {st st' : St} (h : Own st) (hs : step fs paths st = .more st') : Own st' := by
  unfold step at hs
  split at hs
  · cases hs
  · rename_i w rest hw
    split at hs
    · cases hs
    · split at hs
      · cases hs
      · injection hs with hs
        have h0 : Own { st with files := rest } :=
          ⟨h.pos, h.range, h.owner, h.seen, fun w' hw' => h.files w' (by rw [hw]; exact List.mem_cons_of_mem _ hw')⟩
        obtain ⟨h1, h2⟩ := own_deprecated fs w.file paths h0 (m := w.m) (h.files w (by rw [hw]; exact List.mem_cons_self))
        rw [← hs]
        exact own_parseItems fs paths w.file _ h1 h2

theorem lookup_mem : ∀ {l : List (String × Nat)} {n : String} {j : Nat}, lookup l n = some j → (n, j) ∈ l
  | (a, k) :: l, n, j, h => by
    simp only [lookup] at h
    split at h
    · rename_i e; cases h; rw [e]; exact List.mem_cons_self
    · exact List.mem_cons_of_mem _ (lookup_mem h)

theorem own_initial (r : String) (libs : List String) : Own (initial r libs) := by
  have hlen : (initial r libs).models.length = libs.length + 1 := by simp [initial]
  have hm : ∀ (k : Nat) (x : M), (initial r libs).models[k]? = some x →
      k = 0 ∧ x.items = (List.range libs.length).map (fun i => .inc (i + 1) true) ∨ 0 < k ∧ x.items = [] := by
    intro k x hx
    cases k with
    | zero => simp [initial] at hx; exact Or.inl ⟨rfl, by rw [← hx]⟩
    | succ i =>
      simp only [initial, List.getElem?_cons_succ, List.getElem?_map, Option.map_eq_some_iff] at hx
      obtain ⟨f, h1, h2⟩ := hx
      exact Or.inr ⟨by omega, by rw [← h2]⟩
  refine ⟨by omega, ?_, ?_, ?_, ?_⟩
  · intro k x hx j o hj
    rcases hm k x hx with ⟨_, e⟩ | ⟨_, e⟩
    · rw [e] at hj
      obtain ⟨i, hi, e⟩ := List.mem_map.mp hj
      cases e
      have := List.mem_range.mp hi
      omega
    · rw [e] at hj; cases hj
  · intro j h1 h2
    refine ⟨0, h1, fun k x hx => ?_⟩
    rcases hm k x hx with ⟨e0, e⟩ | ⟨e0, e⟩
    · rw [e, if_pos e0]
      rw [List.count_eq_one_of_mem]
      · exact List.nodup_range.map (fun a b h => by simpa using h)
      · exact List.mem_map.mpr ⟨j - 1, List.mem_range.mpr (by omega), by rw [Nat.sub_add_cancel h1]⟩
    · rw [e, if_neg (by omega)]; rfl
  · intro n j hj
    have := lookup_mem hj
    simp only [initial, List.mem_reverse, List.mem_map, Prod.mk.injEq, Prod.exists] at this
    obtain ⟨f, i, g1, _, g3⟩ := this
    have := (List.getElem?_eq_some_iff.mp (List.mk_mem_zipIdx_iff_getElem?.mp g1)).1
    omega
  · intro w hw
    rw [hlen]
    simp only [initial, List.mem_append, List.mem_reverse, List.mem_map, List.mem_singleton, Prod.exists] at hw
    rcases hw with ⟨f, i, g1, g2⟩ | h
    · subst g2
      have := (List.getElem?_eq_some_iff.mp (List.mk_mem_zipIdx_iff_getElem?.mp g1)).1
      simp only
      omega
    · subst h; simp

/-- The states after some rounds. -/
def Steps (fs : FS) (paths : List String) : St → St → Prop := Relation.ReflTransGen fun a b => step fs paths a = .more b

theorem own_steps {fs : FS} {paths : List String} {st st' : St} (h : Own st) (hs : Steps fs paths st st') : Own st' := by
  induction hs with
  | refl => exact h
  | tail _ h' ih => exact own_step ih h'

theorem run_done {fs : FS} {paths : List String} : ∀ (fuel : Nat) {st st' : St}, run fs paths fuel st = some (.done st') →
    Steps fs paths st st' ∧ st'.files = []
  | 0, st, st', h => by cases h
  | fuel + 1, st, st', h => by
    unfold run at h
    cases e : step fs paths st with
    | more st1 =>
      rw [e] at h
      obtain ⟨h1, h2⟩ := run_done fuel h
      exact ⟨Relation.ReflTransGen.head e h1, h2⟩
    | done st1 =>
      rw [e] at h
      cases h
      unfold step at e
      split at e
      · cases e; exact ⟨Relation.ReflTransGen.refl, by assumption⟩
      · split at e
        · cases e
        · split at e <;> cases e
    | cyclic => rw [e] at h; cases h
    | missing => rw [e] at h; cases h

/-! ## Deletion -/

theorem count_owned (j : Nat) : ∀ (l : List PItem), (owned l).count j = l.count (.inc j true)
  | [] => rfl
  | .inc i true :: l => by
    simp only [owned, List.count_cons, count_owned j l]
    by_cases e : i = j
    · subst e; simp
    · have : (PItem.inc i true == PItem.inc j true) = false := by simp [e]
      simp [e, this]
  | .inc i false :: l => by
    simp only [owned, List.count_cons, count_owned j l]
    have : (PItem.inc i false == PItem.inc j true) = false := by simp
    simp [this]
  | .other n :: l => by
    simp only [owned, List.count_cons, count_owned j l]
    have : (PItem.other n == PItem.inc j true) = false := by simp
    simp [this]

/-- The models owned by a model. -/
def kids (ms : List M) (k : Nat) : List Nat := match ms[k]? with | none => [] | some x => owned x.items

theorem delete_succ (ms : List M) (f k : Nat) : delete ms (f + 1) k = (kids ms k).flatMap (delete ms f) ++ [k] := by
  unfold kids delete
  cases ms[k]? <;> simp

theorem count_flatMap_delete (ms : List M) (j f : Nat) : ∀ (l : List Nat),
    (l.flatMap (delete ms f)).count j = (l.map fun c => (delete ms f c).count j).sum
  | [] => rfl
  | c :: l => by simp only [List.flatMap_cons, List.count_append, List.map_cons, List.sum_cons, count_flatMap_delete ms j f l]

theorem count_delete {ms : List M} {j p : Nat} (hp : ∀ k, (kids ms k).count j = if k = p then 1 else 0) : ∀ (f k : Nat),
    (delete ms (f + 1) k).count j = (if k = j then 1 else 0) + (delete ms f k).count p
  | 0, k => by
    have : delete ms 0 = fun _ => [] := by funext k; rfl
    rw [delete_succ, List.count_append, count_flatMap_delete, this]
    simp [List.count_singleton]
  | f + 1, k => by
    rw [delete_succ, List.count_append, count_flatMap_delete]
    have h1 : ∀ l : List Nat, (l.map fun c => (delete ms (f + 1) c).count j).sum = l.count j + (l.map fun c => (delete ms f c).count p).sum := by
      intro l
      induction l with
      | nil => rfl
      | cons c l ih =>
        simp only [List.map_cons, List.sum_cons, ih, count_delete hp f c, List.count_cons, beq_iff_eq]
        omega
    rw [h1, hp k, delete_succ ms f k, List.count_append, count_flatMap_delete]
    simp only [List.count_singleton, beq_iff_eq]
    omega

theorem kids_count {st : St} (h : Own st) {j : Nat} (h0 : 0 < j) (hj : j < st.models.length) :
    ∃ p < j, ∀ k, (kids st.models k).count j = if k = p then 1 else 0 := by
  obtain ⟨p, hp, ho⟩ := h.owner j h0 hj
  refine ⟨p, hp, fun k => ?_⟩
  unfold kids
  cases e : st.models[k]? with
  | none =>
    have : st.models.length ≤ k := by simpa using e
    rw [if_neg (by omega)]
    rfl
  | some x => rw [count_owned]; exact ho k x e

theorem kids_none {st : St} (h : Own st) {j : Nat} (hj : j = 0 ∨ st.models.length ≤ j) (k : Nat) : (kids st.models k).count j = 0 := by
  unfold kids
  cases e : st.models[k]? with
  | none => rfl
  | some x =>
    rw [count_owned, List.count_eq_zero]
    intro hc
    have := h.range k x e j true hc
    omega

theorem delete_none {ms : List M} {j : Nat} (hj : ∀ k, (kids ms k).count j = 0) : ∀ (f k : Nat), k ≠ j → (delete ms f k).count j = 0
  | 0, _, _ => rfl
  | f + 1, k, hk => by
    rw [delete_succ, List.count_append, count_flatMap_delete]
    have : (List.map (fun c => List.count j (delete ms f c)) (kids ms k)).sum = 0 := by
      rw [List.sum_eq_zero_iff_forall_eq_nat]
      intro n hn
      obtain ⟨c, hc, e⟩ := List.mem_map.mp hn
      rw [← e]
      refine delete_none hj f c ?_
      intro e'
      subst e'
      exact List.count_eq_zero.mp (hj k) hc
    rw [this]
    simp [List.count_singleton, hk]

theorem count_delete_root {st : St} (h : Own st) : ∀ (j : Nat), j < st.models.length → ∀ f, j < f → (delete st.models f 0).count j = 1 := by
  intro j
  induction j using Nat.strongRecOn with
  | _ j ih =>
    intro hj f hf
    obtain ⟨f, rfl⟩ : ∃ g, f = g + 1 := ⟨f - 1, by omega⟩
    by_cases h0 : j = 0
    · subst h0
      rw [delete_succ, List.count_append, count_flatMap_delete]
      have : (List.map (fun c => List.count 0 (delete st.models f c)) (kids st.models 0)).sum = 0 := by
        rw [List.sum_eq_zero_iff_forall_eq_nat]
        intro n hn
        obtain ⟨c, hc, e⟩ := List.mem_map.mp hn
        rw [← e]
        refine delete_none (fun k => kids_none h (Or.inl rfl) k) f c ?_
        intro e'
        subst e'
        exact List.count_eq_zero.mp (kids_none h (Or.inl rfl) 0) hc
      rw [this]; simp
    · obtain ⟨p, hp, ho⟩ := kids_count h (by omega) hj
      rw [count_delete ho, if_neg (by omega), ih p hp (by omega) f (by omega)]

theorem delete_perm {st : St} (h : Own st) {f : Nat} (hf : st.models.length ≤ f) :
    (delete st.models f 0).Perm (List.range st.models.length) := by
  rw [List.perm_iff_count]
  intro j
  by_cases hj : j < st.models.length
  · rw [count_delete_root h j hj f (by omega), List.count_eq_one_of_mem List.nodup_range (List.mem_range.mpr hj)]
  · have h1 : List.count j (List.range st.models.length) = 0 := by
      rw [List.count_eq_zero, List.mem_range]; exact hj
    have := h.pos
    rw [h1, delete_none (fun k => kids_none h (Or.inr (by omega)) k) f 0 (by omega)]

/-! ## Iteration -/

theorem newIncludes_spec : ∀ (its : List PItem) (seen : List Nat), (newIncludes its seen).1.Nodup ∧
    (∀ j ∈ (newIncludes its seen).1, j ∉ seen ∧ ∃ o, PItem.inc j o ∈ its) ∧
    (∀ j, j ∈ (newIncludes its seen).2 ↔ j ∈ seen ∨ j ∈ (newIncludes its seen).1) ∧
    (∀ j o, PItem.inc j o ∈ its → j ∈ (newIncludes its seen).2)
  | [], seen => by simp [newIncludes]
  | .other n :: r, seen => by
    obtain ⟨h1, h2, h3, h4⟩ := newIncludes_spec r seen
    simp only [newIncludes]
    refine ⟨h1, fun j hj => ⟨(h2 j hj).1, ?_⟩, h3, fun j o hj => ?_⟩
    · obtain ⟨o, ho⟩ := (h2 j hj).2; exact ⟨o, List.mem_cons_of_mem _ ho⟩
    · rcases List.mem_cons.mp hj with e | hj
      · cases e
      · exact h4 j o hj
  | .inc i b :: r, seen => by
    simp only [newIncludes]
    split
    · rename_i hc
      obtain ⟨h1, h2, h3, h4⟩ := newIncludes_spec r seen
      refine ⟨h1, fun j hj => ⟨(h2 j hj).1, ?_⟩, h3, fun j o hj => ?_⟩
      · obtain ⟨o, ho⟩ := (h2 j hj).2; exact ⟨o, List.mem_cons_of_mem _ ho⟩
      · rcases List.mem_cons.mp hj with e | hj
        · cases e; exact (h3 _).mpr (Or.inl (by simpa using hc))
        · exact h4 j o hj
    · rename_i hc
      obtain ⟨h1, h2, h3, h4⟩ := newIncludes_spec r (i :: seen)
      simp only
      refine ⟨List.nodup_cons.mpr ⟨fun hi => (h2 i hi).1 List.mem_cons_self, h1⟩, fun j hj => ?_, fun j => ?_, fun j o hj => ?_⟩
      · rcases List.mem_cons.mp hj with e | hj
        · subst e; exact ⟨by simpa using hc, b, List.mem_cons_self⟩
        · obtain ⟨g1, o, g2⟩ := h2 j hj
          exact ⟨fun h => g1 (List.mem_cons_of_mem _ h), o, List.mem_cons_of_mem _ g2⟩
      · rw [h3 j]; simp only [List.mem_cons]; tauto
      · rcases List.mem_cons.mp hj with e | hj
        · cases e; exact (h3 _).mpr (Or.inl List.mem_cons_self)
        · exact h4 j o hj

theorem iter_spec {st : St} (h : Own st) : ∀ (fuel : Nat) (V S seen : List Nat), (V ++ S).Nodup → (∀ j, j ∈ seen ↔ j ∈ V ∨ j ∈ S) →
    (∀ j ∈ seen, j < st.models.length) → (∀ k ∈ V, ∀ (x : M), st.models[k]? = some x → ∀ j o, PItem.inc j o ∈ x.items → j ∈ seen) →
    st.models.length ≤ fuel + V.length → ∃ l, iter st.models fuel S seen = some l ∧ (V ++ l).Nodup ∧ (∀ j ∈ V ++ l, j < st.models.length) ∧
      (∀ j ∈ seen, j ∈ V ++ l) ∧ (∀ k ∈ V ++ l, ∀ (x : M), st.models[k]? = some x → ∀ j o, PItem.inc j o ∈ x.items → j ∈ V ++ l)
  | fuel, V, [], seen, hnd, hs, hr, hc, hf => by
    have hV : ∀ j, j ∈ seen ↔ j ∈ V := by simpa using hs
    refine ⟨[], by cases fuel <;> rfl, hnd, ?_, ?_, ?_⟩
    · intro j hj; exact hr j ((hV j).mpr (by simpa using hj))
    · intro j hj; simpa using (hV j).mp hj
    · intro k hk x hx j o hj
      simpa using (hV j).mp (hc k (by simpa using hk) x hx j o hj)
  | 0, V, c :: S, seen, hnd, hs, hr, hc, hf => by
    exfalso
    have h1 : (V ++ c :: S) ⊆ List.range st.models.length := by
      intro j hj
      exact List.mem_range.mpr (hr j ((hs j).mpr (List.mem_append.mp hj)))
    have := (hnd.subperm h1).length_le
    simp at this
    omega
  | fuel + 1, V, c :: S, seen, hnd, hs, hr, hc, hf => by
    have hcl : c < st.models.length := hr c ((hs c).mpr (Or.inr List.mem_cons_self))
    obtain ⟨x, hx⟩ : ∃ x, st.models[c]? = some x := ⟨_, List.getElem?_eq_getElem hcl⟩
    obtain ⟨n1, n2, n3, n4⟩ := newIncludes_spec x.items seen
    have hset : ∀ j, j ∈ V ++ [c] ∨ j ∈ (newIncludes x.items seen).1 ++ S ↔ (j ∈ V ∨ j ∈ c :: S) ∨ j ∈ (newIncludes x.items seen).1 := by
      intro j; simp only [List.mem_append, List.mem_cons, List.not_mem_nil, or_false]; tauto
    have ih := iter_spec h fuel (V ++ [c]) ((newIncludes x.items seen).1 ++ S) (newIncludes x.items seen).2 ?_ ?_ ?_ ?_ ?_
    · obtain ⟨l, g1, g2, g3, g4, g5⟩ := ih
      refine ⟨c :: l, ?_, by simpa using g2, by simpa using g3, ?_, by simpa using g5⟩
      · simp only [iter, hx, g1, Option.map_some]
      · intro j hj
        have := g4 j ((n3 j).mpr (Or.inl hj))
        simpa using this
    · have hperm : (V ++ [c] ++ ((newIncludes x.items seen).1 ++ S)).Perm ((newIncludes x.items seen).1 ++ (V ++ c :: S)) := by
        have : (V ++ [c] ++ ((newIncludes x.items seen).1 ++ S)) = ((V ++ [c]) ++ (newIncludes x.items seen).1) ++ S := by simp
        rw [this]
        have e2 : (newIncludes x.items seen).1 ++ (V ++ c :: S) = ((newIncludes x.items seen).1 ++ (V ++ [c])) ++ S := by simp
        rw [e2]
        exact List.perm_append_comm.append_right S
      rw [hperm.nodup_iff, List.nodup_append]
      refine ⟨n1, hnd, ?_⟩
      intro a ha b hb e
      subst e
      exact (n2 a ha).1 ((hs a).mpr (List.mem_append.mp hb))
    · intro j
      rw [n3 j, hset j, hs j]
    · intro j hj
      rcases (n3 j).mp hj with hj | hj
      · exact hr j hj
      · obtain ⟨_, o, ho⟩ := n2 j hj
        exact (h.range c x hx j o ho).2
    · intro k hk y hy j o hj
      rcases List.mem_append.mp hk with hk | hk
      · exact (n3 j).mpr (Or.inl (hc k hk y hy j o hj))
      · rw [List.mem_singleton.mp hk, hx] at hy
        cases hy
        exact n4 j o hj
    · simp only [List.length_append, List.length_singleton]; omega

theorem iter_perm {st : St} (h : Own st) {fuel : Nat} (hf : st.models.length ≤ fuel) :
    ∃ l, iter st.models fuel [0] [0] = some l ∧ l.Perm (List.range st.models.length) := by
  obtain ⟨l, h1, h2, h3, h4, h5⟩ := iter_spec h fuel [] [0] [0] (by simp) (by simp) (by simp; exact h.pos) (by simp) (by simpa using hf)
  simp only [List.nil_append] at h2 h3 h4 h5
  refine ⟨l, h1, ?_⟩
  rw [List.perm_ext_iff_of_nodup h2 List.nodup_range]
  intro j
  rw [List.mem_range]
  refine ⟨h3 j, ?_⟩
  induction j using Nat.strongRecOn with
  | _ j ih =>
    intro hj
    by_cases h0 : j = 0
    · subst h0; exact h4 0 (by simp)
    · obtain ⟨p, hp, ho⟩ := h.owner j (by omega) hj
      obtain ⟨x, hx⟩ : ∃ x, st.models[p]? = some x := ⟨_, List.getElem?_eq_getElem (by omega)⟩
      have := ho p x hx
      rw [if_pos rfl] at this
      exact h5 p (ih p hp (by omega)) x hx j true (List.count_pos_iff.mp (by omega))

end Incl
end MZ
