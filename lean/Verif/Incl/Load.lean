import Verif.Incl.Spec
import Mathlib.Tactic.ByContra
/-!
# Each file is loaded once
-/
namespace MZ
namespace Incl

/-- No file has a companion in the include paths. -/
def NoCompanion (fs : FS) (paths : List String) : Prop :=
  ∀ ip ∈ paths, ∀ f, fs.isFile (ip ++ "/" ++ fs.baseName f ++ ".deprecated.mzn") = false

theorem deprecated_id {fs : FS} (m : Nat) (file : String) : ∀ (paths : List String), NoCompanion fs paths → ∀ st,
    deprecated fs m file paths st = st
  | [], _, st => rfl
  | ip :: ips, h, st => by
    simp only [deprecated, h ip List.mem_cons_self file]
    exact deprecated_id m file ips (fun i hi => h i (List.mem_cons_of_mem _ hi)) st

/-- The include items of the first model for the other files and libraries. -/
def pre (libs : List String) (k : Nat) : List PItem :=
  if k = 0 then (List.range libs.length).map fun i => .inc (i + 1) true else []

/-- The invariant; `cur` is the model that is being parsed and the items parsed so far. -/
structure Inv (fs : FS) (paths : List String) (r : String) (libs : List String) (cur : Option (Nat × List Src)) (st : St) : Prop where
  root : ∃ x : M, st.models[0]? = some x ∧ x.file = r ∧ x.parent = none
  seen : ∀ n j, lookup st.seen n = some j ↔ 0 < j ∧ ∃ x : M, st.models[j]? = some x ∧ x.file = n
  nodup : (st.files.map (·.m)).Nodup
  pend : ∀ w ∈ st.files, (∀ c, cur ≠ some (w.m, c)) ∧ ∃ x, st.models[w.m]? = some x ∧ x.file = w.file ∧ x.items = pre libs w.m
  now : ∀ (k : Nat) (c : List Src), cur = some (k, c) → ∃ (x : M) (its : List PItem), st.models[k]? = some x ∧ x.items = pre libs k ++ its ∧
    Matches fs paths st.models x.file c its ∧ (∀ s ∈ c, s ∈ fs.content x.file)
  fin : ∀ (k : Nat) (x : M), st.models[k]? = some x → k ∉ st.files.map (·.m) → (∀ c, cur ≠ some (k, c)) →
    (∃ its, x.items = pre libs k ++ its ∧ Matches fs paths st.models x.file (fs.content x.file) its)
  ok : ∀ (k : Nat) (x : M), st.models[k]? = some x → k ∉ st.files.map (·.m) → Openable fs x.file ∧
    (0 < k → (∀ f ∈ libs, ¬ Reaches fs paths f r) → x.file ≠ r)
  parent : ∀ (k : Nat) (x : M), st.models[k]? = some x → ∀ p, x.parent = some p → p < k ∧ ∃ y : M, st.models[p]? = some y ∧ Includes fs paths y.file x.file
  lib : ∀ (k : Nat) (x : M), st.models[k]? = some x → 0 < k → x.parent = none → x.file ∈ libs
  libIn : ∀ f ∈ libs, ∃ (k : Nat) (x : M), 0 < k ∧ st.models[k]? = some x ∧ x.file = f

theorem getElem?_addItem (ms : List M) (m : Nat) (i : PItem) (k : Nat) :
    (addItem ms m i)[k]? = (ms[k]?).map fun x => if m = k then { x with items := x.items ++ [i] } else x := by
  unfold addItem
  rw [List.getElem?_modify]
  cases ms[k]? <;> simp <;> split <;> rfl

theorem length_addItem (ms : List M) (m : Nat) (i : PItem) : (addItem ms m i).length = ms.length := by simp [addItem]

/-- Files and parents of models are kept and models are only added. -/
def Keeps (ms ms' : List M) : Prop :=
  ∀ (k : Nat) (x : M), ms[k]? = some x → ∃ x' : M, ms'[k]? = some x' ∧ x'.file = x.file ∧ x'.parent = x.parent

theorem keeps_add (ms : List M) (m : Nat) (i : PItem) : Keeps ms (addItem ms m i) := by
  intro k x hx
  rw [getElem?_addItem, hx]
  refine ⟨_, rfl, ?_⟩
  split <;> exact ⟨rfl, rfl⟩

theorem keeps_new (ms : List M) (y : M) : Keeps ms (ms ++ [y]) := by
  intro k x hx
  refine ⟨x, ?_, rfl, rfl⟩
  rw [List.getElem?_append_left]
  · exact hx
  · exact (List.getElem?_eq_some_iff.mp hx).1

theorem Keeps.trans {a b c : List M} (h : Keeps a b) (h' : Keeps b c) : Keeps a c := by
  intro k x hx
  obtain ⟨x', h1, h2, h3⟩ := h k x hx
  obtain ⟨x'', g1, g2, g3⟩ := h' k x' h1
  exact ⟨x'', g1, g2.trans h2, g3.trans h3⟩

theorem Matches.keeps {fs : FS} {paths : List String} {ms ms' : List M} {file : String} {c : List Src} {its : List PItem}
    (h : Matches fs paths ms file c its) (hk : Keeps ms ms') : Matches fs paths ms' file c its := by
  refine List.Forall₂.imp ?_ h
  intro s p hsp
  cases s <;> cases p <;> simp only at hsp ⊢
  · obtain ⟨x, h0, h1, h2⟩ := hsp
    obtain ⟨x', g1, g2, _⟩ := hk _ x h1
    exact ⟨x', h0, g1, g2.trans h2⟩
  · exact hsp

theorem Matches.snoc {fs : FS} {paths : List String} {ms : List M} {file : String} {c : List Src} {its : List PItem} {s : Src}
    {p : PItem} (h : Matches fs paths ms file c its) (hs : Matches fs paths ms file [s] [p]) :
    Matches fs paths ms file (c ++ [s]) (its ++ [p]) :=
  List.rel_append h hs

variable {fs : FS} {paths : List String} {r : String} {libs : List String}

/-- Another item. -/
theorem inv_other {m : Nat} {c : List Src} {st : St} {s : Src} {p : PItem} (h : Inv fs paths r libs (some (m, c)) st)
    (hs : ∀ x, st.models[m]? = some x → Matches fs paths st.models x.file [s] [p] ∧ s ∈ fs.content x.file) :
    Inv fs paths r libs (some (m, c ++ [s])) { st with models := addItem st.models m p } := by
  have hk := keeps_add st.models m p
  refine ⟨?_, ?_, h.nodup, ?_, ?_, ?_, ?_, ?_, ?_, ?_⟩
  · obtain ⟨x, h1, h2, h3⟩ := h.root
    obtain ⟨x', g1, g2, g3⟩ := hk 0 x h1
    exact ⟨x', g1, g2.trans h2, g3.trans h3⟩
  · intro n j
    rw [h.seen n j]
    refine and_congr_right fun _ => ?_
    simp only [getElem?_addItem, Option.map_eq_some_iff]
    constructor
    · rintro ⟨x, h1, h2⟩
      refine ⟨_, ⟨x, h1, rfl⟩, ?_⟩
      split <;> exact h2
    · rintro ⟨_, ⟨x, h1, rfl⟩, h2⟩
      refine ⟨x, h1, ?_⟩
      split at h2 <;> exact h2
  · intro w hw
    obtain ⟨h1, x, h2, h3, h4⟩ := h.pend w hw
    have hne : m ≠ w.m := fun e => h1 c (by rw [e])
    refine ⟨fun c' e => h1 c (by cases e; rfl), x, ?_, h3, h4⟩
    simp [getElem?_addItem, h2, hne]
  · intro k c' e
    cases e
    obtain ⟨x, its, h1, h2, h3, h4⟩ := h.now m c rfl
    obtain ⟨hs1, hs2⟩ := hs x h1
    refine ⟨{ x with items := x.items ++ [p] }, its ++ [p], ?_, ?_, ?_, ?_⟩
    · simp [getElem?_addItem, h1]
    · simp [h2]
    · exact (h3.keeps hk).snoc (hs1.keeps hk)
    · intro s' hs'
      rcases List.mem_append.mp hs' with hs' | hs'
      · exact h4 s' hs'
      · rw [List.mem_singleton.mp hs']; exact hs2
  · intro k x hx hp hc
    have hne : m ≠ k := fun e => hc (c ++ [s]) (by rw [e])
    rw [getElem?_addItem] at hx
    simp only [hne, if_false, Option.map_id'] at hx
    obtain ⟨its, h1, h2⟩ := h.fin k x hx hp (fun c' e => hc (c ++ [s]) (by cases e; rfl))
    exact ⟨its, h1, h2.keeps hk⟩
  · intro k x hx hp
    rw [getElem?_addItem, Option.map_eq_some_iff] at hx
    obtain ⟨y, h1, h2⟩ := hx
    have := h.ok k y h1 hp
    subst h2
    split <;> exact this
  · intro k x hx q hq
    rw [getElem?_addItem, Option.map_eq_some_iff] at hx
    obtain ⟨y, h1, h2⟩ := hx
    have hy : y.parent = some q ∧ x.file = y.file := by
      subst h2
      split at hq <;> rename_i e <;> simp_all
    obtain ⟨g1, z, g2, g3⟩ := h.parent k y h1 q hy.1
    obtain ⟨z', k1, k2, _⟩ := hk _ z g2
    exact ⟨g1, z', k1, by rw [k2, hy.2]; exact g3⟩
  · intro k x hx hk0 hq
    rw [getElem?_addItem, Option.map_eq_some_iff] at hx
    obtain ⟨y, h1, h2⟩ := hx
    have hy : y.parent = none ∧ x.file = y.file := by
      subst h2
      split at hq <;> rename_i e <;> simp_all
    rw [hy.2]
    exact h.lib k y h1 hk0 hy.1
  · intro f hf
    obtain ⟨k, x, h1, h2, h3⟩ := h.libIn f hf
    obtain ⟨x', g1, g2, _⟩ := hk k x h2
    exact ⟨k, x', h1, g1, g2.trans h3⟩

theorem getElem?_snoc_cases {ms : List M} {y : M} {k : Nat} {x : M} (h : (ms ++ [y])[k]? = some x) :
    ms[k]? = some x ∨ k = ms.length ∧ x = y := by
  rcases Nat.lt_trichotomy k ms.length with hk | hk | hk
  · rw [List.getElem?_append_left hk] at h; exact Or.inl h
  · subst hk; simp at h; exact Or.inr ⟨rfl, h.symm⟩
  · rw [List.getElem?_eq_none (by simp; omega)] at h; exact absurd h (by simp)

/-- A new model. -/
theorem inv_new {m : Nat} {c : List Src} {st : St} {f : String} (h : Inv fs paths r libs (some (m, c)) st) {x : M}
    (hx : st.models[m]? = some x) (hf : Src.inc f ∈ fs.content x.file) (hl : lookup st.seen (canon fs paths x.file f) = none) :
    Inv fs paths r libs (some (m, c))
      { models := st.models ++ [⟨canon fs paths x.file f, some m, []⟩]
        files := ⟨st.models.length, canon fs paths x.file f⟩ :: st.files
        seen := (canon fs paths x.file f, st.models.length) :: st.seen } := by
  have hk := keeps_new st.models ⟨canon fs paths x.file f, some m, []⟩
  have hm : m < st.models.length := (List.getElem?_eq_some_iff.mp hx).1
  have hlen : 0 < st.models.length := by omega
  have hnew : (st.models ++ [(⟨canon fs paths x.file f, some m, []⟩ : M)])[st.models.length]? =
    some ⟨canon fs paths x.file f, some m, []⟩ := by simp
  have hold : ∀ (k : Nat) (z : M), st.models[k]? = some z → k < st.models.length :=
    fun k z hz => (List.getElem?_eq_some_iff.mp hz).1
  refine ⟨?_, ?_, ?_, ?_, ?_, ?_, ?_, ?_, ?_, ?_⟩
  · obtain ⟨x, h1, h2, h3⟩ := h.root
    obtain ⟨x', g1, g2, g3⟩ := hk 0 x h1
    exact ⟨x', g1, g2.trans h2, g3.trans h3⟩
  · intro n j
    simp only [lookup]
    split
    · rename_i e
      subst e
      constructor
      · intro e; cases e
        exact ⟨hlen, _, hnew, rfl⟩
      · rintro ⟨h1, y, h2, h3⟩
        rcases getElem?_snoc_cases h2 with h2 | ⟨h2, _⟩
        · rw [(h.seen _ j).mpr ⟨h1, y, h2, h3⟩] at hl; cases hl
        · rw [h2]
    · rename_i e
      rw [h.seen n j]
      refine and_congr_right fun _ => ?_
      constructor
      · rintro ⟨y, h2, h3⟩
        obtain ⟨y', g1, g2, _⟩ := hk j y h2
        exact ⟨y', g1, g2.trans h3⟩
      · rintro ⟨y, h2, h3⟩
        rcases getElem?_snoc_cases h2 with h2 | ⟨_, h2⟩
        · exact ⟨y, h2, h3⟩
        · subst h2; exact absurd h3 e
  · simp only [List.map_cons, List.nodup_cons]
    refine ⟨fun hc => ?_, h.nodup⟩
    obtain ⟨w, hw, hw'⟩ := List.mem_map.mp hc
    obtain ⟨_, y, h2, _⟩ := h.pend w hw
    have := hold _ _ h2
    omega
  · intro w hw
    rcases List.mem_cons.mp hw with e | hw
    · subst e
      refine ⟨fun c' e => ?_, _, hnew, rfl, ?_⟩
      · injection e with e; injection e with e _
        have e : m = st.models.length := e
        omega
      · simp only [pre]
        rw [if_neg (Nat.pos_iff_ne_zero.mp hlen)]
    · obtain ⟨h1, y, h2, h3, h4⟩ := h.pend w hw
      refine ⟨h1, y, ?_, h3, h4⟩
      rw [List.getElem?_append_left (hold _ _ h2)]
      exact h2
  · intro k c' e
    obtain ⟨y, its, h1, h2, h3, h4⟩ := h.now k c' e
    refine ⟨y, its, ?_, h2, h3.keeps hk, h4⟩
    rw [List.getElem?_append_left (hold _ _ h1)]
    exact h1
  · intro k y hy hp hc
    simp only [List.map_cons, List.mem_cons, not_or] at hp
    rcases getElem?_snoc_cases hy with hy | ⟨hy, _⟩
    · obtain ⟨its, h1, h2⟩ := h.fin k y hy hp.2 hc
      exact ⟨its, h1, h2.keeps hk⟩
    · exact absurd hy hp.1
  · intro k y hy hp
    simp only [List.map_cons, List.mem_cons, not_or] at hp
    rcases getElem?_snoc_cases hy with hy | ⟨hy, _⟩
    · exact h.ok k y hy hp.2
    · exact absurd hy hp.1
  · intro k y hy q hq
    rcases getElem?_snoc_cases hy with hy | ⟨hy, e⟩
    · obtain ⟨g1, z, g2, g3⟩ := h.parent k y hy q hq
      obtain ⟨z', k1, k2, _⟩ := hk _ z g2
      exact ⟨g1, z', k1, by rw [k2]; exact g3⟩
    · subst e
      injection hq with hq
      subst hq
      refine ⟨by omega, x, ?_, f, hf, rfl⟩
      rw [List.getElem?_append_left hm]; exact hx
  · intro k y hy hk0 hq
    rcases getElem?_snoc_cases hy with hy | ⟨hy, e⟩
    · exact h.lib k y hy hk0 hq
    · subst e; cases hq
  · intro f hf
    obtain ⟨k, x, h1, h2, h3⟩ := h.libIn f hf
    obtain ⟨x', g1, g2, _⟩ := hk k x h2
    exact ⟨k, x', h1, g1, g2.trans h3⟩

theorem inv_includeItem {m : Nat} {c : List Src} {st : St} {f : String} (h : Inv fs paths r libs (some (m, c)) st) {x : M}
    (hx : st.models[m]? = some x) (hf : Src.inc f ∈ fs.content x.file) :
    Inv fs paths r libs (some (m, c ++ [.inc f])) (includeItem fs paths m x.file st f) ∧
    ∃ x', (includeItem fs paths m x.file st f).models[m]? = some x' ∧ x'.file = x.file := by
  unfold includeItem
  simp only
  cases hl : lookup st.seen (canon fs paths x.file f) with
  | some j =>
    simp only
    obtain ⟨h1, y, h2, h3⟩ := (h.seen _ j).mp hl
    refine ⟨inv_other h ?_, ?_⟩
    · intro z hz
      rw [hx] at hz; cases hz
      exact ⟨List.Forall₂.cons ⟨y, h1, h2, h3⟩ List.Forall₂.nil, hf⟩
    · obtain ⟨x', g1, g2, _⟩ := keeps_add st.models m (.inc j false) m x hx
      exact ⟨x', g1, g2⟩
  | none =>
    simp only
    have hn := inv_new h hx hf hl
    have hlen : 0 < st.models.length := Nat.lt_of_le_of_lt (Nat.zero_le _) (List.getElem?_eq_some_iff.mp hx).1
    have hx' : (st.models ++ [(⟨canon fs paths x.file f, some m, []⟩ : M)])[m]? = some x := by
      rw [List.getElem?_append_left (List.getElem?_eq_some_iff.mp hx).1]; exact hx
    refine ⟨inv_other (p := .inc st.models.length true) hn ?_, ?_⟩
    · intro z hz
      simp only at hz
      rw [hx'] at hz; cases hz
      exact ⟨List.Forall₂.cons ⟨_, hlen, by simp; rfl, rfl⟩ List.Forall₂.nil, hf⟩
    · obtain ⟨x', g1, g2, _⟩ := keeps_add _ m (.inc st.models.length true) m x hx'
      exact ⟨x', g1, g2⟩

theorem inv_parseItems {m : Nat} {file : String} : ∀ (l : List Src) (c : List Src) (st : St), Inv fs paths r libs (some (m, c)) st →
    (∃ x, st.models[m]? = some x ∧ x.file = file) → (∀ s ∈ l, s ∈ fs.content file) →
    Inv fs paths r libs (some (m, c ++ l)) (parseItems fs paths m file l st) ∧
    ∃ x, (parseItems fs paths m file l st).models[m]? = some x ∧ x.file = file
  | [], c, st, h, hx, _ => by simp only [List.append_nil, parseItems]; exact ⟨h, hx⟩
  | .inc f :: l, c, st, h, ⟨x, hx, e⟩, hl => by
    subst e
    have h1 := inv_includeItem h hx (hl _ List.mem_cons_self)
    have := inv_parseItems l (c ++ [.inc f]) _ h1.1 h1.2 (fun s hs => hl s (List.mem_cons_of_mem _ hs))
    simpa [parseItems] using this
  | .other n :: l, c, st, h, ⟨x, hx, e⟩, hl => by
    subst e
    have h1 := inv_other (s := .other n) (p := .other n) h fun y hy => by
      rw [hx] at hy; cases hy
      exact ⟨List.Forall₂.cons rfl List.Forall₂.nil, hl _ List.mem_cons_self⟩
    have h2 : ∃ y, (addItem st.models m (.other n))[m]? = some y ∧ y.file = x.file := by
      obtain ⟨x', g1, g2, _⟩ := keeps_add st.models m (.other n) m x hx
      exact ⟨x', g1, g2⟩
    have := inv_parseItems l (c ++ [.other n]) { st with models := addItem st.models m (.other n) } h1 h2
      (fun s hs => hl s (List.mem_cons_of_mem _ hs))
    simpa [parseItems] using this

/-- The parents of a model: the first of them is the first file or another file or library, and the files reach the file of the model. -/
theorem chain_spec {cur : Option (Nat × List Src)} {st : St} (h : Inv fs paths r libs cur st) (f : String) : ∀ (fuel k : Nat) (x : M),
    st.models[k]? = some x → k < fuel →
    (chainHas st.models f fuel (some k) = true → ∃ y : M, (∃ j : Nat, j ≤ k ∧ st.models[j]? = some y) ∧ y.file = f ∧ Reaches fs paths f x.file) ∧
    ((∀ g ∈ libs, ¬ Reaches fs paths g x.file) → Reaches fs paths r x.file ∧ chainHas st.models r fuel (some k) = true)
  | 0, k, x, _, hk => by omega
  | fuel + 1, k, x, hx, hk => by
    simp only [chainHas, hx, Bool.or_eq_true, beq_iff_eq]
    constructor
    · rintro (e | e)
      · exact ⟨x, ⟨k, Nat.le_refl _, hx⟩, e, by rw [← e]; exact Relation.ReflTransGen.refl⟩
      · cases hp : x.parent with
        | none => rw [hp] at e; simp [chainHas] at e
        | some p =>
          obtain ⟨h1, y, h2, h3⟩ := h.parent k x hx p hp
          rw [hp] at e
          obtain ⟨z, ⟨j, hj, hz⟩, g2, g3⟩ := (chain_spec h f fuel p y h2 (by omega)).1 e
          exact ⟨z, ⟨j, by omega, hz⟩, g2, g3.tail h3⟩
    · intro hl
      by_cases hk0 : k = 0
      · obtain ⟨y, h1, h2, _⟩ := h.root
        rw [hk0, h1] at hx; cases hx
        exact ⟨by rw [h2]; exact Relation.ReflTransGen.refl, Or.inl h2⟩
      · cases hp : x.parent with
        | none =>
          exact absurd Relation.ReflTransGen.refl (hl x.file (h.lib k x hx (by omega) hp))
        | some p =>
          obtain ⟨h1, y, h2, h3⟩ := h.parent k x hx p hp
          have := (chain_spec h f fuel p y h2 (by omega)).2 (fun g hg hr => hl g hg (hr.tail h3))
          exact ⟨this.1.tail h3, Or.inr this.2⟩

/-- One round. -/
theorem inv_step {st : St} (h : Inv fs paths r libs none st) (hn : NoCompanion fs paths) :
    match step fs paths st with
    | .more st' => Inv fs paths r libs none st'
    | .done st' => st' = st ∧ st.files = []
    | .cyclic => Relation.TransGen (Includes fs paths) r r
    | .missing => ∃ x ∈ st.models, ¬ Openable fs x.file := by
  unfold step
  cases hw : st.files with
  | nil => exact ⟨rfl, rfl⟩
  | cons w rest =>
    simp only
    have hmem : w ∈ st.files := by rw [hw]; exact List.mem_cons_self
    obtain ⟨-, x, hx, hxf, hxi⟩ := h.pend w hmem
    have hnd := h.nodup
    rw [hw] at hnd
    simp only [List.map_cons, List.nodup_cons] at hnd
    rw [hx]
    simp only [Option.bind_some]
    by_cases hc : chainHas st.models w.file st.models.length x.parent = true
    · rw [if_pos hc]
      simp only
      cases hp : x.parent with
      | none => rw [hp] at hc; simp [chainHas] at hc
      | some p =>
        obtain ⟨h1, y, h2, h3⟩ := h.parent _ x hx p hp
        have hlen : p < st.models.length := (List.getElem?_eq_some_iff.mp h2).1
        rw [hp] at hc
        obtain ⟨z, ⟨j, hj, hz⟩, g2, g3⟩ := (chain_spec h w.file st.models.length p y h2 hlen).1 hc
        have hj0 : j = 0 := by
          by_contra hj0
          have e1 := (h.seen w.file j).mpr ⟨by omega, z, hz, g2⟩
          have e2 := (h.seen w.file w.m).mpr ⟨by omega, x, hx, hxf⟩
          rw [e1] at e2
          injection e2 with e2
          omega
        subst hj0
        obtain ⟨y0, k1, k2, _⟩ := h.root
        rw [hz] at k1; cases k1
        rw [hxf] at h3
        rw [← g2, k2] at g3 h3
        exact Relation.TransGen.tail' g3 h3
    · rw [if_neg hc]
      by_cases ho : ¬(isAbsolute w.file && fs.isFile w.file) = true
      · rw [if_pos ho]
        refine ⟨x, List.mem_of_getElem? hx, fun hc' => ho ?_⟩
        rw [← hxf]
        simp [hc'.1, hc'.2]
      · rw [if_neg ho]
        simp only
        rw [deprecated_id _ _ _ hn]
        simp only [Bool.not_eq_true, Bool.not_eq_false, not_not, Bool.and_eq_true] at ho
        have h0 : Inv fs paths r libs (some (w.m, [])) { st with files := rest } := by
          refine ⟨h.root, h.seen, hnd.2, ?_, ?_, ?_, ?_, h.parent, h.lib, h.libIn⟩
          · intro w' hw'
            obtain ⟨_, h2⟩ := h.pend w' (by rw [hw]; exact List.mem_cons_of_mem _ hw')
            refine ⟨fun c e => ?_, h2⟩
            injection e with e; injection e with e _
            exact hnd.1 (by rw [e]; exact List.mem_map_of_mem hw')
          · intro k c e
            injection e with e; injection e with e1 e2
            subst e1 e2
            exact ⟨x, [], hx, by simpa using hxi, List.Forall₂.nil, by simp⟩
          · intro k y hy hp hc'
            refine h.fin k y hy ?_ (by simp)
            rw [hw]
            simp only [List.map_cons, List.mem_cons, not_or]
            exact ⟨fun e => hc' [] (by rw [e]), hp⟩
          · intro k y hy hp
            by_cases e : k = w.m
            · subst e
              rw [hx] at hy; cases hy
              rw [hxf]
              refine ⟨ho, fun hk0 hl hr => ?_⟩
              cases hp : x.parent with
              | none => exact hl x.file (h.lib _ x hx hk0 hp) (by rw [hxf, hr]; exact Relation.ReflTransGen.refl)
              | some p =>
                obtain ⟨h1, y, h2, h3⟩ := h.parent _ x hx p hp
                rw [hxf, hr] at h3
                have hlen : p < st.models.length := (List.getElem?_eq_some_iff.mp h2).1
                have := (chain_spec h r st.models.length p y h2 hlen).2 (fun g hg hr => hl g hg (hr.tail h3))
                rw [hp, hr] at hc
                exact hc this.2
            · refine h.ok k y hy ?_
              rw [hw]
              simp only [List.map_cons, List.mem_cons, not_or]
              exact ⟨e, hp⟩
        have h1 := inv_parseItems (file := w.file) (fs.content w.file) [] _ h0 ⟨x, hx, hxf⟩ (fun _ hs => hs)
        simp only [List.nil_append] at h1
        obtain ⟨h1, x', hx', hxf'⟩ := h1
        refine ⟨h1.root, h1.seen, h1.nodup, ?_, by simp, ?_, h1.ok, h1.parent, h1.lib, h1.libIn⟩
        · intro w' hw'
          exact ⟨by simp, (h1.pend w' hw').2⟩
        · intro k y hy hp _
          by_cases e : k = w.m
          · subst e
            obtain ⟨z, its, g1, g2, g3, _⟩ := h1.now w.m _ rfl
            rw [hy] at hx' g1
            cases hx'; cases g1
            rw [hxf'] at g3 ⊢
            exact ⟨its, g2, g3⟩
          · refine h1.fin k y hy hp (fun c ec => e ?_)
            injection ec with ec; injection ec with ec _; exact ec.symm


theorem lookup_iff : ∀ (l : List (String × Nat)) (_ : (l.map (·.1)).Nodup) (n : String) (j : Nat), lookup l n = some j ↔ (n, j) ∈ l
  | [], _, n, j => by simp [lookup]
  | (a, k) :: l, h, n, j => by
    simp only [List.map_cons, List.nodup_cons] at h
    simp only [lookup, List.mem_cons, Prod.mk.injEq]
    split
    · rename_i e
      subst e
      constructor
      · intro e; cases e; exact Or.inl ⟨rfl, rfl⟩
      · rintro (⟨_, e⟩ | e)
        · rw [e]
        · exact absurd (List.mem_map_of_mem (f := (·.1)) e) h.1
    · rename_i e
      rw [lookup_iff l h.2 n j]
      constructor
      · exact Or.inr
      · rintro (⟨e', _⟩ | e')
        · exact absurd e'.symm e
        · exact e'

theorem inv_initial (fs : FS) (paths : List String) (r : String) {libs : List String} (hd : libs.Nodup) :
    Inv fs paths r libs none (initial r libs) := by
  have hm : ∀ (k : Nat) (x : M), (initial r libs).models[k]? = some x →
      k = 0 ∧ x = ⟨r, none, pre libs 0⟩ ∨ ∃ i f, k = i + 1 ∧ libs[i]? = some f ∧ x = ⟨f, none, []⟩ := by
    intro k x hx
    cases k with
    | zero => simp [initial] at hx; exact Or.inl ⟨rfl, by rw [← hx]; rfl⟩
    | succ i =>
      simp only [initial, List.getElem?_cons_succ, List.getElem?_map, Option.map_eq_some_iff] at hx
      obtain ⟨f, h1, h2⟩ := hx
      exact Or.inr ⟨i, f, rfl, h1, h2.symm⟩
  have hlib : ∀ (i : Nat) (f : String), libs[i]? = some f → (initial r libs).models[i + 1]? = some ⟨f, none, []⟩ := by
    intro i f h
    simp [initial, h]
  have hall : ∀ (k : Nat) (x : M), (initial r libs).models[k]? = some x → k ∈ (initial r libs).files.map (·.m) := by
    intro k x hx
    simp only [initial, List.map_append, List.map_reverse, List.map_map, List.map_cons, List.map_nil, List.mem_append, List.mem_reverse,
      List.mem_map, List.mem_singleton, Function.comp]
    rcases hm k x hx with ⟨h, _⟩ | ⟨i, f, h1, h2, _⟩
    · exact Or.inr h
    · exact Or.inl ⟨(f, i), List.mk_mem_zipIdx_iff_getElem?.mpr h2, h1.symm⟩
  refine ⟨⟨_, rfl, rfl, rfl⟩, ?_, ?_, ?_, by simp, ?_, ?_, ?_, ?_, ?_⟩
  · intro n j
    rw [lookup_iff]
    · simp only [initial, List.mem_reverse, List.mem_map, Prod.mk.injEq, Prod.exists]
      constructor
      · rintro ⟨f, i, h1, h2, h3⟩
        subst h2 h3
        exact ⟨by omega, _, hlib i f (List.mk_mem_zipIdx_iff_getElem?.mp h1), rfl⟩
      · rintro ⟨h1, x, h2, h3⟩
        rcases hm j x h2 with ⟨h, _⟩ | ⟨i, f, g1, g2, g3⟩
        · omega
        · subst g3
          exact ⟨f, i, List.mk_mem_zipIdx_iff_getElem?.mpr g2, h3, g1.symm⟩
    · simp only [initial, List.map_reverse, List.map_map, List.nodup_reverse]
      have : (fun p : String × Nat => p.1) ∘ (fun p : String × Nat => (p.1, p.2 + 1)) = Prod.fst := rfl
      rw [show ((fun x : String × Nat => x.1) ∘ fun p : String × Nat => (p.1, p.2 + 1)) = Prod.fst from rfl, List.zipIdx_map_fst]
      exact hd
  · simp only [initial, List.map_append, List.map_reverse, List.map_map, List.map_cons, List.map_nil]
    rw [List.nodup_append]
    refine ⟨List.nodup_reverse.mpr ?_, by simp, ?_⟩
    · have e : libs.zipIdx.map ((fun w : W => w.m) ∘ fun p : String × Nat => (⟨p.2 + 1, p.1⟩ : W)) = (List.range' 0 libs.length).map (· + 1) := by
        rw [← List.zipIdx_map_snd 0 libs, List.map_map]; rfl
      rw [e]
      exact (List.nodup_range').map (fun a b h => by simpa using h)
    · intro a ha b hb
      simp only [List.mem_reverse, List.mem_map, Function.comp] at ha
      obtain ⟨p, _, h⟩ := ha
      simp only [List.mem_singleton] at hb
      omega
  · intro w hw
    refine ⟨by simp, ?_⟩
    simp only [initial, List.mem_append, List.mem_reverse, List.mem_map, List.mem_singleton, Prod.exists] at hw
    rcases hw with ⟨f, i, h1, h2⟩ | h
    · subst h2
      exact ⟨_, hlib i f (List.mk_mem_zipIdx_iff_getElem?.mp h1), rfl, by simp [pre]⟩
    · subst h
      exact ⟨_, rfl, rfl, rfl⟩
  · intro k x hx hp
    exact absurd (hall k x hx) hp
  · intro k x hx hp
    exact absurd (hall k x hx) hp
  · intro k x hx p hp
    rcases hm k x hx with ⟨_, h⟩ | ⟨i, f, h1, h2, h⟩ <;> subst h <;> cases hp
  · intro k x hx hk _
    rcases hm k x hx with ⟨h, _⟩ | ⟨i, f, h1, h2, h⟩
    · omega
    · subst h; exact List.mem_of_getElem? h2
  · intro f hf
    obtain ⟨i, hi⟩ := List.mem_iff_getElem?.mp hf
    exact ⟨i + 1, _, by omega, hlib i f hi, rfl⟩

/-! ## Termination -/

theorem length_parseItems (fs : FS) (paths : List String) (m : Nat) (file : String) : ∀ (l : List Src) (st : St),
    (parseItems fs paths m file l st).models.length + st.files.length = st.models.length + (parseItems fs paths m file l st).files.length
  | [], st => rfl
  | .other n :: l, st => by
    have := length_parseItems fs paths m file l { st with models := addItem st.models m (.other n) }
    simpa [parseItems, length_addItem] using this
  | .inc f :: l, st => by
    have h := length_parseItems fs paths m file l (includeItem fs paths m file st f)
    have : (includeItem fs paths m file st f).models.length + st.files.length =
        st.models.length + (includeItem fs paths m file st f).files.length := by
      unfold includeItem
      simp only
      split <;> simp [length_addItem]; omega
    simp only [parseItems]
    omega

/-- The file of each model is reached. -/
theorem reached {cur : Option (Nat × List Src)} {st : St} (h : Inv fs paths r libs cur st) : ∀ (k : Nat) (x : M), st.models[k]? = some x →
    ∃ g ∈ r :: libs, Reaches fs paths g x.file := by
  intro k
  induction k using Nat.strongRecOn with
  | _ k ih =>
    intro x hx
    cases hp : x.parent with
    | none =>
      by_cases hk : k = 0
      · obtain ⟨y, h1, h2, _⟩ := h.root
        rw [hk, h1] at hx; cases hx
        exact ⟨r, List.mem_cons_self, by rw [h2]; exact Relation.ReflTransGen.refl⟩
      · exact ⟨x.file, List.mem_cons_of_mem _ (h.lib k x hx (by omega) hp), Relation.ReflTransGen.refl⟩
    | some p =>
      obtain ⟨h1, y, h2, h3⟩ := h.parent k x hx p hp
      obtain ⟨g, hg, hr⟩ := ih p h1 y h2
      exact ⟨g, hg, hr.tail h3⟩

theorem tail_nodup {cur : Option (Nat × List Src)} {st : St} (h : Inv fs paths r libs cur st) : (st.models.tail.map (·.file)).Nodup := by
  rw [List.nodup_iff_getElem?_ne_getElem?]
  intro i j hij hj e
  simp only [List.length_map, List.length_tail] at hj
  simp only [List.getElem?_map, List.getElem?_tail] at e
  obtain ⟨x, hx⟩ : ∃ x, st.models[i + 1]? = some x := ⟨_, List.getElem?_eq_getElem (by omega)⟩
  obtain ⟨y, hy⟩ : ∃ y, st.models[j + 1]? = some y := ⟨_, List.getElem?_eq_getElem (by omega)⟩
  rw [hx, hy] at e
  simp only [Option.map_some, Option.some.injEq] at e
  have e1 := (h.seen x.file (i + 1)).mpr ⟨by omega, x, hx, rfl⟩
  have e2 := (h.seen x.file (j + 1)).mpr ⟨by omega, y, hy, e.symm⟩
  rw [e1] at e2
  injection e2 with e2
  omega

theorem length_models {cur : Option (Nat × List Src)} {st : St} (h : Inv fs paths r libs cur st) {U : List String}
    (hU : ∀ g ∈ r :: libs, ∀ f, Reaches fs paths g f → f ∈ U) : st.models.length ≤ U.length + 1 := by
  have h1 : (st.models.tail.map (·.file)) ⊆ U := by
    intro f hf
    obtain ⟨x, hx, e⟩ := List.mem_map.mp hf
    obtain ⟨k, hk⟩ := List.mem_iff_getElem?.mp (List.mem_of_mem_tail hx)
    obtain ⟨g, hg, hr⟩ := reached h k x hk
    exact hU g hg f (by rw [← e]; exact hr)
  have h2 := ((tail_nodup h).subperm h1).length_le
  simp at h2
  omega

theorem files_le {cur : Option (Nat × List Src)} {st : St} (h : Inv fs paths r libs cur st) : st.files.length ≤ st.models.length := by
  have h1 : st.files.map (·.m) ⊆ List.range st.models.length := by
    intro k hk
    obtain ⟨w, hw, e⟩ := List.mem_map.mp hk
    obtain ⟨_, x, hx, _⟩ := h.pend w hw
    rw [← e]
    exact List.mem_range.mpr (List.getElem?_eq_some_iff.mp hx).1
  have := (h.nodup.subperm h1).length_le
  simpa using this

/-- What is said of the outcome. -/
def Good (fs : FS) (paths : List String) (r : String) (libs : List String) : Out → Prop
  | .more _ => False
  | .done st => Inv fs paths r libs none st ∧ st.files = []
  | .cyclic => Relation.TransGen (Includes fs paths) r r
  | .missing => ∃ g ∈ r :: libs, ∃ f, Reaches fs paths g f ∧ ¬ Openable fs f

theorem run_spec (hn : NoCompanion fs paths) {U : List String}
    (hU : ∀ g ∈ r :: libs, ∀ f, Reaches fs paths g f → f ∈ U) : ∀ (fuel : Nat) (st : St), Inv fs paths r libs none st →
    U.length + 1 < fuel + (st.models.length - st.files.length) → ∃ o, run fs paths fuel st = some o ∧ Good fs paths r libs o
  | 0, st, h, hf => by
    have := length_models h hU
    omega
  | fuel + 1, st, h, hf => by
    have hs := inv_step h hn
    unfold run
    cases e : step fs paths st with
    | done st' =>
      rw [e] at hs
      obtain ⟨h1, h2⟩ := hs
      subst h1
      exact ⟨_, rfl, h, h2⟩
    | cyclic => rw [e] at hs; exact ⟨_, rfl, hs⟩
    | missing =>
      rw [e] at hs
      obtain ⟨x, hx, hx'⟩ := hs
      obtain ⟨k, hk⟩ := List.mem_iff_getElem?.mp hx
      obtain ⟨g, hg, hr⟩ := reached h k x hk
      exact ⟨_, rfl, g, hg, _, hr, hx'⟩
    | more st' =>
      rw [e] at hs
      simp only at hs ⊢
      refine run_spec hn hU fuel st' hs ?_
      have h1 := files_le h
      have h2 := files_le hs
      unfold step at e
      cases hw : st.files with
      | nil => rw [hw] at e; cases e
      | cons w rest =>
        rw [hw] at e
        simp only at e
        split at e
        · cases e
        · split at e
          · cases e
          · injection e with e
            rw [deprecated_id _ _ _ hn] at e
            have := length_parseItems fs paths w.m w.file (fs.content w.file) { st with files := rest }
            rw [e] at this
            simp only at this
            rw [hw] at hf h1
            simp only [List.length_cons] at hf h1
            omega

/-! ## The loaded models -/

theorem matches_inc {ms : List M} {file : String} : ∀ {c : List Src} {its : List PItem}, Matches fs paths ms file c its → ∀ {f},
    Src.inc f ∈ c → ∃ j x, 0 < j ∧ ms[j]? = some x ∧ x.file = canon fs paths file f
  | _, _, List.Forall₂.nil, f, hf => by cases hf
  | s :: c, p :: its, List.Forall₂.cons h1 h2, f, hf => by
    rcases List.mem_cons.mp hf with e | hf
    · subst e
      cases p with
      | inc j o => obtain ⟨x, h0, h1, h2⟩ := h1; exact ⟨j, x, h0, h1, h2⟩
      | other n => exact absurd h1 (by simp)
    · exact matches_inc h2 hf

/-- A file included by the file of a model has a model. -/
theorem closed {st : St} (h : Inv fs paths r libs none st) (hf : st.files = []) {k : Nat} {x : M} (hx : st.models[k]? = some x)
    {b : String} (hb : Includes fs paths x.file b) : ∃ (j : Nat) (y : M), 0 < j ∧ st.models[j]? = some y ∧ y.file = b := by
  obtain ⟨f, h1, h2⟩ := hb
  obtain ⟨its, _, h3⟩ := h.fin k x hx (by simp [hf]) (by simp)
  obtain ⟨j, y, g0, g1, g2⟩ := matches_inc h3 h1
  exact ⟨j, y, g0, g1, g2.trans h2⟩

theorem all_loaded {st : St} (h : Inv fs paths r libs none st) (hf : st.files = []) {g : String} (hg : g ∈ r :: libs) {f : String}
    (hr : Reaches fs paths g f) : ∃ (k : Nat) (x : M), st.models[k]? = some x ∧ x.file = f := by
  induction hr with
  | refl =>
    rcases List.mem_cons.mp hg with e | hg
    · subst e
      obtain ⟨x, h1, h2, _⟩ := h.root
      exact ⟨0, x, h1, h2⟩
    · obtain ⟨k, x, _, h1, h2⟩ := h.libIn g hg
      exact ⟨k, x, h1, h2⟩
  | tail _ hs ih =>
    obtain ⟨k, x, h1, h2⟩ := ih
    obtain ⟨j, y, _, g1, g2⟩ := closed h hf h1 (by rw [h2]; exact hs)
    exact ⟨j, y, g1, g2⟩

theorem no_cycle {st : St} (h : Inv fs paths r libs none st) (hf : st.files = []) (hl : ∀ g ∈ libs, ¬ Reaches fs paths g r) :
    ¬ Relation.TransGen (Includes fs paths) r r := by
  intro hc
  obtain ⟨b, h1, h2⟩ := Relation.TransGen.tail'_iff.mp hc
  obtain ⟨k, x, g1, g2⟩ := all_loaded h hf List.mem_cons_self h1
  obtain ⟨j, y, k0, k1, k2⟩ := closed h hf g1 (by rw [g2]; exact h2)
  exact (h.ok j y k1 (by simp [hf])).2 k0 hl k2

theorem all_nodup {st : St} (h : Inv fs paths r libs none st) (hf : st.files = []) (hl : ∀ g ∈ libs, ¬ Reaches fs paths g r) :
    (st.models.map (·.file)).Nodup := by
  have ht := tail_nodup h
  cases hm : st.models with
  | nil => simp
  | cons x ms =>
    rw [hm] at ht
    simp only [List.map_cons, List.nodup_cons, List.tail_cons] at ht ⊢
    refine ⟨fun hc => ?_, ht⟩
    obtain ⟨y, hy, e⟩ := List.mem_map.mp hc
    obtain ⟨i, hi⟩ := List.mem_iff_getElem?.mp hy
    obtain ⟨x0, h1, h2, _⟩ := h.root
    rw [hm] at h1
    simp only [List.length_cons, Nat.zero_lt_succ, getElem?_pos, List.getElem_cons_zero, Option.some.injEq] at h1
    subst h1
    exact (h.ok (i + 1) y (by rw [hm]; simpa using hi) (by simp [hf])).2 (by omega) hl (e.trans h2)

end Incl
end MZ
