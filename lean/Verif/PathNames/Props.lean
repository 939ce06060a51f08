import Verif.PathNames.Spec
import Mathlib.Tactic.Ring
import Mathlib.Tactic.Linarith

/-!
# Names in path files: the properties
-/

namespace MZ
namespace PathNames

/-! ## Indices -/

theorem position_acc (sets : List (Int × Int)) : ∀ (idx : List Int) (acc : Int), sets.length = idx.length →
    (sets.zip idx).foldl (fun acc si => acc * si.1.2 + (si.2 - si.1.1)) acc = acc * (sets.map Prod.snd).prod + position sets idx := by
  induction sets with
  | nil => intro idx acc _; simp [position]
  | cons s sets ih =>
    intro idx acc hl
    cases idx with
    | nil => simp at hl
    | cons i idx =>
      have hl' : sets.length = idx.length := by simpa using hl
      unfold position
      simp only [List.zip_cons_cons, List.foldl_cons, List.map_cons, List.prod_cons]
      rw [ih idx _ hl', ih idx _ hl']
      ring

theorem position_cons (s : Int × Int) (sets : List (Int × Int)) (i : Int) (idx : List Int) (hl : sets.length = idx.length) :
    position (s :: sets) (i :: idx) = (i - s.1) * (sets.map Prod.snd).prod + position sets idx := by
  rw [position, List.zip_cons_cons, List.foldl_cons, position_acc sets idx _ hl]
  ring

theorem prod_nonneg (sets : List (Int × Int)) (h : ∀ s ∈ sets, 0 ≤ s.2) : 0 ≤ (sets.map Prod.snd).prod := by
  induction sets with
  | nil => simp
  | cons s sets ih =>
    simp only [List.map_cons, List.prod_cons]
    exact mul_nonneg (h s List.mem_cons_self) (ih fun t ht => h t (List.mem_cons_of_mem _ ht))

theorem indices_ok : ∀ (sets : List (Int × Int)) (ind : Int), sets ≠ [] → (∀ s ∈ sets, 0 ≤ s.2) → 0 ≤ ind →
    ind < (sets.map Prod.snd).prod → InBounds sets (indices sets ind) ∧ position sets (indices sets ind) = ind
  | [], _, h, _, _, _ => absurd rfl h
  | [s], ind, _, _, h0, h1 => by
    simp only [List.map_cons, List.map_nil, List.prod_cons, List.prod_nil, mul_one] at h1
    refine ⟨List.Forall₂.cons ⟨by omega, by omega⟩ List.Forall₂.nil, ?_⟩
    simp [indices, position]
  | s :: t :: rest, ind, _, hc, h0, h1 => by
    simp only [indices]
    have hP0 : 0 ≤ ((t :: rest).map Prod.snd).prod := prod_nonneg _ fun x hx => hc x (List.mem_cons_of_mem _ hx)
    rw [List.map_cons, List.prod_cons] at h1
    generalize hP : ((t :: rest).map Prod.snd).prod = P at *
    have hPpos : 0 < P := by
      rcases lt_or_eq_of_le hP0 with h | h
      · exact h
      · rw [← h] at h1; simp at h1; omega
    have ht : ind.tdiv P = ind / P := Int.tdiv_eq_ediv_of_nonneg h0
    rw [ht]
    have hm : ind - ind / P * P = ind % P := by
      have := Int.emod_add_mul_ediv ind P
      rw [mul_comm (ind / P) P]; omega
    rw [hm]
    have hq0 : 0 ≤ ind / P := Int.ediv_nonneg h0 hP0
    have hq1 : ind / P < s.2 := Int.ediv_lt_of_lt_mul hPpos h1
    obtain ⟨g1, g2⟩ := indices_ok (t :: rest) (ind % P) (by simp) (fun x hx => hc x (List.mem_cons_of_mem _ hx))
      (Int.emod_nonneg _ (by omega)) (by rw [hP]; exact Int.emod_lt_of_pos _ hPpos)
    refine ⟨List.Forall₂.cons ⟨by omega, by omega⟩ g1, ?_⟩
    rw [position_cons _ _ _ _ g1.length_eq, g2, hP]
    have := Int.emod_add_mul_ediv ind P
    have e : (s.1 + ind / P - s.1) * P = P * (ind / P) := by ring
    omega

theorem position_bounds (sets : List (Int × Int)) (idx : List Int) (h : InBounds sets idx) :
    0 ≤ position sets idx ∧ position sets idx < (sets.map Prod.snd).prod := by
  induction h with
  | nil => simp [position]
  | @cons s i sets idx hs hr ih =>
    rw [position_cons _ _ _ _ hr.length_eq, List.map_cons, List.prod_cons]
    obtain ⟨h1, h2⟩ := ih
    have a : 0 ≤ (i - s.1) * (sets.map Prod.snd).prod := mul_nonneg (by omega) (by omega)
    refine ⟨by omega, ?_⟩
    have b : (i - s.1 + 1) * (sets.map Prod.snd).prod ≤ s.2 * (sets.map Prod.snd).prod := mul_le_mul_of_nonneg_right (by omega) (by omega)
    rw [add_mul, one_mul] at b
    omega

theorem position_inj (sets : List (Int × Int)) : ∀ idx idx', InBounds sets idx → InBounds sets idx' →
    position sets idx = position sets idx' → idx = idx' := by
  induction sets with
  | nil => intro idx idx' h h' _; cases h; cases h'; rfl
  | cons s sets ih =>
    intro idx idx' h h' he
    cases h with
    | @cons _ i _ idx hs hr =>
      cases h' with
      | @cons _ i' _ idx' hs' hr' =>
        rw [position_cons _ _ _ _ hr.length_eq, position_cons _ _ _ _ hr'.length_eq] at he
        obtain ⟨a1, a2⟩ := position_bounds _ _ hr
        obtain ⟨b1, b2⟩ := position_bounds _ _ hr'
        generalize (sets.map Prod.snd).prod = P at *
        have hii : i = i' := by
          rcases lt_trichotomy i i' with hlt | heq | hgt
          · exfalso
            have : (i - s.1 + 1) * P ≤ (i' - s.1) * P := mul_le_mul_of_nonneg_right (by omega) (by omega)
            rw [add_mul, one_mul] at this
            omega
          · exact heq
          · exfalso
            have : (i' - s.1 + 1) * P ≤ (i - s.1) * P := mul_le_mul_of_nonneg_right (by omega) (by omega)
            rw [add_mul, one_mul] at this
            omega
        subst hii
        rw [ih idx idx' hr hr' (by omega)]

/-- **C94**: the indices computed for an element are in the index sets and are those of this element, and every list of indices in the index sets
is that of an element. -/
theorem _root_.MZ.C94_indices (sets : List (Int × Int)) (hs : sets ≠ []) (hc : ∀ s ∈ sets, 0 ≤ s.2) :
    (∀ ind : Int, 0 ≤ ind → ind < (sets.map Prod.snd).prod → InBounds sets (indices sets ind) ∧ position sets (indices sets ind) = ind) ∧
    (∀ idx, InBounds sets idx → 0 ≤ position sets idx ∧ position sets idx < (sets.map Prod.snd).prod ∧
      indices sets (position sets idx) = idx) := by
  refine ⟨fun ind h0 h1 => indices_ok sets ind hs hc h0 h1, fun idx hi => ?_⟩
  obtain ⟨h0, h1⟩ := position_bounds sets idx hi
  obtain ⟨g1, g2⟩ := indices_ok sets _ hs hc h0 h1
  exact ⟨h0, h1, position_inj sets _ _ g1 hi g2⟩

/-- An array with the index sets `1..2`, `0..2` and `-1..0`. -/
example : indices [(1, 2), (0, 3), (-1, 2)] 7 = [2, 0, 0] ∧ position [(1, 2), (0, 3), (-1, 2)] [2, 0, 0] = 7 := by decide +kernel

/-! ## Names -/

/-- One call of `addBetterName`. -/
structure Event where
  id : Nat
  name : Option Name
  path : String
  overwrite : Bool

/-- The calls of `addBetterName` one after the other. -/
def run (m : Names) (es : List Event) : Names := es.foldl (fun m e => addBetterName m e.id e.name e.path e.overwrite) m

/-- The calls for the elements. -/
def elemEvents (x : Nat) (sets : List (Int × Int)) : Nat → List (Option Nat) → List Event
  | _, [] => []
  | ind, none :: es => elemEvents x sets (ind + 1) es
  | ind, some id :: es => ⟨id, some (.access x (indices sets ind)), "", true⟩ :: elemEvents x sets (ind + 1) es

/-- The calls for an annotation. -/
def annEvents (p2n : String → String) (d : Decl) : Ann → List Event
  | .outputArray sets =>
    match d.rhs with
    | some rhs => elemEvents d.id sets 0 rhs
    | none => []
  | .path s => [⟨d.id, toName (p2n s), s, false⟩]
  | .other => []

theorem run_append (m : Names) (a b : List Event) : run m (a ++ b) = run (run m a) b := List.foldl_append

theorem nameElems_run (x : Nat) (sets : List (Int × Int)) (rhs : List (Option Nat)) :
    ∀ m ind, nameElems x sets m ind rhs = run m (elemEvents x sets ind rhs) := by
  induction rhs with
  | nil => intro m ind; rfl
  | cons e es ih =>
    intro m ind
    cases e with
    | none => exact ih m (ind + 1)
    | some id => exact ih _ (ind + 1)

theorem nameAnn_run (p2n : String → String) (d : Decl) (m : Names) (a : Ann) : nameAnn p2n d m a = run m (annEvents p2n d a) := by
  cases a with
  | outputArray sets =>
    simp only [nameAnn, annEvents]
    cases d.rhs with
    | none => rfl
    | some rhs => exact nameElems_run _ _ _ _ _
  | path s => rfl
  | other => rfl

/-- All calls. -/
def events (p2n : String → String) (ds : List Decl) : List Event := ds.flatMap fun d => d.anns.flatMap (annEvents p2n d)

theorem buildMap_run (p2n : String → String) (ds : List Decl) : buildMap p2n ds = run (fun _ => (none, "")) (events p2n ds) := by
  have h1 : ∀ (d : Decl) (as : List Ann) (m : Names), as.foldl (nameAnn p2n d) m = run m (as.flatMap (annEvents p2n d)) := by
    intro d as
    induction as with
    | nil => intro m; rfl
    | cons a as ih => intro m; rw [List.foldl_cons, ih, nameAnn_run, List.flatMap_cons, run_append]
  have h2 : ∀ (ds : List Decl) (m : Names), ds.foldl (fun m d => d.anns.foldl (nameAnn p2n d) m) m = run m (events p2n ds) := by
    intro ds
    induction ds with
    | nil => intro m; rfl
    | cons d ds ih =>
      intro m
      rw [List.foldl_cons, ih, h1]
      simp only [events, List.flatMap_cons]
      rw [run_append]
  exact h2 ds _

theorem mem_elemEvents (x : Nat) (sets : List (Int × Int)) (rhs : List (Option Nat)) : ∀ (ind : Nat) e, e ∈ elemEvents x sets ind rhs →
    ∃ k : Nat, rhs[k]? = some (some e.id) ∧ e.name = some (.access x (indices sets ((ind + k : Nat) : Int))) ∧ e.path = "" ∧ e.overwrite = true := by
  induction rhs with
  | nil => intro ind e he; cases he
  | cons a es ih =>
    intro ind e he
    cases a with
    | none =>
      obtain ⟨k, h1, h2, h3, h4⟩ := ih (ind + 1) e he
      exact ⟨k + 1, by simpa using h1, by rw [h2]; congr 4; omega, h3, h4⟩
    | some id =>
      rcases List.mem_cons.1 he with rfl | he
      · exact ⟨0, rfl, rfl, rfl, rfl⟩
      · obtain ⟨k, h1, h2, h3, h4⟩ := ih (ind + 1) e he
        exact ⟨k + 1, by simpa using h1, by rw [h2]; congr 4; omega, h3, h4⟩

theorem elemEvents_mem (x : Nat) (sets : List (Int × Int)) (rhs : List (Option Nat)) : ∀ (ind k v : Nat), rhs[k]? = some (some v) →
    ∃ e ∈ elemEvents x sets ind rhs, e.id = v ∧ e.overwrite = true := by
  induction rhs with
  | nil => intro ind k v h; simp at h
  | cons a es ih =>
    intro ind k v h
    cases k with
    | zero =>
      simp only [List.getElem?_cons_zero, Option.some.injEq] at h
      subst h
      exact ⟨_, List.mem_cons_self, rfl, rfl⟩
    | succ k =>
      obtain ⟨e, h1, h2⟩ := ih (ind + 1) k v (by simpa using h)
      cases a with
      | none => exact ⟨e, h1, h2⟩
      | some id => exact ⟨e, List.mem_cons_of_mem _ h1, h2⟩

/-- Once overwritten, a name is one that overwrites. -/
theorem run_name (es : List Event) (v : Nat) (P : Name → Prop) (hP : ∀ e ∈ es, e.id = v → e.overwrite = true → ∃ n, e.name = some n ∧ P n) :
    ∀ m : Names, ((∃ n, (m v).1 = some n ∧ P n) ∨ ∃ e ∈ es, e.id = v ∧ e.overwrite = true) → ∃ n, (run m es v).1 = some n ∧ P n := by
  induction es with
  | nil =>
    intro m h
    rcases h with h | ⟨e, he, -⟩
    · exact h
    · cases he
  | cons e es ih =>
    intro m h
    simp only [run, List.foldl_cons]
    refine ih (fun e he => hP e (List.mem_cons_of_mem _ he)) _ ?_
    by_cases hv : e.id = v
    · by_cases ho : e.overwrite = true
      · left
        obtain ⟨n, h1, h2⟩ := hP e List.mem_cons_self hv ho
        exact ⟨n, by simp [addBetterName, hv, ho, h1], h2⟩
      · rcases h with ⟨n, h1, h2⟩ | ⟨e', he', h1, h2⟩
        · left
          exact ⟨n, by simp [addBetterName, hv, ho, h1], h2⟩
        · rcases List.mem_cons.1 he' with rfl | he'
          · exact absurd h2 ho
          · exact Or.inr ⟨e', he', h1, h2⟩
    · rcases h with ⟨n, h1, h2⟩ | ⟨e', he', h1, h2⟩
      · left
        refine ⟨n, ?_, h2⟩
        rw [addBetterName, Function.update_of_ne (Ne.symm hv)]
        exact h1
      · rcases List.mem_cons.1 he' with rfl | he'
        · exact absurd h1 hv
        · exact Or.inr ⟨e', he', h1, h2⟩

theorem mem_events {p2n : String → String} {ds : List Decl} {e : Event} (he : e ∈ events p2n ds) :
    (∃ d ∈ ds, ∃ (sets : List (Int × Int)) (rhs : List (Option Nat)) (k : Nat), .outputArray sets ∈ d.anns ∧ d.rhs = some rhs ∧ rhs[k]? = some (some e.id) ∧
      e.name = some (.access d.id (indices sets (k : Int))) ∧ e.path = "" ∧ e.overwrite = true) ∨
    (e.overwrite = false ∧ e.name = toName (p2n e.path)) := by
  obtain ⟨d, hd, he⟩ := List.mem_flatMap.1 he
  obtain ⟨a, ha, he⟩ := List.mem_flatMap.1 he
  cases a with
  | outputArray sets =>
    simp only [annEvents] at he
    cases hr : d.rhs with
    | none => rw [hr] at he; cases he
    | some rhs =>
      rw [hr] at he
      obtain ⟨k, h1, h2, h3, h4⟩ := mem_elemEvents _ _ _ _ _ he
      rw [Nat.zero_add] at h2
      exact Or.inl ⟨d, hd, sets, rhs, k, ha, hr, h1, h2, h3, h4⟩
  | path s =>
    simp only [annEvents, List.mem_singleton] at he
    subst he
    exact Or.inr ⟨rfl, rfl⟩
  | other => cases he

theorem isElem_of {ds : List Decl} (hw : Wf ds) {d : Decl} (hd : d ∈ ds) {sets : List (Int × Int)} {rhs : List (Option Nat)} {k v : Nat} (ha : .outputArray sets ∈ d.anns)
    (hr : d.rhs = some rhs) (hk : rhs[k]? = some (some v)) : IsElem ds v d.id (indices sets (k : Int)) := by
  obtain ⟨w1, w2, w3⟩ := hw d hd sets rhs ha hr
  have hlt : k < rhs.length := (List.getElem?_eq_some_iff.1 hk).1
  obtain ⟨g1, g2⟩ := indices_ok sets k w1 w2 (by omega) (by omega)
  exact ⟨d, hd, sets, rhs, rfl, ha, hr, g1, by omega, by rw [g2]; exact hk⟩

/-- **C94**: a variable that is an element of an output array is named by an array access whose value it is. -/
theorem _root_.MZ.C94_array_names (path2name : String → String) (ds : List Decl) (hw : Wf ds) (v : Nat) (hv : ∃ x idx, IsElem ds v x idx) :
    ∃ x idx, (buildMap path2name ds v).1 = some (.access x idx) ∧ IsElem ds v x idx := by
  rw [buildMap_run]
  have := run_name (events path2name ds) v (fun n => ∃ x idx, n = .access x idx ∧ IsElem ds v x idx) (by
    rintro e he rfl ho
    rcases mem_events he with ⟨d, hd, sets, rhs, k, h1, h2, h3, h4, -, -⟩ | ⟨h, -⟩
    · exact ⟨_, h4, _, _, rfl, isElem_of hw hd h1 h2 h3⟩
    · rw [h] at ho; cases ho) (fun _ => (none, "")) (Or.inr (by
    obtain ⟨x, idx, d, hd, sets, rhs, -, h1, h2, -, -, h3⟩ := hv
    obtain ⟨e, he, h4, h5⟩ := elemEvents_mem d.id sets rhs 0 _ _ h3
    exact ⟨e, List.mem_flatMap.2 ⟨d, hd, List.mem_flatMap.2 ⟨_, h1, by simpa only [annEvents, h2] using he⟩⟩, h4, h5⟩))
  obtain ⟨n, h1, x, idx, rfl, h2⟩ := this
  exact ⟨x, idx, h1, h2⟩

/-- Names and paths by calls that do not overwrite. -/
theorem run_first (es : List Event) (v : Nat) (hP : ∀ e ∈ es, e.id = v → e.overwrite = true → e.path = "") :
    ∀ m : Names, (run m es v).2 =
        (if (m v).2 ≠ "" then (m v).2 else
          (((es.filter fun e => e.id = v ∧ e.overwrite = false).map Event.path).find? fun s => s ≠ "").getD "") ∧
      ((∀ e ∈ es, e.id = v → e.overwrite = false) → (run m es v).1 =
        (if (m v).1 ≠ none then (m v).1 else
          (((es.filter fun e => e.id = v ∧ e.overwrite = false).map Event.name).find? fun n => n ≠ none).getD none)) := by
  induction es with
  | nil =>
    intro m
    constructor
    · by_cases h : (m v).2 = "" <;> simp [run, h]
    · intro _
      by_cases h : (m v).1 = none <;> simp [run, h]
  | cons e es ih =>
    intro m
    simp only [run, List.foldl_cons]
    obtain ⟨i1, i2⟩ := ih (fun e he => hP e (List.mem_cons_of_mem _ he)) (addBetterName m e.id e.name e.path e.overwrite)
    constructor
    · refine i1.trans ?_
      by_cases hv : e.id = v
      · have hpo := hP e List.mem_cons_self hv
        subst hv
        cases ho : e.overwrite with
        | true => simp [addBetterName, hpo ho, ho]
        | false =>
          by_cases hp : e.path = ""
          · simp [addBetterName, hp, ho]
          · by_cases hm : (m e.id).2 = "" <;> simp [addBetterName, hp, ho, hm]
      · rw [addBetterName, Function.update_of_ne (Ne.symm hv)]
        simp [hv]
    · intro hno
      refine (i2 fun e he => hno e (List.mem_cons_of_mem _ he)).trans ?_
      by_cases hv : e.id = v
      · have ho := hno e List.mem_cons_self hv
        subst hv
        cases hn : e.name with
        | none => simp [addBetterName, hn, ho]
        | some n =>
          cases hm : (m e.id).1 with
          | none => simp [addBetterName, hn, ho, hm]
          | some n' => simp [addBetterName, hn, ho, hm]
      · rw [addBetterName, Function.update_of_ne (Ne.symm hv)]
        simp [hv]

theorem events_filter (p2n : String → String) (ds : List Decl) (v : Nat) :
    ((events p2n ds).filter fun e => e.id = v ∧ e.overwrite = false) = (paths ds v).map fun s => ⟨v, toName (p2n s), s, false⟩ := by
  have h1 : ∀ (d : Decl) (as : List Ann), ((as.flatMap (annEvents p2n d)).filter fun e => e.id = v ∧ e.overwrite = false) =
      if d.id = v then (as.filterMap Ann.path?).map fun s => ⟨v, toName (p2n s), s, false⟩ else [] := by
    intro d as
    induction as with
    | nil => simp
    | cons a as ih =>
      rw [List.flatMap_cons, List.filter_append, ih]
      cases a with
      | outputArray sets =>
        have : ((annEvents p2n d (.outputArray sets)).filter fun e => e.id = v ∧ e.overwrite = false) = [] := by
          rw [List.filter_eq_nil_iff]
          intro e he
          simp only [annEvents] at he
          cases hr : d.rhs with
          | none => rw [hr] at he; cases he
          | some rhs =>
            rw [hr] at he
            obtain ⟨k, -, -, -, h4⟩ := mem_elemEvents _ _ _ _ _ he
            simp [h4]
        rw [this]
        simp [List.filterMap_cons, Ann.path?]
      | path s => by_cases hv : d.id = v <;> simp [annEvents, hv, List.filterMap_cons, Ann.path?]
      | other => simp [annEvents, List.filterMap_cons, Ann.path?]
  induction ds with
  | nil => rfl
  | cons d ds ih =>
    simp only [events, List.flatMap_cons, List.filter_append] at ih ⊢
    rw [ih, h1]
    have hp : paths (d :: ds) v =
        (if d.id = v then d.anns.filterMap Ann.path? else []) ++ paths ds v := by
      unfold paths
      by_cases hv : d.id = v
      · rw [List.filter_cons_of_pos (by simpa using hv), List.flatMap_cons, if_pos hv]
      · rw [List.filter_cons_of_neg (by simpa using hv), if_neg hv, List.nil_append]
    rw [hp, List.map_append]
    by_cases hv : d.id = v
    · rw [if_pos hv, if_pos hv]
    · rw [if_neg hv, if_neg hv]
      rfl

/-- **C94**: the path of a variable is the first path its declaration is annotated with (empty without a path), also if the variable is an element
of arrays. -/
theorem _root_.MZ.C94_paths (path2name : String → String) (ds : List Decl) (v : Nat) :
    (buildMap path2name ds v).2 = ((paths ds v).find? fun s => s ≠ "").getD "" := by
  rw [buildMap_run, (run_first _ v ?_ _).1, events_filter]
  · simp [List.map_map, Function.comp_def]
  · intro e he hv ho
    rcases mem_events he with ⟨d, hd, sets, rhs, k, h1, h2, h3, h4, h5, -⟩ | ⟨h, -⟩
    · exact h5
    · rw [h] at ho; cases ho

/-- **C94**: a variable that is not an element of an output array has the first name its paths give. -/
theorem _root_.MZ.C94_path_names (path2name : String → String) (ds : List Decl) (hw : Wf ds) (v : Nat) (hv : ¬ ∃ x idx, IsElem ds v x idx) :
    (buildMap path2name ds v).1 = (((paths ds v).map path2name).find? fun s => s ≠ "").map Name.ofPath := by
  have hno : ∀ e ∈ events path2name ds, e.id = v → e.overwrite = false := by
    rintro e he rfl
    rcases mem_events he with ⟨d, hd, sets, rhs, k, h1, h2, h3, h4, h5, -⟩ | ⟨h, -⟩
    · exact absurd ⟨_, _, isElem_of hw hd h1 h2 h3⟩ hv
    · exact h
  rw [buildMap_run, (run_first _ v (fun e he h1 h2 => by rw [hno e he h1] at h2; cases h2) _).2 hno, events_filter]
  simp only [ne_eq, not_true_eq_false, if_false, List.map_map]
  induction paths ds v with
  | nil => rfl
  | cons s ss ih =>
    by_cases hs : path2name s = ""
    · simpa [toName, hs] using ih
    · simp [toName, hs]

/-- **C94**: two variables are not named by the same array access, if declarations have different identifiers and no more than one
annotation `output_array`. -/
theorem _root_.MZ.C94_distinct (path2name : String → String) (ds : List Decl) (hw : Wf ds)
    (hid : ∀ d1 ∈ ds, ∀ d2 ∈ ds, d1.id = d2.id → d1 = d2)
    (hone : ∀ d ∈ ds, ∀ s1 s2, .outputArray s1 ∈ d.anns → .outputArray s2 ∈ d.anns → s1 = s2) (v w x : Nat) (idx : List Int)
    (h1 : (buildMap path2name ds v).1 = some (.access x idx)) (h2 : (buildMap path2name ds w).1 = some (.access x idx)) : v = w := by
  have key : ∀ u, (buildMap path2name ds u).1 = some (.access x idx) → IsElem ds u x idx := by
    intro u hu
    by_cases he : ∃ x idx, IsElem ds u x idx
    · obtain ⟨x', idx', g1, g2⟩ := C94_array_names path2name ds hw u he
      rw [hu] at g1
      cases g1
      exact g2
    · rw [C94_path_names path2name ds hw u he] at hu
      cases hf : ((paths ds u).map path2name).find? fun s => s ≠ "" with
      | none => rw [hf] at hu; cases hu
      | some s => rw [hf] at hu; cases hu
  obtain ⟨d1, a1, s1, r1, a2, a3, a4, -, -, a5⟩ := key v h1
  obtain ⟨d2, b1, s2, r2, b2, b3, b4, -, -, b5⟩ := key w h2
  have hd : d1 = d2 := hid d1 a1 d2 b1 (a2.trans b2.symm)
  subst hd
  have hs := hone d1 a1 s1 s2 a3 b3
  subst hs
  rw [a4] at b4
  cases b4
  rw [a5] at b5
  simpa using b5

/-- Variables 0 and 1 with paths, an array 2 of them in which 0 comes twice, with a constant, and a variable 3 whose first path gives no name. -/
def exDecls : List Decl :=
  [⟨0, [.path "p;id:a;"], none⟩, ⟨1, [.path "p;id:b;"], none⟩,
   ⟨2, [.other, .outputArray [(1, 2), (5, 2)]], some [some 0, some 1, none, some 0]⟩, ⟨3, [.path "q", .path "p;id:c;"], none⟩]

example : Wf exDecls ∧ (∀ d1 ∈ exDecls, ∀ d2 ∈ exDecls, d1.id = d2.id → d1 = d2) ∧ (∃ x idx, IsElem exDecls 0 x idx) ∧
    (∀ d ∈ exDecls, ∀ s1 s2, .outputArray s1 ∈ d.anns → .outputArray s2 ∈ d.anns → s1 = s2) ∧
    (let b := buildMap (fun s => if s = "q" then "" else s) exDecls
     b 0 = (some (.access 2 [2, 6]), "p;id:a;") ∧ b 1 = (some (.access 2 [1, 6]), "p;id:b;") ∧ b 2 = (none, "") ∧
      b 3 = (some (.ofPath "p;id:c;"), "q")) := by
  refine ⟨?_, by decide +kernel, ⟨2, [1, 5], _, List.mem_cons_of_mem _ (List.mem_cons_of_mem _ List.mem_cons_self), [(1, 2), (5, 2)], _, rfl,
    by simp, rfl, by simp [InBounds], by decide +kernel, by decide +kernel⟩, ?_, by decide +kernel⟩
  · intro d hd sets rhs ha hr
    simp only [exDecls, List.mem_cons, List.not_mem_nil, or_false] at hd
    rcases hd with rfl | rfl | rfl | rfl <;> simp at ha hr
    subst ha hr
    simp
  · intro d hd s1 s2 h1 h2
    simp only [exDecls, List.mem_cons, List.not_mem_nil, or_false] at hd
    rcases hd with rfl | rfl | rfl | rfl <;> simp at h1 h2
    rw [h1, h2]

end PathNames
end MZ
