import Verif.Arr.Builtins
import Mathlib.Data.List.Sort
import Mathlib.Data.List.Perm.Subperm
/-!
# Builtins on parameter arrays: `arg_min`, `arg_max`, `min`, `max`, `sort_by`, `sort`, `inverse` (lib/builtins.cpp)

The elements have been evaluated. The functions for integers, Booleans and floats only differ in the comparison, so they are one
definition with the comparison as argument; `b_arg_max_*` and `b_int_max` use the opposite comparison. Arrays have at most 2³¹ elements.
-/
namespace MZ
namespace Builtin

open Arr (i32 u32)

variable {α β : Type}

/-- 201–208 (also 217–224, 233–240, 249–256…): the loop of `b_arg_min_int`. -/
def argMinLoop (lt : α → α → Bool) : List α → Nat → α → Nat → Nat
  | [], _, _, k => k
  | x :: l, i, m, k => if lt x m then argMinLoop lt l (i + 1) x i else argMinLoop lt l (i + 1) m k

/-- 193–270 `b_arg_min_int`, `b_arg_min_float`, and with the opposite comparison `b_arg_max_*`. `lo` is the smallest index of the array. -/
def argMin (lt : α → α → Bool) (lo : Int) : List α → Res Int
  | [] => .err
  | x :: l => .ok (argMinLoop lt l 1 x 0 + lo)

/-- 169–192 `b_arg_min_bool` (`v = false`) and `b_arg_max_bool` (`v = true`): the loop. -/
def argBoolLoop (v : Bool) (lo : Int) : List Bool → Nat → Int
  | [], _ => lo
  | x :: l, i => if x == v then i + lo else argBoolLoop v lo l (i + 1)

/-- 169–192 `b_arg_min_bool`, `b_arg_max_bool`. -/
def argBool (v : Bool) (lo : Int) : List Bool → Res Int
  | [] => .err
  | l => .ok (argBoolLoop v lo l 0)

/-- 117–141 `b_int_min` on an array (`std::min(m, x)` is `m` unless `x < m`), and with the opposite comparison `b_int_max`. -/
def arrMin (lt : α → α → Bool) : List α → Res α
  | [] => .err
  | x :: l => .ok (l.foldl (fun m y => if lt y m then y else m) x)

/-- 3077–3079: the lookups in the array; beyond its end they are undefined. -/
def lookups (al : List β) : List Nat → Res (List β)
  | [] => .ok []
  | i :: a => do
    let r ← lookups al a
    match al[i]? with
    | some x => .ok (x :: r)
    | none => .ub

/-- 3055–3103 `b_sort_by_int`, `b_sort_by_float`. `std::stable_sort` is a stable merge sort here. -/
def sortBy (lt : α → α → Bool) (al : List β) (order : List α) : Res (List β) :=
  lookups al ((order.zipIdx.mergeSort fun p q => !lt q.1 p.1).map (·.2))

/-- 3105–3132 `b_sort`. `std::sort` is a merge sort here; with a total order of the values the result is the same for every sorting function. -/
def sort (lt : α → α → Bool) (l : List α) : List α := l.mergeSort fun x y => !lt y x

/-- 3156–3159: the loop that fills `inv` and `used`; an entry is `some` where `used` is set. A write beyond the end is undefined. -/
def invLoop (mn lo : Int) : List Int → Nat → List (Option Int) → Res (List (Option Int))
  | [], _, inv => .ok inv
  | v :: vs, i, inv =>
    if 0 ≤ v - mn ∧ (v - mn).toNat < inv.length then invLoop mn lo vs (i + 1) (inv.set (v - mn).toNat (some (u32 (i + lo)))) else .ub

/-- 3160–3165: the check that every entry is used. -/
def allUsed : List (Option Int) → Res (List Int)
  | [] => .ok []
  | none :: _ => .err
  | some x :: l => do
    let r ← allUsed l
    .ok (x :: r)

/-- 3134–3174 `b_inverse` of an array with smallest index `lo`: the smallest index and the elements of the result. `i + min_idx` is an
`unsigned int`, the index of the result is cast to `int`. -/
def inverse (lo : Int) : List Int → Res (Int × List Int)
  | [] => .ok (lo, [])
  | x :: l => do
    let mn := l.foldl (fun m y => if y < m then y else m) x
    let mx := l.foldl (fun m y => if m < y then y else m) x
    if mx - mn + 1 ≠ (l.length + 1 : Nat) then .err else do
    let inv ← invLoop mn lo (x :: l) 0 (List.replicate (l.length + 1) none)
    let r ← allUsed inv
    .ok (i32 mn, r)

/-! ### Specification -/

/-- A strict weak order: what `<` is on integers, Booleans, and floats without NaN. -/
structure Weak (lt : α → α → Bool) : Prop where
  asymm : ∀ a b, lt a b = true → lt b a = false
  trans : ∀ a b c, lt b a = false → lt c b = false → lt c a = false

theorem Weak.int : Weak (fun a b : Int => decide (a < b)) :=
  ⟨fun a b h => by simp at *; omega, fun a b c h1 h2 => by simp at *; omega⟩

theorem Weak.flip {lt : α → α → Bool} (h : Weak lt) : Weak (fun a b => lt b a) :=
  ⟨fun a b => h.asymm b a, fun a b c h1 h2 => h.trans c b a h2 h1⟩

/-- `k` is the first position of a least element. -/
def FirstLeast (lt : α → α → Bool) (l : List α) (k : Nat) : Prop :=
  ∃ m, l[k]? = some m ∧ (∀ x ∈ l, lt x m = false) ∧ ∀ j x, j < k → l[j]? = some x → lt m x = true

/-! ### arg_min -/

theorem argMinLoop_ok {lt : α → α → Bool} (w : Weak lt) : ∀ (l pre : List α) (m : α) (k : Nat),
    k < pre.length → pre[k]? = some m → (∀ x ∈ pre, lt x m = false) → (∀ j x, j < k → pre[j]? = some x → lt m x = true) →
    FirstLeast lt (pre ++ l) (argMinLoop lt l pre.length m k)
  | [], pre, m, k, h1, h2, h3, h4 => by
    rw [List.append_nil, argMinLoop]
    exact ⟨m, h2, h3, h4⟩
  | y :: l, pre, m, k, h1, h2, h3, h4 => by
    rw [argMinLoop]
    have e : pre ++ y :: l = (pre ++ [y]) ++ l := by simp
    have el : pre.length + 1 = (pre ++ [y]).length := by simp
    split
    · rename_i hlt
      rw [e, el]
      refine argMinLoop_ok w l (pre ++ [y]) y pre.length (by simp) (by simp) ?_ ?_
      · intro x hx
        rcases List.mem_append.1 hx with hx | hx
        · exact w.trans y m x (w.asymm y m hlt) (h3 x hx)
        · rw [List.mem_singleton.1 hx]
          cases hyy : lt y y with
          | false => rfl
          | true => exact absurd (w.asymm y y hyy) (by rw [hyy]; simp)
      · intro j x hj hx
        rw [List.getElem?_append_left hj] at hx
        by_contra hc
        rw [Bool.not_eq_true] at hc
        have hxm := h3 x (List.mem_of_getElem? hx)
        have := w.trans m x y hxm hc
        rw [this] at hlt
        exact absurd hlt (by simp)
    · rename_i hlt
      rw [Bool.not_eq_true] at hlt
      rw [e, el]
      refine argMinLoop_ok w l (pre ++ [y]) m k (by simp; omega) ?_ ?_ ?_
      · rw [List.getElem?_append_left h1]; exact h2
      · intro x hx
        rcases List.mem_append.1 hx with hx | hx
        · exact h3 x hx
        · rw [List.mem_singleton.1 hx]; exact hlt
      · intro j x hj hx
        rw [List.getElem?_append_left (by omega)] at hx
        exact h4 j x hj hx

/-- **C63** (arg_min, arg_max). On a non-empty array the index of the first least element is returned, on an empty one an error is raised. -/
theorem _root_.MZ.C63_arg_min (lt : α → α → Bool) (w : Weak lt) (lo : Int) (l : List α) :
    (l = [] → argMin lt lo l = .err) ∧ (l ≠ [] → ∃ k : Nat, argMin lt lo l = .ok (lo + k) ∧ FirstLeast lt l k) := by
  cases l with
  | nil => exact ⟨fun _ => rfl, fun h => absurd rfl h⟩
  | cons x l =>
    refine ⟨fun h => (by simp at h), fun _ => ⟨argMinLoop lt l 1 x 0, by rw [argMin, Int.add_comm], ?_⟩⟩
    have := argMinLoop_ok w l [x] x 0 (by simp) (by simp) (by
      intro y hy
      rw [List.mem_singleton.1 hy]
      cases hyy : lt x x with
      | false => rfl
      | true => exact absurd (w.asymm x x hyy) (by rw [hyy]; simp)) (by intro j x hj; omega)
    simpa using this

/-- Arrays of Booleans: `v` false for `arg_min`, true for `arg_max`. -/
theorem argBoolLoop_ok (v : Bool) (lo : Int) : ∀ (l : List Bool) (i : Nat),
    (∃ k : Nat, argBoolLoop v lo l i = lo + (i + k : Nat) ∧ l[k]? = some v ∧ ∀ j x, j < k → l[j]? = some x → x = !v) ∨
    (argBoolLoop v lo l i = lo ∧ ∀ x ∈ l, x = !v)
  | [], i => .inr ⟨rfl, by simp⟩
  | x :: l, i => by
    rw [argBoolLoop]
    by_cases h : (x == v) = true
    · rw [if_pos h]
      refine .inl ⟨0, by simp [Int.add_comm], by simpa using h, by intro j x hj; omega⟩
    · rw [if_neg h]
      have hx : x = !v := by cases x <;> cases v <;> simp_all
      rcases argBoolLoop_ok v lo l (i + 1) with ⟨k, h1, h2, h3⟩ | ⟨h1, h2⟩
      · refine .inl ⟨k + 1, by rw [h1]; push_cast; omega, by simpa using h2, ?_⟩
        intro j y hj hy
        cases j with
        | zero => simp at hy; rw [← hy]; exact hx
        | succ j => exact h3 j y (by omega) (by simpa using hy)
      · refine .inr ⟨h1, ?_⟩
        intro y hy
        rcases List.mem_cons.1 hy with rfl | hy
        · exact hx
        · exact h2 y hy

/-- **C63** (arg_min, arg_max of Booleans). The same, for the order in which false is less than true, resp. the opposite one. -/
theorem _root_.MZ.C63_arg_bool (v : Bool) (lo : Int) (l : List Bool) :
    (l = [] → argBool v lo l = .err) ∧
    (l ≠ [] → ∃ k : Nat, argBool v lo l = .ok (lo + k) ∧ FirstLeast (fun a b => a == v && b == !v) l k) := by
  cases l with
  | nil => exact ⟨fun _ => rfl, fun h => absurd rfl h⟩
  | cons x l =>
    refine ⟨fun h => (by simp at h), fun _ => ?_⟩
    rcases argBoolLoop_ok v lo (x :: l) 0 with ⟨k, h1, h2, h3⟩ | ⟨h1, h2⟩
    · refine ⟨k, by simp only [argBool]; rw [h1]; simp, v, h2, ?_, ?_⟩
      · intro y _; cases y <;> cases v <;> rfl
      · intro j y hj hy; rw [h3 j y hj hy]; simp
    · refine ⟨0, by simp only [argBool]; rw [h1]; simp, x, by simp, ?_, by intro j y hj; omega⟩
      intro y hy
      rw [h2 y hy]
      cases v <;> rfl

theorem arrMin_ok {lt : α → α → Bool} (w : Weak lt) : ∀ (l : List α) (x : α),
    (l.foldl (fun m y => if lt y m then y else m) x) ∈ x :: l ∧ ∀ y ∈ x :: l, lt y (l.foldl (fun m y => if lt y m then y else m) x) = false
  | [], x => by
    refine ⟨by simp, fun y hy => ?_⟩
    rw [List.mem_singleton.1 hy]
    cases hyy : lt x x with
    | false => simp [hyy]
    | true => exact absurd (w.asymm x x hyy) (by rw [hyy]; simp)
  | z :: l, x => by
    rw [List.foldl_cons]
    obtain ⟨h1, h2⟩ := arrMin_ok w l (if lt z x then z else x)
    constructor
    · rcases List.mem_cons.1 h1 with h | h
      · rw [h]; split <;> simp
      · simp [h]
    · intro y hy
      have h0 := h2 _ (.head _)
      rcases List.mem_cons.1 hy with rfl | hy
      · refine w.trans _ _ _ h0 ?_
        split
        · rename_i h; exact w.asymm _ _ h
        · cases hyy : lt y y with
          | false => rfl
          | true => exact absurd (w.asymm y y hyy) (by rw [hyy]; simp)
      · rcases List.mem_cons.1 hy with rfl | hy
        · refine w.trans _ _ _ h0 ?_
          split
          · cases hyy : lt y y with
            | false => rfl
            | true => exact absurd (w.asymm y y hyy) (by rw [hyy]; simp)
          · rename_i h; simpa using h
        · exact h2 y (.tail _ hy)

/-- **C63** (min, max). On a non-empty array an element below or equal to all others is returned, on an empty one an error is raised. -/
theorem _root_.MZ.C63_min (lt : α → α → Bool) (w : Weak lt) (l : List α) :
    (l = [] → arrMin lt l = .err) ∧ (l ≠ [] → ∃ m, arrMin lt l = .ok m ∧ m ∈ l ∧ ∀ x ∈ l, lt x m = false) := by
  cases l with
  | nil => exact ⟨fun _ => rfl, fun h => absurd rfl h⟩
  | cons x l => exact ⟨fun h => (by simp at h), fun _ => ⟨_, rfl, arrMin_ok w l x⟩⟩

example : argMin (fun a b : Int => decide (a < b)) (-2) [5, 3, 7, 3, 9] = .ok (-1) ∧ argMin (fun a b : Int => decide (b < a)) 0 [5, 9, 7, 9] = .ok 1 ∧
    argBool true 1 [false, true, true] = .ok 2 ∧ argBool false 1 [true, true] = .ok 1 ∧ arrMin (fun a b : Int => decide (a < b)) [4, 2, 3] = .ok 2 := by
  decide

/-! ### Sorting -/

theorem lookups_ok (al : List β) : ∀ (a : List Nat), (∀ i ∈ a, i < al.length) → ∃ r, lookups al a = .ok r ∧ List.Forall₂ (fun i x => al[i]? = some x) a r
  | [], _ => ⟨[], rfl, .nil⟩
  | i :: a, h => by
    obtain ⟨r, h1, h2⟩ := lookups_ok al a fun j hj => h j (.tail _ hj)
    have hi := h i (.head _)
    refine ⟨al[i] :: r, ?_, .cons (List.getElem?_eq_getElem hi) h2⟩
    simp only [lookups, h1]
    show (match al[i]? with | some x => Res.ok (x :: r) | none => Res.ub) = _
    rw [List.getElem?_eq_getElem hi]

theorem lookups_ub (al : List β) : ∀ (a : List Nat) (i : Nat), i ∈ a → al.length ≤ i → lookups al a = .ub
  | j :: a, i, hi, hl => by
    rw [lookups]
    by_cases h : ∀ k ∈ a, k < al.length
    · obtain ⟨r, h1, h2⟩ := lookups_ok al a h
      rw [h1]
      show (match al[j]? with | some x => Res.ok (x :: r) | none => Res.ub) = _
      rcases List.mem_cons.1 hi with rfl | hi
      · rw [List.getElem?_eq_none hl]
      · have := h i hi; omega
    · have : ∃ k ∈ a, al.length ≤ k := by
        by_contra hc
        exact h fun k hk => by
          by_contra hc'
          exact hc ⟨k, hk, by omega⟩
      obtain ⟨k, hk, hl'⟩ := this
      rw [lookups_ub al a k hk hl']
      rfl

theorem sortBy_perm (lt : α → α → Bool) (order : List α) :
    ((order.zipIdx.mergeSort fun p q => !lt q.1 p.1).map (·.2)).Perm (List.range order.length) := by
  have h := (List.mergeSort_perm order.zipIdx fun p q => !lt q.1 p.1).map (·.2)
  have e : order.zipIdx.map (·.2) = List.range order.length := by
    rw [List.zipIdx_map_snd, List.range_eq_range']
  rw [e] at h
  exact h

/-- The sorted pairs: keys do not fall, and equal keys keep their order. -/
theorem sortBy_pairs {lt : α → α → Bool} (w : Weak lt) (order : List α) :
    (order.zipIdx.mergeSort fun p q => !lt q.1 p.1).Pairwise fun p q => lt p.1 q.1 = true ∨ (lt q.1 p.1 = false ∧ p.2 < q.2) := by
  have htot : ∀ p q : α × Nat, (!lt q.1 p.1 || !lt p.1 q.1) = true := by
    intro p q
    cases h : lt q.1 p.1 with
    | false => rfl
    | true => rw [w.asymm _ _ h]; rfl
  have htr : ∀ p q r : α × Nat, (!lt q.1 p.1) = true → (!lt r.1 q.1) = true → (!lt r.1 p.1) = true := by
    intro p q r h1 h2
    simp only [Bool.not_eq_true'] at *
    exact w.trans p.1 q.1 r.1 h1 h2
  have hs := List.pairwise_mergeSort (le := fun p q : α × Nat => !lt q.1 p.1) htr htot order.zipIdx
  have hsnd : order.zipIdx.Pairwise fun p q => p.2 < q.2 := by
    have : (order.zipIdx.map (·.2)).Pairwise (· < ·) := by
      rw [List.zipIdx_map_snd, ← List.range_eq_range']
      exact List.pairwise_lt_range
    rw [List.pairwise_map] at this
    exact this
  have hnd : order.zipIdx.Nodup := hsnd.imp fun h e => by rw [e] at h; omega
  rw [List.pairwise_iff_forall_sublist]
  intro p q hpq
  have hle := List.pairwise_iff_forall_sublist.1 hs hpq
  simp only [Bool.not_eq_true'] at hle
  cases hlt : lt p.1 q.1 with
  | true => exact .inl rfl
  | false =>
    refine .inr ⟨hle, ?_⟩
    have hp : p ∈ order.zipIdx := (List.mergeSort_perm _ _).mem_iff.1 (hpq.subset (by simp))
    have hq : q ∈ order.zipIdx := (List.mergeSort_perm _ _).mem_iff.1 (hpq.subset (by simp))
    have hne : p ≠ q := by
      have := ((List.mergeSort_perm order.zipIdx fun p q => !lt q.1 p.1).nodup_iff.2 hnd).sublist hpq
      simp at this
      exact this
    by_contra hge
    -- otherwise q comes before p in the input, and stability keeps it there
    have hqp : [q, p].Sublist order.zipIdx := by
      have key : ∀ (l : List (α × Nat)), l.Pairwise (fun p q => p.2 < q.2) → p ∈ l → q ∈ l → ¬ p.2 < q.2 → [q, p].Sublist l := by
        intro l
        induction l with
        | nil => intro _ h; cases h
        | cons a l ih =>
          intro hp hpl hql hn
          rw [List.pairwise_cons] at hp
          rcases List.mem_cons.1 hql with e | hql'
          · rcases List.mem_cons.1 hpl with e' | hpl'
            · exact absurd (e'.trans e.symm) hne
            · subst e
              exact (List.singleton_sublist.2 hpl').cons_cons q
          · rcases List.mem_cons.1 hpl with e' | hpl'
            · subst e'
              exact absurd (hp.1 q hql') hn
            · exact (ih hp.2 hpl' hql' hn).cons a
      exact key _ hsnd hp hq hge
    have hst := List.sublist_mergeSort (le := fun p q : α × Nat => !lt q.1 p.1) htr htot (ys := [q, p])
      (by simp [hlt]) hqp
    have hnd' := (List.mergeSort_perm order.zipIdx fun p q => !lt q.1 p.1).nodup_iff.2 hnd
    -- both orders in a list without duplicates
    have both : ∀ (l : List (α × Nat)), l.Nodup → [p, q].Sublist l → [q, p].Sublist l → False := by
      intro l
      induction l with
      | nil => intro _ h; exact absurd h (by simp)
      | cons a l ih =>
        intro hnd h1 h2
        rw [List.nodup_cons] at hnd
        rcases List.cons_sublist_cons'.1 h1 with h1' | ⟨e1, h1'⟩
        · rcases List.cons_sublist_cons'.1 h2 with h2' | ⟨e2, h2'⟩
          · exact ih hnd.2 h1' h2'
          · exact hnd.1 (e2 ▸ h1'.subset (by simp))
        · rcases List.cons_sublist_cons'.1 h2 with h2' | ⟨e2, h2'⟩
          · exact hnd.1 (e1 ▸ h2'.subset (by simp))
          · exact hne (e1.trans e2.symm)
    exact both _ hnd' hpq hst

/-- **C63** (sort_by). With as many keys as elements, the elements are returned in the order of a permutation of their positions in which
the keys do not fall and equal keys keep their order. -/
theorem _root_.MZ.C63_sort_by (lt : α → α → Bool) (w : Weak lt) (al : List β) (order : List α) (h : order.length = al.length) :
    ∃ (p : List Nat) (r : List β), sortBy lt al order = .ok r ∧ p.Perm (List.range al.length) ∧ List.Forall₂ (fun i x => al[i]? = some x) p r ∧
      p.Pairwise fun i j => ∀ x y, order[i]? = some x → order[j]? = some y → lt x y = true ∨ (lt y x = false ∧ i < j) := by
  have hp := sortBy_perm lt order
  obtain ⟨r, h1, h2⟩ := lookups_ok al ((order.zipIdx.mergeSort fun p q => !lt q.1 p.1).map (·.2)) (by
    intro i hi
    have := hp.mem_iff.1 hi
    rw [List.mem_range] at this
    omega)
  refine ⟨_, r, h1, h ▸ hp, h2, ?_⟩
  rw [List.pairwise_map]
  refine (sortBy_pairs w order).imp_of_mem fun {p q} hpm hqm hpq x y hx hy => ?_
  have ep : order[p.2]? = some p.1 := List.mem_zipIdx_iff_getElem?.1 ((List.mergeSort_perm _ _).mem_iff.1 hpm)
  have eq : order[q.2]? = some q.1 := List.mem_zipIdx_iff_getElem?.1 ((List.mergeSort_perm _ _).mem_iff.1 hqm)
  rw [ep] at hx
  rw [eq] at hy
  obtain rfl := Option.some.inj hx
  obtain rfl := Option.some.inj hy
  exact hpq

/-- **C63** (the full statement fails). With more keys than elements the array is read beyond its end: nothing checks the lengths. -/
theorem _root_.MZ.C63_sort_by_fails (lt : α → α → Bool) (al : List β) (order : List α) (h : al.length < order.length) :
    sortBy lt al order = .ub :=
  lookups_ub al _ al.length ((sortBy_perm lt order).mem_iff.2 (List.mem_range.2 h)) (Nat.le_refl _)

/-- **C63** (sort). The elements in non-decreasing order. -/
theorem _root_.MZ.C63_sort (lt : α → α → Bool) (w : Weak lt) (l : List α) :
    (sort lt l).Perm l ∧ (sort lt l).Pairwise fun x y => lt y x = false := by
  refine ⟨List.mergeSort_perm _ _, ?_⟩
  have := List.pairwise_mergeSort (le := fun x y : α => !lt y x) (by
    intro p q r h1 h2
    simp only [Bool.not_eq_true'] at *
    exact w.trans p q r h1 h2) (by
    intro p q
    cases h : lt q p with
    | false => rfl
    | true => rw [w.asymm _ _ h]; rfl) l
  exact this.imp fun h => by simpa using h

example : lookups ["a", "b", "c"] [2, 0, 1] = .ok ["c", "a", "b"] ∧ Weak (fun a b : Int => decide (a < b)) := ⟨by decide, Weak.int⟩

/-! ### inverse -/

theorem invLoop_ok (mn lo : Int) : ∀ (vs : List Int) (i : Nat) (inv : List (Option Int)),
    (∀ v ∈ vs, mn ≤ v ∧ (v - mn).toNat < inv.length) →
    ∃ out, invLoop mn lo vs i inv = .ok out ∧ out.length = inv.length ∧
      (∀ (j : Nat) (x : Int), out[j]? = some (some x) → (∃ k v, vs[k]? = some v ∧ v - mn = j ∧ x = u32 ((i + k : Nat) + lo)) ∨ inv[j]? = some (some x)) ∧
      ∀ j : Nat, ((∃ v ∈ vs, v - mn = j) ∨ ∃ x, inv[j]? = some (some x)) → ∃ x, out[j]? = some (some x)
  | [], i, inv, _ => ⟨inv, rfl, rfl, fun j x h => .inr h, fun j h => by simpa using h⟩
  | v :: vs, i, inv, h => by
    obtain ⟨hv1, hv2⟩ := h v (.head _)
    rw [invLoop, if_pos ⟨by omega, hv2⟩]
    obtain ⟨out, o1, o2, o3, o4⟩ := invLoop_ok mn lo vs (i + 1) (inv.set (v - mn).toNat (some (u32 (i + lo)))) (by
      intro w hw
      rw [List.length_set]
      exact h w (.tail _ hw))
    rw [List.length_set] at o2
    refine ⟨out, o1, o2, ?_, ?_⟩
    · intro j x hx
      rcases o3 j x hx with ⟨k, w, g1, g2, g3⟩ | g
      · exact .inl ⟨k + 1, w, by simpa using g1, g2, by rw [g3]; congr 2; omega⟩
      · rw [List.getElem?_set] at g
        split at g
        · rename_i e
          simp only [Option.some.injEq] at g
          exact .inl ⟨0, v, by simp, by omega, g.symm⟩
        · exact .inr g
    · intro j hj
      apply o4 j
      rw [List.getElem?_set]
      rcases hj with ⟨w, hw, e⟩ | ⟨x, hx⟩
      · rcases List.mem_cons.1 hw with rfl | hw
        · right
          rw [if_pos (by omega), if_pos (by omega)]
          exact ⟨_, rfl⟩
        · exact .inl ⟨w, hw, e⟩
      · right
        split
        · exact ⟨_, rfl⟩
        · exact ⟨x, hx⟩

theorem allUsed_ok : ∀ {l : List (Option Int)}, (∀ o ∈ l, o.isSome) → ∃ r, allUsed l = .ok r ∧ l = r.map some
  | [], _ => ⟨[], rfl, rfl⟩
  | none :: l, h => absurd (h none (.head _)) (by simp)
  | some x :: l, h => by
    obtain ⟨r, h1, h2⟩ := allUsed_ok (l := l) fun o ho => h o (.tail _ ho)
    exact ⟨x :: r, by simp only [allUsed, h1]; rfl, by rw [h2]; rfl⟩

theorem allUsed_err : ∀ {l : List (Option Int)}, (∃ o ∈ l, o = none) → allUsed l = .err
  | [], h => by simp at h
  | none :: l, _ => rfl
  | some x :: l, h => by
    have : ∃ o ∈ l, o = none := by
      obtain ⟨o, ho, rfl⟩ := h
      rcases List.mem_cons.1 ho with e | ho
      · cases e
      · exact ⟨none, ho, rfl⟩
    simp only [allUsed, allUsed_err this]
    rfl

theorem surj_iff_nodup {L : List Int} {mn : Int} (h : ∀ v ∈ L, mn ≤ v ∧ v - mn < L.length) :
    (∀ j < L.length, ∃ v ∈ L, v - mn = (j : Nat)) ↔ L.Nodup := by
  have hsub : L.map (fun v => (v - mn).toNat) ⊆ List.range L.length := by
    intro j hj
    obtain ⟨v, hv, rfl⟩ := List.mem_map.1 hj
    have := h v hv
    rw [List.mem_range]
    omega
  constructor
  · intro hs
    have hsub' : List.range L.length ⊆ L.map (fun v => (v - mn).toNat) := by
      intro j hj
      obtain ⟨v, hv, e⟩ := hs j (List.mem_range.1 hj)
      exact List.mem_map.2 ⟨v, hv, by omega⟩
    have hp := (List.subperm_of_subset List.nodup_range hsub').perm_of_length_le (by simp)
    exact List.Nodup.of_map _ (hp.nodup_iff.1 List.nodup_range)
  · intro hnd j hj
    have hnd' : (L.map (fun v => (v - mn).toNat)).Nodup := hnd.map_on fun v hv w hw e => by
      have := h v hv; have := h w hw; omega
    have hp := (List.subperm_of_subset hnd' hsub).perm_of_length_le (by simp)
    obtain ⟨v, hv, e⟩ := List.mem_map.1 (hp.mem_iff.2 (List.mem_range.2 hj))
    have := h v hv
    exact ⟨v, hv, by omega⟩

theorem nodup_spread {L : List Int} {mn mx : Int} (h : ∀ v ∈ L, mn ≤ v ∧ v ≤ mx) (hm : mn ≤ mx) (hnd : L.Nodup) : (L.length : Int) ≤ mx - mn + 1 := by
  have hnd' : (L.map (fun v => (v - mn).toNat)).Nodup := hnd.map_on fun v hv w hw e => by
    have := h v hv; have := h w hw; omega
  have hsub : L.map (fun v => (v - mn).toNat) ⊆ List.range (mx - mn + 1).toNat := by
    intro j hj
    obtain ⟨v, hv, rfl⟩ := List.mem_map.1 hj
    have := h v hv
    rw [List.mem_range]
    omega
  have := (List.subperm_of_subset hnd' hsub).length_le
  rw [List.length_map, List.length_range] at this
  omega

/-- The behaviour of `inverse`, with the casts. -/
theorem inverse_ok (lo : Int) (L : List Int) (hL : L ≠ []) :
    (¬ (L.Nodup ∧ ∀ v ∈ L, ∀ w ∈ L, v - w < L.length) ∧ inverse lo L = .err) ∨
    ((L.Nodup ∧ ∀ v ∈ L, ∀ w ∈ L, v - w < L.length) ∧ ∃ mn r, mn ∈ L ∧ inverse lo L = .ok (i32 mn, r) ∧ r.length = L.length ∧
      (∀ v ∈ L, mn ≤ v) ∧
      (∀ (k : Nat) (v : Int), L[k]? = some v → r[(v - mn).toNat]? = some (u32 (k + lo))) ∧
      ∀ (j : Nat) (x : Int), r[j]? = some x → ∃ k : Nat, L[k]? = some (mn + j) ∧ x = u32 (k + lo)) := by
  cases L with
  | nil => exact absurd rfl hL
  | cons x l =>
    obtain ⟨a1, a2⟩ := arrMin_ok Weak.int l x
    obtain ⟨b1, b2⟩ := arrMin_ok Weak.int.flip l x
    simp only [decide_eq_true_eq] at a1 a2 b1 b2
    simp only [decide_eq_false_iff_not, Int.not_lt] at a2 b2
    rw [inverse]
    generalize l.foldl (fun m y => if y < m then y else m) x = mn at *
    generalize l.foldl (fun m y => if m < y then y else m) x = mx at *
    have hlen : (x :: l).length = l.length + 1 := rfl
    by_cases hd : mx - mn + 1 ≠ (l.length + 1 : Nat)
    · rw [if_pos hd]
      refine .inl ⟨fun ⟨h1, h2⟩ => hd ?_, rfl⟩
      have := h2 mx b1 mn a1
      have := nodup_spread (fun v hv => ⟨a2 v hv, b2 v hv⟩) (a2 mx b1) h1
      omega
    · rw [if_neg hd]
      have hin : ∀ v ∈ x :: l, mn ≤ v ∧ v - mn < (x :: l).length := fun v hv => by
        have := a2 v hv; have := b2 v hv; exact ⟨a2 v hv, by omega⟩
      obtain ⟨out, o1, o2, o3, o4⟩ := invLoop_ok mn lo (x :: l) 0 (List.replicate (l.length + 1) none) (by
        intro v hv
        have := hin v hv
        rw [List.length_replicate]
        omega)
      rw [List.length_replicate] at o2
      have o3' : ∀ (j : Nat) (y : Int), out[j]? = some (some y) → ∃ k v, (x :: l)[k]? = some v ∧ v - mn = j ∧ y = u32 ((k : Nat) + lo) := by
        intro j y hy
        rcases o3 j y hy with ⟨k, v, g1, g2, g3⟩ | g
        · exact ⟨k, v, g1, g2, by rw [g3]; simp⟩
        · rw [List.getElem?_replicate] at g
          split at g <;> simp at g
      have hsn := surj_iff_nodup hin
      rw [o1]
      by_cases hnd : (x :: l).Nodup
      · have hall : ∀ o ∈ out, o.isSome := by
          intro o ho
          obtain ⟨j, hj, rfl⟩ := List.mem_iff_getElem.1 ho
          obtain ⟨y, hy⟩ := o4 j (.inl (hsn.2 hnd j (by omega)))
          rw [List.getElem?_eq_getElem hj] at hy
          rw [Option.some.inj hy]
          rfl
        obtain ⟨r, r1, r2⟩ := allUsed_ok hall
        refine .inr ⟨⟨hnd, fun v hv w hw => ?_⟩, mn, r, a1, ?_, ?_, a2, ?_, ?_⟩
        · have := hin v hv; have := a2 w hw; omega
        · show (allUsed out >>= fun r => Res.ok (i32 mn, r)) = _
          rw [r1]; rfl
        · rw [r2, List.length_map] at o2; rw [o2, hlen]
        · intro k v hk
          have hv := List.mem_of_getElem? hk
          have hmn := hin v hv
          obtain ⟨y, hy⟩ := o4 (v - mn).toNat (.inl ⟨v, hv, by omega⟩)
          obtain ⟨k', v', g1, g2, g3⟩ := o3' _ _ hy
          have hvv : v' = v := by omega
          subst hvv
          have hkk : k' = k := by
            have := (List.nodup_iff_getElem?_ne_getElem?.1 hnd)
            by_contra hne
            have hl1 : k' < (x :: l).length := by by_contra hc; rw [List.getElem?_eq_none (by omega)] at g1; simp at g1
            have hl2 : k < (x :: l).length := by by_contra hc; rw [List.getElem?_eq_none (by omega)] at hk; simp at hk
            rcases Nat.lt_or_gt_of_ne hne with h | h
            · exact this k' k h hl2 (g1.trans hk.symm)
            · exact this k k' h hl1 (hk.trans g1.symm)
          rw [r2, List.getElem?_map] at hy
          cases hr : r[(v' - mn).toNat]? with
          | none => rw [hr] at hy; simp at hy
          | some z => rw [hr] at hy; simp at hy; rw [hy, g3, hkk]
        · intro j y hy
          obtain ⟨k, v, g1, g2, g3⟩ := o3' j y (by rw [r2, List.getElem?_map, hy]; rfl)
          exact ⟨k, by rw [g1]; congr 1; omega, g3⟩
      · refine .inl ⟨fun h => hnd h.1, ?_⟩
        show (allUsed out >>= fun r => Res.ok (i32 mn, r)) = _
        rw [allUsed_err]
        · rfl
        · by_contra hc
          refine hnd (hsn.1 fun j hj => ?_)
          have hj' : j < out.length := by omega
          cases ho : out[j] with
          | none => exact absurd ⟨none, ho ▸ List.getElem_mem hj', rfl⟩ hc
          | some y =>
            obtain ⟨k, v, g1, g2, -⟩ := o3' j y (by rw [List.getElem?_eq_getElem hj', ho])
            exact ⟨v, List.mem_of_getElem? g1, g2⟩

/-- **C63** (inverse, part). For indices that are not negative and values that fit 32 bits: `inverse` succeeds exactly on the arrays whose
values are an interval without repetitions, and in the result the entry for the value `v` is the index at which `v` is found. What is missing:
see `C63_inverse_fails`. -/
theorem _root_.MZ.C63_inverse_partial (lo : Int) (l : List Int) (hlo : 0 ≤ lo) (hhi : lo + l.length ≤ 2147483648)
    (hv : ∀ v ∈ l, -2147483648 ≤ v ∧ v < 2147483648) :
    ((∃ p, inverse lo l = .ok p) ↔ l.Nodup ∧ ∀ v ∈ l, ∀ w ∈ l, v - w < l.length) ∧ inverse lo l ≠ .ub ∧
    ∀ m r, inverse lo l = .ok (m, r) → r.length = l.length ∧
      ∀ (k : Nat) (v : Int), l[k]? = some v ↔ ∃ j : Nat, v = m + j ∧ r[j]? = some (lo + k) := by
  by_cases hL : l = []
  · subst hL
    refine ⟨⟨fun _ => by simp, fun _ => ⟨_, rfl⟩⟩, by simp [inverse], fun m r h => ?_⟩
    simp only [inverse, Res.ok.injEq, Prod.mk.injEq] at h
    obtain ⟨rfl, rfl⟩ := h
    simp
  · have hu : ∀ k : Nat, k < l.length → u32 (k + lo) = lo + k := by intro k hk; unfold u32; omega
    have hk' : ∀ (k : Nat) (v : Int), l[k]? = some v → k < l.length := fun k v h => by
      by_contra hc; rw [List.getElem?_eq_none (by omega)] at h; simp at h
    rcases inverse_ok lo l hL with ⟨h1, h2⟩ | ⟨h1, mn, r, h0, h2, h3, h4, h5, h6⟩
    · rw [h2]
      exact ⟨⟨fun ⟨p, h⟩ => by simp at h, fun h => absurd h h1⟩, by simp, fun m r h => by simp at h⟩
    · rw [h2]
      refine ⟨⟨fun _ => h1, fun _ => ⟨_, rfl⟩⟩, by simp, fun m r' h => ?_⟩
      simp only [Res.ok.injEq, Prod.mk.injEq] at h
      obtain ⟨e, rfl⟩ := h
      have hm : m = mn := by have := hv mn h0; rw [← e]; unfold i32; omega
      subst hm
      refine ⟨h3, fun k v => ⟨fun hk => ?_, fun ⟨j, hj, hr⟩ => ?_⟩⟩
      · have := h4 v (List.mem_of_getElem? hk)
        exact ⟨(v - m).toNat, by omega, by rw [h5 k v hk, hu k (hk' k v hk)]⟩
      · obtain ⟨k', g1, g2⟩ := h6 j _ hr
        rw [hu k' (hk' _ _ g1)] at g2
        rw [hj, ← g1]
        congr 1
        omega

/-- **C63** (the full statement fails). `inverse(array1d(-1..1, [1, 2, 3]))` has the value 4294967295 for the index -1, and values beyond 32
bits make a wrong index set. -/
theorem _root_.MZ.C63_inverse_fails : inverse (-1) [1, 2, 3] = .ok (1, [4294967295, 0, 1]) ∧
    inverse 1 [4294967297, 4294967296] = .ok (0, [2, 1]) := by decide

example : inverse 1 [3, 1, 2] = .ok (1, [2, 3, 1]) ∧ inverse 0 [12, 10, 11] = .ok (10, [1, 2, 0]) ∧ inverse 1 [1, 3] = .err ∧ inverse 1 [1, 3, 3] = .err := by decide

end Builtin
end MZ
