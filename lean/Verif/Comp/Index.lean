import Verif.Comp.Model
import Verif.Arr.Lemmas
import Mathlib.Data.List.Nodup
import Mathlib.Data.List.Perm.Subperm
/-!
# Indexed comprehensions
-/
namespace MZ
namespace Comp
open Arr (InBox rank count)

variable {α : Type}

/-- A box that also contains a tuple. -/
def grow : List (Int × Int) → List Int → List (Int × Int)
  | (a, b) :: B, i :: is => (Min.min a i, Max.max b i) :: grow B is
  | B, _ => B

theorem minmax_grow : ∀ (B : List (Int × Int)) (t : List Int), minmax (B.map some) t = (grow B t).map some
  | [], t => by cases t <;> simp [minmax, grow]
  | (a, b) :: B, [] => by simp [minmax, grow]
  | (a, b) :: B, i :: is => by
    simp only [List.map_cons, minmax, grow, minmax_grow B is]

theorem minmax_first : ∀ (t : List Int), minmax (List.replicate t.length none) t = (t.map fun i => (i, i)).map some
  | [] => rfl
  | i :: is => by
    simp only [List.length_cons, List.replicate_succ, minmax, minmax_first is, List.map_cons]

theorem grow_in : ∀ (B : List (Int × Int)) (t : List Int), t.length = B.length → InBox (grow B t) t
  | [], [], _ => trivial
  | [], i :: is, h => by simp at h
  | (a, b) :: B, [], h => by simp at h
  | (a, b) :: B, i :: is, h => ⟨min_le_right _ _, le_max_right _ _, grow_in B is (by simpa using h)⟩

theorem grow_mono : ∀ (B : List (Int × Int)) (t u : List Int), InBox B u → InBox (grow B t) u
  | [], t, u, h => by cases t <;> simpa [grow] using h
  | (a, b) :: B, [], u, h => by simpa [grow] using h
  | (a, b) :: B, i :: is, [], h => by simp [InBox] at h
  | (a, b) :: B, i :: is, x :: xs, h =>
    ⟨le_trans (min_le_left _ _) h.1, le_trans h.2.1 (le_max_left _ _), grow_mono B is xs h.2.2⟩

theorem grow_length : ∀ (B : List (Int × Int)) (t : List Int), (grow B t).length = B.length
  | [], t => by cases t <;> rfl
  | (a, b) :: B, [] => rfl
  | (a, b) :: B, i :: is => by simp [grow, grow_length B is]

/-- Every bound is reached by a tuple. -/
def Tight (B : List (Int × Int)) (ts : List (List Int)) : Prop :=
  ∀ (k : Nat) (p : Int × Int), B[k]? = some p → (∃ t ∈ ts, t[k]? = some p.1) ∧ ∃ t ∈ ts, t[k]? = some p.2

theorem grow_get : ∀ (B : List (Int × Int)) (t : List Int) (k : Nat) (p : Int × Int), (grow B t)[k]? = some p →
    ∃ q, B[k]? = some q ∧ (p.1 = q.1 ∨ t[k]? = some p.1) ∧ (p.2 = q.2 ∨ t[k]? = some p.2)
  | [], t, k, p, h => by cases t <;> simp [grow] at h
  | (a, b) :: B, [], k, p, h => ⟨p, by simpa [grow] using h, Or.inl rfl, Or.inl rfl⟩
  | (a, b) :: B, i :: is, 0, p, h => by
    simp only [grow, List.getElem?_cons_zero, Option.some.injEq] at h
    subst h
    refine ⟨(a, b), rfl, ?_, ?_⟩
    · rcases le_total a i with h | h
      · exact Or.inl (min_eq_left h)
      · exact Or.inr (by simp [min_eq_right h])
    · rcases le_total b i with h | h
      · exact Or.inr (by simp [max_eq_right h])
      · exact Or.inl (max_eq_left h)
  | (a, b) :: B, i :: is, k + 1, p, h => by
    obtain ⟨q, h1, h2, h3⟩ := grow_get B is k p (by simpa [grow] using h)
    exact ⟨q, by simpa using h1, by simpa using h2, by simpa using h3⟩

theorem fold_box (n : Nat) : ∀ (items : List (List Int × α)) (B : List (Int × Int)) (ts : List (List Int)), B.length = n → Tight B ts →
    (∀ t ∈ ts, InBox B t) → (∀ p ∈ items, p.1.length = n) →
    ∃ B', items.foldl (fun ms p => minmax ms p.1) (B.map some) = B'.map some ∧ B'.length = n ∧
      Tight B' (ts ++ items.map Prod.fst) ∧ ∀ t ∈ ts ++ items.map Prod.fst, InBox B' t
  | [], B, ts, hl, ht, hi, _ => ⟨B, rfl, hl, by simpa using ht, by simpa using hi⟩
  | p :: items, B, ts, hl, ht, hi, hlen => by
    have hp := hlen p (by simp)
    have ht' : Tight (grow B p.1) (ts ++ [p.1]) := by
      intro k q hq
      obtain ⟨q', h1, h2, h3⟩ := grow_get B p.1 k q hq
      obtain ⟨⟨t1, m1, e1⟩, ⟨t2, m2, e2⟩⟩ := ht k q' h1
      constructor
      · rcases h2 with h2 | h2
        · exact ⟨t1, by simp [m1], by rw [e1, h2]⟩
        · exact ⟨p.1, by simp, h2⟩
      · rcases h3 with h3 | h3
        · exact ⟨t2, by simp [m2], by rw [e2, h3]⟩
        · exact ⟨p.1, by simp, h3⟩
    have hi' : ∀ t ∈ ts ++ [p.1], InBox (grow B p.1) t := by
      intro t h
      rcases List.mem_append.1 h with h | h
      · exact grow_mono B p.1 t (hi t h)
      · simp only [List.mem_singleton] at h
        subst h
        exact grow_in B _ (by omega)
    obtain ⟨B', h1, h2, h3, h4⟩ := fold_box n items (grow B p.1) (ts ++ [p.1]) (by rw [grow_length, hl]) ht' hi'
      (fun q hq => hlen q (by simp [hq]))
    refine ⟨B', ?_, h2, by simpa using h3, by simpa using h4⟩
    rw [List.foldl_cons, minmax_grow, h1]

theorem fold_first (n : Nat) (items : List (List Int × α)) (hne : items ≠ []) (hlen : ∀ p ∈ items, p.1.length = n) :
    ∃ B, items.foldl (fun ms p => minmax ms p.1) (List.replicate n none) = B.map some ∧ B.length = n ∧
      Tight B (items.map Prod.fst) ∧ ∀ t ∈ items.map Prod.fst, InBox B t := by
  cases items with
  | nil => exact absurd rfl hne
  | cons p items =>
    have hp := hlen p (by simp)
    have h0 : ∀ t : List Int, InBox (t.map fun i => (i, i)) t := by
      intro t
      induction t with
      | nil => trivial
      | cons i is ih => exact ⟨Int.le_refl _, Int.le_refl _, ih⟩
    obtain ⟨B, h1, h2, h3, h4⟩ := fold_box n items (p.1.map fun i => (i, i)) [p.1] (by simp [hp])
      (by
        intro k q hq
        rw [List.getElem?_map] at hq
        cases hk : p.1[k]? with
        | none => rw [hk] at hq; cases hq
        | some i =>
          rw [hk] at hq
          simp only [Option.map_some, Option.some.injEq] at hq
          subst hq
          exact ⟨⟨p.1, by simp, hk⟩, ⟨p.1, by simp, hk⟩⟩)
      (by intro t ht; simp only [List.mem_singleton] at ht; subst ht; exact h0 _)
      (fun q hq => hlen q (by simp [hq]))
    refine ⟨B, ?_, h2, by simpa using h3, by simpa using h4⟩
    rw [List.foldl_cons, ← hp, minmax_first]
    exact h1

/-- The distances between neighbours in each dimension. -/
def strides : List (Int × Int) → List Int
  | [] => []
  | _ :: B => count B :: strides B

/-- The index sets as they are stored. -/
def stored (B : List (Int × Int)) : List (Int × Int) := B.map fun p => (wrap32 p.1, wrap32 p.2)

theorem sizes_box : ∀ (B : List (Int × Int)) (t : List Int), InBox B t → sizes (B.map some) = some (count B, strides B, stored B)
  | [], _, _ => rfl
  | (a, b) :: B, [], h => by simp [InBox] at h
  | (a, b) :: B, x :: xs, h => by
    have ih := sizes_box B xs h.2.2
    have h1 := h.1
    have h2 := h.2.1
    simp only [List.map_cons, sizes, ih, count, strides, stored]
    rw [max_eq_right (by omega), Int.mul_comm]

theorem wrap32_of (i j : Int) (h : (2 ^ 32 : Int) ∣ i - j) (h1 : 0 ≤ j) (h2 : j < 2 ^ 31) : wrap32 i = j := by
  unfold wrap32
  omega

theorem wrap32_id (i : Int) (h1 : -2 ^ 31 ≤ i) (h2 : i < 2 ^ 31) : wrap32 i = i := by
  unfold wrap32
  omega

theorem wrap32_dvd (i : Int) : (2 ^ 32 : Int) ∣ wrap32 i - i := by
  unfold wrap32
  omega

/-- The position is the rank of the tuple, even if indices do not fit into an `int`. -/
theorem posOf_rank : ∀ (B : List (Int × Int)) (t : List Int), InBox B t → count B < 2 ^ 31 →
    posOf (B.map some) (strides B) t = rank B t
  | [], [], _, _ => rfl
  | [], x :: xs, h, _ => by simp [InBox] at h
  | (a, b) :: B, [], h, _ => by simp [InBox] at h
  | (a, b) :: B, x :: xs, h, hc => by
    have h1 := h.1
    have h2 := h.2.1
    have rb := Arr.rank_bounds h.2.2
    have hr := Arr.rank_bounds (D := (a, b) :: B) (t := x :: xs) h
    have hcB : count B ≤ count ((a, b) :: B) := by
      simp only [count]
      have : 1 ≤ Max.max 0 (b - a + 1) := by rw [max_eq_right (by omega)]; omega
      have := Arr.count_nonneg B
      nlinarith
    have ih := posOf_rank B xs h.2.2 (by omega)
    simp only [List.map_cons, strides, posOf, rank, ih]
    simp only [rank] at hr
    rw [wrap32_of _ ((x - a) * count B)]
    · have := Dvd.dvd.mul_right (wrap32_dvd x) (count B)
      rw [← Int.sub_mul]
      have e : wrap32 x - a - (x - a) = wrap32 x - x := by omega
      rw [e]; exact this
    · exact Int.mul_nonneg (by omega) (Arr.count_nonneg B)
    · omega

theorem place_ok (B : List (Int × Int)) : ∀ (items : List (List Int × α)) (arr : List (Option α)),
    (arr.length : Int) = count B → count B < 2 ^ 31 → (∀ p ∈ items, InBox B p.1) →
    place (B.map some) (strides B) items arr ≠ .ub ∧
    (∀ arr', place (B.map some) (strides B) items arr = .ok arr' →
      arr'.length = arr.length ∧ (items.map Prod.fst).Nodup ∧
      (∀ (j : Nat) (a : α), arr[j]? = some (some a) → arr'[j]? = some (some a)) ∧
      (∀ p ∈ items, arr[(rank B p.1).toNat]? = some none ∧ arr'[(rank B p.1).toNat]? = some (some p.2))) ∧
    ((items.map Prod.fst).Nodup → (∀ p ∈ items, arr[(rank B p.1).toNat]? = some none) →
      ∃ arr', place (B.map some) (strides B) items arr = .ok arr')
  | [], arr, _, _, _ => by
    simp only [place]
    refine ⟨by simp, ?_, fun _ _ => ⟨arr, rfl⟩⟩
    intro arr' h
    cases h
    exact ⟨rfl, by simp, fun j a h => h, by simp⟩
  | (t, e) :: items, arr, hl, hc, hb => by
    have ht := hb (t, e) (by simp)
    simp only at ht
    have rb := Arr.rank_bounds ht
    have hpos := posOf_rank B t ht hc
    simp only [place]
    rw [hpos, if_neg (by omega)]
    have hlt : (rank B t).toNat < arr.length := by omega
    have hget : arr[(rank B t).toNat]? = some arr[(rank B t).toNat] := List.getElem?_eq_getElem hlt
    rw [hget]
    cases hx : arr[(rank B t).toNat] with
    | some a =>
      simp only
      refine ⟨by simp, by simp, fun _ h => ?_⟩
      have := h (t, e) (by simp)
      simp only at this
      rw [hget, hx] at this
      cases this
    | none =>
      simp only
      obtain ⟨i1, i2, i3⟩ := place_ok B items (arr.set (rank B t).toNat (some e)) (by simpa using hl) hc
        (fun p hp => hb p (by simp [hp]))
      have hneq : ∀ p ∈ items, p.1 ≠ t → (rank B t).toNat ≠ (rank B p.1).toNat := by
        intro p hp hpt heq
        have rb' := Arr.rank_bounds (hb p (by simp [hp]))
        exact hpt (Arr.rank_inj (hb p (by simp [hp])) ht (by omega))
      refine ⟨i1, fun arr' h => ?_, fun hn h0 => ?_⟩
      · obtain ⟨k1, k2, k3, k4⟩ := i2 arr' h
        have hset : arr'[(rank B t).toNat]? = some (some e) := k3 _ e (by simp [List.getElem?_set, hlt])
        have hnot : ∀ p ∈ items, p.1 ≠ t := by
          intro p hp heq
          have := (k4 p hp).1
          rw [heq] at this
          simp [List.getElem?_set, hlt] at this
        refine ⟨by simpa using k1, ?_, ?_, ?_⟩
        · simp only [List.map_cons, List.nodup_cons]
          refine ⟨?_, k2⟩
          intro hm
          obtain ⟨p, hp, heq⟩ := List.mem_map.1 hm
          exact hnot p hp heq
        · intro j a hj
          apply k3
          rw [List.getElem?_set]
          split
          · rename_i heq
            subst heq
            rw [hget, hx] at hj; cases hj
          · exact hj
        · intro p hp
          rcases List.mem_cons.1 hp with rfl | hp
          · exact ⟨by rw [hget, hx], hset⟩
          · obtain ⟨q1, q2⟩ := k4 p hp
            refine ⟨?_, q2⟩
            rw [List.getElem?_set, if_neg (hneq p hp (hnot p hp))] at q1
            exact q1
      · simp only [List.map_cons, List.nodup_cons] at hn
        apply i3 hn.2
        intro p hp
        have hpt : p.1 ≠ t := fun heq => hn.1 (List.mem_map.2 ⟨p, hp, heq⟩)
        rw [List.getElem?_set, if_neg (hneq p hp hpt)]
        exact h0 p (by simp [hp])

theorem nodup_full (B : List (Int × Int)) (ts : List (List Int)) (hn : ts.Nodup) (hb : ∀ t ∈ ts, InBox B t)
    (hl : (ts.length : Int) = count B) (t : List Int) (ht : InBox B t) : t ∈ ts := by
  have rb := Arr.rank_bounds ht
  have h1 : (ts.map fun u => (rank B u).toNat).Nodup := by
    apply List.Nodup.map_on _ hn
    intro a ha b hb' hab
    have r1 := Arr.rank_bounds (hb a ha)
    have r2 := Arr.rank_bounds (hb b hb')
    exact Arr.rank_inj (hb a ha) (hb b hb') (by omega)
  have h2 : (ts.map fun u => (rank B u).toNat) ⊆ List.range ts.length := by
    intro k hk
    obtain ⟨u, hu, rfl⟩ := List.mem_map.1 hk
    have r1 := Arr.rank_bounds (hb u hu)
    rw [List.mem_range]
    omega
  have h3 := (List.subperm_of_subset h1 h2).perm_of_length_le (by simp)
  have h4 : (rank B t).toNat ∈ ts.map fun u => (rank B u).toNat := by
    rw [h3.mem_iff, List.mem_range]; omega
  obtain ⟨u, hu, he⟩ := List.mem_map.1 h4
  have r1 := Arr.rank_bounds (hb u hu)
  rw [← Arr.rank_inj (hb u hu) ht (by omega)]
  exact hu

theorem full_length (B : List (Int × Int)) (ts : List (List Int)) (hn : ts.Nodup) (hb : ∀ t, InBox B t ↔ t ∈ ts) :
    (ts.length : Int) = count B := by
  have h1 : (ts.map fun u => (rank B u).toNat).Nodup := by
    apply List.Nodup.map_on _ hn
    intro a ha b hb' hab
    have r1 := Arr.rank_bounds ((hb a).2 ha)
    have r2 := Arr.rank_bounds ((hb b).2 hb')
    exact Arr.rank_inj ((hb a).2 ha) ((hb b).2 hb') (by omega)
  have hp : (ts.map fun u => (rank B u).toNat).Perm (List.range (count B).toNat) := by
    rw [List.perm_ext_iff_of_nodup h1 List.nodup_range]
    intro k
    rw [List.mem_range, List.mem_map]
    constructor
    · rintro ⟨u, hu, rfl⟩
      have r1 := Arr.rank_bounds ((hb u).2 hu)
      omega
    · intro hk
      obtain ⟨u, hu, he⟩ := Arr.rank_surj B k (by omega) (by omega)
      exact ⟨u, (hb u).1 hu, by omega⟩
  have := hp.length_eq
  simp only [List.length_map, List.length_range] at this
  have := Arr.count_nonneg B
  omega

theorem inBox_ends : ∀ (B : List (Int × Int)) (t : List Int), InBox B t → InBox B (B.map Prod.fst) ∧ InBox B (B.map Prod.snd)
  | [], _, _ => ⟨trivial, trivial⟩
  | (a, b) :: B, [], h => by simp [InBox] at h
  | (a, b) :: B, x :: xs, h => by
    obtain ⟨i1, i2⟩ := inBox_ends B xs h.2.2
    have : a ≤ b := Int.le_trans h.1 h.2.1
    exact ⟨⟨Int.le_refl _, this, i1⟩, ⟨this, Int.le_refl _, i2⟩⟩

theorem inBox_get' : ∀ (S : List (Int × Int)) (u : List Int) (k : Nat) (q : Int × Int) (x : Int), InBox S u → S[k]? = some q →
    u[k]? = some x → q.1 ≤ x ∧ x ≤ q.2
  | [], _, k, q, x, _, h, _ => by simp at h
  | _ :: _, [], k, q, x, h, _, _ => by simp [InBox] at h
  | (lo, hi) :: S, y :: u, 0, q, x, h, hq, hx => by
    simp only [List.getElem?_cons_zero, Option.some.injEq] at hq hx
    subst hq; subst hx
    exact ⟨h.1, h.2.1⟩
  | (lo, hi) :: S, y :: u, k + 1, q, x, h, hq, hx =>
    inBox_get' S u k q x h.2.2 (by simpa using hq) (by simpa using hx)

theorem tight_eq (B B' : List (Int × Int)) (ts : List (List Int)) (hl : B.length = B'.length) (ht : Tight B' ts)
    (hb' : ∀ t ∈ ts, InBox B' t) (hb : ∀ t, InBox B t ↔ t ∈ ts) (t0 : List Int) (h0 : t0 ∈ ts) : B' = B := by
  obtain ⟨e1, e2⟩ := inBox_ends B t0 ((hb t0).2 h0)
  have l1 := hb' _ ((hb _).1 e1)
  have l2 := hb' _ ((hb _).1 e2)
  apply List.ext_getElem?
  intro k
  cases hk : B[k]? with
  | none =>
    have : B'.length ≤ k := by rw [← hl]; exact List.getElem?_eq_none_iff.1 hk
    exact List.getElem?_eq_none_iff.2 this
  | some p =>
    have hkl : k < B'.length := by rw [← hl]; exact (List.getElem?_eq_some_iff.1 hk).1
    have hk' : B'[k]? = some B'[k] := List.getElem?_eq_getElem hkl
    rw [hk']
    obtain ⟨⟨t1, m1, q1⟩, ⟨t2, m2, q2⟩⟩ := ht k _ hk'
    have a1 := inBox_get' B t1 k p _ ((hb t1).2 m1) hk q1
    have a2 := inBox_get' B t2 k p _ ((hb t2).2 m2) hk q2
    have a3 := inBox_get' B' _ k _ p.1 l1 hk' (by rw [List.getElem?_map, hk]; rfl)
    have a4 := inBox_get' B' _ k _ p.2 l2 hk' (by rw [List.getElem?_map, hk]; rfl)
    congr 1
    ext
    · omega
    · omega

/-- **C69**: an indexed comprehension with indices that fit into an `int`, and fewer than 2^31 elements. If it has a value then the
index tuples are different and are the tuples of a box; these are the index sets, and each element is at the position of its
indices. Conversely it has a value if its index tuples are different and are the tuples of a box, or if it has no elements. Otherwise
there is an error; memory outside of the array is never accessed. -/
theorem _root_.MZ.C69_indexed (n : Nat) (hn : 0 < n) (items : List (List Int × α)) (hlen : ∀ p ∈ items, p.1.length = n)
    (hsm : items.length < 2 ^ 31) (hint : ∀ p ∈ items, ∀ i ∈ p.1, -2 ^ 31 ≤ i ∧ i < 2 ^ 31) :
    assemble n items ≠ .ub ∧
    (items = [] → assemble n items = .ok (List.replicate n (1, 0), [])) ∧
    (items ≠ [] → ∀ dims arr, assemble n items = .ok (dims, arr) →
      dims.length = n ∧ (items.map Prod.fst).Nodup ∧ (∀ t, InBox dims t ↔ t ∈ items.map Prod.fst) ∧ (arr.length : Int) = count dims ∧
      ∀ p ∈ items, arr[(rank dims p.1).toNat]? = some (some p.2)) ∧
    (items ≠ [] → ∀ B : List (Int × Int), B.length = n → (items.map Prod.fst).Nodup → (∀ t, InBox B t ↔ t ∈ items.map Prod.fst) →
      ∃ arr, assemble n items = .ok (B, arr)) := by
  by_cases hne : items = []
  · subst hne
    have h0 : assemble n ([] : List (List Int × α)) = .ok (List.replicate n (1, 0), []) := by
      obtain ⟨m, rfl⟩ : ∃ m, n = m + 1 := ⟨n - 1, by omega⟩
      simp only [assemble, List.foldl_nil, List.replicate_succ, sizes]
      cases sizes (List.replicate m none) <;> simp
    refine ⟨by rw [h0]; simp, fun _ => h0, fun h => absurd rfl h, fun h => absurd rfl h⟩
  · obtain ⟨B, h1, h2, h3, h4⟩ := fold_first n items hne hlen
    obtain ⟨p0, hp0⟩ := List.exists_mem_of_ne_nil items hne
    have hin0 := h4 p0.1 (List.mem_map_of_mem hp0)
    have hsz := sizes_box B p0.1 hin0
    have hst : stored B = B := by
      apply List.ext_getElem?
      intro k
      simp only [stored, List.getElem?_map]
      cases hk : B[k]? with
      | none => rfl
      | some p =>
        obtain ⟨⟨t1, m1, q1⟩, ⟨t2, m2, q2⟩⟩ := h3 k p hk
        obtain ⟨u1, hu1, rfl⟩ := List.mem_map.1 m1
        obtain ⟨u2, hu2, rfl⟩ := List.mem_map.1 m2
        have r1 := hint u1 hu1 _ (List.mem_of_getElem? q1)
        have r2 := hint u2 hu2 _ (List.mem_of_getElem? q2)
        simp only [Option.map_some, Option.some.injEq]
        ext
        · exact wrap32_id _ r1.1 r1.2
        · exact wrap32_id _ r2.1 r2.2
    rw [hst] at hsz
    have has : assemble n items = if count B ≠ items.length then .err else
        match place (B.map some) (strides B) items (List.replicate items.length none) with
        | .ok arr => .ok (B, arr)
        | .err => .err
        | .ub => .ub := by
      simp only [assemble, h1, hsz]
      rfl
    have hb : ∀ p ∈ items, InBox B p.1 := fun p hp => h4 p.1 (List.mem_map_of_mem hp)
    rw [has]
    by_cases hc : count B = items.length
    · rw [if_neg (by simpa using hc)]
      obtain ⟨k1, k2, k3⟩ := place_ok B items (List.replicate items.length (none : Option α)) (by simp [hc]) (by rw [hc]; omega) hb
      refine ⟨?_, fun h => absurd h hne, ?_, ?_⟩
      · cases hp : place (B.map some) (strides B) items (List.replicate items.length none) with
        | ok a => simp
        | err => simp
        | ub => exact absurd hp k1
      · intro _ dims arr h
        cases hp : place (B.map some) (strides B) items (List.replicate items.length none) with
        | err => rw [hp] at h; cases h
        | ub => exact absurd hp k1
        | ok a =>
          rw [hp] at h
          simp only [Res.ok.injEq, Prod.mk.injEq] at h
          obtain ⟨rfl, rfl⟩ := h
          obtain ⟨q1, q2, -, q4⟩ := k2 a hp
          refine ⟨h2, q2, fun t => ⟨fun ht => nodup_full B _ q2 h4 (by simp [hc]) t ht, h4 t⟩, by simp [q1, hc], fun p hp => (q4 p hp).2⟩
      · intro _ B2 hB2 hnd hfull
        have : B = B2 := tight_eq B2 B (items.map Prod.fst) (by omega) h3 h4 hfull p0.1 (List.mem_map_of_mem hp0)
        subst this
        obtain ⟨arr, ha⟩ := k3 hnd (by
          intro p hp
          have rb := Arr.rank_bounds (hb p hp)
          rw [List.getElem?_replicate, if_pos (by omega)])
        exact ⟨arr, by rw [ha]⟩
    · rw [if_pos hc]
      refine ⟨by simp, fun h => absurd h hne, fun _ dims arr h => (by cases h), ?_⟩
      intro _ B2 hB2 hnd hfull
      have : B = B2 := tight_eq B2 B (items.map Prod.fst) (by omega) h3 h4 hfull p0.1 (List.mem_map_of_mem hp0)
      subst this
      have := full_length B _ hnd hfull
      exfalso; apply hc
      rw [← this]; simp

/-- **C69 (deviation)**: an index that does not fit into an `int` is silently changed: the array `[4294967297: 5]` has the index set
`1..1`. -/
theorem _root_.MZ.C69_index_fails : assemble 1 [([4294967297], (5 : Int))] = .ok ([(1, 1)], [some 5]) := by decide

example : assemble 2 [([0, 5], 'a'), ([1, 5], 'b'), ([1, 4], 'c'), ([0, 4], 'd')] =
    .ok ([(0, 1), (4, 5)], [some 'd', some 'a', some 'c', some 'b']) := by decide
example : assemble 1 [([3], 'a'), ([5], 'b')] = .err := by decide
example : assemble 1 [([3], 'a'), ([5], 'b'), ([5], 'c')] = .err := by decide

end Comp
end MZ
