import Verif.Ext.Auto
import Mathlib.Data.List.GetD

/-! # Lemmas on tables -/

namespace MZ.Ext
open MZ.Globals MZ.LexOrd MZ.LexOrd.Spec MZ.Ext.Spec

theorem fznTable_iff {α : Type} (xs : Arr α) (t : Mat α) (h : xs.lo ≤ xs.hi) : fznTable xs t ↔ InTable xs t := by
  unfold fznTable InTable
  simp only [Arr.mem_idx]
  constructor
  · rintro ⟨_, _, i, hi, hj⟩
    exact ⟨i, hi.1, hi.2, fun j q => (hj j q.1 q.2).symm⟩
  · rintro ⟨i, h1, h2, hj⟩
    exact ⟨h, by omega, i, ⟨h1, h2⟩, fun j q1 q2 => (hj j ⟨q1, q2⟩).symm⟩

theorem fznTableOpt_iff {α : Type} (xs : Arr (Option α)) (t : Mat (Option α)) (h : xs.lo ≤ xs.hi) :
    fznTableOpt xs t ↔ InTableOpt xs t := by
  have key : ∀ a b : Option α, (b = none ∨ a = none ∨ b = a) ↔ ∀ x y, a = some x → b = some y → x = y := by
    intro a b
    cases a <;> cases b <;> simp [eq_comm]
  unfold fznTableOpt InTableOpt
  simp only [Arr.mem_idx, key]
  constructor
  · rintro ⟨_, _, i, hi, hj⟩
    exact ⟨i, hi.1, hi.2, fun j q => hj j q.1 q.2⟩
  · rintro ⟨i, h1, h2, hj⟩
    exact ⟨h, by omega, i, ⟨h1, h2⟩, fun j q1 q2 => hj j ⟨q1, q2⟩⟩

theorem mem_combos : ∀ (ds : List (List Int)) (w : List Int),
    w ∈ combos ds ↔ w.length = ds.length ∧ ∀ k : Nat, k < w.length → w.getD k 0 ∈ ds.getD k []
  | [], w => by
    simp only [combos, List.mem_singleton, List.length_nil, List.length_eq_zero_iff]
    constructor
    · rintro rfl; simp
    · exact fun h => h.1
  | d :: ds, w => by
    simp only [combos, List.mem_flatMap, List.mem_map]
    constructor
    · rintro ⟨v, hv, u, hu, rfl⟩
      obtain ⟨h1, h2⟩ := (mem_combos ds u).1 hu
      refine ⟨by simp [h1], ?_⟩
      intro k hk
      cases k with
      | zero => simpa using hv
      | succ k => simpa using h2 k (by simpa using hk)
    · rintro ⟨h1, h2⟩
      cases w with
      | nil => simp at h1
      | cons v u =>
        refine ⟨v, by simpa using h2 0 (by simp), u, (mem_combos ds u).2 ⟨by simpa using h1, ?_⟩, rfl⟩
        intro k hk
        simpa using h2 (k + 1) (by simpa using hk)

theorem aux_iff (xs : Arr Int) (t : Mat Int) (h1 : xs.lo = 1) (h2 : 0 ≤ xs.hi) :
    auxIsInTable (elems xs) t = true ↔ InTable xs t := by
  unfold auxIsInTable InTable
  rw [decide_eq_true_iff]
  have hlen := length_elems xs
  simp only [Finset.mem_Icc, Arr.mem_idx]
  have key : ∀ j : Int, 1 ≤ j → j ≤ xs.hi → (elems xs).getD (j - 1).toNat 0 = xs j := by
    intro j a b
    have hk : (j - 1).toNat < (elems xs).length := by omega
    rw [List.getD_eq_getElem _ _ hk, getElem_elems]
    congr 1; omega
  constructor
  · rintro ⟨i, hi, hj⟩
    refine ⟨i, hi.1, hi.2, ?_⟩
    intro j q
    rw [← key j (by omega) q.2]
    exact (hj j ⟨by omega, by omega⟩).symm
  · rintro ⟨i, a, b, hj⟩
    refine ⟨i, ⟨a, b⟩, ?_⟩
    intro j q
    rw [key j q.1 (by omega)]
    exact (hj j ⟨by omega, by omega⟩).symm

theorem b2i_inj (p q : Prop) [Decidable p] [Decidable q] : b2i p = b2i q ↔ (p ↔ q) := by
  unfold b2i
  by_cases hp : p <;> by_cases hq : q <;> simp [hp, hq]

/-- A row of the extended table is the array extended by the Boolean. -/
theorem row_iff (xs : Arr Int) (h1 : xs.lo = 1) (h2 : 0 ≤ xs.hi) (z : Int) (row : List Int)
    (hr : row.length = (elems xs).length + 1) :
    (∀ j : Int, 1 ≤ j → j ≤ xs.len + 1 → row.getD (j - 1).toNat 0 = snoc xs z j) ↔ row = elems xs ++ [z] := by
  have hl := len_eq_length xs
  have hs := length_elems (snoc xs z)
  have e := elems_snoc xs z
  rw [← e]
  have hs2 : (elems (snoc xs z)).length = (elems xs).length + 1 := by rw [e]; simp
  constructor
  · intro h
    apply List.ext_getElem (by omega)
    intro k a b
    rw [getElem_elems]
    have := h ((k : Int) + 1) (by omega) (by omega)
    rw [show ((k : Int) + 1 - 1).toNat = k by omega, List.getD_eq_getElem _ _ a] at this
    rw [this]
    show (snoc xs z).val _ = (snoc xs z).val _
    congr 1
    simp only [snoc]; omega
  · rintro rfl j a b
    have hk : (j - 1).toNat < (elems (snoc xs z)).length := by omega
    rw [List.getD_eq_getElem _ _ hk, getElem_elems]
    show (snoc xs z).val _ = (snoc xs z).val _
    congr 1
    simp only [snoc]; omega

theorem fznTableReif_iff (xs : Arr Int) (t : Mat Int) (doms : List (List Int)) (b : Prop) [Decidable b] (c : Prop)
    (h1 : xs.lo = 1) (h2 : 0 ≤ xs.hi) (hn : doms.length = xs.len)
    (hx : ∀ i ∈ xs.idx, xs i ∈ doms.getD (i - 1).toNat [])
    (h : fznTableReif xs t doms b = some c) : c ↔ (b ↔ InTable xs t) := by
  have hlen : xs.len = xs.hi := by rw [len_eq _ (by omega)]; omega
  have hle := len_eq_length xs
  unfold fznTableReif at h
  split at h
  · cases h
  · rename_i hr
    split at h
    · rename_i h5
      simp only [Option.some.injEq] at h
      subst h
      have : xs 1 ∈ (Finset.Icc t.lo1 t.hi1).image (fun it => t.val it 1) ↔ InTable xs t := by
        unfold InTable
        simp only [Finset.mem_image, Finset.mem_Icc, Arr.mem_idx]
        constructor
        · rintro ⟨i, hi, e⟩
          refine ⟨i, hi.1, hi.2, ?_⟩
          intro j q
          have : j = 1 := by omega
          rw [this, e]
        · rintro ⟨i, a, b, e⟩
          exact ⟨i, ⟨a, b⟩, (e 1 (by omega)).symm⟩
      rw [this]
      exact ⟨fun h => h.symm, fun h => h.symm⟩
    · simp only [Option.some.injEq] at h
      subst h
      rw [fznTable_iff _ _ (by simp only [snoc]; omega)]
      have hin : elems xs ∈ combos doms := by
        rw [mem_combos]
        refine ⟨by omega, ?_⟩
        intro k hk
        rw [List.getD_eq_getElem _ _ hk, getElem_elems]
        have := hx (xs.lo + k) ((Arr.mem_idx _ _).2 (by omega))
        rwa [show (xs.lo + (k : Int) - 1).toNat = k by omega] at this
      rw [← aux_iff xs t h1 h2]
      constructor
      · rintro ⟨i, a, c, hj⟩
        dsimp only at a c hj
        have hk : (i - 1).toNat < ((combos doms).map (fun tpl => tpl ++ [b2i (auxIsInTable tpl t = true)])).length := by
          omega
        rw [List.getD_eq_getElem _ _ hk] at hj
        have hm := List.getElem_mem hk
        generalize ((combos doms).map (fun tpl => tpl ++ [b2i (auxIsInTable tpl t = true)]))[(i - 1).toNat] = row at hj hm
        obtain ⟨tpl, ht, rfl⟩ := List.mem_map.1 hm
        have htl := ((mem_combos _ _).1 ht).1
        have := (row_iff xs h1 h2 (b2i b) _ (by simp; omega)).1
          (fun j p q => (hj j ((Arr.mem_idx _ _).2 ⟨p, q⟩)).symm)
        obtain ⟨e1, e2⟩ := List.append_inj this (by omega)
        simp only [List.cons.injEq, and_true] at e2
        rw [e1] at e2
        exact (b2i_inj _ _).1 e2.symm
      · intro hb
        obtain ⟨k, hk, e⟩ := List.getElem_of_mem (List.mem_map_of_mem
          (f := fun tpl => tpl ++ [b2i (auxIsInTable tpl t = true)]) hin)
        refine ⟨(k : Int) + 1, by dsimp only; omega, by dsimp only; omega, ?_⟩
        intro j hj
        dsimp only
        rw [show ((k : Int) + 1 - 1).toNat = k by omega, List.getD_eq_getElem _ _ hk, e]
        have hj' := (Arr.mem_idx _ _).1 hj
        refine ((row_iff xs h1 h2 (b2i b) _ (by simp)).2 ?_ j hj'.1 hj'.2).symm
        congr 2
        exact (b2i_inj _ _).2 hb.symm

end MZ.Ext
