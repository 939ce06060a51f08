import Verif.Arr.BuiltinProps
import Verif.Ranges.Props
/-!
# Builtins on parameter sets: `set2array`, `set_to_sparse_inverse`, `array_union`, `set_to_ranges` (lib/builtins.cpp)

Finite sets of 32-bit integers in normal form.
-/
namespace MZ
namespace Builtin
open Arr (valuesOf valuesOf_spec)

/-- 2408–2422 `b_set2array`. -/
def set2array (s : List Range) : List Int := valuesOf s

/-- 2435–2437: the loop; `i` counts from 1. A write beyond the end is undefined. -/
def sparseLoop (mn : Int) : List Int → Int → List Int → Res (List Int)
  | [], _, elems => .ok elems
  | v :: vs, i, elems =>
    if 0 ≤ v - mn ∧ (v - mn).toNat < elems.length then sparseLoop mn vs (i + 1) (elems.set (v - mn).toNat i) else .ub

/-- 2424–2445 `b_set_sparse_inverse`: the first and last index and the elements of the result. -/
def setSparseInverse (s : List Range) : Res (Int × Int × List Int) :=
  match s.head?, s.getLast? with
  | some ⟨.fin mn, _⟩, some ⟨_, .fin mx⟩ => do
    let e ← sparseLoop mn (valuesOf s) 1 (List.replicate (mx - mn + 1).toNat 1)
    .ok (mn, mx, e)
  | _, _ => .err

/-- 2988–3002 `b_array_union`; the loop starts with the first set once more. -/
def arrayUnion : List (List Range) → List Range
  | [] => []
  | s :: l => (s :: l).foldl (fun acc t => Ranges.union acc t) s

/-- 3176–3187 `b_set_to_ranges_int`. -/
def setToRanges : List Range → List Ext
  | [] => []
  | r :: s => r.lo :: r.hi :: setToRanges s

/-! ### Specification -/

/-- The ranges are finite. -/
def Finite (s : List Range) : Prop := ∀ r ∈ s, ∃ a b, r = ⟨.fin a, .fin b⟩

/-- **C63** (set2array). The elements of the set in increasing order. -/
theorem _root_.MZ.C63_set2array (s : List Range) (hn : Normal s) (hf : Finite s) :
    (set2array s).Pairwise (· < ·) ∧ ∀ x, x ∈ set2array s ↔ Mem x s := valuesOf_spec hn hf

theorem sparseLoop_ok (mn : Int) : ∀ (vs : List Int) (i : Int) (elems : List Int), vs.Pairwise (· < ·) →
    (∀ v ∈ vs, mn ≤ v ∧ (v - mn).toNat < elems.length) →
    ∃ out, sparseLoop mn vs i elems = .ok out ∧ out.length = elems.length ∧
      (∀ (k : Nat) v, vs[k]? = some v → out[(v - mn).toNat]? = some (i + k)) ∧
      ∀ j : Nat, (∀ v ∈ vs, v - mn ≠ j) → out[j]? = elems[j]?
  | [], i, elems, _, _ => ⟨elems, rfl, rfl, fun k v h => by simp at h, fun _ _ => rfl⟩
  | v :: vs, i, elems, hp, h => by
    obtain ⟨hv1, hv2⟩ := h v (.head _)
    rw [List.pairwise_cons] at hp
    rw [sparseLoop, if_pos ⟨by omega, hv2⟩]
    obtain ⟨out, o1, o2, o3, o4⟩ := sparseLoop_ok mn vs (i + 1) (elems.set (v - mn).toNat i) hp.2 (by
      intro w hw
      rw [List.length_set]
      exact h w (.tail _ hw))
    refine ⟨out, o1, by rw [o2, List.length_set], ?_, ?_⟩
    · intro k w hk
      cases k with
      | zero =>
        simp only [List.getElem?_cons_zero, Option.some.injEq] at hk
        subst hk
        rw [o4 _ fun w hw => by have := hp.1 w hw; omega, List.getElem?_set_self hv2]
        simp
      | succ k =>
        rw [o3 k w (by simpa using hk)]
        congr 1
        push_cast
        omega
    · intro j hj
      rw [o4 j fun w hw => hj w (.tail _ hw), List.getElem?_set_ne]
      have := hj v (.head _)
      omega

/-- **C63** (set_to_sparse_inverse). On a non-empty set the result is indexed from the least to the greatest element; the entry of the
`k`-th smallest element is `k`, the entries of other numbers are 1. -/
theorem _root_.MZ.C63_sparse_inverse (s : List Range) (hn : Normal s) (hf : Finite s) :
    (s = [] → setSparseInverse s = .err) ∧
    (s ≠ [] → ∃ mn mx e, setSparseInverse s = .ok (mn, mx, e) ∧ Mem mn s ∧ Mem mx s ∧ (∀ x, Mem x s → mn ≤ x ∧ x ≤ mx) ∧
      (e.length : Int) = mx - mn + 1 ∧ ∃ vs : List Int, vs.Pairwise (· < ·) ∧ (∀ x, x ∈ vs ↔ Mem x s) ∧
        (∀ (k : Nat) v, vs[k]? = some v → e[(v - mn).toNat]? = some (k + 1 : Int)) ∧
        ∀ x, mn ≤ x → x ≤ mx → ¬ Mem x s → e[(x - mn).toNat]? = some 1) := by
  constructor
  · rintro rfl; rfl
  · intro hne
    obtain ⟨vp, vm⟩ := valuesOf_spec hn hf
    obtain ⟨r, t, rfl⟩ : ∃ r t, s = r :: t := by cases s with
      | nil => exact absurd rfl hne
      | cons r t => exact ⟨r, t, rfl⟩
    obtain ⟨a, b, rfl⟩ := hf _ (.head _)
    obtain ⟨q, hq⟩ : ∃ q, (⟨.fin a, .fin b⟩ :: t : List Range).getLast? = some q := by
      rw [List.getLast?_cons]; exact ⟨_, rfl⟩
    have hqm := List.mem_of_getLast? hq
    obtain ⟨c, d, rfl⟩ := hf q hqm
    have hab : a ≤ b := by have := (hn.1 _ (.head _)).1; simpa using this
    have hcd : c ≤ d := by have := (hn.1 _ hqm).1; simpa using this
    have hlow : ∀ x, Mem x (⟨.fin a, .fin b⟩ :: t : List Range) → a ≤ x := by
      rintro x ⟨p, hp, hx1, hx2⟩
      rcases List.mem_cons.1 hp with rfl | hp
      · simpa using hx1
      · have h1 := (List.pairwise_cons.1 hn.2).1 p hp
        obtain ⟨e, f, rfl⟩ := hf p (.tail _ hp)
        simp [Ext.succ] at h1 hx1
        omega
    have hhigh : ∀ x, Mem x (⟨.fin a, .fin b⟩ :: t : List Range) → x ≤ d := by
      rintro x ⟨p, hp, hx1, hx2⟩
      obtain ⟨e, f, rfl⟩ := hf p hp
      have hl := List.getLast?_eq_some_iff.1 hq
      obtain ⟨init, hinit⟩ := hl
      rw [hinit] at hp
      have hn2 := hn.2
      rw [hinit, List.pairwise_append] at hn2
      rcases List.mem_append.1 hp with hp | hp
      · have := hn2.2.2 _ hp _ (.head _)
        simp [Ext.succ] at this hx2
        omega
      · have e := List.mem_singleton.1 hp
        simp only [Range.mk.injEq, Ext.fin.injEq] at e
        simp at hx2
        omega
    have hma : Mem a (⟨.fin a, .fin b⟩ :: t : List Range) := ⟨_, .head _, by simp [Range.Mem]; omega⟩
    have hmd : Mem d (⟨.fin a, .fin b⟩ :: t : List Range) := ⟨_, hqm, by simp [Range.Mem]; omega⟩
    have had := hhigh a hma
    obtain ⟨out, o1, o2, o3, o4⟩ := sparseLoop_ok a (valuesOf (⟨.fin a, .fin b⟩ :: t)) 1 (List.replicate (d - a + 1).toNat 1) vp (by
      intro v hv
      have h1 := hlow v ((vm v).1 hv)
      have h2 := hhigh v ((vm v).1 hv)
      rw [List.length_replicate]
      omega)
    refine ⟨a, d, out, ?_, hma, hmd, fun x hx => ⟨hlow x hx, hhigh x hx⟩, ?_, _, vp, vm, ?_, ?_⟩
    · unfold setSparseInverse
      rw [hq]
      simp only [List.head?_cons]
      rw [o1]
      rfl
    · rw [o2, List.length_replicate]; omega
    · intro k v hk
      rw [o3 k v hk]
      congr 1
      omega
    · intro x h1 h2 h3
      rw [o4 _ fun v hv e => h3 ((vm x).1 (by have : v = x := by omega
                                              exact this ▸ hv))]
      rw [List.getElem?_replicate, if_pos (by omega)]

/-- **C63** (array_union). The union of the sets, in normal form. -/
theorem _root_.MZ.C63_array_union (l : List (List Range)) (hn : ∀ s ∈ l, Normal s) :
    Normal (arrayUnion l) ∧ ∀ x, Mem x (arrayUnion l) ↔ ∃ s ∈ l, Mem x s := by
  have key : ∀ (l : List (List Range)) (acc : List Range), Normal acc → (∀ s ∈ l, Normal s) →
      Normal (l.foldl (fun acc t => Ranges.union acc t) acc) ∧
      ∀ x, Mem x (l.foldl (fun acc t => Ranges.union acc t) acc) ↔ Mem x acc ∨ ∃ s ∈ l, Mem x s := by
    intro l
    induction l with
    | nil => exact fun acc h _ => ⟨h, fun x => by simp⟩
    | cons s l ih =>
      intro acc ha hl
      obtain ⟨u1, u2⟩ := C06_union acc s ha (hl s (.head _))
      obtain ⟨i1, i2⟩ := ih (Ranges.union acc s) u1 fun t ht => hl t (.tail _ ht)
      refine ⟨i1, fun x => ?_⟩
      rw [List.foldl_cons, i2, u2]
      simp [or_assoc]
  cases l with
  | nil => exact ⟨⟨by simp [arrayUnion], .nil⟩, fun x => by simp [arrayUnion, Mem]⟩
  | cons s l =>
    obtain ⟨k1, k2⟩ := key (s :: l) s (hn s (.head _)) hn
    refine ⟨k1, fun x => ?_⟩
    rw [arrayUnion, k2]
    constructor
    · rintro (h | h)
      · exact ⟨s, .head _, h⟩
      · exact h
    · exact .inr

/-- **C63** (set_to_ranges). The entries are the first and last elements of the ranges: the set can be read back from them. -/
theorem _root_.MZ.C63_set_to_ranges (s : List Range) :
    (setToRanges s).length = 2 * s.length ∧
    ∀ i (h : i < s.length), (setToRanges s)[2 * i]? = some (s[i].lo) ∧ (setToRanges s)[2 * i + 1]? = some (s[i].hi) := by
  induction s with
  | nil => exact ⟨rfl, fun i h => by simp at h⟩
  | cons r s ih =>
    refine ⟨by simp only [setToRanges, List.length_cons, ih.1]; omega, fun i h => ?_⟩
    cases i with
    | zero => exact ⟨rfl, rfl⟩
    | succ i =>
      have := ih.2 i (by simpa using h)
      rw [show 2 * (i + 1) = 2 * i + 1 + 1 by omega]
      simpa [setToRanges] using this

example : setSparseInverse [⟨.fin 3, .fin 4⟩, ⟨.fin 7, .fin 7⟩] = .ok (3, 7, [1, 2, 1, 1, 3]) ∧
    set2array [⟨.fin 3, .fin 4⟩, ⟨.fin 7, .fin 7⟩] = [3, 4, 7] ∧
    setToRanges [⟨.fin 3, .fin 4⟩, ⟨.fin 7, .fin 7⟩] = [.fin 3, .fin 4, .fin 7, .fin 7] := by decide

end Builtin
end MZ
