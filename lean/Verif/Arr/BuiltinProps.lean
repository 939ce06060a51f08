import Verif.Arr.BuiltinLemmas
import Verif.Ranges.ExtOrder
import Verif.Ranges.Spec
/-! # C48, C49: re-dimensioning, concatenating, selecting from and slicing arrays -/
namespace MZ
namespace Arr
variable {α β : Type}

/-- The set `lo..hi` as the evaluator represents it. -/
def rangeSet (p : Int × Int) : List Range := IntSet.ofBounds (.fin p.1) (.fin p.2)

/-- Index sets with bounds and widths that fit into `int`; an empty one is written `1..0`. -/
def Fits (D : List (Int × Int)) : Prop :=
  ∀ p ∈ D, p = (1, 0) ∨ (p.1 ≤ p.2 ∧ -2147483648 ≤ p.1 ∧ p.2 ≤ 2147483647 ∧ p.2 - p.1 < 2147483647)

/-- How the loop represents a bounded index set. -/
def toX (p : Int × Int) : XDim := if p.2 < p.1 then .empty else .range p.1 p.2

theorem i32_id {x : Int} (h1 : -2147483648 ≤ x) (h2 : x ≤ 2147483647) : i32 x = x := by
  unfold i32; omega

theorem u32_id {x : Int} (h1 : 0 ≤ x) (h2 : x < 4294967296) : u32 x = x := by unfold u32; omega

theorem rangeSet_empty : rangeSet (1, 0) = [] := rfl

theorem rangeSet_range {p : Int × Int} (h : p.1 ≤ p.2) : rangeSet p = [⟨.fin p.1, .fin p.2⟩] := by
  have : ¬ (Ext.fin p.2 < Ext.fin p.1) := by
    intro hc
    have : p.2 < p.1 := Ext.fin_lt_fin.1 hc
    omega
  simp [rangeSet, IntSet.ofBounds, this]

theorem u32_mul (a b c : Int) : u32 (u32 (a * b) * c) = u32 (a * (b * c)) := by
  unfold u32
  rw [Int.mul_emod, Int.emod_emod, ← Int.mul_emod, Int.mul_assoc]

theorem bind_pair (x : Res (List XDim × Int)) (f : List XDim → List XDim) (g : List XDim → List XDim) :
    ((do let y ← (do let y ← x; .ok (g y.1, y.2)); .ok (f y.1, y.2)) : Res (List XDim × Int)) =
      (do let y ← x; .ok (f (g y.1), y.2)) := by
  cases x <;> rfl

theorem xdLoop_app (rest : List (List Range)) (seen : Bool) : ∀ (D : List (Int × Int)) (d : Int), Fits D → u32 d = d →
    xdLoop (D.map rangeSet ++ rest) seen d =
      (do let y ← xdLoop rest seen (u32 (d * count D)); .ok (D.map toX ++ y.1, y.2))
  | [], d, _, hd => by
    simp only [List.map_nil, List.nil_append, count, Int.mul_one, hd]
    cases xdLoop rest seen d <;> rfl
  | p :: D, d, hf, hd => by
    have hf' : Fits D := fun q hq => hf q (by simp [hq])
    rcases hf p (by simp) with rfl | ⟨h1, h2, h3, h4⟩
    · have e : xdLoop (rangeSet (1, 0) :: (D.map rangeSet ++ rest)) seen d =
          (do let y ← xdLoop (D.map rangeSet ++ rest) seen 0; .ok (.empty :: y.1, y.2)) := by
        rw [rangeSet_empty]; rfl
      have e2 : d * count ((1, 0) :: D) = 0 * count D := by simp [count]
      rw [List.map_cons, List.cons_append, e, xdLoop_app rest seen D 0 hf' rfl, e2]
      exact bind_pair _ (fun l => XDim.empty :: l) (fun l => D.map toX ++ l)
    · have e : xdLoop (rangeSet p :: (D.map rangeSet ++ rest)) seen d =
          (do let y ← xdLoop (D.map rangeSet ++ rest) seen (u32 (d * (p.2 - p.1 + 1))); .ok (.range p.1 p.2 :: y.1, y.2)) := by
        rw [rangeSet_range h1]
        simp only [xdLoop, xdOne, i32_id h2 (show p.1 ≤ 2147483647 by omega), i32_id (show -2147483648 ≤ p.2 by omega) h3, Res.ok_bind,
          width32]
        rw [if_pos (by omega), Res.ok_bind, u32_id (x := p.2 - p.1 + 1) (by omega) (by omega)]
      have hw : Max.max 0 (p.2 - p.1 + 1) = p.2 - p.1 + 1 := max_eq_right (by omega)
      have e2 : u32 (u32 (d * (p.2 - p.1 + 1)) * count D) = u32 (d * count (p :: D)) := by
        rw [u32_mul]; obtain ⟨a, b⟩ := p; simp only [count] at *; rw [hw]
      have hx : toX p = .range p.1 p.2 := by rw [toX, if_neg (by omega)]
      rw [List.map_cons, List.cons_append, e, xdLoop_app rest seen D _ hf' (by unfold u32; omega), e2, List.map_cons, hx]
      exact bind_pair _ (fun l => XDim.range p.1 p.2 :: l) (fun l => D.map toX ++ l)

theorem any_toX (D : List (Int × Int)) : (D.map toX).any isOpen = false := by
  induction D with
  | nil => rfl
  | cons p D ih =>
    rw [List.map_cons, List.any_cons, ih]
    unfold toX; split <;> rfl

theorem all_toX (q : Int) (D : List (Int × Int)) : (D.map toX).all (openFits q) = true := by
  induction D with
  | nil => rfl
  | cons p D ih =>
    rw [List.map_cons, List.all_cons, ih]
    unfold toX; split <;> rfl

theorem finish_toX (q : Int) : ∀ {D : List (Int × Int)}, Fits D → (D.map toX).map (xdFinish q) = D
  | [], _ => rfl
  | p :: D, h => by
    have ih := finish_toX q (D := D) (fun r hr => h r (by simp [hr]))
    rw [List.map_cons, List.map_cons, ih]
    rcases h p (by simp) with rfl | ⟨h1, _⟩
    · rfl
    · rw [toX, if_neg (by omega)]; rfl

theorem Fits.shape {D : List (Int × Int)} (h : Fits D) (hn : D ≠ []) : Shape D :=
  ⟨hn, fun p hp => by rcases h p hp with rfl | h <;> [decide; omega]⟩

end Arr

open Arr in
/-- **C48**, bounded index sets: `array1d(S, x)`, `array2d(S1, S2, x)`, … give the array with exactly these index sets and the elements
of `x` in row-major order when their sizes multiply to the number of elements, and an error otherwise — as long as the
product of the sizes is below 2^32 (see `C48_reshape_fails`). -/
theorem C48_reshape_partial {α : Type} (al : Lit α) (D : List (Int × Int)) (E : List α) (h : Wf al D E) (D' : List (Int × Int))
    (hn : D' ≠ []) (hf : Fits D') (hc : count D' < 4294967296) :
    (count D' = E.length → ∃ b, arrayXd (D'.map rangeSet) al = .ok b ∧ Wf b D' E ∧ IsArr b D' E) ∧
    (count D' ≠ E.length → arrayXd (D'.map rangeSet) al = .err) := by
  have hx := xdLoop_app [] false D' 1 hf rfl
  simp only [List.append_nil, Int.one_mul, u32_id (count_nonneg D') hc, xdLoop, Res.ok_bind] at hx
  have hs := h.isArr.siz
  constructor
  · intro he
    obtain ⟨b, hb, hw⟩ := redim_wf h (hf.shape hn) he
    refine ⟨b, ?_, hw, hw.isArr⟩
    simp only [arrayXd, hx, Res.ok_bind, hs, any_toX, Bool.false_eq_true, if_false, he, ne_eq, not_true_eq_false, finish_toX 0 hf, hb]
  · intro he
    simp only [arrayXd, hx, Res.ok_bind, hs, any_toX, Bool.false_eq_true, if_false, ne_eq, he, not_false_eq_true, if_true]

open Arr in
/-- **C48**, one index set without upper bound: it is completed to the size that makes the product match, and it is an error when
there is none. The other index sets must not be empty (see `C48_reshape_fails`). -/
theorem C48_reshape_open_partial {α : Type} (al : Lit α) (D : List (Int × Int)) (E : List α) (h : Wf al D E)
    (D1 D2 : List (Int × Int)) (lo : Int) (hf1 : Fits D1) (hf2 : Fits D2) (hlo : -2147483648 ≤ lo) (hE : E.length < 2147483648)
    (hhi : lo + E.length ≤ 2147483647)
    (hpos : 0 < count D1 * count D2) (hc : count D1 * count D2 < 4294967296) :
    (∀ q : Nat, count D1 * count D2 * q = E.length → ∃ b,
      arrayXd (D1.map rangeSet ++ [⟨.fin lo, .posInf⟩] :: D2.map rangeSet) al = .ok b ∧
        Wf b (D1 ++ (lo, lo + q - 1) :: D2) E ∧ IsArr b (D1 ++ (lo, lo + q - 1) :: D2) E) ∧
    ((∀ q : Nat, count D1 * count D2 * q ≠ E.length) →
      arrayXd (D1.map rangeSet ++ [⟨.fin lo, .posInf⟩] :: D2.map rangeSet) al = .err) := by
  have n1 := count_nonneg D1
  have n2 := count_nonneg D2
  have p1 : 0 < count D1 := by rcases n1.lt_or_eq with h | h <;> [exact h; (rw [← h] at hpos; simp at hpos)]
  have p2 : 0 < count D2 := by rcases n2.lt_or_eq with h | h <;> [exact h; (rw [← h] at hpos; simp at hpos)]
  have c1 : count D1 < 4294967296 := by nlinarith
  have hx2 := xdLoop_app [] true D2 (count D1) hf2 (u32_id n1 c1)
  simp only [List.append_nil, u32_id hpos.le hc, xdLoop, Res.ok_bind] at hx2
  have hmid : xdLoop ([⟨.fin lo, .posInf⟩] :: D2.map rangeSet) false (count D1) =
      .ok (.open lo :: D2.map toX, count D1 * count D2) := by
    simp only [xdLoop, xdOne, Res.ok_bind, i32_id hlo (by omega : lo ≤ 2147483647), Bool.false_eq_true, if_false, hx2]
  have hx := xdLoop_app ([⟨.fin lo, .posInf⟩] :: D2.map rangeSet) false D1 1 hf1 rfl
  rw [Int.one_mul, u32_id n1 c1, hmid] at hx
  simp only [Res.ok_bind] at hx
  have hs := h.isArr.siz
  have hany : (D1.map toX ++ XDim.open lo :: D2.map toX).any isOpen = true := by simp [isOpen]
  generalize hcc : count D1 * count D2 = c at *
  constructor
  · intro q hq
    have hdvd : (E.length : Int) % c = 0 := by rw [← hq]; exact Int.mul_emod_right _ _
    have hdiv : (E.length : Int) / c = q := by rw [← hq]; exact Int.mul_ediv_cancel_left _ hpos.ne'
    have hqle : (q : Int) ≤ E.length := by nlinarith
    have hcount : count (D1 ++ (lo, lo + q - 1) :: D2) = E.length := by
      have hw : Max.max 0 (lo + (q : Int) - 1 - lo + 1) = q := by rw [max_eq_right (by omega)]; ring
      rw [count_append, count, hw, ← hq, ← hcc]; ring
    have hsh : Shape (D1 ++ (lo, lo + q - 1) :: D2) := by
      refine ⟨by simp, fun p hp => ?_⟩
      simp only [List.mem_append, List.mem_cons] at hp
      rcases hp with hp | rfl | hp
      · exact (hf1.shape (List.ne_nil_of_mem hp)).2 p hp
      · simp only; omega
      · exact (hf2.shape (List.ne_nil_of_mem hp)).2 p hp
    obtain ⟨b, hb, hw⟩ := redim_wf h hsh hcount
    refine ⟨b, ?_, hw, hw.isArr⟩
    have hall : (D1.map toX ++ XDim.open lo :: D2.map toX).all (openFits q) = true := by
      rw [List.all_append, List.all_cons, all_toX, all_toX]; simp [openFits]; omega
    have hmap : (D1.map toX ++ XDim.open lo :: D2.map toX).map (xdFinish q) = D1 ++ (lo, lo + q - 1) :: D2 := by
      rw [List.map_append, List.map_cons, finish_toX _ hf1, finish_toX _ hf2]; simp only [xdFinish]
      congr 3; ring
    unfold arrayXd
    rw [hx]
    simp only [Res.ok_bind, hs]
    have hu : u32 (c * (q : Int)) = E.length := by rw [hq, u32_id (by omega) (by omega)]
    rw [if_pos hany, if_neg hpos.ne', if_neg (not_not.2 hdvd), hdiv, if_pos hall, if_neg (not_not.2 hu), hmap, hb]
  · intro hno
    have : (E.length : Int) % c ≠ 0 := by
      intro hz
      obtain ⟨k, hk⟩ := Int.dvd_of_emod_eq_zero hz
      have hk0 : 0 ≤ k := by
        by_contra hk0
        have : c * k < 0 := Int.mul_neg_of_pos_of_neg hpos (by omega)
        omega
      exact hno k.toNat (by rw [Int.toNat_of_nonneg hk0, hk])
    unfold arrayXd
    rw [hx]
    simp only [Res.ok_bind, hs]
    rw [if_pos hany, if_neg hpos.ne', if_pos this]

open Arr in
/-- **C48**, where it fails: an index set without upper bound beside an empty one divides by zero; a product of 2^32 counts as 0, so an
empty array is accepted for the index sets `1..65536` and `1..65536` and reading its first element leaves the
vector; and bounds beyond 32 bits are cut off, so the index set `4294967297..4294967298` becomes `1..2`. -/
theorem C48_reshape_fails :
    arrayXd [rangeSet (1, 0), [⟨.fin 1, .posInf⟩]] (mk1 (fun a b : Nat => a == b) []) = .ub ∧
    (do let a ← arrayXd [rangeSet (1, 65536), rangeSet (1, 65536)] (mk1 (fun a b : Nat => a == b) []); access a [1, 1]) = .ub ∧
    (do let a ← arrayXd [rangeSet (4294967297, 4294967298)] (mk1 (fun a b : Nat => a == b) [5, 6]); access a [1]) = .ok (some 5) := by
  refine ⟨by rfl, by rfl, by rfl⟩

open Arr in
/-- **C48**: `array1d(x)` keeps the elements and starts at 1; `arrayXd(x, y)` gives `y` the index sets of `x` when they have as many
elements. -/
theorem C48_list {α : Type} (a0 a1 : Lit α) (D0 D1 : List (Int × Int)) (E0 E1 : List α) (h0 : Wf a0 D0 E0) (h1 : Wf a1 D1 E1) :
    (∃ b, array1dList a1 = .ok b ∧ IsArr b [(1, E1.length)] E1) ∧
    (E0.length = E1.length → ∃ b, arrayXd2 a0 a1 = .ok b ∧ Wf b D0 E1 ∧ IsArr b D0 E1) := by
  have A0 := h0.isArr
  have A1 := h1.isArr
  constructor
  · obtain ⟨p, r, hD⟩ : ∃ p r, D1 = p :: r := List.exists_cons_of_ne_nil A1.shape.1
    have hlo := A1.lo 0 p (by simp [hD])
    simp only [array1dList, hlo, Res.ok_bind]
    by_cases hc : ndims a1 = 1 ∧ p.1 = 1
    · rw [if_pos hc]
      refine ⟨a1, rfl, ?_⟩
      have hr : r = [] := by
        have h1 : ndims a1 = 1 := hc.1
        rw [A1.nd, hD] at h1; simpa using h1
      have hp : p = (1, (E1.length : Int)) := by
        have ht := A1.total
        have hsh := A1.shape.2 p (by simp [hD])
        rw [hD, hr] at ht
        obtain ⟨a, b⟩ := p
        simp only at hc hsh
        obtain ⟨_, rfl⟩ := hc
        simp only [count, Int.mul_one] at ht
        rw [max_eq_right (by omega)] at ht
        simp only [Prod.mk.injEq, true_and]; omega
      rw [hD, hr, hp] at A1; exact A1
    · rw [if_neg hc]
      obtain ⟨b, hb, hw⟩ := redim1_wf h1
      exact ⟨b, hb, hw.isArr⟩
  · intro he
    have b0 := boundsFrom_eq A0.lo A0.hi D0.length 0 (by omega)
    have b1 := boundsFrom_eq A1.lo A1.hi D1.length 0 (by omega)
    rw [← A0.nd] at b0
    rw [← A1.nd] at b1
    simp only [arrayXd2, b0, b1, Res.ok_bind, List.drop_zero]
    by_cases hc : ndims a0 = ndims a1 ∧ D0 = D1
    · rw [if_pos hc]; rw [hc.2]; exact ⟨a1, rfl, h1, A1⟩
    · rw [if_neg hc]
      obtain ⟨b, hb, hw⟩ := redim_wf h1 A0.shape (by rw [A0.total, he])
      exact ⟨b, hb, hw, hw.isArr⟩

open Arr in
/-- **C48**, where it fails: `arrayXd(x, y)` does not compare the numbers of elements, and an access inside the index sets of the
result reads past the end of `y`. -/
theorem C48_list_fails :
    (do let a ← arrayXd2 (mkDims (fun a b : Nat => a == b) [1, 2, 3, 4] [(1, 2), (1, 2)]) (mk1 (fun a b : Nat => a == b) [9])
        access a [2, 2]) = .ub := by rfl

namespace Arr
variable {α β : Type}

theorem map_get {f : α → β} {A B : List α} (h : A.map f = B.map f) {k : Nat} {x : α} (hx : B[k]? = some x) :
    ∃ y, A[k]? = some y ∧ f y = f x := by
  have : (A.map f)[k]? = some (f x) := by rw [h, List.getElem?_map, hx]; rfl
  rw [List.getElem?_map] at this
  cases hy : A[k]? with
  | none => rw [hy] at this; cases this
  | some y => rw [hy] at this; exact ⟨y, rfl, by simpa using this⟩

/-- In two arrays with equal meaning, an access gives equal meaning. -/
theorem access_of {val : α → β} {a : Lit α} {D : List (Int × Int)} {E R : List α} (h : IsArr a D E) (hE : E.map val = R.map val)
    {t : List Int} (ht : InBox D t) {x : α} (hx : R[(rank D t).toNat]? = some x) :
    ∃ y, access a t = .ok (some y) ∧ val y = val x := by
  obtain ⟨e, h1, h2⟩ := (C18_access a D E h t (inBox_length ht)).1 ht
  obtain ⟨y, hy, hv⟩ := map_get hE hx
  rw [h1] at hy; cases hy
  exact ⟨_, h2, hv⟩

theorem concatDims_eq (Q : List (Int × Int)) (p q : Int × Int) : ∀ (P : List (Int × Int)) (i : Nat),
    (∀ idx, idx = i + P.length + 1 → concatDims idx i (P ++ p :: Q) (P ++ q :: Q) =
      .ok (P ++ (1, p.2 - p.1 + 1 + q.2 - q.1 + 1) :: Q))
  | [], i, idx, hi => by
    have hQ : ∀ (Q : List (Int × Int)) (j : Nat), idx < j + 1 → concatDims idx j Q Q = .ok Q := by
      intro Q
      induction Q with
      | nil => intro j _; rfl
      | cons a Q ih => intro j hj; simp only [concatDims]; rw [if_pos (by omega), if_neg (by simp), ih (j + 1) (by omega)]; rfl
    simp only [List.nil_append, concatDims, List.length_nil] at *
    rw [if_neg (by omega), hQ Q (i + 1) (by omega)]; rfl
  | a :: P, i, idx, hi => by
    simp only [List.length_cons] at hi
    have ih := concatDims_eq Q p q P (i + 1) idx (by omega)
    simp only [List.cons_append, concatDims]
    rw [if_pos (by omega), if_neg (by simp), ih]; rfl

theorem total_nat {a : Lit α} {D : List (Int × Int)} {E : List α} (h : IsArr a D E) : (count D).toNat = E.length := by
  rw [h.total]; simp

end Arr

open Arr in
/-- **C49**, concatenation in dimension `idx`: for arrays whose other index sets agree, the result has the index set
`1..n+m` in that dimension; its first `n` layers are those of the first array and the others those of the second. -/
theorem C49_concat {α β : Type} (eqv : α → α → Bool) (val : α → β) (hv : ∀ x y, eqv x y = true → val x = val y)
    (a0 a1 : Lit α) (P Q : List (Int × Int)) (l0 h0 l1 h1 : Int) (E0 E1 : List α)
    (w0 : Wf a0 (P ++ (l0, h0) :: Q) E0) (w1 : Wf a1 (P ++ (l1, h1) :: Q) E1) :
    ∃ b E, concatIndex eqv a0 a1 (P.length + 1) = .ok b ∧ IsArr b (P ++ (1, (h0 - l0 + 1) + (h1 - l1 + 1)) :: Q) E ∧
      ∀ p q, InBox P p → InBox Q q →
        (∀ k, l0 ≤ k → k ≤ h0 → ∃ x y, access b (p ++ (k - l0 + 1) :: q) = .ok (some x) ∧
          access a0 (p ++ k :: q) = .ok (some y) ∧ val x = val y) ∧
        (∀ k, l1 ≤ k → k ≤ h1 → ∃ x y, access b (p ++ ((h0 - l0 + 1) + (k - l1 + 1)) :: q) = .ok (some x) ∧
          access a1 (p ++ k :: q) = .ok (some y) ∧ val x = val y) := by
  have A0 := w0.isArr
  have A1 := w1.isArr
  have hw0 := A0.shape.2 (l0, h0) (by simp)
  have hw1 := A1.shape.2 (l1, h1) (by simp)
  simp only at hw0 hw1
  obtain ⟨n0, hn0⟩ : ∃ n : Nat, h0 - l0 + 1 = n := ⟨(h0 - l0 + 1).toNat, by omega⟩
  obtain ⟨n1, hn1⟩ : ∃ n : Nat, h1 - l1 + 1 = n := ⟨(h1 - l1 + 1).toNat, by omega⟩
  obtain ⟨cP, hP⟩ : ∃ n : Nat, count P = n := ⟨(count P).toNat, by have := count_nonneg P; omega⟩
  obtain ⟨cQ, hQ⟩ : ∃ n : Nat, count Q = n := ⟨(count Q).toNat, by have := count_nonneg Q; omega⟩
  have m0 : Max.max 0 (n0 : Int) = n0 := max_eq_right (by omega)
  have m1 : Max.max 0 (n1 : Int) = n1 := max_eq_right (by omega)
  have t0 : E0.length = cP * (n0 * cQ) := by
    have := A0.total
    rw [count_append, count, hn0, m0, hP, hQ] at this
    exact_mod_cast this.symm
  have t1 : E1.length = cP * (n1 * cQ) := by
    have := A1.total
    rw [count_append, count, hn1, m1, hP, hQ] at this
    exact_mod_cast this.symm
  have bb0 := boundsFrom_eq A0.lo A0.hi _ 0 (by rw [Nat.zero_add])
  have bb1 := boundsFrom_eq A1.lo A1.hi _ 0 (by rw [Nat.zero_add])
  rw [← A0.nd] at bb0
  rw [← A1.nd] at bb1
  have hnd : ndims a0 = ndims a1 := by rw [A0.nd, A1.nd]; simp
  have hcd := concatDims_eq Q (l0, h0) (l1, h1) P 0 (P.length + 1) (by omega)
  have hmid : (h0 - l0 + 1 + h1 - l1 + 1 : Int) = (n0 : Int) + n1 := by omega
  simp only [hmid] at hcd
  have hshape : Shape (P ++ (1, (n0 : Int) + n1) :: Q) := by
    refine ⟨by simp, fun p hp => ?_⟩
    simp only [List.mem_append, List.mem_cons] at hp
    rcases hp with hp | rfl | hp
    · exact A0.shape.2 p (by simp [hp])
    · simp only; omega
    · exact A0.shape.2 p (by simp [hp])
  have mm : Max.max 0 ((n0 : Int) + n1 - 1 + 1) = n0 + n1 := by rw [max_eq_right (by omega)]; ring
  have hcount : count (P ++ (1, (n0 : Int) + n1) :: Q) = ((cP * ((n0 + n1) * cQ) : Nat) : Int) := by
    rw [count_append, count, mm, hP, hQ]; push_cast; ring
  have hprod : (prodW (P ++ (1, (n0 : Int) + n1) :: Q)).toNat = cP * ((n0 + n1) * cQ) := by
    rw [prodW_eq hshape.2, hcount, Int.toNat_natCast]
  have hprodQ : prodW Q = cQ := by
    rw [prodW_eq (fun p hp => A0.shape.2 p (by simp [hp])), hQ]
  rw [hn0, hn1]
  -- the copied elements
  have hR : ∃ R, concatIndex eqv a0 a1 (P.length + 1) = .ok (mkDims eqv R (P ++ (1, (n0 : Int) + n1) :: Q)) ∧
      R.length = cP * ((n0 + n1) * cQ) ∧
      (∀ b j, b < cP → j < n0 * cQ → R[b * (n0 * cQ + n1 * cQ) + j]? = E0[b * (n0 * cQ) + j]?) ∧
      (∀ b j, b < cP → j < n1 * cQ → R[b * (n0 * cQ + n1 * cQ) + (n0 * cQ + j)]? = E1[b * (n1 * cQ) + j]?) := by
    unfold concatIndex
    rw [if_neg (not_not.2 hnd)]
    simp only [bb0, bb1, Res.ok_bind, List.drop_zero, hcd, hprod]
    by_cases hz : cP * ((n0 + n1) * cQ) = 0
    · rw [if_pos hz]
      refine ⟨[], rfl, by simp [hz], ?_, ?_⟩
      · intro b j hb hj
        exfalso
        have h1 : cP ≠ 0 := by omega
        have h2 : n0 ≠ 0 := by rintro rfl; simp at hj
        have h3 : cQ ≠ 0 := by rintro rfl; simp at hj
        have h4 : n0 + n1 ≠ 0 := by omega
        simp [h1, h3, h4] at hz
        omega
      · intro b j hb hj
        exfalso
        have h1 : cP ≠ 0 := by omega
        have h2 : n1 ≠ 0 := by rintro rfl; simp at hj
        have h3 : cQ ≠ 0 := by rintro rfl; simp at hj
        have h4 : n0 + n1 ≠ 0 := by omega
        simp [h1, h3, h4] at hz
        omega
    · rw [if_neg hz]
      have hdrop : (P ++ (1, (n0 : Int) + n1) :: Q).drop (P.length + 1) = Q := by
        rw [List.drop_append]; simp
      have g0 : (P ++ (l0, h0) :: Q)[P.length]? = some (l0, h0) := by simp
      have g1 : (P ++ (l1, h1) :: Q)[P.length]? = some (l1, h1) := by simp
      simp only [Nat.add_sub_cancel, A0.lo _ _ g0, A0.hi _ _ g0, A1.lo _ _ g1, A1.hi _ _ g1, Res.ok_bind, hdrop, hprodQ, hn0, hn1]
      have e0 : ((n0 : Int) * cQ).toNat = n0 * cQ := by rw [← Int.natCast_mul, Int.toNat_natCast]
      have e1 : ((n1 : Int) * cQ).toNat = n1 * cQ := by rw [← Int.natCast_mul, Int.toNat_natCast]
      have hpos : 0 < (n0 + n1) * cQ := by
        rcases Nat.eq_zero_or_pos ((n0 + n1) * cQ) with h | h
        · rw [h] at hz; simp at hz
        · exact h
      have ed : cP * ((n0 + n1) * cQ) / (n0 * cQ + n1 * cQ) = cP := by
        rw [← Nat.add_mul]; exact Nat.mul_div_cancel _ hpos
      rw [e0, e1, ed]
      obtain ⟨R, r1, r2, r3, r4⟩ := concatBlocks_eq A0 A1 (n0 * cQ) (n1 * cQ) cP 0 0 (by omega) (by omega)
      refine ⟨R, by rw [r1]; rfl, by rw [r2, Nat.add_mul], ?_, ?_⟩
      · intro b j hb hj; rw [r3 b j hb hj, Nat.zero_add]
      · intro b j hb hj; rw [r4 b j hb hj, Nat.zero_add]
  obtain ⟨R, hRe, hRl, g0, g1⟩ := hR
  obtain ⟨E, hW, hE⟩ := compress_wf hv (v := R) hshape (by rw [hcount, hRl])
  refine ⟨_, E, hRe, hW.isArr, ?_⟩
  intro p q hp hq
  obtain ⟨rp0, rp1⟩ := rank_bounds hp
  obtain ⟨rq0, rq1⟩ := rank_bounds hq
  obtain ⟨b, hb⟩ : ∃ b : Nat, rank P p = b := ⟨(rank P p).toNat, by omega⟩
  obtain ⟨j, hj⟩ : ∃ j : Nat, rank Q q = j := ⟨(rank Q q).toNat, by omega⟩
  have hpl := inBox_length hp
  constructor
  · intro k hk0 hk1
    obtain ⟨m, hm⟩ : ∃ m : Nat, k - l0 = m := ⟨(k - l0).toNat, by omega⟩
    have hbox : InBox (P ++ (1, (n0 : Int) + n1) :: Q) (p ++ (k - l0 + 1) :: q) :=
      inBox_append hp ⟨by omega, by omega, hq⟩
    have hbox0 : InBox (P ++ (l0, h0) :: Q) (p ++ k :: q) := inBox_append hp ⟨hk0, hk1, hq⟩
    have rb : (rank (P ++ (1, (n0 : Int) + n1) :: Q) (p ++ (k - l0 + 1) :: q)).toNat = b * (n0 * cQ + n1 * cQ) + (m * cQ + j) := by
      rw [rank_mid hpl, mm, hb, hj, hQ, show k - l0 + 1 - 1 = (m : Int) by omega]
      rw [← Nat.add_mul]; norm_cast
    have ra : (rank (P ++ (l0, h0) :: Q) (p ++ k :: q)).toNat = b * (n0 * cQ) + (m * cQ + j) := by
      rw [rank_mid hpl, hn0, m0, hb, hj, hQ, hm]; norm_cast
    obtain ⟨y, hy1, hy2⟩ := (C18_access a0 _ E0 A0 _ (inBox_length hbox0)).1 hbox0
    rw [ra] at hy1
    have hlt : m * cQ + j < n0 * cQ := by
      have : (m + 1) * cQ ≤ n0 * cQ := Nat.mul_le_mul_right _ (by omega)
      rw [Nat.add_mul, Nat.one_mul] at this; omega
    have hx := g0 b (m * cQ + j) (by omega) hlt
    rw [hy1] at hx
    rw [← rb] at hx
    obtain ⟨x, hx1, hx2⟩ := access_of hW.isArr hE hbox hx
    exact ⟨x, y, hx1, hy2, hx2⟩
  · intro k hk0 hk1
    obtain ⟨m, hm⟩ : ∃ m : Nat, k - l1 = m := ⟨(k - l1).toNat, by omega⟩
    have hbox : InBox (P ++ (1, (n0 : Int) + n1) :: Q) (p ++ ((n0 : Int) + (k - l1 + 1)) :: q) :=
      inBox_append hp ⟨by omega, by omega, hq⟩
    have hbox1 : InBox (P ++ (l1, h1) :: Q) (p ++ k :: q) := inBox_append hp ⟨hk0, hk1, hq⟩
    have rb : (rank (P ++ (1, (n0 : Int) + n1) :: Q) (p ++ ((n0 : Int) + (k - l1 + 1)) :: q)).toNat =
        b * (n0 * cQ + n1 * cQ) + (n0 * cQ + (m * cQ + j)) := by
      rw [rank_mid hpl, mm, hb, hj, hQ, show (n0 : Int) + (k - l1 + 1) - 1 = ((n0 + m : Nat) : Int) by omega]
      rw [← Nat.add_mul, ← Nat.add_assoc (n0 * cQ), ← Nat.add_mul]; norm_cast
    have ra : (rank (P ++ (l1, h1) :: Q) (p ++ k :: q)).toNat = b * (n1 * cQ) + (m * cQ + j) := by
      rw [rank_mid hpl, hn1, m1, hb, hj, hQ, hm]; norm_cast
    obtain ⟨y, hy1, hy2⟩ := (C18_access a1 _ E1 A1 _ (inBox_length hbox1)).1 hbox1
    rw [ra] at hy1
    have hlt : m * cQ + j < n1 * cQ := by
      have : (m + 1) * cQ ≤ n1 * cQ := Nat.mul_le_mul_right _ (by omega)
      rw [Nat.add_mul, Nat.one_mul] at this; omega
    have hx := g1 b (m * cQ + j) (by omega) hlt
    rw [hy1] at hx
    rw [← rb] at hx
    obtain ⟨x, hx1, hx2⟩ := access_of hW.isArr hE hbox hx
    exact ⟨x, y, hx1, hy2, hx2⟩

namespace Arr
variable {α β : Type}

theorem sliceAll_inside : ∀ {sets : List (List Range)} {D S : List (Int × Int)}, sliceAll sets D = some S →
    sets.length = D.length → Inside S D
  | [], [], S, h, _ => by simp only [sliceAll, Option.some.injEq] at h; subst h; trivial
  | s :: r, (lo, hi) :: D, S, h, hl => by
    simp only [sliceAll] at h
    cases h1 : sliceOne s (lo, hi) with
    | none => rw [h1] at h; cases h
    | some p =>
      rw [h1] at h
      cases h2 : sliceAll r D with
      | none => rw [h2] at h; cases h
      | some t =>
        rw [h2] at h
        simp only [Option.some.injEq] at h
        subst h
        have ih := sliceAll_inside h2 (by simpa using hl)
        obtain ⟨a, b⟩ := p
        refine ⟨?_, ih⟩
        match s, h1 with
        | [], h1 => simp only [sliceOne, Option.some.injEq, Prod.mk.injEq] at h1; omega
        | [r], h1 =>
          simp only [sliceOne] at h1
          split at h1
          · cases h1
          · simp only [Option.some.injEq, Prod.mk.injEq] at h1; omega
        | _ :: _ :: _, h1 => simp [sliceOne] at h1
  | [], _ :: _, _, _, hl => by simp at hl
  | _ :: _, [], _, _, hl => by simp at hl

theorem newDims_eq : ∀ {D : List (Int × Int)}, Fits D → newDims (D.map rangeSet) = .ok D
  | [], _ => rfl
  | p :: D, h => by
    have ih := newDims_eq (D := D) (fun q hq => h q (by simp [hq]))
    have h1 : newDim (rangeSet p) = .ok p := by
      rcases h p (by simp) with rfl | ⟨h1, h2, h3, h4⟩
      · rfl
      · rw [rangeSet_range h1]
        simp only [newDim, List.getLast_singleton, i32_id h2 (show p.1 ≤ 2147483647 by omega),
          i32_id (show -2147483648 ≤ p.2 by omega) h3]
    simp only [List.map_cons, newDims, h1, ih, Res.ok_bind]

end Arr

/-- What a slice set asks for in a dimension with index set `lo..hi`: nothing, or the elements from `a` to `b`; a missing
bound is the bound of the index set. -/
inductive SliceAsk : List Range → Int × Int → Int × Int → Prop
  | empty (b : Int × Int) : SliceAsk [] b (1, 0)
  | closed (b : Int × Int) (x y : Int) : SliceAsk [⟨.fin x, .fin y⟩] b (x, y)
  | up (b : Int × Int) (x : Int) : SliceAsk [⟨.fin x, .posInf⟩] b (x, b.2)
  | down (b : Int × Int) (y : Int) : SliceAsk [⟨.negInf, .fin y⟩] b (b.1, y)
  | all (b : Int × Int) : SliceAsk [⟨.negInf, .posInf⟩] b b

/-- The slice sets, one per dimension. -/
inductive SliceAsks : List (List Range) → List (Int × Int) → List (Int × Int) → Prop
  | nil : SliceAsks [] [] []
  | cons {s : List Range} {b p : Int × Int} {sets : List (List Range)} {D S : List (Int × Int)} :
      SliceAsk s b p → SliceAsks sets D S → SliceAsks (s :: sets) (b :: D) (p :: S)

/-- The bounds of a range fit into `int`. -/
def Fits1 (p : Int × Int) : Prop := -2147483648 ≤ p.1 ∧ p.1 ≤ 2147483647 ∧ -2147483648 ≤ p.2 ∧ p.2 ≤ 2147483647

namespace Arr

theorem sliceOne_ask {s : List Range} {b p : Int × Int} (h : SliceAsk s b p) (hp : Fits1 p) :
    (s = [] ∨ (b.1 ≤ p.1 ∧ p.2 ≤ b.2) → sliceOne s b = some p) ∧
      (s ≠ [] → ¬ (b.1 ≤ p.1 ∧ p.2 ≤ b.2) → sliceOne s b = none) := by
  obtain ⟨f1, f2, f3, f4⟩ := hp
  cases h with
  | empty b => exact ⟨fun _ => rfl, fun h => absurd rfl h⟩
  | closed b x y =>
    simp only at f1 f2 f3 f4
    simp only [sliceOne, orBound, i32_id f1 f2, i32_id f3 f4]
    constructor
    · rintro (h | h)
      · cases h
      · rw [if_neg (by omega)]
    · intro _ h; rw [if_pos (by omega)]
  | up b x =>
    simp only at f1 f2
    simp only [sliceOne, orBound, i32_id f1 f2]
    constructor
    · rintro (h | h)
      · cases h
      · rw [if_neg (by omega)]
    · intro _ h; rw [if_pos (by omega)]
  | down b y =>
    simp only at f3 f4
    simp only [sliceOne, orBound, i32_id f3 f4]
    constructor
    · rintro (h | h)
      · cases h
      · rw [if_neg (by omega)]
    · intro _ h; rw [if_pos (by omega)]
  | all b =>
    constructor
    · intro _; simp [sliceOne, orBound]
    · intro _ h; omega

/-- Each slice set is empty or its range is inside the index set. -/
def AskOk : List (List Range) → List (Int × Int) → List (Int × Int) → Prop
  | s :: sets, b :: D, p :: S => (s = [] ∨ (b.1 ≤ p.1 ∧ p.2 ≤ b.2)) ∧ AskOk sets D S
  | _, _, _ => True

theorem sliceAll_ask : ∀ {sets : List (List Range)} {D S : List (Int × Int)}, SliceAsks sets D S → (∀ p ∈ S, Fits1 p) →
    (AskOk sets D S → sliceAll sets D = some S) ∧ (¬ AskOk sets D S → sliceAll sets D = none) := by
  intro sets D S h
  induction h with
  | nil => exact fun _ => ⟨fun _ => rfl, fun h => absurd trivial h⟩
  | @cons s b p sets D S h1 h2 ih =>
    intro hf
    obtain ⟨i1, i2⟩ := ih (fun q hq => hf q (by simp [hq]))
    obtain ⟨o1, o2⟩ := sliceOne_ask h1 (hf p (by simp))
    constructor
    · rintro ⟨a, b⟩
      simp only [sliceAll, o1 a, i1 b]
    · intro hn
      simp only [AskOk, not_and_or] at hn
      by_cases ha : s = [] ∨ (b.1 ≤ p.1 ∧ p.2 ≤ b.2)
      · have := i2 (by rcases hn with h | h <;> [exact absurd ha h; exact h])
        simp only [sliceAll, o1 ha, this]
      · simp only [not_or] at ha
        simp only [sliceAll, o2 ha.1 ha.2]

end Arr

open Arr in
/-- **C49**, slicing `a[S1, …, Sn]`: if every slice set is empty or inside the index set (a missing bound meaning the bound of the index
set), the result is the array with the given index sets whose elements are those of `a` at the indices in the ranges,
in row-major order; otherwise the result is undefined. -/
theorem C49_slice {α : Type} (a : Lit α) (D : List (Int × Int)) (E : List α) (h : Wf a D E) (sets : List (List Range))
    (S D' : List (Int × Int)) (hask : SliceAsks sets D S) (hfit : ∀ p ∈ S, Fits1 p) (hf : Fits D') (hn : D' ≠ [])
    (hc : count D' = count S) :
    (AskOk sets D S → ∃ b E', bSlice a sets (D'.map rangeSet) = .ok (some b) ∧ Wf b D' E' ∧ IsArr b D' E' ∧
      (E'.length : Int) = count S ∧
      ∀ t, InBox S t → ∃ e, access a t = .ok (some e) ∧ get b (rank S t).toNat = .ok e) ∧
    (¬ AskOk sets D S → bSlice a sets (D'.map rangeSet) = .ok none) := by
  have A := h.isArr
  have hb := boundsFrom_eq A.lo A.hi D.length 0 (by omega)
  rw [← A.nd] at hb
  obtain ⟨s1, s2⟩ := sliceAll_ask hask hfit
  have hl : sets.length = D.length := by
    clear * - hask
    induction hask with
    | nil => rfl
    | cons _ _ ih => simp [ih]
  constructor
  · intro hok
    have hi := sliceAll_inside (s1 hok) hl
    obtain ⟨b, E', h1, h2, h3, h4, h5⟩ := C19_slice a D E h S D' hi (hf.shape hn) hc
    refine ⟨b, E', ?_, h2, h3, h4, ?_⟩
    · simp only [bSlice, hb, Res.ok_bind, List.drop_zero, s1 hok, newDims_eq hf, h1]
    · intro t ht
      obtain ⟨e, _, _, h6, h7⟩ := h5 t ht
      exact ⟨e, h7, h6⟩
  · intro hno
    simp only [bSlice, hb, Res.ok_bind, List.drop_zero, s2 hno]

namespace Arr
variable {α β : Type}

theorem upFrom_mem : ∀ (n : Nat) (lo x : Int), x ∈ upFrom lo n ↔ lo ≤ x ∧ x < lo + n
  | 0, lo, x => by simp [upFrom]
  | n + 1, lo, x => by simp only [upFrom, List.mem_cons, upFrom_mem n]; push_cast; omega

theorem upFrom_sorted : ∀ (n : Nat) (lo : Int), (upFrom lo n).Pairwise (· < ·)
  | 0, _ => .nil
  | n + 1, lo => .cons (fun x hx => by rw [upFrom_mem] at hx; omega) (upFrom_sorted n (lo + 1))

/-- The values of a finite set in normal form: its members, in increasing order. -/
theorem valuesOf_spec : ∀ {s : List Range}, Normal s → (∀ r ∈ s, ∃ a b, r = ⟨.fin a, .fin b⟩) →
    (valuesOf s).Pairwise (· < ·) ∧ ∀ x, x ∈ valuesOf s ↔ Mem x s
  | [], _, _ => ⟨.nil, by simp [valuesOf, Mem]⟩
  | r :: s, hn, hf => by
    obtain ⟨a, b, rfl⟩ := hf r (by simp)
    obtain ⟨n1, n2⟩ := hn
    rw [List.pairwise_cons] at n2
    obtain ⟨i1, i2⟩ := valuesOf_spec (s := s) ⟨fun q hq => n1 q (by simp [hq]), n2.2⟩ (fun q hq => hf q (by simp [hq]))
    have hab : a ≤ b := by have := (n1 _ (by simp : (⟨.fin a, .fin b⟩ : Range) ∈ _)).1; simpa using this
    have hm : ∀ x, x ∈ upFrom a (b - a + 1).toNat ↔ a ≤ x ∧ x ≤ b := by intro x; rw [upFrom_mem]; omega
    constructor
    · simp only [valuesOf]
      rw [List.pairwise_append]
      refine ⟨upFrom_sorted _ _, i1, ?_⟩
      intro x hx y hy
      rw [hm] at hx
      rw [i2] at hy
      obtain ⟨q, hq, hq1, _⟩ := hy
      have hlt := n2.1 q hq
      have : Ext.fin (b + 1) < Ext.fin y := lt_of_lt_of_le (by simpa using hlt) hq1
      have := Ext.fin_lt_fin.1 this
      omega
    · intro x
      simp only [valuesOf, List.mem_append, hm, i2]
      constructor
      · rintro (h | ⟨q, hq, h⟩)
        · exact ⟨⟨.fin a, .fin b⟩, by simp, by simpa [Range.Mem] using h⟩
        · exact ⟨q, by simp [hq], h⟩
      · rintro ⟨q, hq, h⟩
        simp only [List.mem_cons] at hq
        rcases hq with rfl | hq
        · left; simpa [Range.Mem] using h
        · right; exact ⟨q, hq, h⟩

theorem inside_refl : ∀ (D : List (Int × Int)), Inside D D
  | [] => trivial
  | (_, _) :: D => ⟨by omega, inside_refl D⟩

theorem inside_mid (Q : List (Int × Int)) {lo hi x y : Int} (h : y < x ∨ (lo ≤ x ∧ y ≤ hi)) : ∀ P : List (Int × Int),
    Inside (P ++ (x, y) :: Q) (P ++ (lo, hi) :: Q)
  | [] => ⟨h, inside_refl Q⟩
  | (_, _) :: P => ⟨by omega, inside_mid Q h P⟩

theorem set_mid (P Q : List (Int × Int)) (x y : Int × Int) : (P ++ x :: Q).set P.length y = P ++ y :: Q := by
  induction P with
  | nil => rfl
  | cons a P ih => simp [ih]

end Arr

open Arr in
/-- **C49**, selection of a range of one dimension, or of nothing: the result has that index set in the dimension and agrees with the
array at all its indices. A range that is not inside the index set is undefined. -/
theorem C49_select_range {α : Type} (eqv : α → α → Bool) (a : Lit α) (P Q : List (Int × Int)) (lo hi : Int) (E : List α)
    (h : Wf a (P ++ (lo, hi) :: Q) E) (p : Int × Int) (hp : p = (1, 0) ∨ (p.1 ≤ p.2 ∧ Fits1 p)) :
    (p = (1, 0) ∨ (lo ≤ p.1 ∧ p.2 ≤ hi) → ∃ b E', selectIndex eqv a (P.length + 1) (rangeSet p) = .ok (some b) ∧
      IsArr b (P ++ p :: Q) E' ∧ ∀ t, InBox (P ++ p :: Q) t → ∃ e, access b t = .ok (some e) ∧ access a t = .ok (some e)) ∧
    (p ≠ (1, 0) → ¬ (lo ≤ p.1 ∧ p.2 ≤ hi) → selectIndex eqv a (P.length + 1) (rangeSet p) = .ok none) := by
  have A := h.isArr
  have hb := boundsFrom_eq A.lo A.hi _ 0 (by rw [Nat.zero_add])
  rw [← A.nd] at hb
  have hg : (P ++ (lo, hi) :: Q)[P.length]? = some (lo, hi) := by simp
  have hlen : (rangeSet p).length ≤ 1 := by
    rcases hp with rfl | ⟨h1, _⟩
    · rw [rangeSet_empty]; simp
    · rw [rangeSet_range h1]; simp
  have hask : SliceAsk (rangeSet p) (lo, hi) p := by
    rcases hp with rfl | ⟨h1, _⟩
    · rw [rangeSet_empty]; exact .empty _
    · rw [rangeSet_range h1]; exact .closed _ _ _
  have hfp : Fits1 p := by
    rcases hp with rfl | ⟨_, h2⟩
    · simp [Fits1]
    · exact h2
  have hemp : p = (1, 0) ↔ rangeSet p = [] := by
    constructor
    · rintro rfl; exact rangeSet_empty
    · intro he
      rcases hp with h | ⟨h1, _⟩
      · exact h
      · rw [rangeSet_range h1] at he; cases he
  obtain ⟨o1, o2⟩ := sliceOne_ask hask hfp
  have hsel : selectIndex eqv a (P.length + 1) (rangeSet p) =
      if rangeSet p = [⟨.fin lo, .fin hi⟩] then .ok (some a)
      else match sliceOne (rangeSet p) (lo, hi) with
        | none => .ok none
        | some p => (do
          let r ← mkSlice a (P ++ p :: Q) (P ++ p :: Q)
          .ok (some r)) := by
    unfold selectIndex
    rw [hb]
    simp only [Res.ok_bind, List.drop_zero, Nat.add_sub_cancel, hg, if_pos hlen, set_mid]
    rfl
  rw [hsel]
  constructor
  · intro hin
    by_cases hw : rangeSet p = [⟨.fin lo, .fin hi⟩]
    · rw [if_pos hw]
      have hpe : p = (lo, hi) := by
        rcases hp with rfl | ⟨h1, _⟩
        · rw [rangeSet_empty] at hw; cases hw
        · rw [rangeSet_range h1] at hw
          simp only [List.cons.injEq, Range.mk.injEq, Ext.fin.injEq, and_true] at hw
          exact Prod.ext hw.1 hw.2
      rw [hpe]
      refine ⟨a, E, rfl, A, fun t ht => ?_⟩
      obtain ⟨e, _, he⟩ := (C18_access a _ E A t (inBox_length ht)).1 ht
      exact ⟨e, he, he⟩
    · rw [if_neg hw, o1 (by rw [← hemp]; exact hin)]
      have hsh : Shape (P ++ p :: Q) := by
        refine ⟨by simp, fun q hq => ?_⟩
        simp only [List.mem_append, List.mem_cons] at hq
        rcases hq with hq | rfl | hq
        · exact A.shape.2 q (by simp [hq])
        · rcases hp with rfl | ⟨h1, _⟩ <;> [decide; omega]
        · exact A.shape.2 q (by simp [hq])
      have hins : Inside (P ++ p :: Q) (P ++ (lo, hi) :: Q) := by
        obtain ⟨x, y⟩ := p
        refine inside_mid Q ?_ P
        rcases hin with h | h
        · simp only [Prod.mk.injEq] at h; omega
        · exact Or.inr h
      obtain ⟨b, E', h1, h2, h3, h4, h5⟩ := C19_slice a _ E h _ _ hins hsh rfl
      refine ⟨b, E', by simp only [h1, Res.ok_bind], h3, fun t ht => ?_⟩
      obtain ⟨e, _, he', _, hacc⟩ := h5 t ht
      obtain ⟨e2, g1, g2⟩ := (C18_access b _ E' h3 t (inBox_length ht)).1 ht
      rw [he'] at g1; cases g1
      exact ⟨e, g2, hacc⟩
  · intro hne hout
    have hr : rangeSet p ≠ [] := fun hc => hne (hemp.2 hc)
    have hw : rangeSet p ≠ [⟨.fin lo, .fin hi⟩] := by
      intro hw
      rcases hp with h | ⟨h1, _⟩
      · exact hne h
      · rw [rangeSet_range h1] at hw
        simp only [List.cons.injEq, Range.mk.injEq, Ext.fin.injEq, and_true] at hw
        omega
    rw [if_neg hw, o2 hr hout]

open Arr in
/-- **C49**, selection of a set with gaps: the result has the index set `1..n` in the dimension and its `k`-th layer is the layer of the
array at the `k`-th smallest value of the set. A set that is not inside the index set is undefined. -/
theorem C49_select_set {α β : Type} (eqv : α → α → Bool) (val : α → β) (hv : ∀ x y, eqv x y = true → val x = val y) (a : Lit α)
    (P Q : List (Int × Int)) (lo hi : Int) (E : List α) (h : Wf a (P ++ (lo, hi) :: Q) E) (sel : List Range)
    (hs : 2 ≤ sel.length) (hnf : Normal sel) (hfin : ∀ r ∈ sel, ∃ a b, r = ⟨.fin a, .fin b⟩) :
    ∃ vs : List Int, vs.Pairwise (· < ·) ∧ (∀ x, x ∈ vs ↔ Mem x sel) ∧
      ((∀ x, Mem x sel → lo ≤ x ∧ x ≤ hi) → ∃ b E', selectIndex eqv a (P.length + 1) sel = .ok (some b) ∧
        IsArr b (P ++ ((1 : Int), (vs.length : Int)) :: Q) E' ∧
        ∀ p q, InBox P p → InBox Q q → ∀ (k : Nat) (v : Int), vs[k]? = some v →
          ∃ x y, access b (p ++ (k + 1 : Int) :: q) = .ok (some x) ∧ access a (p ++ v :: q) = .ok (some y) ∧ val x = val y) ∧
      ((∃ x, Mem x sel ∧ ¬ (lo ≤ x ∧ x ≤ hi)) → selectIndex eqv a (P.length + 1) sel = .ok none) := by
  obtain ⟨v1, v2⟩ := valuesOf_spec hnf hfin
  refine ⟨valuesOf sel, v1, v2, ?_⟩
  have A := h.isArr
  have hb := boundsFrom_eq A.lo A.hi _ 0 (by rw [Nat.zero_add])
  rw [← A.nd] at hb
  have hg : (P ++ (lo, hi) :: Q)[P.length]? = some (lo, hi) := by simp
  have hany : sel.any (fun r => decide (r.lo < .fin lo) || decide (r.hi > .fin hi)) = true ↔ ∃ x, Mem x sel ∧ ¬ (lo ≤ x ∧ x ≤ hi) := by
    rw [List.any_eq_true]
    constructor
    · rintro ⟨r, hr, hd⟩
      obtain ⟨x, y, rfl⟩ := hfin r hr
      have hxy : x ≤ y := by simpa using (hnf.1 _ hr).1
      simp only [Bool.or_eq_true, decide_eq_true_eq, gt_iff_lt, Ext.fin_lt_fin] at hd
      rcases hd with hd | hd
      · exact ⟨x, ⟨_, hr, by simp [Range.Mem, hxy]⟩, by omega⟩
      · exact ⟨y, ⟨_, hr, by simp [Range.Mem, hxy]⟩, by omega⟩
    · rintro ⟨z, ⟨r, hr, hz⟩, ho⟩
      obtain ⟨x, y, rfl⟩ := hfin r hr
      simp only [Range.Mem, Ext.fin_le_fin] at hz
      refine ⟨_, hr, ?_⟩
      simp only [Bool.or_eq_true, decide_eq_true_eq, gt_iff_lt, Ext.fin_lt_fin]
      omega
  constructor
  · intro hin
    have hno : ¬ sel.any (fun r => decide (r.lo < .fin lo) || decide (r.hi > .fin hi)) = true := by
      rw [hany]; rintro ⟨x, hx, hc⟩; exact hc (hin x hx)
    generalize hvs : valuesOf sel = vs at *
    have hw := A.shape.2 (lo, hi) (by simp)
    simp only at hw
    obtain ⟨n, hn⟩ : ∃ n : Nat, hi - lo + 1 = n := ⟨(hi - lo + 1).toNat, by omega⟩
    obtain ⟨cP, hP⟩ : ∃ n : Nat, count P = n := ⟨(count P).toNat, by have := count_nonneg P; omega⟩
    obtain ⟨cQ, hQ⟩ : ∃ n : Nat, count Q = n := ⟨(count Q).toNat, by have := count_nonneg Q; omega⟩
    have m0 : Max.max 0 (n : Int) = n := max_eq_right (by omega)
    have t0 : E.length = cP * (n * cQ) := by
      have := A.total
      rw [count_append, count, hn, m0, hP, hQ] at this
      exact_mod_cast this.symm
    have hshape : Shape (P ++ (1, (vs.length : Int)) :: Q) := by
      refine ⟨by simp, fun p hp => ?_⟩
      simp only [List.mem_append, List.mem_cons] at hp
      rcases hp with hp | rfl | hp
      · exact A.shape.2 p (by simp [hp])
      · simp only; omega
      · exact A.shape.2 p (by simp [hp])
    have mm : Max.max 0 ((vs.length : Int) - 1 + 1) = vs.length := by rw [max_eq_right (by omega)]; ring
    have hcount : count (P ++ (1, (vs.length : Int)) :: Q) = ((cP * (vs.length * cQ) : Nat) : Int) := by
      rw [count_append, count, mm, hP, hQ]; push_cast; ring
    have hprod : (prodW (P ++ (1, (vs.length : Int)) :: Q)).toNat = cP * (vs.length * cQ) := by
      rw [prodW_eq hshape.2, hcount, Int.toNat_natCast]
    have hprodQ : prodW Q = cQ := by
      rw [prodW_eq (fun p hp => A.shape.2 p (by simp [hp])), hQ]
    have hdrop : (P ++ (1, (vs.length : Int)) :: Q).drop (P.length + 1) = Q := by
      rw [List.drop_append]; simp
    have hvn : 0 < vs.length := by
      obtain ⟨r, hr⟩ : ∃ r, r ∈ sel := by
        cases sel with
        | nil => simp at hs
        | cons r _ => exact ⟨r, by simp⟩
      obtain ⟨x, y, rfl⟩ := hfin r hr
      have hxy : x ≤ y := by simpa using (hnf.1 _ hr).1
      exact List.length_pos_of_mem ((v2 x).2 ⟨_, hr, by simp [Range.Mem, hxy]⟩)
    obtain ⟨R, r1, r2, r3⟩ := selectBlocks_eq A cQ n lo vs (fun v hv => by
      have := hin v ((v2 v).1 hv); omega) (cP * (vs.length * cQ) / (vs.length * cQ)) 0 (by
        rw [t0, Nat.zero_add]
        rcases Nat.eq_zero_or_pos cQ with hz | hz
        · simp [hz]
        · rw [Nat.mul_div_cancel _ (Nat.mul_pos hvn hz)])
    have hRl : R.length = cP * (vs.length * cQ) := by
      rw [r2]
      rcases Nat.eq_zero_or_pos cQ with hz | hz
      · simp [hz]
      · rw [Nat.mul_div_cancel _ (Nat.mul_pos hvn hz)]
    have hsel : selectIndex eqv a (P.length + 1) sel = .ok (some (mkDims eqv R (P ++ (1, (vs.length : Int)) :: Q))) := by
      unfold selectIndex
      rw [hb]
      simp only [Res.ok_bind, List.drop_zero, Nat.add_sub_cancel, hg, hvs, set_mid, hprod, hdrop, hprodQ, hn, Int.toNat_natCast]
      rw [if_neg (by omega), if_neg hno, r1]; rfl
    obtain ⟨E', hW, hE⟩ := compress_wf hv (v := R) hshape (by rw [hcount, hRl])
    refine ⟨_, E', hsel, hW.isArr, ?_⟩
    intro p q hp hq k v hk
    obtain ⟨rp0, rp1⟩ := rank_bounds hp
    obtain ⟨rq0, rq1⟩ := rank_bounds hq
    obtain ⟨b, hb⟩ : ∃ b : Nat, rank P p = b := ⟨(rank P p).toNat, by omega⟩
    obtain ⟨j, hj⟩ : ∃ j : Nat, rank Q q = j := ⟨(rank Q q).toNat, by omega⟩
    have hpl := inBox_length hp
    have hkl : k < vs.length := by
      by_contra hc
      rw [List.getElem?_eq_none (by omega)] at hk; cases hk
    have hvin := hin v ((v2 v).1 (List.mem_of_getElem? hk))
    obtain ⟨m, hm⟩ : ∃ m : Nat, v - lo = m := ⟨(v - lo).toNat, by omega⟩
    have hbox : InBox (P ++ (1, (vs.length : Int)) :: Q) (p ++ (k + 1 : Int) :: q) := inBox_append hp ⟨by omega, by omega, hq⟩
    have hbox0 : InBox (P ++ (lo, hi) :: Q) (p ++ v :: q) := inBox_append hp ⟨hvin.1, hvin.2, hq⟩
    have rb : (rank (P ++ (1, (vs.length : Int)) :: Q) (p ++ (k + 1 : Int) :: q)).toNat = b * (vs.length * cQ) + (k * cQ + j) := by
      rw [rank_mid hpl, mm, hb, hj, hQ, show (k : Int) + 1 - 1 = (k : Int) by omega]; norm_cast
    have ra : (rank (P ++ (lo, hi) :: Q) (p ++ v :: q)).toNat = b * (n * cQ) + (m * cQ + j) := by
      rw [rank_mid hpl, hn, m0, hb, hj, hQ, hm]; norm_cast
    obtain ⟨y, hy1, hy2⟩ := (C18_access a _ E A _ (inBox_length hbox0)).1 hbox0
    have hcq : 0 < cQ := by omega
    have hx := r3 b k v j (by rw [Nat.mul_div_cancel _ (Nat.mul_pos hvn hcq)]; omega) hk (by omega)
    rw [Nat.zero_add, hm, Int.toNat_natCast, ← ra, hy1, ← rb] at hx
    obtain ⟨x, hx1, hx2⟩ := access_of hW.isArr hE hbox hx
    exact ⟨x, y, hx1, hy2, hx2⟩
  · intro hout
    unfold selectIndex
    rw [hb]
    simp only [Res.ok_bind, List.drop_zero, Nat.add_sub_cancel, hg]
    rw [if_neg (by omega), if_pos (hany.2 hout)]

open Arr in
/-- **C49**, where it fails: selecting from an index on without upper bound that starts two or more past the end of the index set is
not undefined, as documented; the result is an array whose length is -1 (4294967295 as `unsigned int`). -/
theorem C49_select_fails :
    (do let r ← selectIndex (fun a b : Nat => a == b) (mk1 (fun a b : Nat => a == b) [1, 2, 3]) 1 [⟨.fin 5, .posInf⟩]
        match r with
        | none => Res.ok none
        | some b => do let n ← size b; Res.ok (some n)) = .ok (some (-1)) := by rfl

/-! Non-vacuity. -/
section
open Arr
example : (do let r ← selectIndex (fun a b : Nat => a == b) (.vec [1, 2, 3, 4, 5, 6] false [0, 1, 1, 3]) 2 [⟨.fin 1, .fin 1⟩, ⟨.fin 3, .fin 3⟩]
              match r with
              | none => Res.ok []
              | some b => getRange b 0 4) = .ok [1, 3, 4, 6] := by rfl
example : (do let b ← concatIndex (fun a b : Nat => a == b) (.vec [1, 2, 3, 4] false [1, 2, 1, 2]) (.vec [5, 6] false [1, 2, 1, 1]) 2
              getRange b 0 6) = .ok [1, 2, 5, 3, 4, 6] := by rfl
example : Normal [⟨.fin 1, .fin 1⟩, ⟨.fin 3, .fin 3⟩] := by simp [Normal]
example : Fits [(1, 3), (1, 0)] := by simp [Fits]
example : SliceAsks [[⟨.fin 2, .posInf⟩], []] [(1, 3), (1, 2)] [(2, 3), (1, 0)] := .cons (.up _ _) (.cons (.empty _) .nil)
end

end MZ
