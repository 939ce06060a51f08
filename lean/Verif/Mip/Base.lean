import Mathlib.Algebra.Order.Field.Rat
import Mathlib.Data.Rat.Floor
import Mathlib.Order.WithBot
import Mathlib.Tactic.Linarith
import Mathlib.Tactic.Ring

/-! # Sets of intervals (`lib/MIPdomains.cpp` 144–213, 2106–2290)

`double` is modelled by the rational numbers with two infinities, without rounding errors. -/

namespace MZ.Mip

/-- Bounds of intervals: rational numbers and two infinities (`lib/MIPdomains.cpp` 144–161). -/
abbrev E := WithBot (WithTop ℚ)

/-- A finite bound. -/
def fin (q : ℚ) : E := ((q : WithTop ℚ) : WithBot (WithTop ℚ))

/-- `left - delta` and `right + delta`; infinite bounds stay (`lib/MIPdomains.cpp` 2121–2136). -/
def shift (d : ℚ) : E → E
  | ⊥ => ⊥
  | some ⊤ => ⊤
  | some (some q) => fin (q + d)

/-- `Interval` (`lib/MIPdomains.cpp` 144–161). -/
structure Intv where
  left : E
  right : E
deriving DecidableEq

/-- `SetOfIntervals::insert`: empty intervals are skipped, others are put behind those with the same left end
(`lib/MIPdomains.cpp` 186–193; `std::multiset`). -/
def insertI (s : List Intv) (iv : Intv) : List Intv :=
  if iv.right < iv.left then s
  else s.takeWhile (fun e => decide (e.left ≤ iv.left)) ++ iv :: s.dropWhile (fun e => decide (e.left ≤ iv.left))

/-- `SetOfIntervals::cutOut` (`lib/MIPdomains.cpp` 2137–2204) with `split` (2205–2216).  An iterator is a splitting of the list:
`A` are the elements before `it2Del1`, `C` those before `it2`. -/
def cutOut (s : List Intv) (l r : E) : List Intv :=
  if s = [] then []
  else
    let a := if l = ⊥ then s.takeWhile (fun e => decide (e.left < l)) else s.takeWhile (fun e => decide (e.left ≤ l))
    let b := s.drop a.length
    let AB : List Intv × List Intv :=
      match a.getLast? with
      | none => (a, b)
      | some e => if l < e.right then (a.dropLast ++ [⟨e.left, l⟩], ⟨l, e.right⟩ :: b) else (a, b)
    let t := AB.1 ++ AB.2
    let C := t.takeWhile (fun e => decide (e.left < r))
    let D := t.drop C.length
    match C.getLast? with
    | none => AB.1 ++ D
    | some e =>
      if (if r = ⊤ then r < e.right else r ≤ e.right) then
        let t' := C.dropLast ++ insertI D ⟨r, e.right⟩
        if AB.1.length = C.length - 1 then t'
        else t'.take AB.1.length ++ t'.drop (C.dropLast.length + (D.takeWhile (fun e => decide (e.left ≤ r))).length)
      else AB.1 ++ D

/-- `SetOfIntervals::intersect` (`lib/MIPdomains.cpp` 2106–2120), the loop. -/
def cutGaps (s : List Intv) : List Intv → List Intv
  | [] => s
  | [e] => cutOut s e.right ⊤
  | e :: e' :: rest => cutGaps (cutOut s e.right e'.left) (e' :: rest)

/-- `SetOfIntervals::intersect` (`lib/MIPdomains.cpp` 2106–2120). -/
def intersect (s s2 : List Intv) : List Intv :=
  match s2 with
  | [] => []
  | e :: rest => cutGaps (cutOut s ⊥ e.left) (e :: rest)

/-- One step of `SetOfIntervals::cutDeltas` (`lib/MIPdomains.cpp` 2121–2136). -/
def cutDelta (d : ℚ) (s : List Intv) (e : Intv) : List Intv :=
  let s := if e.left ≠ ⊥ then cutOut s (shift (-d) e.left) e.left else s
  if e.right ≠ ⊤ then cutOut s e.right (shift d e.right) else s

/-- `SetOfIntervals::cutDeltas` (`lib/MIPdomains.cpp` 2121–2136). -/
def cutDeltas (s s2 : List Intv) (d : ℚ) : List Intv := s2.foldl (cutDelta d) s

/-! ## The points of a set of intervals -/

/-- The rational number `x` is in the interval. -/
def Intv.has (e : Intv) (x : ℚ) : Prop := e.left ≤ fin x ∧ fin x ≤ e.right

/-- The rational number `x` is in one of the intervals. -/
def Mem (s : List Intv) (x : ℚ) : Prop := ∃ e ∈ s, e.has x

/-- Non-empty intervals in increasing order that do not touch: what `checkDisjunctStrict` tests, and that no interval is at an
infinity (`lib/MIPdomains.cpp` 2233–2249). -/
def Strict (s : List Intv) : Prop :=
  (∀ e ∈ s, e.left ≤ e.right ∧ e.left ≠ ⊤ ∧ e.right ≠ ⊥) ∧ s.Pairwise (fun a b => a.right < b.left)

theorem fin_le {a b : ℚ} : fin a ≤ fin b ↔ a ≤ b := by unfold fin; norm_cast
theorem fin_lt {a b : ℚ} : fin a < fin b ↔ a < b := by unfold fin; norm_cast
theorem fin_ne_bot (a : ℚ) : fin a ≠ ⊥ := by unfold fin; exact WithBot.coe_ne_bot
theorem fin_ne_top (a : ℚ) : fin a ≠ ⊤ := by
  unfold fin; intro h
  have : ((a : WithTop ℚ) : WithBot (WithTop ℚ)) = ((⊤ : WithTop ℚ) : WithBot (WithTop ℚ)) := h
  exact WithTop.coe_ne_top (WithBot.coe_injective this)
theorem fin_inj {a b : ℚ} : fin a = fin b ↔ a = b := by
  constructor
  · intro h; exact le_antisymm (fin_le.mp h.le) (fin_le.mp h.ge)
  · rintro rfl; rfl
theorem shift_fin (d q : ℚ) : shift d (fin q) = fin (q + d) := rfl
theorem E_cases (e : E) : e = ⊥ ∨ e = ⊤ ∨ ∃ q, e = fin q := by
  rcases e with _ | _ | q
  · exact .inl rfl
  · exact .inr (.inl rfl)
  · exact .inr (.inr ⟨q, rfl⟩)

/-! ## What `cutOut` leaves of one interval -/

/-- The remains of one interval: what is at or below `l`, and what is at or above `r`. -/
def pieces (l r : E) (e : Intv) : List Intv :=
  (if l ≠ ⊥ ∧ e.left ≤ l then [⟨e.left, min e.right l⟩] else []) ++
    if r ≠ ⊤ ∧ r ≤ e.right then [⟨max e.left r, e.right⟩] else []

theorem takeWhile_append {α : Type} (p : α → Bool) (a b : List α) (ha : ∀ x ∈ a, p x = true) (hb : ∀ x ∈ b, p x = false) :
    (a ++ b).takeWhile p = a := by
  induction a with
  | nil =>
    cases b with
    | nil => rfl
    | cons x t => simp [hb x (by simp)]
  | cons x t ih => simp [ha x (by simp), ih (fun y hy => ha y (by simp [hy]))]

theorem dropWhile_append' {α : Type} (p : α → Bool) (a b : List α) (ha : ∀ x ∈ a, p x = true) (hb : ∀ x ∈ b, p x = false) :
    (a ++ b).dropWhile p = b := by
  induction a with
  | nil =>
    cases b with
    | nil => rfl
    | cons x t => simp [hb x (by simp)]
  | cons x t ih => simp [ha x (by simp), ih (fun y hy => ha y (by simp [hy]))]

/-- A list whose left ends increase splits at every bound. -/
theorem split_at (p : E → Prop) [DecidablePred p] (hp : ∀ x y, x ≤ y → p y → p x) (s : List Intv)
    (h : s.Pairwise (fun a b => a.left ≤ b.left)) :
    ∃ a b, s = a ++ b ∧ (∀ e ∈ a, p e.left) ∧ ∀ e ∈ b, ¬ p e.left := by
  induction s with
  | nil => exact ⟨[], [], rfl, by simp, by simp⟩
  | cons e t ih =>
    rw [List.pairwise_cons] at h
    by_cases hpe : p e.left
    · obtain ⟨a, b, e1, ha, hb⟩ := ih h.2
      exact ⟨e :: a, b, by rw [e1]; rfl, by simpa using ⟨hpe, ha⟩, hb⟩
    · refine ⟨[], e :: t, rfl, by simp, ?_⟩
      intro f hf
      rcases List.mem_cons.mp hf with rfl | hf
      · exact hpe
      · exact fun hpf => hpe (hp _ _ (h.1 f hf) hpf)

theorem Strict.sorted {s : List Intv} (h : Strict s) : s.Pairwise (fun a b => a.left ≤ b.left) := by
  obtain ⟨h1, h2⟩ := h
  induction s with
  | nil => exact List.Pairwise.nil
  | cons e t ih =>
    rw [List.pairwise_cons] at h2 ⊢
    refine ⟨fun f hf => ?_, ih (fun x hx => h1 x (by simp [hx])) h2.2⟩
    exact ((h1 e (by simp)).1.trans_lt (h2.1 f hf)).le

theorem Strict.append {a b : List Intv} (h : Strict (a ++ b)) :
    Strict a ∧ Strict b ∧ ∀ x ∈ a, ∀ y ∈ b, x.right < y.left := by
  obtain ⟨h1, h2⟩ := h
  rw [List.pairwise_append] at h2
  exact ⟨⟨fun e he => h1 e (by simp [he]), h2.1⟩, ⟨fun e he => h1 e (by simp [he]), h2.2.1⟩, h2.2.2⟩

theorem flatMap_self {α : Type} (f : α → List α) (s : List α) (h : ∀ e ∈ s, f e = [e]) : s.flatMap f = s := by
  induction s with
  | nil => rfl
  | cons e t ih => rw [List.flatMap_cons, h e (by simp), ih (fun x hx => h x (by simp [hx]))]; rfl

theorem flatMap_nil' {α : Type} (f : α → List α) (s : List α) (h : ∀ e ∈ s, f e = []) : s.flatMap f = [] := by
  induction s with
  | nil => rfl
  | cons e t ih => rw [List.flatMap_cons, h e (by simp), ih (fun x hx => h x (by simp [hx]))]; rfl

/-- The second half of `cutOut`: everything of `B` below `r` is removed. -/
theorem cut_right (A B : List Intv) (r : E) (hA : ∀ e ∈ A, e.left < r ∧ e.right < r)
    (hB : Strict B) :
    (let t := A ++ B
     let C := t.takeWhile (fun e => decide (e.left < r))
     let D := t.drop C.length
     match C.getLast? with
     | none => A ++ D
     | some e =>
       if (if r = ⊤ then r < e.right else r ≤ e.right) then
         let t' := C.dropLast ++ insertI D ⟨r, e.right⟩
         if A.length = C.length - 1 then t'
         else t'.take A.length ++ t'.drop (C.dropLast.length + (D.takeWhile (fun e => decide (e.left ≤ r))).length)
       else A ++ D) =
    A ++ B.flatMap (fun e => if r ≠ ⊤ ∧ r ≤ e.right then [⟨max e.left r, e.right⟩] else []) := by
  obtain ⟨B1, B2, rfl, h1, h2⟩ := split_at (fun x => x < r) (fun x y hxy hy => hxy.trans_lt hy) B hB.sorted
  have hC : (A ++ (B1 ++ B2)).takeWhile (fun e => decide (e.left < r)) = A ++ B1 := by
    rw [← List.append_assoc]
    refine takeWhile_append _ _ _ ?_ ?_
    · intro x hx
      rcases List.mem_append.mp hx with hx | hx
      · exact decide_eq_true (hA x hx).1
      · exact decide_eq_true (h1 x hx)
    · intro x hx; exact decide_eq_false (h2 x hx)
  have hD : (A ++ (B1 ++ B2)).drop (A ++ B1).length = B2 := by
    rw [← List.append_assoc, List.drop_left]
  have hB2 : B2.flatMap (fun e => if r ≠ ⊤ ∧ r ≤ e.right then [(⟨max e.left r, e.right⟩ : Intv)] else []) = B2 := by
    refine flatMap_self _ _ ?_
    intro e he
    have hl := not_lt.mp (h2 e he)
    have hs := hB.append.2.1.1 e he
    have hr : r ≠ ⊤ := by rintro rfl; exact hs.2.1 (top_le_iff.mp hl)
    rw [if_pos ⟨hr, hl.trans hs.1⟩, max_eq_left hl]
  dsimp only
  rw [hC, hD, List.flatMap_append, hB2]
  obtain ⟨hs1, hs2, h12⟩ := hB.append
  rcases List.eq_nil_or_concat' B1 with rfl | ⟨B', e, rfl⟩
  · -- nothing of `B` starts below `r`
    simp only [List.append_nil, List.flatMap_nil, List.nil_append]
    rcases List.eq_nil_or_concat' A with rfl | ⟨A', e, rfl⟩
    · rfl
    · have he := hA e (by simp)
      rw [List.getLast?_concat]
      dsimp only
      rw [if_neg]
      split
      · next h => subst h; exact not_top_lt
      · exact not_le.mpr he.2
  · have hse := hs1.1 e (by simp)
    have hB' : B'.flatMap (fun e => if r ≠ ⊤ ∧ r ≤ e.right then [(⟨max e.left r, e.right⟩ : Intv)] else []) = [] := by
      refine flatMap_nil' _ _ ?_
      intro f hf
      have := (hs1.append.2.2 f hf e (by simp)).trans (h1 e (by simp))
      rw [if_neg (fun h => absurd h.2 (not_le.mpr this))]
    rw [List.flatMap_append, hB', List.nil_append, List.flatMap_cons, List.flatMap_nil, List.append_nil,
      ← List.append_assoc A B' [e], List.getLast?_concat, List.dropLast_concat]
    dsimp only
    by_cases hc : (if r = ⊤ then r < e.right else r ≤ e.right)
    · have hr : r ≠ ⊤ := by rintro rfl; rw [if_pos rfl] at hc; exact not_top_lt hc
      rw [if_pos hc]
      rw [if_neg hr] at hc
      have hgt : ∀ f ∈ B2, ¬ f.left ≤ r := fun f hf => not_le.mpr (hc.trans_lt (h12 e (by simp) f hf))
      have hins : insertI B2 ⟨r, e.right⟩ = ⟨r, e.right⟩ :: B2 := by
        unfold insertI
        rw [if_neg (not_lt.mpr hc)]
        have e1 : B2.takeWhile (fun f => decide (f.left ≤ r)) = [] :=
          takeWhile_append _ [] B2 (by simp) (fun x hx => decide_eq_false (hgt x hx))
        have e2 : B2.dropWhile (fun f => decide (f.left ≤ r)) = B2 :=
          dropWhile_append' _ [] B2 (by simp) (fun x hx => decide_eq_false (hgt x hx))
        rw [e1, e2]; rfl
      have e1 : B2.takeWhile (fun f => decide (f.left ≤ r)) = [] :=
        takeWhile_append _ [] B2 (by simp) (fun x hx => decide_eq_false (hgt x hx))
      have hcond : (if r ≠ ⊤ ∧ r ≤ e.right then [(⟨max e.left r, e.right⟩ : Intv)] else []) = [⟨r, e.right⟩] := by
        rw [if_pos ⟨hr, hc⟩, max_eq_right (h1 e (by simp)).le]
      rw [hins, e1, hcond]
      by_cases hl : A.length = (A ++ B' ++ [e]).length - 1
      · rw [if_pos hl]
        have : B' = [] := by
          simp only [List.length_append, List.length_cons, List.length_nil] at hl
          exact List.length_eq_zero_iff.mp (by omega)
        subst this
        simp
      · rw [if_neg hl, List.append_assoc, List.take_left]
        congr 1
        rw [← List.append_assoc, List.length_nil, Nat.add_zero, List.drop_left]; rfl
    · rw [if_neg hc]
      have hn : ¬ (r ≠ ⊤ ∧ r ≤ e.right) := by
        rintro ⟨h, h'⟩; rw [if_neg h] at hc; exact hc h'
      rw [if_neg hn]; rfl

/-- `cutOut` leaves of every interval its two pieces. -/
theorem cutOut_eq (s : List Intv) (l r : E) (hs : Strict s) (hlr : l < r) : cutOut s l r = s.flatMap (pieces l r) := by
  by_cases hs0 : s = []
  · subst hs0; rfl
  unfold cutOut
  rw [if_neg hs0]
  have hpr : ∀ B : List Intv, (∀ e ∈ B, ¬ (l ≠ ⊥ ∧ e.left ≤ l)) →
      B.flatMap (pieces l r) = B.flatMap (fun e => if r ≠ ⊤ ∧ r ≤ e.right then [(⟨max e.left r, e.right⟩ : Intv)] else []) := by
    intro B hB
    induction B with
    | nil => rfl
    | cons e t ih =>
      rw [List.flatMap_cons, List.flatMap_cons, ih (fun x hx => hB x (by simp [hx]))]
      unfold pieces
      rw [if_neg (hB e (by simp)), List.nil_append]
  by_cases hl : l = ⊥
  · rw [if_pos hl]
    subst hl
    have e1 : s.takeWhile (fun e => decide (e.left < ⊥)) = [] :=
      takeWhile_append _ [] s (by simp) (fun x _ => decide_eq_false not_lt_bot)
    rw [e1]
    rw [hpr s (fun e _ h => h.1 rfl)]
    exact cut_right [] s r (by simp) hs
  · rw [if_neg hl]
    obtain ⟨a, b, rfl, ha, hb⟩ := split_at (fun x => x ≤ l) (fun x y hxy hy => hxy.trans hy) s hs.sorted
    have e1 : (a ++ b).takeWhile (fun e => decide (e.left ≤ l)) = a :=
      takeWhile_append _ _ _ (fun x hx => decide_eq_true (ha x hx)) (fun x hx => decide_eq_false (hb x hx))
    obtain ⟨hsa, hsb, hab⟩ := hs.append
    have hkeep : ∀ e ∈ a, e.right ≤ l → pieces l r e = [e] := by
      intro e he hle
      unfold pieces
      rw [if_pos ⟨hl, ha e he⟩, if_neg (fun h => absurd h.2 (not_le.mpr (hle.trans_lt hlr))), min_eq_left hle]
      rfl
    rw [e1]
    dsimp only
    rw [List.drop_left, List.flatMap_append, hpr b (fun e he h => hb e he h.2)]
    rcases List.eq_nil_or_concat' a with rfl | ⟨a', e, rfl⟩
    · exact cut_right [] b r (by simp) hsb
    · have ha' : ∀ f ∈ a', f.right ≤ l := fun f hf => (hsa.append.2.2 f hf e (by simp)).le.trans (ha e (by simp))
      have ea' : a'.flatMap (pieces l r) = a' :=
        flatMap_self _ _ (fun f hf => hkeep f (by simp [hf]) (ha' f hf))
      rw [List.getLast?_concat]
      dsimp only
      by_cases hst : l < e.right
      · simp only [if_pos hst, List.dropLast_concat]
        have hB : Strict (⟨l, e.right⟩ :: b) := by
          refine ⟨?_, ?_⟩
          · intro f hf
            rcases List.mem_cons.mp hf with rfl | hf
            · exact ⟨hst.le, (hlr.trans_le le_top).ne, (hsa.1 e (by simp)).2.2⟩
            · exact hsb.1 f hf
          · rw [List.pairwise_cons]
            exact ⟨fun f hf => hab e (by simp) f hf, hsb.2⟩
        have := cut_right (a' ++ [⟨e.left, l⟩]) (⟨l, e.right⟩ :: b) r ?_ hB
        · refine this.trans ?_
          rw [List.flatMap_append, ea', List.flatMap_cons, List.flatMap_cons, List.flatMap_nil, List.append_nil]
          unfold pieces
          rw [if_pos (show l ≠ ⊥ ∧ e.left ≤ l from ⟨hl, ha e (by simp)⟩), min_eq_right hst.le]
          simp only [List.append_assoc]
          congr 2
          by_cases hr : r ≠ ⊤ ∧ r ≤ e.right
          · rw [if_pos hr, if_pos hr, max_eq_right hlr.le, max_eq_right ((ha e (by simp)).trans hlr.le)]
          · rw [if_neg hr, if_neg hr]
        · intro f hf
          rcases List.mem_append.mp hf with hf | hf
          · exact ⟨(ha f (by simp [hf])).trans_lt hlr, (ha' f hf).trans_lt hlr⟩
          · rw [List.mem_singleton] at hf
            subst hf
            exact ⟨(ha e (by simp)).trans_lt hlr, hlr⟩
      · simp only [if_neg hst]
        have := cut_right (a' ++ [e]) b r ?_ hsb
        · refine this.trans ?_
          rw [List.flatMap_append, ea', List.flatMap_cons, List.flatMap_nil, List.append_nil,
            hkeep e (by simp) (not_lt.mp hst)]
        · intro f hf
          refine ⟨(ha f hf).trans_lt hlr, ?_⟩
          rcases List.mem_append.mp hf with hf | hf
          · exact (ha' f hf).trans_lt hlr
          · rw [List.mem_singleton] at hf
            subst hf
            exact (not_lt.mp hst).trans_lt hlr

theorem mem_pieces {l r : E} {e f : Intv} (hlr : l < r) (he : e.left ≤ e.right ∧ e.left ≠ ⊤ ∧ e.right ≠ ⊥)
    (hf : f ∈ pieces l r e) : (f.left ≤ f.right ∧ f.left ≠ ⊤ ∧ f.right ≠ ⊥) ∧ e.left ≤ f.left ∧ f.right ≤ e.right ∧
      (f.left = e.left ∨ f.left = r) ∧ (f.right = e.right ∨ f.right = l) := by
  unfold pieces at hf
  rcases List.mem_append.mp hf with hf | hf
  · split at hf
    · next h =>
      rw [List.mem_singleton] at hf; subst hf
      refine ⟨⟨le_min he.1 h.2, he.2.1, ?_⟩, le_rfl, min_le_left _ _, .inl rfl, ?_⟩
      · rcases min_choice e.right l with h' | h' <;> dsimp only <;> rw [h']
        · exact he.2.2
        · exact h.1
      · exact min_choice e.right l
    · simp at hf
  · split at hf
    · next h =>
      rw [List.mem_singleton] at hf; subst hf
      refine ⟨⟨max_le he.1 h.2, ?_, he.2.2⟩, le_max_left _ _, le_rfl, max_choice e.left r, .inl rfl⟩
      rcases max_choice e.left r with h' | h' <;> dsimp only <;> rw [h']
      · exact he.2.1
      · exact h.1
    · simp at hf

theorem pieces_has {l r : E} {e : Intv} (x : ℚ) (hlr : l < r) :
    (∃ f ∈ pieces l r e, f.has x) ↔ e.has x ∧ ¬ (l < fin x ∧ fin x < r) := by
  unfold pieces Intv.has
  constructor
  · rintro ⟨f, hf, hx1, hx2⟩
    rcases List.mem_append.mp hf with hf | hf
    · split at hf
      · rw [List.mem_singleton] at hf; subst hf
        have := le_min_iff.mp hx2
        exact ⟨⟨hx1, this.1⟩, fun h => absurd h.1 (not_lt.mpr this.2)⟩
      · simp at hf
    · split at hf
      · rw [List.mem_singleton] at hf; subst hf
        have := max_le_iff.mp hx1
        exact ⟨⟨this.1, hx2⟩, fun h => absurd h.2 (not_lt.mpr this.2)⟩
      · simp at hf
  · rintro ⟨⟨h1, h2⟩, h⟩
    by_cases hl : l < fin x
    · have hr : r ≤ fin x := not_lt.mp (fun h' => h ⟨hl, h'⟩)
      have hrt : r ≠ ⊤ := by rintro rfl; exact fin_ne_top x (top_le_iff.mp hr)
      refine ⟨⟨max e.left r, e.right⟩, List.mem_append_right _ ?_, max_le h1 hr, h2⟩
      rw [if_pos ⟨hrt, hr.trans h2⟩]; simp
    · rw [not_lt] at hl
      have hlb : l ≠ ⊥ := by rintro rfl; exact fin_ne_bot x (le_bot_iff.mp hl)
      refine ⟨⟨e.left, min e.right l⟩, List.mem_append_left _ ?_, h1, le_min h2 hl⟩
      rw [if_pos ⟨hlb, h1.trans hl⟩]; simp

theorem pieces_sorted {l r : E} {e : Intv} (hlr : l < r) : (pieces l r e).Pairwise (fun a b => a.right < b.left) := by
  unfold pieces
  rw [List.pairwise_append]
  refine ⟨by split <;> simp, by split <;> simp, ?_⟩
  intro f hf g hg
  split at hf
  · split at hg
    · rw [List.mem_singleton] at hf hg
      subst hf hg
      exact (min_le_right _ _).trans_lt (hlr.trans_le (le_max_right _ _))
    · simp at hg
  · simp at hf

theorem strict_cutOut {s : List Intv} {l r : E} (hs : Strict s) (hlr : l < r) : Strict (cutOut s l r) := by
  rw [cutOut_eq s l r hs hlr]
  refine ⟨?_, ?_⟩
  · intro f hf
    obtain ⟨e, he, hf⟩ := List.mem_flatMap.mp hf
    exact (mem_pieces hlr (hs.1 e he) hf).1
  · obtain ⟨h1, h2⟩ := hs
    induction s with
    | nil => exact List.Pairwise.nil
    | cons e t ih =>
      rw [List.pairwise_cons] at h2
      rw [List.flatMap_cons, List.pairwise_append]
      refine ⟨pieces_sorted hlr, ih (fun x hx => h1 x (by simp [hx])) h2.2, ?_⟩
      intro f hf g hg
      obtain ⟨e', he', hg⟩ := List.mem_flatMap.mp hg
      have a := mem_pieces hlr (h1 e (by simp)) hf
      have b := mem_pieces hlr (h1 e' (by simp [he'])) hg
      exact a.2.2.1.trans_lt ((h2.1 e' he').trans_le b.2.1)

theorem mem_cutOut {s : List Intv} {l r : E} (hs : Strict s) (hlr : l < r) (x : ℚ) :
    Mem (cutOut s l r) x ↔ Mem s x ∧ ¬ (l < fin x ∧ fin x < r) := by
  rw [cutOut_eq s l r hs hlr]
  unfold Mem
  constructor
  · rintro ⟨f, hf, hx⟩
    obtain ⟨e, he, hf⟩ := List.mem_flatMap.mp hf
    have := (pieces_has x hlr).mp ⟨f, hf, hx⟩
    exact ⟨⟨e, he, this.1⟩, this.2⟩
  · rintro ⟨⟨e, he, hx⟩, h⟩
    obtain ⟨f, hf, hfx⟩ := (pieces_has x hlr).mpr ⟨hx, h⟩
    exact ⟨f, List.mem_flatMap.mpr ⟨e, he, hf⟩, hfx⟩

/-- Every left end satisfies `P` and every right end `Q`. -/
def Ends (P Q : E → Prop) (s : List Intv) : Prop := ∀ e ∈ s, P e.left ∧ Q e.right

theorem ends_cutOut {P Q : E → Prop} {s : List Intv} {l r : E} (hs : Strict s) (hlr : l < r) (h : Ends P Q s) (hP : P r)
    (hQ : Q l) : Ends P Q (cutOut s l r) := by
  rw [cutOut_eq s l r hs hlr]
  intro f hf
  obtain ⟨e, he, hf⟩ := List.mem_flatMap.mp hf
  have := mem_pieces hlr (hs.1 e he) hf
  refine ⟨?_, ?_⟩
  · rcases this.2.2.2.1 with h' | h' <;> rw [h']
    · exact (h e he).1
    · exact hP
  · rcases this.2.2.2.2 with h' | h' <;> rw [h']
    · exact (h e he).2
    · exact hQ

theorem cutOut_bot (s : List Intv) : cutOut s ⊥ ⊥ = s := by
  unfold cutOut
  by_cases hs : s = []
  · rw [if_pos hs, hs]
  · rw [if_neg hs, if_pos rfl]
    have e1 : s.takeWhile (fun e => decide (e.left < ⊥)) = [] :=
      takeWhile_append _ [] s (by simp) (fun x _ => decide_eq_false not_lt_bot)
    rw [e1]
    simp only [List.getLast?_nil, List.length_nil, List.drop_zero, List.nil_append, e1]

theorem cutOut_top {s : List Intv} (hs : Strict s) : cutOut s ⊤ ⊤ = s := by
  unfold cutOut
  by_cases hs0 : s = []
  · rw [if_pos hs0, hs0]
  · rw [if_neg hs0, if_neg (by decide)]
    have e1 : s.takeWhile (fun e => decide (e.left ≤ ⊤)) = s := by
      have := takeWhile_append (fun e : Intv => decide (e.left ≤ ⊤)) s [] (fun x _ => decide_eq_true le_top) (by simp)
      rwa [List.append_nil] at this
    have e2 : s.takeWhile (fun e => decide (e.left < ⊤)) = s := by
      have := takeWhile_append (fun e : Intv => decide (e.left < ⊤)) s []
        (fun x hx => decide_eq_true (lt_top_iff_ne_top.mpr (hs.1 x hx).2.1)) (by simp)
      rwa [List.append_nil] at this
    rw [e1]
    rcases List.eq_nil_or_concat' s with h | ⟨s', e, h⟩
    · exact absurd h hs0
    · have hl : s.getLast? = some e := by rw [h, List.getLast?_concat]
      have hn : ¬ ((⊤ : E) < e.right) := not_top_lt
      simp only [hl, if_neg hn, List.drop_length, List.append_nil, e2, if_true]

/-! ## `intersect` and `cutDeltas` -/

/-- The cuts with equal ends at the infinities change nothing. -/
theorem cutOut_all {P Q : E → Prop} {s : List Intv} {l r : E} (hs : Strict s) (hlr : l < r ∨ (l = r ∧ (l = ⊥ ∨ l = ⊤)))
    (h : Ends P Q s) (hP : l < r → r ≠ ⊤ → P r) (hQ : l < r → l ≠ ⊥ → Q l) (hPt : P ⊤) (hQb : Q ⊥) :
    Strict (cutOut s l r) ∧ Ends P Q (cutOut s l r) ∧
      ∀ x, Mem (cutOut s l r) x ↔ Mem s x ∧ ¬ (l < fin x ∧ fin x < r) := by
  rcases hlr with hlr | ⟨rfl, rfl | rfl⟩
  · refine ⟨strict_cutOut hs hlr, ends_cutOut hs hlr h ?_ ?_, fun x => mem_cutOut hs hlr x⟩
    · by_cases h' : r = ⊤
      · rw [h']; exact hPt
      · exact hP hlr h'
    · by_cases h' : l = ⊥
      · rw [h']; exact hQb
      · exact hQ hlr h'
  · rw [cutOut_bot]
    exact ⟨hs, h, fun x => ⟨fun h => ⟨h, fun h' => not_lt_bot h'.2⟩, fun h => h.1⟩⟩
  · rw [cutOut_top hs]
    exact ⟨hs, h, fun x => ⟨fun h => ⟨h, fun h' => not_top_lt h'.1⟩, fun h => h.1⟩⟩

theorem cutGaps_spec {P Q : E → Prop} (hPt : P ⊤) (hQb : Q ⊥) (s2 : List Intv) :
    ∀ s, Strict s → Strict s2 → s2 ≠ [] → Ends P Q s → Ends P Q s2 →
      Strict (cutGaps s s2) ∧ Ends P Q (cutGaps s s2) ∧
        ∀ x, Mem (cutGaps s s2) x ↔ Mem s x ∧ ((∀ e ∈ s2.head?, fin x < e.left) ∨ Mem s2 x) := by
  induction s2 with
  | nil => intro s _ _ h; exact absurd rfl h
  | cons e rest ih =>
    intro s hs hs2 _ he he2
    cases rest with
    | nil =>
      have hd : e.right < ⊤ ∨ (e.right = ⊤ ∧ (e.right = ⊥ ∨ e.right = ⊤)) := by
        rcases eq_or_ne e.right ⊤ with h | h
        · exact .inr ⟨h, .inr h⟩
        · exact .inl (lt_top_iff_ne_top.mpr h)
      have := cutOut_all hs hd he (fun _ h => absurd rfl h) (fun _ _ => (he2 e (by simp)).2) hPt hQb
      refine ⟨this.1, this.2.1, fun x => ?_⟩
      show Mem (cutOut s e.right ⊤) x ↔ _
      rw [this.2.2 x]
      have hx : fin x < ⊤ := lt_top_iff_ne_top.mpr (fin_ne_top x)
      simp only [List.head?_cons, Option.mem_def, Option.some.injEq, forall_eq']
      constructor
      · rintro ⟨hm, h⟩
        refine ⟨hm, ?_⟩
        by_cases hl : fin x < e.left
        · exact .inl hl
        · exact .inr ⟨e, by simp, not_lt.mp hl, not_lt.mp (fun h' => h ⟨h', hx⟩)⟩
      · rintro ⟨hm, h⟩
        refine ⟨hm, fun h' => ?_⟩
        rcases h with h | ⟨f, hf, hfx⟩
        · exact absurd ((h.trans_le (hs2.1 e (by simp)).1).trans h'.1) (lt_irrefl _)
        · rw [List.mem_singleton] at hf; subst hf
          exact absurd hfx.2 (not_le.mpr h'.1)
    | cons e' rest' =>
      have hp := List.pairwise_cons.mp hs2.2
      have hlt : e.right < e'.left := hp.1 e' (by simp)
      have h1 := cutOut_all (l := e.right) (r := e'.left) hs (.inl hlt) he (fun _ _ => (he2 e' (by simp)).1)
        (fun _ _ => (he2 e (by simp)).2) hPt hQb
      have hs2' : Strict (e' :: rest') := ⟨fun f hf => hs2.1 f (List.mem_cons_of_mem _ hf), hp.2⟩
      have h2 := ih (cutOut s e.right e'.left) h1.1 hs2' (by simp) h1.2.1 (fun f hf => he2 f (List.mem_cons_of_mem _ hf))
      refine ⟨h2.1, h2.2.1, fun x => ?_⟩
      show Mem (cutGaps (cutOut s e.right e'.left) (e' :: rest')) x ↔ _
      rw [h2.2.2 x, h1.2.2 x]
      simp only [List.head?_cons, Option.mem_def, Option.some.injEq, forall_eq']
      have hee := (hs2.1 e (by simp)).1
      constructor
      · rintro ⟨⟨hm, hn⟩, h | h⟩
        · refine ⟨hm, ?_⟩
          by_cases hl : fin x < e.left
          · exact .inl hl
          · exact .inr ⟨e, by simp, not_lt.mp hl, not_lt.mp (fun h' => hn ⟨h', h⟩)⟩
        · obtain ⟨f, hf, hx⟩ := h
          exact ⟨hm, .inr ⟨f, List.mem_cons_of_mem _ hf, hx⟩⟩
      · rintro ⟨hm, h | ⟨f, hf, hx⟩⟩
        · exact ⟨⟨hm, fun h' => absurd ((h.trans_le hee).trans h'.1) (lt_irrefl _)⟩, .inl ((h.trans_le hee).trans hlt)⟩
        · rcases List.mem_cons.mp hf with rfl | hf
          · exact ⟨⟨hm, fun h' => absurd hx.2 (not_le.mpr h'.1)⟩, .inl (hx.2.trans_lt hlt)⟩
          · refine ⟨⟨hm, fun h' => ?_⟩, .inr ⟨f, hf, hx⟩⟩
            have : e'.left ≤ f.left := by
              rcases List.mem_cons.mp hf with rfl | hf'
              · exact le_rfl
              · exact ((hs2.1 e' (by simp)).1.trans_lt ((List.pairwise_cons.mp hp.2).1 f hf')).le
            exact absurd ((this.trans hx.1).trans_lt h'.2) (lt_irrefl _)

/-- `intersect` computes the common points. -/
theorem intersect_spec {P Q : E → Prop} (hPt : P ⊤) (hQb : Q ⊥) {s s2 : List Intv} (hs : Strict s) (hs2 : Strict s2)
    (he : Ends P Q s) (he2 : Ends P Q s2) :
    Strict (intersect s s2) ∧ Ends P Q (intersect s s2) ∧ ∀ x, Mem (intersect s s2) x ↔ Mem s x ∧ Mem s2 x := by
  cases s2 with
  | nil =>
    refine ⟨⟨by simp [intersect], by simp [intersect]⟩, by simp [Ends, intersect], fun x => ?_⟩
    simp [intersect, Mem]
  | cons e rest =>
    have hd : ⊥ < e.left ∨ (⊥ = e.left ∧ ((⊥ : E) = ⊥ ∨ (⊥ : E) = ⊤)) := by
      rcases eq_or_ne e.left ⊥ with h | h
      · exact .inr ⟨h.symm, .inl rfl⟩
      · exact .inl (bot_lt_iff_ne_bot.mpr h)
    have h1 := cutOut_all hs hd he (fun _ _ => (he2 e (by simp)).1) (fun _ h => absurd rfl h) hPt hQb
    have h2 := cutGaps_spec hPt hQb (e :: rest) (cutOut s ⊥ e.left) h1.1 hs2 (by simp) h1.2.1 he2
    refine ⟨h2.1, h2.2.1, fun x => ?_⟩
    show Mem (cutGaps (cutOut s ⊥ e.left) (e :: rest)) x ↔ _
    rw [h2.2.2 x, h1.2.2 x]
    simp only [List.head?_cons, Option.mem_def, Option.some.injEq, forall_eq']
    have hx : ⊥ < fin x := bot_lt_iff_ne_bot.mpr (fin_ne_bot x)
    constructor
    · rintro ⟨⟨hm, hn⟩, h | h⟩
      · exact absurd ⟨hx, h⟩ hn
      · exact ⟨hm, h⟩
    · rintro ⟨hm, f, hf, hfx⟩
      refine ⟨⟨hm, fun h' => ?_⟩, .inr ⟨f, hf, hfx⟩⟩
      have : e.left ≤ f.left := by
        rcases List.mem_cons.mp hf with rfl | hf'
        · exact le_rfl
        · exact (List.pairwise_cons.mp hs2.sorted).1 f hf'
      exact absurd ((this.trans hfx.1).trans_lt h'.2) (lt_irrefl _)

/-- `x` is in the open intervals of length `d` around the ends of `e`. -/
def Near (d : ℚ) (e : Intv) (x : ℚ) : Prop :=
  (e.left ≠ ⊥ ∧ shift (-d) e.left < fin x ∧ fin x < e.left) ∨ (e.right ≠ ⊤ ∧ e.right < fin x ∧ fin x < shift d e.right)

theorem cutDelta_spec {P Q : E → Prop} {s : List Intv} {e : Intv} {d : ℚ} (hd : 0 < d) (hs : Strict s) (he : Ends P Q s)
    (h1 : ∀ q, e.left = fin q → P (fin q) ∧ Q (fin (q - d))) (h2 : ∀ q, e.right = fin q → Q (fin q) ∧ P (fin (q + d)))
    (hl : e.left ≠ ⊤) (hr : e.right ≠ ⊥) :
    Strict (cutDelta d s e) ∧ Ends P Q (cutDelta d s e) ∧ ∀ x, Mem (cutDelta d s e) x ↔ Mem s x ∧ ¬ Near d e x := by
  have step1 : Strict (if e.left ≠ ⊥ then cutOut s (shift (-d) e.left) e.left else s) ∧
      Ends P Q (if e.left ≠ ⊥ then cutOut s (shift (-d) e.left) e.left else s) ∧
      ∀ x, Mem (if e.left ≠ ⊥ then cutOut s (shift (-d) e.left) e.left else s) x ↔
        Mem s x ∧ ¬ (e.left ≠ ⊥ ∧ shift (-d) e.left < fin x ∧ fin x < e.left) := by
    by_cases hb : e.left = ⊥
    · rw [if_neg (not_not.mpr hb)]
      exact ⟨hs, he, fun x => ⟨fun h => ⟨h, fun h' => h'.1 hb⟩, fun h => h.1⟩⟩
    · rw [if_pos hb]
      rcases E_cases e.left with h | h | ⟨q, hq⟩
      · exact absurd h hb
      · exact absurd h hl
      · have hlt : shift (-d) e.left < e.left := by rw [hq, shift_fin, fin_lt]; linarith
        have hPq := h1 q hq
        refine ⟨strict_cutOut hs hlt, ends_cutOut hs hlt he (hq ▸ hPq.1) ?_, fun x => ?_⟩
        · rw [hq, shift_fin, ← sub_eq_add_neg]; exact hPq.2
        · rw [mem_cutOut hs hlt]
          exact ⟨fun h => ⟨h.1, fun h' => h.2 h'.2⟩, fun h => ⟨h.1, fun h' => h.2 ⟨hb, h'⟩⟩⟩
  unfold cutDelta
  dsimp only
  generalize (if e.left ≠ ⊥ then cutOut s (shift (-d) e.left) e.left else s) = s' at step1 ⊢
  obtain ⟨a, b, c⟩ := step1
  by_cases ht : e.right = ⊤
  · rw [if_neg (not_not.mpr ht)]
    refine ⟨a, b, fun x => ?_⟩
    rw [c x]
    exact ⟨fun h => ⟨h.1, fun h' => h'.elim h.2 (fun h'' => h''.1 ht)⟩, fun h => ⟨h.1, fun h' => h.2 (.inl h')⟩⟩
  · rw [if_pos ht]
    rcases E_cases e.right with h | h | ⟨q, hq⟩
    · exact absurd h hr
    · exact absurd h ht
    · have hlt : e.right < shift d e.right := by rw [hq, shift_fin, fin_lt]; linarith
      have hPq := h2 q hq
      refine ⟨strict_cutOut a hlt, ends_cutOut a hlt b ?_ (hq ▸ hPq.1), fun x => ?_⟩
      · rw [hq, shift_fin]; exact hPq.2
      · rw [mem_cutOut a hlt, c x]
        unfold Near
        constructor
        · rintro ⟨⟨h1, h2⟩, h3⟩; exact ⟨h1, fun h => h.elim h2 (fun h' => h3 h'.2)⟩
        · rintro ⟨h1, h2⟩; exact ⟨⟨h1, fun h => h2 (.inl h)⟩, fun h => h2 (.inr ⟨ht, h⟩)⟩

/-- `cutDeltas` removes the open intervals around the ends of the given ones. -/
theorem cutDeltas_spec {P Q : E → Prop} {d : ℚ} (hd : 0 < d) (s2 : List Intv)
    (h1 : ∀ e ∈ s2, ∀ q, e.left = fin q → P (fin q) ∧ Q (fin (q - d)))
    (h2 : ∀ e ∈ s2, ∀ q, e.right = fin q → Q (fin q) ∧ P (fin (q + d))) (hl : ∀ e ∈ s2, e.left ≠ ⊤ ∧ e.right ≠ ⊥) :
    ∀ s, Strict s → Ends P Q s → Strict (cutDeltas s s2 d) ∧ Ends P Q (cutDeltas s s2 d) ∧
      ∀ x, Mem (cutDeltas s s2 d) x ↔ Mem s x ∧ ∀ e ∈ s2, ¬ Near d e x := by
  induction s2 with
  | nil => intro s hs he; exact ⟨hs, he, fun x => by simp [cutDeltas]⟩
  | cons e rest ih =>
    intro s hs he
    have a := cutDelta_spec hd hs he (h1 e (by simp)) (h2 e (by simp)) (hl e (by simp)).1 (hl e (by simp)).2
    have b := ih (fun f hf => h1 f (by simp [hf])) (fun f hf => h2 f (by simp [hf])) (fun f hf => hl f (by simp [hf]))
      (cutDelta d s e) a.1 a.2.1
    refine ⟨b.1, b.2.1, fun x => ?_⟩
    show Mem (cutDeltas (cutDelta d s e) rest d) x ↔ _
    rw [b.2.2 x, a.2.2 x]
    simp only [List.forall_mem_cons, and_assoc]

/-- Inserting an interval that does not touch the others. -/
theorem insertI_spec {s : List Intv} (hs : Strict s) (iv : Intv) (hl : iv.left ≠ ⊤) (hr : iv.right ≠ ⊥)
    (hd : iv.left ≤ iv.right → ∀ e ∈ s, e.right < iv.left ∨ iv.right < e.left) :
    Strict (insertI s iv) ∧ ∀ e, e ∈ insertI s iv ↔ e ∈ s ∨ (e = iv ∧ iv.left ≤ iv.right) := by
  unfold insertI
  by_cases h : iv.right < iv.left
  · rw [if_pos h]
    exact ⟨hs, fun e => ⟨.inl, fun h' => h'.elim id (fun h'' => absurd h''.2 (not_le.mpr h))⟩⟩
  · rw [if_neg h]
    rw [not_lt] at h
    obtain ⟨a, b, rfl, ha, hb⟩ := split_at (fun x => x ≤ iv.left) (fun x y hxy hy => hxy.trans hy) s hs.sorted
    have e1 : (a ++ b).takeWhile (fun e => decide (e.left ≤ iv.left)) = a :=
      takeWhile_append _ _ _ (fun x hx => decide_eq_true (ha x hx)) (fun x hx => decide_eq_false (hb x hx))
    have e2 : (a ++ b).dropWhile (fun e => decide (e.left ≤ iv.left)) = b :=
      dropWhile_append' _ _ _ (fun x hx => decide_eq_true (ha x hx)) (fun x hx => decide_eq_false (hb x hx))
    rw [e1, e2]
    obtain ⟨hsa, hsb, hab⟩ := hs.append
    refine ⟨⟨?_, ?_⟩, fun e => ?_⟩
    · intro e he
      rcases List.mem_append.mp he with he | he
      · exact hsa.1 e he
      · rcases List.mem_cons.mp he with rfl | he
        · exact ⟨h, hl, hr⟩
        · exact hsb.1 e he
    · rw [List.pairwise_append, List.pairwise_cons]
      have hla : ∀ e ∈ a, e.right < iv.left := by
        intro e he
        rcases hd h e (by simp [he]) with h' | h'
        · exact h'
        · exact absurd (h.trans_lt h') (not_lt.mpr (ha e he))
      have hlb : ∀ e ∈ b, iv.right < e.left := by
        intro e he
        rcases hd h e (by simp [he]) with h' | h'
        · exact absurd ((hsb.1 e he).1.trans h'.le) (hb e he)
        · exact h'
      refine ⟨hsa.2, ⟨hlb, hsb.2⟩, ?_⟩
      intro x hx y hy
      rcases List.mem_cons.mp hy with rfl | hy
      · exact hla x hx
      · exact hab x hx y hy
    · simp only [List.mem_append, List.mem_cons]
      constructor
      · rintro (h1 | rfl | h1)
        · exact .inl (.inl h1)
        · exact .inr ⟨rfl, h⟩
        · exact .inl (.inr h1)
      · rintro ((h1 | h1) | ⟨rfl, -⟩)
        · exact .inl h1
        · exact .inr (.inr h1)
        · exact .inr (.inl rfl)

end MZ.Mip
