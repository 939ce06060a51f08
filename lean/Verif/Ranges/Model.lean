import Verif.Ranges.ExtOrder
/-!
# Range streams and integer sets (include/minizinc/iter.hh, include/minizinc/values.hh 563–803)

A range iterator is modelled by the list of ranges it is still going to deliver: for
`IntSetRanges` (values.hh 743–762) that is the rest of the stored range vector. Each
combining iterator's `operator++` is a function from the two remaining streams to the
next range and the new remaining streams; the stream it delivers is obtained by iterating it.

Simplification: bounds are the extended integers denoted by the `IntVal`s, so the
arithmetic error raised by `plus(1)`/`minus(1)` exactly at `LLONG_MAX`/`LLONG_MIN` is not
part of this model (`IntVal.plus`, `IntVal.minus` and their theorems are in `Verif/IntVal`).
-/
namespace MZ

/-- values.hh 566–575 `IntSetVal::Range`. -/
structure Range where
  lo : Ext
  hi : Ext
deriving DecidableEq, Repr

namespace Ranges

/-- iter.hh 282 `overlaps(IntVal x, IntVal y)`: `x.plus(1) >= y`. -/
def overlaps (x y : Ext) : Bool := decide (y ≤ x.succ)

/-- iter.hh 341–352, the `next:` loop of `Union::operator++`. -/
def absorb (ma : Ext) (i j : List Range) : Ext × List Range × List Range :=
  match i, j with
  | a :: i', j =>
    if overlaps ma a.lo then absorb (max ma a.hi) i' j
    else match j with
      | b :: j' => if overlaps ma b.lo then absorb (max ma b.hi) (a :: i') j' else (ma, a :: i', b :: j')
      | [] => (ma, a :: i', [])
  | [], b :: j' => if overlaps ma b.lo then absorb (max ma b.hi) [] j' else (ma, [], b :: j')
  | [], [] => (ma, [], [])
termination_by i.length + j.length

/-- iter.hh 317–353 `Union::operator++`. -/
def unionNext (i j : List Range) : Option (Range × List Range × List Range) :=
  match i, j with
  | [], [] => none
  | [], b :: j' => some (b, [], j')
  | a :: i', [] => some (a, i', [])
  | a :: i', b :: j' =>
    if !overlaps b.hi a.lo then some (b, a :: i', j')
    else if !overlaps a.hi b.lo then some (a, i', b :: j')
    else
      let s := absorb (max a.hi b.hi) i' j'
      some (⟨min a.lo b.lo, s.1⟩, s.2.1, s.2.2)

theorem absorb_length (ma : Ext) (i j : List Range) :
    (absorb ma i j).2.1.length + (absorb ma i j).2.2.length ≤ i.length + j.length := by
  fun_induction absorb ma i j <;> simp_all <;> omega

theorem unionNext_length {i j : List Range} {r : Range} {i' j' : List Range}
    (h : unionNext i j = some (r, i', j')) : i'.length + j'.length < i.length + j.length := by
  unfold unionNext at h
  split at h
  · simp at h
  · simp at h; obtain ⟨-, rfl, rfl⟩ := h; simp
  · simp at h; obtain ⟨-, rfl, rfl⟩ := h; simp
  · split at h
    · simp at h; obtain ⟨-, rfl, rfl⟩ := h; simp
    · split at h
      · simp at h; obtain ⟨-, rfl, rfl⟩ := h; simp
      · rename_i a i1 b j1 _ _
        have := absorb_length (max a.hi b.hi) i1 j1
        simp at h; obtain ⟨-, rfl, rfl⟩ := h; simp; omega

/-- The stream delivered by `Union(i,j)` (iter.hh 255–365). -/
def union (i j : List Range) : List Range :=
  match h : unionNext i j with
  | none => []
  | some (r, i', j') => r :: union i' j'
termination_by i.length + j.length
decreasing_by exact unionNext_length h

theorem dropWhile_length {α : Type} (p : α → Bool) (l : List α) :
    (l.dropWhile p).length ≤ l.length := by
  induction l with
  | nil => simp
  | cons a l ih => simp only [List.dropWhile_cons]; split <;> simp; omega

/-- iter.hh 409–424, the `do … while` loop of `Inter::operator++`: skip ranges until the two
heads overlap. -/
def interAlign (i j : List Range) : Option (Range × List Range × Range × List Range) :=
  match i, j with
  | a :: i0, b :: j0 =>
    match h1 : (a :: i0).dropWhile (fun r => decide (r.hi < b.lo)) with
    | [] => none
    | a' :: i' =>
      match h2 : (b :: j0).dropWhile (fun r => decide (r.hi < a'.lo)) with
      | [] => none
      | b' :: j' =>
        if a'.hi < b'.lo then interAlign (a' :: i') (b' :: j')
        else some (a', i', b', j')
  | _, _ => none
termination_by i.length + j.length
decreasing_by
  rename_i hlt
  have l1 := dropWhile_length (fun r => decide (r.hi < b.lo)) (a :: i0)
  have l2 := dropWhile_length (fun r => decide (r.hi < a'.lo)) (b :: j0)
  rw [h1] at l1; rw [h2] at l2
  have hne : ¬ (a'.hi < b.lo) := by
    have := List.head?_dropWhile_not (fun r => decide (r.hi < b.lo)) (a :: i0)
    rw [h1] at this; simpa using this
  by_cases hb : b.hi < a'.lo
  · simp [List.dropWhile_cons, hb] at h2
    have l3 := dropWhile_length (fun r => decide (r.hi < a'.lo)) j0
    rw [h2] at l3
    simp at *; omega
  · simp [List.dropWhile_cons, hb] at h2
    obtain ⟨rfl, rfl⟩ := h2
    exact absurd hlt hne

/-- iter.hh 407–436 `Inter::operator++`. -/
def interNext (i j : List Range) : Option (Range × List Range × List Range) :=
  match interAlign i j with
  | none => none
  | some (a, i', b, j') =>
    some (⟨max a.lo b.lo, min a.hi b.hi⟩,
      if a.hi < b.hi then (i', b :: j') else (a :: i', j'))

theorem interAlign_length {i j : List Range} {a b : Range} {i' j' : List Range}
    (h : interAlign i j = some (a, i', b, j')) :
    (a :: i').length + (b :: j').length ≤ i.length + j.length := by
  fun_induction interAlign i j with
  | case1 => simp at h
  | case2 => simp at h
  | case3 a i0 b j0 a' i' h1 b' j' h2 hlt ih =>
    have l1 := dropWhile_length (fun r => decide (r.hi < b.lo)) (a :: i0)
    have l2 := dropWhile_length (fun r => decide (r.hi < a'.lo)) (b :: j0)
    rw [h1] at l1; rw [h2] at l2
    have := ih h; omega
  | case4 a i0 b j0 a' i' h1 b' j' h2 hlt =>
    have l1 := dropWhile_length (fun r => decide (r.hi < b.lo)) (a :: i0)
    have l2 := dropWhile_length (fun r => decide (r.hi < a'.lo)) (b :: j0)
    rw [h1] at l1; rw [h2] at l2
    simp at h; obtain ⟨rfl, rfl, rfl, rfl⟩ := h; omega
  | case5 => simp at h

theorem interNext_length {i j : List Range} {r : Range} {i' j' : List Range}
    (h : interNext i j = some (r, i', j')) : i'.length + j'.length < i.length + j.length := by
  unfold interNext at h
  split at h
  · simp at h
  · rename_i a i1 b j1 heq
    have := interAlign_length heq
    simp only [Option.some.injEq, Prod.mk.injEq] at h
    obtain ⟨-, h⟩ := h
    split at h <;> (simp at h; obtain ⟨rfl, rfl⟩ := h; simp at *; omega)

/-- The stream delivered by `Inter(i,j)` (iter.hh 372–449). -/
def inter (i j : List Range) : List Range :=
  match h : interNext i j with
  | none => []
  | some (r, i', j') => r :: inter i' j'
termination_by i.length + j.length
decreasing_by exact interNext_length h

/-- iter.hh 490–504, the first half of the loop body of `Diff::operator++`: the next
candidate interval `[mi … ma]` (`ma` is the end of the previously delivered one) and the
advanced first iterator; `none` is the `break`. -/
def diffCand (ma : Ext) : List Range → Option (Range × List Range)
  | [] => none
  | a :: i' =>
    if ma = .posInf ∨ a.hi < ma.succ then
      match i' with
      | [] => none
      | a2 :: i2 => some (a2, a2 :: i2)
    else some (⟨ma.succ, a.hi⟩, a :: i')

/-- What one call of `Diff::operator++` does: runs for ever (`loop`, i.e. longer than the given
number of rounds), finishes the stream, or delivers a range. -/
inductive DiffStep where
  | loop
  | done
  | emit (r : Range) (i j : List Range)
deriving Repr

/-- iter.hh 486–528 `Diff::operator++`; the first argument bounds the number of rounds of the
`while (true)` loop. -/
def diffNext : Nat → Ext → List Range → List Range → DiffStep
  | 0, _, _, _ => .loop
  | n + 1, ma, i, j =>
    match diffCand ma i with
    | none => .done
    | some (c, i') =>
      match j.dropWhile (fun r => decide (r.hi < c.lo)) with
      | [] => .emit c i' []
      | b :: j' =>
        if b.lo ≤ c.hi then
          if b.lo ≤ c.lo ∧ c.hi ≤ b.hi then diffNext n c.hi i' (b :: j')
          else if b.lo ≤ c.lo then
            match j' with
            | b2 :: j2 =>
              if b2.lo ≤ c.hi then .emit ⟨b.hi.succ, b2.lo.pred⟩ i' (b2 :: j2)
              else .emit ⟨b.hi.succ, c.hi⟩ i' (b2 :: j2)
            | [] => .emit ⟨b.hi.succ, c.hi⟩ i' []
          else .emit ⟨c.lo, b.lo.pred⟩ i' (b :: j')
        else .emit c i' (b :: j')

/-- The stream delivered after the end `ma` of the previous range; `n` bounds the number of
deliveries. `none`: some call did not finish within the bound. -/
def diffRun : Nat → Ext → List Range → List Range → Option (List Range)
  | 0, _, _, _ => none
  | n + 1, ma, i, j =>
    match diffNext (2 * i.length + 2) ma i j with
    | .loop => none
    | .done => some []
    | .emit r i' j' => (diffRun n r.hi i' j').map (r :: ·)

/-- iter.hh 534–542, constructor of `Diff`, and the stream it delivers. -/
def diff (i j : List Range) : Option (List Range) :=
  match i with
  | [] => some []
  | a :: _ => diffRun (i.length + j.length + 2) a.lo.pred i j

/-- iter.hh 145–147, 169–171: the range lies below the lower limit (`ma < _min`). -/
def skipBelow (mn : Option Ext) (a : Range) : Bool := mn.elim false (fun m => decide (a.hi < m))
/-- iter.hh 163–165: the range starts at or below the upper limit. -/
def startsBelow (mx : Option Ext) (a : Range) : Bool := mx.elim true (fun m => decide (a.lo ≤ m))
/-- iter.hh 174–180: the clipped ends of the delivered range. -/
def clipLo (mn : Option Ext) (a : Range) : Ext := mn.elim a.lo (fun m => max m a.lo)
def clipHi (mx : Option Ext) (a : Range) : Ext := mx.elim a.hi (fun m => min m a.hi)

/-- iter.hh 110–191 `Bounded`: restrict a stream to the values `≥ mn` (if given) and `≤ mx`
(if given). -/
def bounded (mn mx : Option Ext) : List Range → List Range
  | [] => []
  | a :: i =>
    if skipBelow mn a then bounded mn mx i
    else if startsBelow mx a then ⟨clipLo mn a, clipHi mx a⟩ :: bounded mn mx i
    else []

/-- iter.hh 216 `Const(min,max)`. -/
def const (lo hi : Ext) : List Range := if hi < lo then [] else [⟨lo, hi⟩]

/-- iter.hh 92–105 / values.hh 619–625 `width` of a non-empty range. -/
def width (r : Range) : Ext :=
  match r.lo, r.hi with
  | .fin a, .fin b => .fin (b - a + 1)
  | _, _ => .posInf

/-- iter.hh 683–695 `cardinality` (64-bit overflow, an error in the code, not modelled). -/
def cardinality : List Range → Ext
  | [] => .fin 0
  | r :: i =>
    match width r with
    | .fin w => match cardinality i with
      | .fin s => .fin (w + s)
      | e => e
    | _ => .posInf

/-- iter.hh 697–709 `equal`. -/
def equal : List Range → List Range → Bool
  | a :: i, b :: j => if a.lo = b.lo ∧ a.hi = b.hi then equal i j else false
  | [], [] => true
  | _, _ => false

/-- iter.hh 711–724 `subset`. -/
def subset : List Range → List Range → Bool
  | a :: i, b :: j =>
    if b.hi < a.lo then subset (a :: i) j
    else if b.lo ≤ a.lo ∧ a.hi ≤ b.hi then subset i (b :: j)
    else false
  | [], _ => true
  | _ :: _, [] => false
termination_by i j => i.length + j.length

/-- iter.hh 726–739 `disjoint`. -/
def disjoint : List Range → List Range → Bool
  | a :: i, b :: j =>
    if b.hi < a.lo then disjoint (a :: i) j
    else if a.hi < b.lo then disjoint i (b :: j)
    else false
  | [], _ => true
  | _ :: _, [] => true
termination_by i j => i.length + j.length

/-- iter.hh 773–797 `less`. -/
def less : List Range → List Range → Bool
  | [], j => !j.isEmpty
  | _ :: _, [] => false
  | a :: i, b :: j =>
    if a.lo < b.lo then true
    else if b.lo < a.lo then false
    else if a.hi < b.hi then i.isEmpty
    else if b.hi < a.hi then !j.isEmpty
    else less i j

/-- iter.hh 799–823 `less_eq`. -/
def lessEq : List Range → List Range → Bool
  | [], _ => true
  | _ :: _, [] => false
  | a :: i, b :: j =>
    if a.lo < b.lo then true
    else if b.lo < a.lo then false
    else if a.hi < b.hi then i.isEmpty
    else if b.hi < a.hi then !j.isEmpty
    else lessEq i j

/-- iter.hh 733–738 `CompareStatus`. -/
inductive CompareStatus | subset | disjoint | none
deriving DecidableEq, Repr

/-- iter.hh 741–770 `compare`, with the two flags of the loop. When none of the tests of the
loop body applies the code does not advance; the last test `j.max <= i.max` is always
true when reached. -/
def compareLoop (sub dis : Bool) : List Range → List Range → Bool × Bool
  | a :: i, b :: j =>
    if b.hi < a.lo then compareLoop sub dis (a :: i) j
    else if a.hi < b.lo then compareLoop false dis i (b :: j)
    else if b.lo ≤ a.lo ∧ a.hi ≤ b.hi then compareLoop sub false i (b :: j)
    else if a.hi ≤ b.hi then compareLoop false false i (b :: j)
    else compareLoop false false (a :: i) j
  | _ :: _, [] => (false, dis)
  | [], _ => (sub, dis)
termination_by i j => i.length + j.length

def compare (i j : List Range) : CompareStatus :=
  let (s, d) := compareLoop true true i j
  if s then .subset else if d then .disjoint else .none

end Ranges

/-! ## `IntSetVal` -/
namespace IntSet

/-- values.hh 658–665 `IntSetVal::a(m,n)`. -/
def ofBounds (m n : Ext) : List Range := if n < m then [] else [⟨m, n⟩]

/-- values.hh 690–701: the merging loop of `IntSetVal::a(vector<IntVal>)` over the sorted
values, `mn`/`mx` being the range under construction (finite values only; on an infinite
value `max + 1` raises an arithmetic error). -/
def mergeSorted (mn mx : Int) : List Int → List Range
  | [] => [⟨.fin mn, .fin mx⟩]
  | v :: s =>
    if v > mx + 1 then ⟨.fin mn, .fin mx⟩ :: mergeSorted v v s
    else mergeSorted mn v s

/-- values.hh 681–705 `IntSetVal::a(const std::vector<IntVal>&)`; `std::sort` is modelled by
`List.mergeSort`. -/
def ofValues (s0 : List Int) : List Range :=
  match s0.mergeSort (fun a b => decide (a ≤ b)) with
  | [] => []
  | v :: s => mergeSorted v v s

/-- values.hh 713–723 `contains`. -/
def contains (v : Ext) : List Range → Bool
  | [] => false
  | r :: s => if v < r.lo then false else if v ≤ r.hi then true else contains v s

/-- values.hh 726–737 `equal`. -/
def equal (s t : List Range) : Bool :=
  s.length == t.length && (s.zip t).all (fun p => !(p.1.lo ≠ p.2.lo || p.1.hi ≠ p.2.hi))

/-- values.hh 638–645 `isSubset(Range r)`. -/
def isSubset (r : Range) (s : List Range) : Bool :=
  s.any (fun q => decide (q.lo ≤ r.lo) && decide (r.hi ≤ q.hi))

/-- values.hh 602–611 `min()`, `max()` of a non-empty set (`none`: the asserted case). -/
def min? (s : List Range) : Option Ext := s.head?.map (·.lo)
def max? (s : List Range) : Option Ext := s.getLast?.map (·.hi)

end IntSet
end MZ
