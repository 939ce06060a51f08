import Verif.Globals.Base
import Mathlib.Data.List.Lex
import Mathlib.Order.Lattice

/-! # What the ordering and precedence constraints mean

Written from the documentation strings of the library, without reference to the decompositions. -/

namespace MZ.LexOrd.Spec
open MZ.Globals

/-- The elements of an array from first to last, without their indices. -/
def elems {α : Type} (a : Arr α) : List α :=
  (List.range (a.hi - a.lo + 1).toNat).map (fun k : Nat => a.val (a.lo + (k : Int)))

/-- "strictly lexicographically less … from first to last element, regardless of indices". -/
def LexLess {α : Type} [LT α] (x y : Arr α) : Prop := List.Lex (· < ·) (elems x) (elems y)

/-- "lexicographically less than or equal". -/
def LexLessEq {α : Type} [LT α] (x y : Arr α) : Prop := LexLess x y ∨ elems x = elems y

/-- A matrix given by its index ranges. -/
structure Mat (α : Type) where
  lo1 : Int
  hi1 : Int
  lo2 : Int
  hi2 : Int
  val : Int → Int → α

/-- Column `j` of a matrix. -/
def column {α : Type} (m : Mat α) (j : Int) : Arr α := ⟨m.lo1, m.hi1, fun i => m.val i j⟩

/-- Row `i` of a matrix. -/
def line {α : Type} (m : Mat α) (i : Int) : Arr α := ⟨m.lo2, m.hi2, fun j => m.val i j⟩

/-- "the columns … are lexicographically sorted, strictly increasing": every column is less than every
later one. -/
def ColumnsStrict {α : Type} [LT α] (m : Mat α) : Prop :=
  ∀ j k, m.lo2 ≤ j → j < k → k ≤ m.hi2 → LexLess (column m j) (column m k)

/-- "non-decreasing". -/
def ColumnsSorted {α : Type} [LT α] (m : Mat α) : Prop :=
  ∀ j k, m.lo2 ≤ j → j < k → k ≤ m.hi2 → LexLessEq (column m j) (column m k)

/-- The same for rows. -/
def RowsStrict {α : Type} [LT α] (m : Mat α) : Prop :=
  ∀ j k, m.lo1 ≤ j → j < k → k ≤ m.hi1 → LexLess (line m j) (line m k)

/-- The same for rows, non-decreasing. -/
def RowsSorted {α : Type} [LT α] (m : Mat α) : Prop :=
  ∀ j k, m.lo1 ≤ j → j < k → k ≤ m.hi1 → LexLessEq (line m j) (line m k)

/-- "if any element of xs is [late], then another element of xs with a lower index is [early]". -/
def Precedes {α : Type} (early late : α → Prop) (xs : Arr α) : Prop :=
  ∀ i ∈ xs.idx, late (xs i) → ∃ j ∈ xs.idx, j < i ∧ early (xs j)

/-- `before` precedes `after` in an array of integers. -/
def ValuePrecede (before after : Int) (xs : Arr Int) : Prop := Precedes (· = before) (· = after) xs

/-- … in an array of optional integers: an absent element is equal to nothing. -/
def ValuePrecedeOpt (before after : Int) (xs : Arr (Option Int)) : Prop :=
  Precedes (· = some before) (· = some after) xs

/-- … in an array of sets: "if an element of xs contains after but not before, then another element of xs
with lower index contains before but not after". -/
def ValuePrecedeSet (before after : Int) (xs : Arr (Finset Int)) : Prop :=
  Precedes (fun s => before ∈ s ∧ after ∉ s) (fun s => after ∈ s ∧ before ∉ s) xs

/-- "order[i] precedes order[i+1] in the array xs". -/
def ValuePrecedeChain (order xs : Arr Int) : Prop :=
  ∀ i, i ∈ order.idx → i + 1 ∈ order.idx → ValuePrecede (order i) (order (i + 1)) xs

/-- The same for optional elements. -/
def ValuePrecedeChainOpt (order : Arr Int) (xs : Arr (Option Int)) : Prop :=
  ∀ i, i ∈ order.idx → i + 1 ∈ order.idx → ValuePrecedeOpt (order i) (order (i + 1)) xs

/-- The same for sets. -/
def ValuePrecedeChainSet (order : Arr Int) (xs : Arr (Finset Int)) : Prop :=
  ∀ i, i ∈ order.idx → i + 1 ∈ order.idx → ValuePrecedeSet (order i) (order (i + 1)) xs

/-- "i precedes i+1 in the array xs for all positive i". -/
def SeqPrecede (xs : Arr Int) : Prop := ∀ v : Int, 1 ≤ v → ValuePrecede v (v + 1) xs

/-- "i appears in a set in array xs before i+1 for all positive i". -/
def SeqPrecedeSet (xs : Arr (Finset Int)) : Prop := ∀ v : Int, 1 ≤ v → Precedes (v ∈ ·) (v + 1 ∈ ·) xs

/-- "in increasing order (duplicates are allowed)". -/
def Increasing {α : Type} [LE α] (xs : Arr α) : Prop :=
  ∀ i ∈ xs.idx, ∀ j ∈ xs.idx, i < j → xs i ≤ xs j

/-- "in a strictly increasing order (duplicates are not allowed)". -/
def StrictlyIncreasing {α : Type} [LT α] (xs : Arr α) : Prop :=
  ∀ i ∈ xs.idx, ∀ j ∈ xs.idx, i < j → xs i < xs j

/-- Increasing among the elements that occur. -/
def IncreasingOpt (xs : Arr (Option Int)) : Prop :=
  ∀ i ∈ xs.idx, ∀ j ∈ xs.idx, i < j → ∀ a b, xs i = some a → xs j = some b → a ≤ b

/-- Strictly increasing among the elements that occur. -/
def StrictlyIncreasingOpt (xs : Arr (Option Int)) : Prop :=
  ∀ i ∈ xs.idx, ∀ j ∈ xs.idx, i < j → ∀ a b, xs i = some a → xs j = some b → a < b

/-- The array `[x[p[1]], …, x[p[n]]]`: `x` rearranged by a permutation of its positions. -/
def rearrange {α : Type} (x : Arr α) (p : Int → Int) : Arr α := ⟨1, x.len, fun k => x.val (x.lo + p k - 1)⟩

/-- "xs is lex least under the given list of permutations": no permutation of the list makes it smaller. -/
def LexLeast {α : Type} [LT α] (x : Arr α) (ps : Arr (Int → Int)) : Prop :=
  ∀ r ∈ ps.idx, LexLessEq x (rearrange x (ps r))

/-- `p` is a permutation of `1..n`. -/
def IsPerm (n : Int) (p : Int → Int) : Prop :=
  (∀ k, 1 ≤ k → k ≤ n → 1 ≤ p k ∧ p k ≤ n) ∧
  (∀ k l, 1 ≤ k → k ≤ n → 1 ≤ l → l ≤ n → p k = p l → k = l)

/-- The listed permutations of `1..n` form a group: the list is closed under composition and under
quotients. -/
def IsGroup (n : Int) (ps : Arr (Int → Int)) : Prop :=
  (∀ r ∈ ps.idx, IsPerm n (ps r)) ∧
  (∀ r ∈ ps.idx, ∀ i ∈ ps.idx, ∃ j ∈ ps.idx, ∀ k, 1 ≤ k → k ≤ n → ps j k = ps r (ps i k)) ∧
  (∀ i ∈ ps.idx, ∀ j ∈ ps.idx, ∃ r ∈ ps.idx, ∀ k, 1 ≤ k → k ≤ n → ps j k = ps r (ps i k))

/-- Rotating the square by a quarter turn, on coordinates `1..n`. -/
def turn (n : Int) (c : Int × Int) : Int × Int := (c.2, n + 1 - c.1)

/-- Mirroring the square. -/
def mirror (n : Int) (c : Int × Int) : Int × Int := (c.1, n + 1 - c.2)

/-- A symmetry of the square: mirrored or not, then turned some number of times. -/
def IsSymmetry (n : Int) (s : Int × Int → Int × Int) : Prop :=
  ∃ t : Nat, s = (turn n)^[t] ∨ s = (turn n)^[t] ∘ mirror n

/-- The square read row by row. -/
def readRows {α : Type} (n : Int) (f : Int × Int → α) : List α :=
  (List.range n.toNat).flatMap (fun i : Nat => (List.range n.toNat).map (fun j : Nat => f ((i : Int) + 1, (j : Int) + 1)))

/-- No symmetry of the square makes the matrix, read row by row, smaller. -/
def SquareLeast {α : Type} [LT α] (n : Int) (f : Int × Int → α) : Prop :=
  ∀ s, IsSymmetry n s →
    List.Lex (· < ·) (readRows n f) (readRows n (f ∘ s)) ∨ readRows n f = readRows n (f ∘ s)

end MZ.LexOrd.Spec
