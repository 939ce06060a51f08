import Verif.Globals.Base
import Mathlib.Data.Rat.Defs
import Mathlib.Algebra.Order.Ring.Unbundled.Rat

/-! # What the channelling, sorting, array and arithmetic constraints mean

The statements follow the comments in `inverse.mzn`, `sort.mzn`, `arg_sort.mzn`, `arg_max.mzn`, `arg_val.mzn`, … -/

namespace MZ.Chan.Spec
open MZ.Globals

/-- `f` and `g` are inverse functions between their index sets. -/
def Inverse (f g : Arr Int) : Prop :=
  (∀ i ∈ f.idx, f i ∈ g.idx) ∧ (∀ j ∈ g.idx, g j ∈ f.idx) ∧ ∀ i ∈ f.idx, ∀ j ∈ g.idx, f i = j ↔ g j = i

/-- `f` and `g` are inverse where their values lie in the other index set. -/
def InverseInRange (f g : Arr Int) : Prop := ∀ i ∈ f.idx, ∀ j ∈ g.idx, f i = j ↔ g j = i

/-- `f` and `g` are inverse partial functions. -/
def InverseOpt (f g : Arr (Option Int)) : Prop :=
  (∀ i ∈ f.idx, ∀ v, f i = some v → v ∈ g.idx) ∧ (∀ j ∈ g.idx, ∀ v, g j = some v → v ∈ f.idx) ∧
    ∀ i ∈ f.idx, ∀ j ∈ g.idx, f i = some j ↔ g j = some i

/-- `f` and `g` are inverse relations between their index sets. -/
def InverseSet (f g : Arr (Finset Int)) : Prop :=
  (∀ i, ∀ j, (i ∈ f.idx ∧ j ∈ f i) ↔ (j ∈ g.idx ∧ i ∈ g j))

/-- `xs[i] = j ↔ i ∈ sets[j]`, for all numbers `i` and `j`. -/
def IntSetChannel (ints : Arr Int) (sets : Arr (Finset Int)) : Prop :=
  ∀ i j, (i ∈ ints.idx ∧ ints i = j) ↔ (j ∈ sets.idx ∧ i ∈ sets j)

/-- An involution of the index set. -/
def Involution (xs : Arr Int) : Prop := ∀ i ∈ xs.idx, xs i ∈ xs.idx ∧ xs (xs i) = i

/-- The number of occurrences of a value. -/
def times (xs : Arr Int) (v : Int) : Nat := (xs.idx.filter (fun i => xs i = v)).card

/-- `ys` has the same multiset of values as `xs` and is in increasing order. -/
def Sorted (xs ys : Arr Int) : Prop :=
  (∀ v, times xs v = times ys v) ∧ ∀ i ∈ ys.idx, ∀ j ∈ ys.idx, i < j → ys i ≤ ys j

section
variable {α : Type} [LinearOrder α]

/-- `p` lists the index set of `xs`, each index once, in the order of the stable sort of `xs`. -/
def ArgSort (xs : Arr α) (p : Arr Int) : Prop :=
  (∀ j ∈ p.idx, p j ∈ xs.idx) ∧ (∀ i ∈ xs.idx, ∃ j ∈ p.idx, p j = i) ∧
    ∀ j ∈ p.idx, ∀ k ∈ p.idx, j < k → xs (p j) < xs (p k) ∨ (xs (p j) = xs (p k) ∧ p j < p k)

/-- `m` is the least index of a greatest element. -/
def FirstMax (xs : Arr α) (m : Int) : Prop :=
  m ∈ xs.idx ∧ (∀ j ∈ xs.idx, xs j ≤ xs m) ∧ ∀ j ∈ xs.idx, xs j = xs m → m ≤ j

/-- `m` is the least index of a least element. -/
def FirstMin (xs : Arr α) (m : Int) : Prop :=
  m ∈ xs.idx ∧ (∀ j ∈ xs.idx, xs m ≤ xs j) ∧ ∀ j ∈ xs.idx, xs j = xs m → m ≤ j

/-- `m` is the least index of a greatest present element. -/
def FirstMaxPresent (xs : Arr (Option α)) (m : Int) : Prop :=
  m ∈ xs.idx ∧ ∃ v, xs m = some v ∧ (∀ j ∈ xs.idx, ∀ u, xs j = some u → u ≤ v) ∧
    ∀ j ∈ xs.idx, xs j = some v → m ≤ j

/-- `m` is the least index of a least present element. -/
def FirstMinPresent (xs : Arr (Option α)) (m : Int) : Prop :=
  m ∈ xs.idx ∧ ∃ v, xs m = some v ∧ (∀ j ∈ xs.idx, ∀ u, xs j = some u → v ≤ u) ∧
    ∀ j ∈ xs.idx, xs j = some v → m ≤ j

/-- The index of the greatest present element, absent if there is none. -/
def ArgMaxWeak (xs : Arr (Option α)) (r : Option Int) : Prop :=
  ((∀ i ∈ xs.idx, xs i = none) ∧ r = none) ∨ ∃ m, r = some m ∧ FirstMaxPresent xs m

/-- The index of the least present element, absent if there is none. -/
def ArgMinWeak (xs : Arr (Option α)) (r : Option Int) : Prop :=
  ((∀ i ∈ xs.idx, xs i = none) ∧ r = none) ∨ ∃ m, r = some m ∧ FirstMinPresent xs m

/-- `m` is the least index of the value `v`. -/
def FirstVal {β : Type} (xs : Arr β) (v : β) (m : Int) : Prop :=
  m ∈ xs.idx ∧ xs m = v ∧ ∀ j ∈ xs.idx, xs j = v → m ≤ j

/-- The least index of the value `v`, absent if it does not occur. -/
def ArgValWeak {β : Type} (xs : Arr β) (v : β) (r : Option Int) : Prop :=
  ((∀ i ∈ xs.idx, xs i ≠ v) ∧ r = none) ∨ ∃ m, r = some m ∧ FirstVal xs v m

end

/-- `image` is the image of `dom` under `xs`. -/
def Range (xs : Arr Int) (dom image : Finset Int) : Prop := ∀ v, v ∈ image ↔ ∃ i ∈ dom, xs i = v

/-- `pre` is the set of indices of values in `image`. -/
def Roots (xs : Arr Int) (pre image : Finset Int) : Prop := ∀ i, i ∈ pre ↔ i ∈ xs.idx ∧ xs i ∈ image

/-- `O` is `I` with the value `v` at `i`. -/
def Write (I : Arr Int) (i v : Int) (O : Arr Int) : Prop := ∀ j ∈ I.idx, O j = Function.update I.val i v j

/-- `O` is `I` after the writes `P[j] := V[j]`, in the order of the index set of `P`: the value of an element is that of the
last write to it, and without a write to it the one in `I`. -/
def WritesSeq (I P V O : Arr Int) : Prop :=
  ∀ i ∈ I.idx, (∀ j ∈ P.idx, P j = i → (∀ k ∈ P.idx, j < k → P k ≠ i) → O i = V j) ∧
    ((∀ j ∈ P.idx, P j ≠ i) → O i = I i)

/-- All sums of `w` neighbours are between `low` and `up`. -/
def SlidingSum (low up w : Int) (xs : Arr Int) : Prop :=
  ∀ i, xs.lo ≤ i → i + w - 1 ≤ xs.hi →
    low ≤ ∑ j ∈ Finset.Icc i (i + w - 1), xs j ∧ ∑ j ∈ Finset.Icc i (i + w - 1), xs j ≤ up

/-- A directed graph given by the end points of its arcs. -/
structure Arcs where
  lo : Int
  hi : Int
  src : Int → Int
  dst : Int → Int

/-- The index set of the arcs. -/
def Arcs.idx (a : Arcs) : Finset Int := Finset.Icc a.lo a.hi

/-- What leaves a node is what enters it and its balance. -/
def Flow (a : Arcs) (balance flow : Arr Int) : Prop :=
  ∀ n ∈ balance.idx, ∑ e ∈ a.idx.filter (fun e => a.src e = n), flow e =
    ∑ e ∈ a.idx.filter (fun e => a.dst e = n), flow e + balance n

/-- A packing with its total weight and profit. -/
def Knapsack (weight profit xs : Arr Int) (tw tp : Int) : Prop :=
  (∀ i ∈ xs.idx, 0 ≤ xs i) ∧ tw = ∑ i ∈ xs.idx, weight i * xs i ∧ tp = ∑ i ∈ xs.idx, profit i * xs i

/-- The point `(x, y)` lies on the segment from `(x₀, y₀)` to `(x₁, y₁)`. -/
def OnSegment (x y x₀ y₀ x₁ y₁ : Rat) : Prop :=
  ∃ t : Rat, 0 ≤ t ∧ t ≤ 1 ∧ x = x₀ + t * (x₁ - x₀) ∧ y = y₀ + t * (y₁ - y₀)

/-- The point `(x, y)` lies on the polyline through the given points. -/
def OnPolyline (x y : Rat) (xk yk : Arr Rat) : Prop :=
  (∃ i, xk.lo ≤ i ∧ i < xk.hi ∧ OnSegment x y (xk i) (yk i) (xk (i + 1)) (yk (i + 1))) ∨
    (xk.lo = xk.hi ∧ x = xk xk.lo ∧ y = yk xk.lo)

end MZ.Chan.Spec
