import Mathlib.Data.Finset.Sort
import Mathlib.Order.Interval.Finset.Basic
import Mathlib.Data.Int.Interval

/-!
# The order on sets

Sets are compared as the increasing sequences of their elements (`C08` for constants).  The other operations on sets are those of
`Finset`.
-/

namespace MZ.NoSets.Spec

/-- The increasing sequence of the elements of `s` comes before that of `t`. -/
def SetLess (s t : Finset Int) : Prop := List.Lex (· < ·) (s.sort (· ≤ ·)) (t.sort (· ≤ ·))

/-- … or is the same. -/
def SetLessEq (s t : Finset Int) : Prop := SetLess s t ∨ s = t

end MZ.NoSets.Spec
