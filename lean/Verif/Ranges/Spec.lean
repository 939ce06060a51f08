import Verif.Ranges.Model
/-!
# Specification: the set of integers a range sequence stands for
-/
namespace MZ

/-- `x` lies in the range. -/
def Range.Mem (x : Int) (r : Range) : Prop := r.lo ≤ .fin x ∧ .fin x ≤ r.hi

/-- `x` belongs to the set denoted by a range sequence. -/
def Mem (x : Int) (l : List Range) : Prop := ∃ r ∈ l, r.Mem x

/-- Normal form: every range is non-empty (and does not consist of an infinity only), and each
range ends at least two below the start of every later one, i.e. an integer is missing in
between. -/
def Normal (l : List Range) : Prop :=
  (∀ r ∈ l, r.lo ≤ r.hi ∧ r.lo ≠ .posInf ∧ r.hi ≠ .negInf) ∧
  l.Pairwise (fun r s => r.hi.succ < s.lo)

/-- The ascending sequence of elements of a finite set starts with `x` … : lexicographic
order of sets. `A < B` iff at the least integer in which they differ, either that integer is
in `A` and `B` still has larger elements, or it is in `B` and `A` has no larger element.
(This is the lexicographic order of the ascending element sequences, a proper prefix being
smaller.) -/
def SetLex (A B : Int → Prop) : Prop :=
  ∃ d, (∀ y, y < d → (A y ↔ B y)) ∧
    ((A d ∧ ¬ B d ∧ ∃ z, d < z ∧ B z) ∨ (¬ A d ∧ B d ∧ ∀ z, d < z → ¬ A z))

end MZ
