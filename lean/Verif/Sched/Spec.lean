import Mathlib.Algebra.BigOperators.Group.Finset.Basic
import Mathlib.Data.Int.Interval

/-!
# What the scheduling and packing constraints are documented to mean

Written from the documentation comments of `share/minizinc/std/{cumulative,disjunctive,…}.mzn`, in terms of time points
and grid cells, independently of the decompositions.  `I` is the set of tasks or items.
-/

namespace MZ.Sched.Spec

/-- Task `i` runs at time `t`. -/
def Runs (s d : Int → Int) (i t : Int) : Prop := s i ≤ t ∧ t < s i + d i

instance (s d : Int → Int) (i t : Int) : Decidable (Runs s d i t) := by unfold Runs; infer_instance

/-- At no time do the running tasks require more than `b`. -/
def Cumulative (I : Finset Int) (s d r : Int → Int) (b : Int) : Prop :=
  ∀ t : Int, ∑ i ∈ I.filter (fun i => Runs s d i t), r i ≤ b

/-- No two tasks run at the same time. -/
def Disjunctive (I : Finset Int) (s d : Int → Int) : Prop :=
  ∀ t : Int, ∀ i ∈ I, ∀ j ∈ I, Runs s d i t → Runs s d j t → i = j

/-- No two tasks run at the same time, and a task of duration 0 is not placed inside another task. -/
def DisjunctiveStrict (I : Finset Int) (s d : Int → Int) : Prop :=
  Disjunctive I s d ∧ ∀ i ∈ I, ∀ j ∈ I, d j = 0 → ¬(s i < s j ∧ s j < s i + d i)

/-- On every machine and at every time, either no task runs or the running tasks require at most (at least) the bound. -/
def Cumulatives (I : Finset Int) (s d r m : Int → Int) (bound : Int → Int) (upper : Bool) : Prop :=
  ∀ k t : Int, (∃ i ∈ I, m i = k ∧ Runs s d i t) →
    if upper then ∑ i ∈ I.filter (fun i => m i = k ∧ Runs s d i t), r i ≤ bound k
    else bound k ≤ ∑ i ∈ I.filter (fun i => m i = k ∧ Runs s d i t), r i

/-- Box `b` covers the unit cell `c`, in all dimensions of `D`. -/
def Covers (D : Finset Int) (p w : Int → Int → Int) (b : Int) (c : Int → Int) : Prop :=
  ∀ j ∈ D, p b j ≤ c j ∧ c j < p b j + w b j

/-- No unit cell is covered by two boxes. -/
def NoOverlap (B D : Finset Int) (p w : Int → Int → Int) : Prop :=
  ∀ c : Int → Int, ∀ b1 ∈ B, ∀ b2 ∈ B, Covers D p w b1 c → Covers D p w b2 c → b1 = b2

/-- Two intervals meet in one dimension: they share a unit cell, or one has length 0 and lies strictly inside the other. -/
def Meets (p1 w1 p2 w2 : Int) : Prop :=
  (∃ c, (p1 ≤ c ∧ c < p1 + w1) ∧ (p2 ≤ c ∧ c < p2 + w2)) ∨
  (w1 = 0 ∧ p2 < p1 ∧ p1 < p2 + w2) ∨ (w2 = 0 ∧ p1 < p2 ∧ p2 < p1 + w1)

/-- No two different boxes meet in all dimensions; boxes of size 0 count as well. -/
def NoOverlapStrict (B D : Finset Int) (p w : Int → Int → Int) : Prop :=
  ∀ b1 ∈ B, ∀ b2 ∈ B, b1 ≠ b2 → ¬ ∀ j ∈ D, Meets (p b1 j) (w b1 j) (p b2 j) (w b2 j)

/-- The total weight of the items in bin `b`. -/
def BinLoad (I : Finset Int) (bin : Int → Option Int) (weight : Int → Int) (b : Int) : Int :=
  ∑ i ∈ I.filter (fun i => bin i = some b), weight i

end MZ.Sched.Spec
