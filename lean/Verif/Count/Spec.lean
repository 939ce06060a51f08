import Verif.Globals.Base

/-!
# What the counting constraints mean
-/

namespace MZ.Count.Spec
open MZ.Globals

/-- The number of occurrences of `v` in `xs`. -/
def occ (xs : Arr Int) (v : Int) : Nat := (xs.idx.filter (fun i => xs i = v)).card

/-- The number of present occurrences of `v` in `xs`. -/
def occOpt (xs : Arr (Option Int)) (v : Int) : Nat := (xs.idx.filter (fun i => xs i = some v)).card

/-- The number of sets in `xs` that contain `v`. -/
def occSet (xs : Arr (Finset Int)) (v : Int) : Nat := (xs.idx.filter (fun i => v ∈ xs i)).card

/-- The elements are pairwise different. -/
def AllDifferent {α : Type} (xs : Arr α) : Prop := ∀ i ∈ xs.idx, ∀ j ∈ xs.idx, xs i = xs j → i = j

/-- The elements that are not in `except` are pairwise different. -/
def AllDifferentExcept (xs : Arr Int) (except : Finset Int) : Prop :=
  ∀ i ∈ xs.idx, ∀ j ∈ xs.idx, xs i = xs j → xs i ∉ except → i = j

/-- The present elements are pairwise different. -/
def AllDifferentPresent (xs : Arr (Option Int)) : Prop :=
  ∀ i ∈ xs.idx, ∀ j ∈ xs.idx, xs i = xs j → xs i ≠ none → i = j

/-- The number of occurrences of each `cover[i]` in an array is `count[i]`; `f` is `occ xs` etc. -/
def Gcc (f : Int → Nat) (cover count : Arr Int) : Prop := ∀ i ∈ cover.idx, count i = f (cover i)

/-- Each `cover[i]` occurs between `lower[i]` and `upper[i]` times. -/
def GccLowUp (f : Int → Nat) (cover lower upper : Arr Int) : Prop :=
  ∀ i ∈ cover.idx, lower i ≤ f (cover i) ∧ (f (cover i) : Int) ≤ upper i

/-- All elements of `xs` are in `cover`. -/
def Closed (xs cover : Arr Int) : Prop := ∀ i ∈ xs.idx, ∃ k ∈ cover.idx, cover k = xs i

/-- All present elements of `xs` are in `cover`. -/
def ClosedOpt (xs : Arr (Option Int)) (cover : Arr Int) : Prop :=
  ∀ i ∈ xs.idx, ∀ v, xs i = some v → ∃ k ∈ cover.idx, cover k = v

/-- The answer of a predicate that may abort is right: it is the specified truth value, and it aborts only where the
specification is false. -/
def Right (r : Option Prop) (spec : Prop) : Prop := (∃ P, r = some P ∧ (P ↔ spec)) ∨ (r = none ∧ ¬spec)

end MZ.Count.Spec
