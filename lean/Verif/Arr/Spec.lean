import Verif.Arr.Model
/-!
# What an array is

An array is a non-empty list of index sets `D` (one pair of bounds per dimension) and the list `E` of its elements in row-major order.
-/
namespace MZ
namespace Arr

variable {α β : Type}

/-- A tuple of indices lies in the index sets. -/
def InBox : List (Int × Int) → List Int → Prop
  | [], [] => True
  | (lo, hi) :: r, x :: xs => lo ≤ x ∧ x ≤ hi ∧ InBox r xs
  | [], _ :: _ => False
  | _ :: _, [] => False

instance instDecidableInBox : (D : List (Int × Int)) → (t : List Int) → Decidable (InBox D t)
  | [], [] => isTrue trivial
  | (lo, hi) :: r, x :: xs =>
    have := instDecidableInBox r xs
    inferInstanceAs (Decidable (lo ≤ x ∧ x ≤ hi ∧ InBox r xs))
  | [], _ :: _ => isFalse id
  | _ :: _, [] => isFalse id

/-- The number of index tuples. -/
def count : List (Int × Int) → Int
  | [] => 1
  | (lo, hi) :: r => (Max.max 0 (hi - lo + 1)) * count r

/-- The position of an index tuple in row-major order. -/
def rank : List (Int × Int) → List Int → Int
  | (lo, _) :: r, x :: xs => (x - lo) * count r + rank r xs
  | _, _ => 0

/-- Index sets of an array: at least one dimension, each `lo..hi` possibly empty but not "negative". -/
def Shape (D : List (Int × Int)) : Prop := D ≠ [] ∧ ∀ p ∈ D, p.1 ≤ p.2 + 1

/-- Everything the interface of arrays shows: number of dimensions, bounds, length, size and elements. -/
structure IsArr (a : Lit α) (D : List (Int × Int)) (E : List α) : Prop where
  shape : Shape D
  total : count D = E.length
  nd : ndims a = D.length
  lo : ∀ k p, D[k]? = some p → min a k = .ok p.1
  hi : ∀ k p, D[k]? = some p → max a k = .ok p.2
  len : length a = .ok E.length
  siz : size a = .ok E.length
  elem : ∀ k e, E[k]? = some e → get a k = .ok e

/-- `E'` (with index sets `S`) is the part of `E` (with index sets `D`) selected by the ranges `S`. -/
def IsPart (D : List (Int × Int)) (E : List α) (S : List (Int × Int)) (E' : List α) : Prop :=
  (E'.length : Int) = count S ∧ ∀ t, InBox S t → E'[(rank S t).toNat]? = E[(rank D t).toNat]?

/-- Each range of the slice is empty or inside the index set. -/
def Inside : List (Int × Int) → List (Int × Int) → Prop
  | [], [] => True
  | (s0, s1) :: S, (a0, a1) :: D => (s1 < s0 ∨ (a0 ≤ s0 ∧ s1 ≤ a1)) ∧ Inside S D
  | [], _ :: _ => False
  | _ :: _, [] => False

/-- Well-formed array literals: the invariant kept by every way of making one. -/
inductive Wf : Lit α → List (Int × Int) → List α → Prop where
  | plain {v : List α} {D : List (Int × Int)} : Shape D → count D = v.length → Wf (.vec v false (flat D)) D v
  | plain1 {v : List α} : Wf (.vec v false []) [(1, v.length)] v
  | comp {e : α} {n : Nat} {r : List α} {D : List (Int × Int)} : Shape D → 1 ≤ n → count D = n + r.length →
      Wf (.vec (e :: r) true (flat D)) D (List.replicate n e ++ r)
  | slice {al : Lit α} {D S D' : List (Int × Int)} {E E' : List α} : Wf al D E → Inside S D → Shape D' → count D' = count S →
      IsPart D E S E' → Wf (.slice al (flat D' ++ flat S)) D' E'

end Arr
end MZ
