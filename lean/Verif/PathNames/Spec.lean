import Verif.PathNames.Model

/-!
# Array accesses
-/

namespace MZ
namespace PathNames

/-- The position of an element in row-major order. -/
def position (sets : List (Int × Int)) (idx : List Int) : Int :=
  (sets.zip idx).foldl (fun acc si => acc * si.1.2 + (si.2 - si.1.1)) 0

/-- The indices are in the index sets. -/
def InBounds (sets : List (Int × Int)) (idx : List Int) : Prop := List.Forall₂ (fun s i => s.1 ≤ i ∧ i < s.1 + s.2) sets idx

/-- `v` is the value of the array access `x[idx]` for an output array `x`. -/
def IsElem (ds : List Decl) (v x : Nat) (idx : List Int) : Prop :=
  ∃ d ∈ ds, ∃ sets rhs, d.id = x ∧ .outputArray sets ∈ d.anns ∧ d.rhs = some rhs ∧ InBounds sets idx ∧ 0 ≤ position sets idx ∧
    rhs[(position sets idx).toNat]? = some (some v)

/-- Output arrays have index sets, and as many elements as these say. -/
def Wf (ds : List Decl) : Prop :=
  ∀ d ∈ ds, ∀ sets rhs, .outputArray sets ∈ d.anns → d.rhs = some rhs →
    sets ≠ [] ∧ (∀ s ∈ sets, 0 ≤ s.2) ∧ (rhs.length : Int) = (sets.map Prod.snd).prod

/-- The path in an annotation. -/
def Ann.path? : Ann → Option String
  | .path s => some s
  | _ => none

/-- The paths given to an identifier. -/
def paths (ds : List Decl) (v : Nat) : List String :=
  (ds.filter fun d => d.id = v).flatMap fun d => d.anns.filterMap Ann.path?

end PathNames
end MZ
