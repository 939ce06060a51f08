import Verif.Incl.Model
import Mathlib.Logic.Relation
import Mathlib.Data.List.Forall2
import Mathlib.Data.List.Nodup
import Mathlib.Data.List.Perm.Subperm
/-!
# What is loaded
-/
namespace MZ
namespace Incl

/-- File `a` includes file `b`. -/
def Includes (fs : FS) (paths : List String) (a b : String) : Prop :=
  ∃ f, Src.inc f ∈ fs.content a ∧ canon fs paths a f = b

/-- File `b` is file `a` or is included by it, directly or not. -/
def Reaches (fs : FS) (paths : List String) : String → String → Prop := Relation.ReflTransGen (Includes fs paths)

/-- The file can be opened. -/
def Openable (fs : FS) (f : String) : Prop := isAbsolute f = true ∧ fs.isFile f = true

/-- The items of a model are those of a file; the model of each include item is the model of the file included, and not the first model. -/
def Matches (fs : FS) (paths : List String) (ms : List M) (file : String) : List Src → List PItem → Prop :=
  List.Forall₂ fun s p =>
    match s, p with
    | .other n, .other n' => n = n'
    | .inc f, .inc j _ => ∃ x, 0 < j ∧ ms[j]? = some x ∧ x.file = canon fs paths file f
    | _, _ => False

end Incl
end MZ
