import Mathlib.Logic.Function.Basic
import Mathlib.Algebra.BigOperators.Group.List.Basic
import Mathlib.Algebra.Order.Ring.Int

/-!
# Model: the names in path files (`lib/pathfileprinter.cpp`)

Identifier objects are numbers, since the table of names compares addresses.  Not modelled: the text of the names and lines, the paths of
constraints, overflow of the products of cardinalities (the array would have to have as many elements).
-/

namespace MZ
namespace PathNames

/-- Annotations: `output_array` with the least element and the cardinality of each index set, and `mzn_path`. -/
inductive Ann
  | outputArray (sets : List (Int × Int))
  | path (s : String)
  | other
deriving DecidableEq

/-- A declaration: its identifier, annotations, and the elements of its right-hand side if that is an array literal; `none` is an element that is not
an identifier. -/
structure Decl where
  id : Nat
  anns : List Ann
  rhs : Option (List (Option Nat))
deriving DecidableEq

/-- A name: an array access or a name made from a path. -/
inductive Name
  | access (x : Nat) (idx : List Int)
  | ofPath (s : String)
deriving DecidableEq

/-- `_betternames`; the default is the pair of empty strings, `include/minizinc/pathfileprinter.hh:22-26`. -/
abbrev Names := Nat → Option Name × String

/-- `addBetterName`, `lib/pathfileprinter.cpp:24-43`. -/
def addBetterName (m : Names) (id : Nat) (name : Option Name) (path : String) (overwrite : Bool) : Names :=
  let oname := if name ≠ none ∧ (overwrite ∨ (m id).1 = none) then name else (m id).1
  let opath := if path ≠ "" ∧ (overwrite ∨ (m id).2 = "") then path else (m id).2
  Function.update m id (oname, opath)

/-- The indices of element number `curind`, `lib/pathfileprinter.cpp:104-129`; `dimspan[i]` is the product of the later cardinalities. -/
def indices : List (Int × Int) → Int → List Int
  | [], _ => []
  | [s], curind => [s.1 + curind]
  | s :: t :: rest, curind =>
    let dimspan := ((t :: rest).map Prod.snd).prod
    let thisind := curind.tdiv dimspan
    (s.1 + thisind) :: indices (t :: rest) (curind - thisind * dimspan)

/-- The loop over the elements, `lib/pathfileprinter.cpp:99-133`, from element number `ind`. -/
def nameElems (x : Nat) (sets : List (Int × Int)) : Names → Nat → List (Option Nat) → Names
  | m, _, [] => m
  | m, ind, none :: es => nameElems x sets m (ind + 1) es
  | m, ind, some id :: es => nameElems x sets (addBetterName m id (some (.access x (indices sets ind))) "" true) (ind + 1) es

/-- A name made from a path; `path2name`, `lib/pathfileprinter.cpp:45-89`, is a parameter, and no name is the empty string. -/
def toName (s : String) : Option Name := if s = "" then none else some (.ofPath s)

/-- One annotation, `lib/pathfileprinter.cpp:95-138`. -/
def nameAnn (path2name : String → String) (d : Decl) (m : Names) : Ann → Names
  | .outputArray sets =>
    match d.rhs with
    | some rhs => nameElems d.id sets m 0 rhs
    | none => m
  | .path s => addBetterName m d.id (toName (path2name s)) s false
  | .other => m

/-- `buildMap`, `lib/pathfileprinter.cpp:91-141`. -/
def buildMap (path2name : String → String) (ds : List Decl) : Names :=
  ds.foldl (fun m d => d.anns.foldl (nameAnn path2name d) m) fun _ => (none, "")

end PathNames
end MZ
