import Verif.Ranges.Model

/-!
# The expressions the JSON reader builds
-/

namespace MZ
namespace Json

/-- The number a token stands for when a set of floats is built: the `double` an integer token
carries besides its value (`lib/json_parser.cpp:43`), or a float token's text. -/
inductive Num where
  | int (i : Int)
  | text (t : List Char)
  deriving DecidableEq, Repr

/-- Expressions built by `JSONParser::parseExp` and friends, `lib/json_parser.cpp:427-876`.  Floats
keep their source text; a record is the list of its named fields. -/
inductive JE where
  | int (i : Int)
  | float (text : List Char)
  | str (s : List Char)
  | id (s : List Char)
  | bool (b : Bool)
  /-- `_env.constants.absent` -/
  | absent
  /-- an `ArrayLit` with one dimension starting at 1 -/
  | arr (l : List JE)
  /-- an `ArrayLit` with the given dimensions (each from 1) and elements -/
  | arrN (dims : List Nat) (l : List JE)
  /-- a `SetLit` with an `IntSetVal` -/
  | intSet (r : List Range)
  /-- a `SetLit` with a `FloatSetVal`: the union of the listed ranges, kept as text -/
  | floatSet (r : List (Num × Num))
  /-- a `SetLit` given by element expressions -/
  | exprSet (l : List JE)
  /-- the `ArrayLit` of an object: a tuple of its fields -/
  | record (fields : List (List Char × JE))
  /-- the `VarDecl` that is a field of a record -/
  | field (name : List Char) (e : JE)
  | call (name : List Char) (args : List JE)

/-- The elements of an expression that is an `ArrayLit` (`Expression::isa<ArrayLit>`, `getVec`):
objects are array literals too, `lib/json_parser.cpp:763`. -/
def JE.vec? : JE → Option (List JE)
  | .arr l => some l
  | .arrN _ l => some l
  | .record fs => some (fs.map (fun f => .field f.1 f.2))
  | _ => none

theorem JE.sizeOf_fields (fs : List (List Char × JE)) :
    sizeOf (fs.map (fun f => JE.field f.1 f.2)) = sizeOf fs := by
  induction fs with
  | nil => rfl
  | cons f fs ih =>
    obtain ⟨n, e⟩ := f
    simp only [List.map_cons, List.cons.sizeOf_spec, ih, JE.field.sizeOf_spec, Prod.mk.sizeOf_spec]

theorem JE.vec?_lt {e : JE} {l : List JE} (h : e.vec? = some l) : sizeOf l < sizeOf e := by
  cases e <;> simp only [JE.vec?, reduceCtorEq, Option.some.injEq] at h
  · subst h; simp
  · subst h; simp only [JE.arrN.sizeOf_spec]; omega
  · subst h; rw [JE.sizeOf_fields]; simp

end Json
end MZ
