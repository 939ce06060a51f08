import Verif.Blackbox.Model

/-!
# What black-box propagators mean (`docs/en/blackbox.rst`)
-/

namespace MZ
namespace Blackbox

/-- `list of var int`. -/
def Ty.IsInts (t : Ty) : Prop := t = ⟨true, 1, true, false, .int⟩

/-- `list of var float`. -/
def Ty.IsFloats (t : Ty) : Prop := t = ⟨true, 1, true, false, .float⟩

/-- The type of a predicate. -/
def Ty.IsPred (t : Ty) : Prop := t = ⟨true, 0, true, false, .bool⟩

/-- Lists of variables: at most one of integers, at most one of floats, and no other parameters that are not fixed. -/
def LegalParams (ts : List Ty) : Prop :=
  (∀ t ∈ ts, t.var = true → t.IsInts ∨ t.IsFloats) ∧
  (∀ (i j : Nat) (s t : Ty), ts[i]? = some s → ts[j]? = some t → s.IsInts → t.IsInts → i = j) ∧
  (∀ (i j : Nat) (s t : Ty), ts[i]? = some s → ts[j]? = some t → s.IsFloats → t.IsFloats → i = j)

/-- Declarations of black-box propagators as documented. -/
def Legal (f : Fn) : Prop :=
  f.isValue ≠ f.isBounds ∧ f.hasBody = false ∧ (f.exec ≠ none ∨ f.dll ≠ none) ∧ LegalParams f.params ∧
  (f.isBounds = true → f.ret.IsPred) ∧
  (f.isValue = true → f.ret.IsPred ∨ ((f.ret.IsInts ∨ f.ret.IsFloats) ∧ f.parOverload = true))

/-- Types of variables are neither sets nor optional. -/
def Fn.Plain (f : Fn) : Prop := ∀ t, t = f.ret ∨ t ∈ f.params → t.var = true → t.plain = true ∧ t.opt = false

/-- Values of parameters. -/
inductive Val
  | ints (l : List Int)
  | floats (l : List Rat)
  | fixed
deriving DecidableEq

/-- Values that fit the types of the parameters. -/
def Fits : List Ty → List Val → Prop
  | [], [] => True
  | t :: ts, v :: vs =>
    (t.var = true → (t.base = .int → ∃ l, v = .ints l) ∧ (t.base = .float → ∃ l, v = .floats l)) ∧ (t.var = false → v = .fixed) ∧ Fits ts vs
  | _, _ => False

/-- The integers of a value. -/
def Val.intList : Val → List Int
  | .ints l => l
  | _ => []

/-- The floats of a value. -/
def Val.floatList : Val → List Rat
  | .floats l => l
  | _ => []

/-- The integers among the values of the variables. -/
def intsOf (vs : List Val) : List Int := vs.flatMap Val.intList

/-- The floats among the values of the variables. -/
def floatsOf (vs : List Val) : List Rat := vs.flatMap Val.floatList

/-- An external function. -/
abbrev Extern := List Int → List Rat → List Int × List Rat

/-- The value of a list of integers. -/
def Arg.ints (vs : List Val) : Arg → List Int
  | .param i => match vs[i]? with | some (.ints l) => l | _ => []
  | .empty => []

/-- The value of a list of floats. -/
def Arg.floats (vs : List Val) : Arg → List Rat
  | .param i => match vs[i]? with | some (.floats l) => l | _ => []
  | .empty => []

/-- `blackbox(ints, floats, outInts, outFloats)`: the external function gives these outputs. -/
def blackbox (ext : Extern) (ints : List Int) (floats : List Rat) (outInts : List Int) (outFloats : List Rat) : Prop :=
  ext ints floats = (outInts, outFloats)

/-- The generated body of a predicate is true. -/
def Body.Holds (ext : Extern) (vs : List Val) : Body → Prop
  | .checker a b => ∃ r : Int, (0 ≤ r ∧ r ≤ 1) ∧ blackbox ext (a.ints vs) (b.floats vs) [r] [] ∧ r = 1
  | _ => False

/-- The generated body of a function has the integers `out` as its value; `n` is the number of elements the `par` overload gives. -/
def Body.HasInts (ext : Extern) (vs : List Val) (n : Nat) (out : List Int) : Body → Prop
  | .func a b true _ => out.length = n ∧ blackbox ext (a.ints vs) (b.floats vs) out []
  | _ => False

/-- The generated body of a function has the floats `out` as its value. -/
def Body.HasFloats (ext : Extern) (vs : List Val) (n : Nat) (out : List Rat) : Body → Prop
  | .func a b false _ => out.length = n ∧ blackbox ext (a.ints vs) (b.floats vs) [] out
  | _ => False

/-- Reading `n` literals. -/
def readLits : Nat → List Int → Option (List (Int × PropBnd) × List Int)
  | 0, r => some ([], r)
  | n + 1, j :: b :: r => do
    let b ← if b = 1 then some PropBnd.lb else if b = 2 then some PropBnd.ub else none
    let (ls, r) ← readLits n r
    some ((j, b) :: ls, r)
  | _, _ => none

/-- Reading a list of literals with its length in front. -/
def readCounted : List Int → Option (List (Int × PropBnd) × List Int)
  | n :: r => if 0 ≤ n then readLits n.toNat r else none
  | [] => none

/-- How a solver reads the reasons for `n` variables. -/
def readReason : Nat → List Int → Option (List Entry)
  | 0, [] => some []
  | n + 1, v :: r => do
    let (lo, r) ← readCounted r
    let (up, r) ← readCounted r
    let es ← readReason n r
    some (⟨v, lo, up⟩ :: es)
  | _, _ => none

end Blackbox
end MZ
