import Verif.Linear.Lemmas
/-!
# Types (include/minizinc/type.hh, lib/type.cpp)
-/
namespace MZ
namespace Types

/-- type.hh 27–38, in this order. -/
inductive BT where
  | bool | int | float | string | ann | tuple | record | top | bot | unknown
  deriving DecidableEq, Repr

/-- The number of the enumerator. -/
def BT.num : BT → Nat
  | .bool => 0 | .int => 1 | .float => 2 | .string => 3 | .ann => 4 | .tuple => 5 | .record => 6 | .top => 7 | .bot => 8 | .unknown => 9

/-- `static_cast<BaseType>`; the values 10–15 of the bit field are not enumerators. -/
def BT.ofNum : Nat → Option BT
  | 0 => some .bool | 1 => some .int | 2 => some .float | 3 => some .string | 4 => some .ann | 5 => some .tuple | 6 => some .record
  | 7 => some .top | 8 => some .bot | 9 => some .unknown | _ => none

/-- type.hh 54–74: the fields of a type, without the flags `tiExplicit` and `otExplicit`. `var`, `set`, `opt` are the values
`TI_VAR`, `ST_SET`, `OT_OPTIONAL`. `dim` is the number `dim()` (−1 for arrays of any dimension). -/
structure Ty where
  bt : BT
  var : Bool
  set : Bool
  opt : Bool
  cv : Bool
  any : Bool
  typeId : Nat
  dim : Int
  deriving DecidableEq, Repr

/-- The ranges of the bit fields (64–74). -/
def Ty.Wf (t : Ty) : Prop := t.typeId < 2 ^ 16 ∧ -1 ≤ t.dim ∧ t.dim < 7

/-- 267–270 `operator==`. -/
def Ty.structBT (t : Ty) : Bool := t.bt == .tuple || t.bt == .record

def Ty.eq (a b : Ty) : Bool :=
  a.var == b.var && a.bt == b.bt && a.set == b.set && a.opt == b.opt && a.dim == b.dim && (!a.structBT || a.typeId == b.typeId)

def b2n (b : Bool) : Nat := if b then 1 else 0

/-- 274–280 `toInt`. -/
def toInt (t : Ty) : Int :=
  ((1 - b2n t.set : Nat) <<< 26 : Nat) + (t.bt.num <<< 22 : Nat) + (b2n t.var <<< 21 : Nat) + (b2n t.opt <<< 20 : Nat) + (t.typeId <<< 4 : Nat) +
    (if t.dim = -1 then 1 else if t.dim = 0 then 0 else t.dim + 1)

/-- 281–294 `fromInt`, for non-negative numbers. `none`: the base type field is no enumerator. -/
def fromInt (i : Nat) : Option Ty :=
  (BT.ofNum ((i >>> 22) &&& 0xF)).map fun bt =>
    let dim : Int := ((i &&& 0x7 : Nat) : Int)
    { bt := bt, set := (1 - ((i >>> 26) &&& 1)) == 1, var := ((i >>> 21) &&& 1) == 1, opt := ((i >>> 20) &&& 1) == 1,
      cv := false, any := false, typeId := (i >>> 4) &&& 0xFFF,
      dim := if dim = 0 then 0 else if dim = 1 then -1 else dim - 1 }

/-- 376 `cmp`. -/
def cmp (a b : Ty) : Int := if toInt a < toInt b then -1 else if toInt a > toInt b then 1 else 0

end Types
end MZ
