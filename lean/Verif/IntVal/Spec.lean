import Verif.IntVal.Model
/-!
# Specification for `IntVal`: the extended integers

`Ext` is the usual two-point completion of the integers. `IntVal.denote` says which
extended integer a machine value stands for; a value whose infinity flag is set but
whose stored number is not `1` or `-1` stands for nothing.
-/
namespace MZ

inductive Ext where
  | negInf
  | fin (i : Int)
  | posInf
deriving DecidableEq, Repr

namespace Ext
/-- The total order of the extended integers. -/
def le : Ext → Ext → Prop
  | negInf, _ => True
  | _, posInf => True
  | fin a, fin b => a ≤ b
  | _, _ => False

def lt (a b : Ext) : Prop := le a b ∧ a ≠ b

def neg : Ext → Ext
  | negInf => posInf
  | fin i => fin (-i)
  | posInf => negInf

/-- Product; `0 * ∞` is undefined. -/
def mul : Ext → Ext → Option Ext
  | fin a, fin b => some (fin (a * b))
  | fin a, posInf => if a = 0 then none else some (if a < 0 then negInf else posInf)
  | fin a, negInf => if a = 0 then none else some (if a < 0 then posInf else negInf)
  | posInf, fin a => if a = 0 then none else some (if a < 0 then negInf else posInf)
  | negInf, fin a => if a = 0 then none else some (if a < 0 then posInf else negInf)
  | posInf, posInf => some posInf
  | negInf, negInf => some posInf
  | posInf, negInf => some negInf
  | negInf, posInf => some negInf

/-- Sum; `∞ - ∞` is undefined. -/
def add : Ext → Ext → Option Ext
  | fin a, fin b => some (fin (a + b))
  | posInf, negInf => none
  | negInf, posInf => none
  | posInf, _ => some posInf
  | _, posInf => some posInf
  | negInf, _ => some negInf
  | _, negInf => some negInf

def abs : Ext → Ext
  | fin i => fin i.natAbs
  | _ => posInf
end Ext

/-- `x` has a magnitude that fits in 63 bits (the range without `LLONG_MIN`). -/
def magLL (x : Int) : Prop := -LMAX ≤ x ∧ x ≤ LMAX

instance (x : Int) : Decidable (magLL x) := inferInstanceAs (Decidable (_ ∧ _))

/-- The extended integer a machine value stands for. -/
def IntVal.denote (x : IntVal) : Option Ext :=
  if x.inf then
    if x.v = 1 then some .posInf else if x.v = -1 then some .negInf else none
  else some (.fin x.v)

/-- A machine value that stands for an extended integer and fits in 64 bits. -/
def IntVal.WF (x : IntVal) : Prop := inLL x.v ∧ x.denote ≠ none

end MZ
