import Mathlib.Data.Rat.Defs

/-!
# Model: bodies of black-box propagators (`lib/blackbox.cpp`, `share/minizinc/std/experimental/blackbox.mzn`)

Parameters are referred to by their number.  Not modelled: locations, texts of messages, the resolution of file names, the removal of
annotations, and the functions that the compiler looks up (`matchFn`), whose results are inputs.
-/

namespace MZ
namespace Blackbox

/-- Base types. -/
inductive Base
  | bool | int | float | other
deriving DecidableEq, Repr

/-- Types, as far as they are looked at; `plain` is `Type::ST_PLAIN` (no set), `opt` an optional type. -/
structure Ty where
  var : Bool
  dim : Nat
  plain : Bool
  opt : Bool
  base : Base
deriving DecidableEq, Repr

/-- A function item: its annotations, whether it has a body, its type and parameters; `userReason` says that there is a function
`<name>_reason` for the types of the parameters and `parOverload` that there is a `par` overload. -/
structure Fn where
  isValue : Bool
  isBounds : Bool
  hasBody : Bool
  exec : Option String
  dll : Option String
  ret : Ty
  params : List Ty
  userReason : Bool
  parOverload : Bool
deriving DecidableEq, Repr

/-- A list argument: a parameter or `[]`. -/
inductive Arg
  | param (i : Nat)
  | empty
deriving DecidableEq, Repr

/-- Arguments of the `par` overload: `lb(p)` or `p`. -/
inductive ParArg
  | lb (i : Nat)
  | pass (i : Nat)
deriving DecidableEq, Repr

/-- The generated bodies:
* `checker`: `let { var 0..1: r; constraint blackbox(ints, floats, [r], []) } in r = 1`;
* `func`: `let { array [index_set(f(parArgs))] of var int: out; constraint blackbox(ints, floats, out, []) } in out`, or with `float` if not `isInt`;
* `bounds`: `blackbox_bounds(ints, floats, reason)` with the user's reason (`true`) or the default for `length(ints) + length(floats)`. -/
inductive Body
  | checker (ints floats : Arg)
  | func (ints floats : Arg) (isInt : Bool) (parArgs : List ParArg)
  | bounds (ints floats : Arg) (userReason : Bool)
deriving DecidableEq, Repr

/-- The annotation on the generated call: the name and whether it is resolved as a library. -/
structure Source where
  name : String
  isLibrary : Bool
deriving DecidableEq, Repr

/-- What happens to a function item. -/
inductive Outcome
  | unchanged
  | error
  | body (b : Body) (s : Source)
deriving DecidableEq, Repr

/-- The state of the loop over the parameters. -/
structure Cls where
  ints : Option Nat
  floats : Option Nat
  parArgs : List ParArg
  valid : Bool
deriving DecidableEq, Repr

/-- One parameter, `lib/blackbox.cpp:113-148`. -/
def classify1 (c : Cls) (i : Nat) (t : Ty) : Cls :=
  if t.var then
    if t.dim = 1 ∧ t.plain = true ∧ t.base = .int then
      { c with valid := c.valid && c.ints.isNone, ints := some i, parArgs := c.parArgs ++ [.lb i] }
    else if t.dim = 1 ∧ t.plain = true ∧ t.base = .float then
      { c with valid := c.valid && c.floats.isNone, floats := some i, parArgs := c.parArgs ++ [.lb i] }
    else { c with valid := false }
  else { c with parArgs := c.parArgs ++ [.pass i] }

/-- The loop over the parameters, `lib/blackbox.cpp:113-148`. -/
def classify : Cls → Nat → List Ty → Cls
  | c, _, [] => c
  | c, i, t :: ts => classify (classify1 c i t) (i + 1) ts

/-- `lib/blackbox.cpp:153-158`. -/
def toArg : Option Nat → Arg
  | some i => .param i
  | none => .empty

/-- `synthesize_blackbox_bodies` for one item, `lib/blackbox.cpp:42-254`, with `wrap_blackbox_source`, `:28-38`. -/
def synthesize (f : Fn) : Outcome :=
  if !f.isValue && !f.isBounds then .unchanged
  else if f.isValue && f.isBounds then .error
  else if f.hasBody then .error
  else
    match (match f.exec with
      | some n => some (Source.mk n false)
      | none => f.dll.map fun n => Source.mk n true) with
    | none => .error
    | some src =>
      let c := classify ⟨none, none, [], true⟩ 0 f.params
      if !c.valid then .error
      else
        let ints := toArg c.ints
        let floats := toArg c.floats
        if f.isBounds then
          if f.ret.dim = 0 ∧ f.ret.var = true ∧ f.ret.base = .bool then .body (.bounds ints floats f.userReason) src else .error
        else if f.ret.dim = 0 ∧ f.ret.var = true ∧ f.ret.base = .bool then .body (.checker ints floats) src
        else if f.ret.dim = 1 ∧ f.ret.var = true ∧ (f.ret.base = .int ∨ f.ret.base = .float) then
          if f.parOverload then .body (.func ints floats (f.ret.base = .int) c.parArgs) src else .error
        else .error

/-- `PropBnd`, `share/minizinc/std/experimental/blackbox.mzn:57`. -/
inductive PropBnd
  | lb | ub
deriving DecidableEq, Repr

/-- `enum2int`. -/
def PropBnd.toInt : PropBnd → Int
  | .lb => 1
  | .ub => 2

/-- The reason for the changes of one variable: its index, and the literals for its lower and for its upper bound. -/
structure Entry where
  var : Int
  lower : List (Int × PropBnd)
  upper : List (Int × PropBnd)
deriving DecidableEq, Repr

/-- `blackbox_flatten_literals`, `share/minizinc/std/experimental/blackbox.mzn:61-65`. -/
def flattenLiterals (ls : List (Int × PropBnd)) : List Int :=
  (ls.length : Int) :: ls.flatMap fun l => [l.1, l.2.toInt]

/-- `flat_reason` in `blackbox_bounds`, `share/minizinc/std/experimental/blackbox.mzn:81-85`. -/
def flatReason (r : List Entry) : List Int :=
  r.flatMap fun e => [e.var] ++ flattenLiterals e.lower ++ flattenLiterals e.upper

/-- `blackbox_default_reason`, `share/minizinc/std/experimental/blackbox.mzn:97-100`. -/
def defaultReason (n : Nat) : List Entry :=
  let all := (List.range n).flatMap fun (j : Nat) => [((j : Int) + 1, PropBnd.lb), ((j : Int) + 1, PropBnd.ub)]
  (List.range n).map fun (i : Nat) => ⟨(i : Int) + 1, all, all⟩

end Blackbox
end MZ
