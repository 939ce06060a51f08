import Verif.Ranges.Model
/-!
# Parameter expressions: syntax and environments

The fragment of the MiniZinc expression language (ast.hh) whose evaluation is modelled: integers,
Booleans, sets of integers and one-dimensional arrays of them, with all operators, conditionals,
local declarations and constraints, comprehensions, the aggregation built-ins and calls of
user-defined functions. Every expression is *par* (contains no decision variables).

The syntax is typed: `E .int`, `E .bool`, `E .set` are the expressions of type `int`, `bool` and
`set of int`. An ill-typed expression is rejected by the type checker before evaluation.
-/
namespace MZ
namespace Eval

/-- The element types (`Type::BT_INT`, `Type::BT_BOOL` with `ST_PLAIN`, `BT_INT` with `ST_SET`). -/
inductive Base | int | bool | set
deriving DecidableEq, Repr

/-- ast.hh `BinOpType`, the integer operators. -/
inductive AOp | plus | minus | mult | idiv | mod | pow
deriving DecidableEq, Repr
/-- ast.hh `BinOpType`, the operators on two Booleans. -/
inductive BOp | le | lq | gr | gq | eq | nq | equiv | impl | rimpl | or | and | xor
deriving DecidableEq, Repr
/-- ast.hh `BinOpType`, the comparisons of integers. -/
inductive ICmp | le | lq | gr | gq | eq | nq
deriving DecidableEq, Repr
/-- ast.hh `BinOpType`, the comparisons of sets. -/
inductive SCmp | le | lq | gr | gq | eq | nq | subset | superset
deriving DecidableEq, Repr
/-- ast.hh `BinOpType`, the set operators. -/
inductive SOp | union | diff | symdiff | intersect
deriving DecidableEq, Repr
/-- The aggregation built-ins that return an integer: `sum`, `product`, `min`, `max`, `arg_min`,
`arg_max` of an array of int. -/
inductive IAgg | sum | product | min | max | argMin | argMax
deriving DecidableEq, Repr
/-- The aggregation built-ins on arrays of bool: `forall`, `exists`, `xorall`, `iffall`. -/
inductive BAgg | all | any | xorall | iffall
deriving DecidableEq, Repr

mutual
/-- Expressions of an element type. A literal carries the fact that it fits into 64 bits (the
scanner guarantees it). -/
inductive E : Base → Type
  | ilit (n : Int) (h : inLL n) : E .int
  | blit (b : Bool) : E .bool
  | var (b : Base) (n : Nat) : E b
  | arith (op : AOp) (l r : E .int) : E .int
  | neg (e : E .int) : E .int
  | bool2int (e : E .bool) : E .int
  | not (e : E .bool) : E .bool
  | bop (op : BOp) (l r : E .bool) : E .bool
  | icmp (op : ICmp) (l r : E .int) : E .bool
  | scmp (op : SCmp) (l r : E .set) : E .bool
  | isin (x : E .int) (s : E .set) : E .bool
  | sop (op : SOp) (l r : E .set) : E .set
  | dotdot (l r : E .int) : E .set
  | setlit (es : Es .int) : E .set
  | setcomp (c : Comp .int) : E .set
  | ite {b : Base} (cs : Brs b) (e : E b) : E b
  | letin {b : Base} (ds : Lets) (e : E b) : E b
  | iagg (op : IAgg) (a : Sq .int) : E .int
  | bagg (op : BAgg) (a : Sq .bool) : E .bool
  | clause (pos neg : Sq .bool) : E .bool
  | min2 (l r : E .int) : E .int
  | max2 (l r : E .int) : E .int
  | card (s : E .set) : E .int
  | smin (s : E .set) : E .int
  | smax (s : E .set) : E .int
  | access {b : Base} (a : Sq b) (i : E .int) : E b
  | call (b : Base) (f : Nat) (as : Args) : E b
/-- The elements of a literal. -/
inductive Es : Base → Type
  | nil {b : Base} : Es b
  | cons {b : Base} (e : E b) (es : Es b) : Es b
/-- The `if c then t elseif …` branches of a conditional. -/
inductive Brs : Base → Type
  | nil {b : Base} : Brs b
  | cons {b : Base} (c : E .bool) (t : E b) (cs : Brs b) : Brs b
/-- The items of a `let`: a declaration with a right-hand side, without or with a domain, or a
constraint (`mp`: it carries the annotation `maybe_partial`). -/
inductive Lets : Type
  | nil : Lets
  | decl (b : Base) (n : Nat) (rhs : E b) (ds : Lets) : Lets
  | declDom (b : Base) (n : Nat) (rhs : E b) (dom : E .set) (ds : Lets) : Lets
  | con (mp : Bool) (e : E .bool) (ds : Lets) : Lets
/-- Array expressions: a literal (index set `1..n`) or another array. -/
inductive Sq : Base → Type
  | lit {b : Base} (es : Es b) : Sq b
  | arr {b : Base} (a : Arr b) : Sq b
/-- Arrays whose elements are values: an identifier, or a comprehension. -/
inductive Arr : Base → Type
  | var (b : Base) (n : Nat) : Arr b
  | comp {b : Base} (c : Comp b) : Arr b
/-- Comprehensions: generators over a set or an array, each with one or more identifiers and a
`where` clause (`true` if none is written), assignment generators, and the body. -/
inductive Comp : Base → Type
  | body {b : Base} (e : E b) : Comp b
  | gen {b : Base} (n : Nat) (ns : List Nat) (s : E .set) (w : E .bool) (c : Comp b) : Comp b
  | genArr {b : Base} (n : Nat) (ns : List Nat) (b' : Base) (a : Arr b') (w : E .bool)
      (c : Comp b) : Comp b
  | asn {b : Base} (n : Nat) (b' : Base) (e : E b') (c : Comp b) : Comp b
/-- The arguments of a call. -/
inductive Args : Type
  | nil : Args
  | cons (b : Base) (e : E b) (as : Args) : Args
end

/-- A parameter of a function: type, name, domain. -/
structure Param where
  b : Base
  n : Nat
  dom : Option (E .set)

/-- A function with a body (ast.hh `FunctionI`). -/
structure Fn (b : Base) where
  params : List Param
  retDom : Option (E .set)
  body : E b

/-- The functions of a program, by return type and name (the type checker has resolved the
overloading, so a call names one function). -/
def Fns : Type := (b : Base) → Nat → Option (Fn b)

/-- What the identifiers stand for, `V b` being the values of type `b`; the second component is for
arrays (smallest index, elements). -/
structure EnvOf (V : Base → Type) where
  s : (b : Base) → Nat → Option (V b)
  a : (b : Base) → Nat → Option (Int × List (V b))

/-- Bind an identifier. -/
def EnvOf.set {V : Base → Type} (env : EnvOf V) (b : Base) (n : Nat) (v : V b) : EnvOf V :=
  { env with s := fun b' n' => if h : b' = b then (if n' = n then some (h ▸ v) else env.s b' n')
                               else env.s b' n' }

/-- A program: its functions and its global parameters. -/
structure Prog (V : Base → Type) where
  fns : Fns
  glob : EnvOf V

end Eval
end MZ
