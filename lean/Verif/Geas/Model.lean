import Verif.IntVal.Model

/-!
# The interface to the solver Geas

`solvers/geas/geas_constraints.cpp` and `solvers/geas/geas_solverinstance.cpp`: the calls of the solver's functions for the
constraints of a FlatZinc model, the loops that look for solutions, and the clause that excludes a solution.

Simplified: variables without a value (`vd->e()` is null) and literals are the only arguments; floats and search annotations are
left out; the conversion of integers to the solver's own type of values is exact (only `asInt` cuts to `int`); `assert` is compiled out.
-/

namespace MZ
namespace Geas

/-! ## The solver's expressions -/

/-- Integer expressions of the solver: variables, constants (`new_intvar(c, c)`), and `-x`; as used in `solvers/geas/geas_constraints.cpp:155-163`. -/
inductive IVar where
  | var (x : Nat)
  | const (c : Int)
  | neg (v : IVar)
  deriving DecidableEq

/-- Atoms `patom_t`: `at_True`, `at_False`, Boolean variables, comparisons of an integer expression with a constant, and `~a`; as used in `solvers/geas/geas_constraints.cpp:250-584`. -/
inductive Atom where
  | tt
  | ff
  | b (x : Nat)
  | eq (v : IVar) (c : Int)
  | ne (v : IVar) (c : Int)
  | le (v : IVar) (c : Int)
  | ge (v : IVar) (c : Int)
  | not (a : Atom)
  deriving DecidableEq

/-- Calls of the solver's functions in `solvers/geas/geas_constraints.cpp`. -/
inductive Post where
  | int_eq (x y : IVar) (r : Atom)
  | int_ne (x y : IVar) (r : Atom)
  | int_le (x y : IVar) (k : Int) (r : Atom)
  | int_abs (z x : IVar)
  | int_mul (z x y : IVar)
  | int_div (z x y : IVar)
  | int_max (z : IVar) (xs : List IVar)
  | linear_le (ks : List Int) (xs : List IVar) (k : Int) (r : Atom)
  | linear_ne (ks : List Int) (xs : List IVar) (k : Int) (r : Atom)
  | clause (ls : List Atom)
  | bool_linear_le (r : Atom) (z : IVar) (ks : List Int) (xs : List Atom) (k : Int)
  | bool_linear_ge (r : Atom) (z : IVar) (ks : List Int) (xs : List Atom) (k : Int)
  | bool_linear_ne (ks : List Int) (xs : List Atom) (k : Int) (r : Atom)
  | int_element (z i : IVar) (vs : List Int)
  | var_int_element (z i : IVar) (vs : List IVar)
  | all_different (xs : List IVar)
  | all_different_except_0 (xs : List IVar)
  | atmost (ls : List Atom) (k : Int)
  | cumulative (s : List IVar) (d r : List Int) (b : Int)
  | cumulative_var (s d r : List IVar) (b : IVar)
  | disjunctive (s : List IVar) (d : List Int)
  | disjunctive_var (s d : List IVar)
  | flow (srcs sinks : List Int) (flows : List (Nat × Nat × Atom))
  | table (rows : List (List Int)) (xs : List IVar)
  deriving DecidableEq

/-! ## Arguments -/

/-- Literals and variables of FlatZinc, the arguments of `solvers/geas/geas_solverinstance.cpp:606-673`. -/
inductive Arg where
  | int (c : Int)
  | bool (b : Bool)
  | ivar (x : Nat)
  | bvar (x : Nat)
  deriving DecidableEq

/-- Arguments of a constraint; arrays with the instantiation of their type, which `PAR` reads (`solvers/geas/geas_constraints.cpp:36`). -/
inductive Param where
  | one (a : Arg)
  | arr (isVar : Bool) (l : List Arg)
  deriving DecidableEq

/-- `type().isPar()`, `solvers/geas/geas_constraints.cpp:36`. -/
def Arg.isPar : Arg → Bool
  | .int _ => true
  | .bool _ => true
  | .ivar _ => false
  | .bvar _ => false

/-- `static_cast<int>` of a 64 bit integer, `include/minizinc/solvers/geas_solverinstance.hh:99`. -/
def toInt32 (v : Int) : Int := (v + 2 ^ 31) % 2 ^ 32 - 2 ^ 31

/-- `asBool`: `eval_bool`, `include/minizinc/solvers/geas_solverinstance.hh:94`; variables have no value. -/
def Arg.asBool : Arg → Res Bool
  | .bool b => .ok b
  | _ => .err

/-- `asInt`: `eval_int`, which takes Boolean literals, and the cast, `include/minizinc/solvers/geas_solverinstance.hh:99`. -/
def Arg.asInt : Arg → Res Int
  | .int c => .ok (toInt32 c)
  | .bool b => .ok (if b then 1 else 0)
  | _ => .err

/-- `asBoolVar`, `solvers/geas/geas_solverinstance.cpp:614-626`; an integer variable: the wrong member of the union. -/
def Arg.asBoolVar : Arg → Res Atom
  | .bvar x => .ok (.b x)
  | .ivar _ => .ub
  | .bool b => .ok (if b then .tt else .ff)
  | .int _ => .err

/-- `asIntVar`, `solvers/geas/geas_solverinstance.cpp:644-665`. -/
def Arg.asIntVar : Arg → Res IVar
  | .ivar x => .ok (.var x)
  | .bvar _ => .ub
  | .int c => .ok (.const c)
  | .bool b => .ok (.const (if b then 1 else 0))

/-- The arguments of a call, `EXPR`, `solvers/geas/geas_constraints.cpp:27`. -/
abbrev Call := List Param

/-- `call->arg(i)`: beyond the end of the arguments is undefined, `solvers/geas/geas_constraints.cpp:27`. -/
def arg (c : Call) (i : Nat) : Res Param :=
  match c[i]? with
  | some p => .ok p
  | none => .ub

/-- An argument that is not an array, `solvers/geas/geas_constraints.cpp:27`. -/
def one (c : Call) (i : Nat) : Res Arg := do
  match ← arg c i with
  | .one a => .ok a
  | .arr _ _ => .err

/-- `ARRAY(i)`, `solvers/geas/geas_constraints.cpp:37`. -/
def array (c : Call) (i : Nat) : Res (List Arg) := do
  match ← arg c i with
  | .one _ => .err
  | .arr _ l => .ok l

/-- `PAR(i)`, `solvers/geas/geas_constraints.cpp:36`. -/
def par (c : Call) (i : Nat) : Res Bool := do
  match ← arg c i with
  | .one a => .ok a.isPar
  | .arr v _ => .ok (!v)

/-- `BOOL(i)`, `solvers/geas/geas_constraints.cpp:28`. -/
def bool (c : Call) (i : Nat) : Res Bool := do (← one c i).asBool
/-- `INT(i)`, `solvers/geas/geas_constraints.cpp:32`. -/
def int (c : Call) (i : Nat) : Res Int := do (← one c i).asInt
/-- `BOOLVAR(i)`, `solvers/geas/geas_constraints.cpp:30`. -/
def boolVar (c : Call) (i : Nat) : Res Atom := do (← one c i).asBoolVar
/-- `INTVAR(i)`, `solvers/geas/geas_constraints.cpp:34`. -/
def intVar (c : Call) (i : Nat) : Res IVar := do (← one c i).asIntVar

/-- The loops of `asBool`, `asInt`, … over arrays, `solvers/geas/geas_solverinstance.cpp:606-673`. -/
def each {α} (f : Arg → Res α) : List Arg → Res (List α)
  | [] => .ok []
  | a :: l => do
    let v ← f a
    let r ← each f l
    .ok (v :: r)

/-- `INTARRAY(i)`, `solvers/geas/geas_constraints.cpp:33`. -/
def ints (c : Call) (i : Nat) : Res (List Int) := do each Arg.asInt (← array c i)
/-- `BOOLARRAY(i)`, `solvers/geas/geas_constraints.cpp:29`. -/
def bools (c : Call) (i : Nat) : Res (List Bool) := do each Arg.asBool (← array c i)
/-- `INTVARARRAY(i)`, `solvers/geas/geas_constraints.cpp:35`. -/
def intVars (c : Call) (i : Nat) : Res (List IVar) := do each Arg.asIntVar (← array c i)
/-- `BOOLVARARRAY(i)`, `solvers/geas/geas_constraints.cpp:31`. -/
def boolVars (c : Call) (i : Nat) : Res (List Atom) := do each Arg.asBoolVar (← array c i)

/-! ## Integer comparisons -/

/-- `p_int_eq`, `solvers/geas/geas_constraints.cpp:37`. -/
def p_int_eq (c : Call) : Res (List Post) := do .ok [.int_eq (← intVar c 0) (← intVar c 1) .tt]
/-- `p_int_ne`, `solvers/geas/geas_constraints.cpp:41` -/
def p_int_ne (c : Call) : Res (List Post) := do .ok [.int_ne (← intVar c 0) (← intVar c 1) .tt]
/-- `p_int_le`, `solvers/geas/geas_constraints.cpp:43-45` -/
def p_int_le (c : Call) : Res (List Post) := do .ok [.int_le (← intVar c 0) (← intVar c 1) 0 .tt]
/-- `p_int_lt`, `solvers/geas/geas_constraints.cpp:47-49` -/
def p_int_lt (c : Call) : Res (List Post) := do .ok [.int_le (← intVar c 0) (← intVar c 1) (-1) .tt]

/-- `p_int_eq_imp`, `solvers/geas/geas_constraints.cpp:51-59` -/
def p_int_eq_imp (c : Call) : Res (List Post) := do
  if ← par c 2 then
    if ← bool c 2 then p_int_eq c else .ok []
  else .ok [.int_eq (← intVar c 0) (← intVar c 1) (← boolVar c 2)]

/-- `p_int_ne_imp`, `solvers/geas/geas_constraints.cpp:61-69` -/
def p_int_ne_imp (c : Call) : Res (List Post) := do
  if ← par c 2 then
    if ← bool c 2 then p_int_ne c else .ok []
  else .ok [.int_ne (← intVar c 0) (← intVar c 1) (← boolVar c 2)]

/-- `p_int_le_imp`, `solvers/geas/geas_constraints.cpp:71-79` -/
def p_int_le_imp (c : Call) : Res (List Post) := do
  if ← par c 2 then
    if ← bool c 2 then p_int_le c else .ok []
  else .ok [.int_le (← intVar c 0) (← intVar c 1) 0 (← boolVar c 2)]

/-- `p_int_lt_imp`, `solvers/geas/geas_constraints.cpp:81-89` -/
def p_int_lt_imp (c : Call) : Res (List Post) := do
  if ← par c 2 then
    if ← bool c 2 then p_int_lt c else .ok []
  else .ok [.int_le (← intVar c 0) (← intVar c 1) (-1) (← boolVar c 2)]

/-- `p_int_eq_reif`, `solvers/geas/geas_constraints.cpp:91-102` -/
def p_int_eq_reif (c : Call) : Res (List Post) := do
  if ← par c 2 then
    if ← bool c 2 then p_int_eq c else p_int_ne c
  else
    .ok [.int_eq (← intVar c 0) (← intVar c 1) (← boolVar c 2), .int_ne (← intVar c 0) (← intVar c 1) (.not (← boolVar c 2))]

/-- `p_int_ne_reif`, `solvers/geas/geas_constraints.cpp:104-115` -/
def p_int_ne_reif (c : Call) : Res (List Post) := do
  if ← par c 2 then
    if ← bool c 2 then p_int_ne c else p_int_eq c
  else
    .ok [.int_ne (← intVar c 0) (← intVar c 1) (← boolVar c 2), .int_eq (← intVar c 0) (← intVar c 1) (.not (← boolVar c 2))]

/-- `Call::a(…, {call->arg(1), call->arg(0)})`, `solvers/geas/geas_constraints.cpp:122,136`. -/
def swapped (c : Call) : Res Call := do .ok [← arg c 1, ← arg c 0]

/-- `p_int_le_reif`, `solvers/geas/geas_constraints.cpp:117-129` -/
def p_int_le_reif (c : Call) : Res (List Post) := do
  if ← par c 2 then
    if ← bool c 2 then p_int_le c else p_int_lt (← swapped c)
  else
    .ok [.int_le (← intVar c 0) (← intVar c 1) 0 (← boolVar c 2), .int_le (← intVar c 1) (← intVar c 0) (-1) (.not (← boolVar c 2))]

/-- `p_int_lt_reif`, `solvers/geas/geas_constraints.cpp:131-143` -/
def p_int_lt_reif (c : Call) : Res (List Post) := do
  if ← par c 2 then
    if ← bool c 2 then p_int_lt c else p_int_le (← swapped c)
  else
    .ok [.int_le (← intVar c 0) (← intVar c 1) (-1) (← boolVar c 2), .int_le (← intVar c 1) (← intVar c 0) 0 (.not (← boolVar c 2))]

/-! ## Integer arithmetic -/

/-- `p_int_abs`, `solvers/geas/geas_constraints.cpp:145` -/
def p_int_abs (c : Call) : Res (List Post) := do .ok [.int_abs (← intVar c 1) (← intVar c 0)]
/-- `p_int_times`, `solvers/geas/geas_constraints.cpp:147-149` -/
def p_int_times (c : Call) : Res (List Post) := do .ok [.int_mul (← intVar c 2) (← intVar c 0) (← intVar c 1)]
/-- `p_int_div`, `solvers/geas/geas_constraints.cpp:151-153` -/
def p_int_div (c : Call) : Res (List Post) := do .ok [.int_div (← intVar c 2) (← intVar c 0) (← intVar c 1)]
/-- `p_int_max`, `solvers/geas/geas_constraints.cpp:155-158` -/
def p_int_max (c : Call) : Res (List Post) := do .ok [.int_max (← intVar c 2) [← intVar c 0, ← intVar c 1]]
/-- `p_int_min`, `solvers/geas/geas_constraints.cpp:160-163` -/
def p_int_min (c : Call) : Res (List Post) := do
  .ok [.int_max (.neg (← intVar c 2)) [.neg (← intVar c 0), .neg (← intVar c 1)]]

/-! ## Linear constraints over integers -/

/-- `neg[i] = -pos[i]`, `solvers/geas/geas_constraints.cpp:167-170`; the overflow of the smallest `int` is left out. -/
def negs (ks : List Int) : List Int := ks.map (fun k => -k)

/-- `p_int_lin_eq`, `solvers/geas/geas_constraints.cpp:165-175` -/
def p_int_lin_eq (c : Call) : Res (List Post) := do
  .ok [.linear_le (← ints c 0) (← intVars c 1) (← int c 2) .tt, .linear_le (negs (← ints c 0)) (← intVars c 1) (-(← int c 2)) .tt]
/-- `p_int_lin_ne`, `solvers/geas/geas_constraints.cpp:177-181` -/
def p_int_lin_ne (c : Call) : Res (List Post) := do .ok [.linear_ne (← ints c 0) (← intVars c 1) (← int c 2) .tt]
/-- `p_int_lin_le`, `solvers/geas/geas_constraints.cpp:183-187` -/
def p_int_lin_le (c : Call) : Res (List Post) := do .ok [.linear_le (← ints c 0) (← intVars c 1) (← int c 2) .tt]
/-- `p_int_lin_eq_imp`, `solvers/geas/geas_constraints.cpp:189-199` -/
def p_int_lin_eq_imp (c : Call) : Res (List Post) := do
  .ok [.linear_le (← ints c 0) (← intVars c 1) (← int c 2) (← boolVar c 3),
    .linear_le (negs (← ints c 0)) (← intVars c 1) (-(← int c 2)) (← boolVar c 3)]
/-- `p_int_lin_ne_imp`, `solvers/geas/geas_constraints.cpp:201-205` -/
def p_int_lin_ne_imp (c : Call) : Res (List Post) := do
  .ok [.linear_ne (← ints c 0) (← intVars c 1) (← int c 2) (← boolVar c 3)]
/-- `p_int_lin_le_imp`, `solvers/geas/geas_constraints.cpp:207-211` -/
def p_int_lin_le_imp (c : Call) : Res (List Post) := do
  .ok [.linear_le (← ints c 0) (← intVars c 1) (← int c 2) (← boolVar c 3)]
/-- `p_int_lin_eq_reif`, `solvers/geas/geas_constraints.cpp:213-224` -/
def p_int_lin_eq_reif (c : Call) : Res (List Post) := do
  .ok [.linear_le (← ints c 0) (← intVars c 1) (← int c 2) (← boolVar c 3),
    .linear_le (negs (← ints c 0)) (← intVars c 1) (-(← int c 2)) (← boolVar c 3),
    .linear_ne (← ints c 0) (← intVars c 1) (← int c 2) (.not (← boolVar c 3))]
/-- `p_int_lin_ne_reif`, `solvers/geas/geas_constraints.cpp:226-237` -/
def p_int_lin_ne_reif (c : Call) : Res (List Post) := do
  .ok [.linear_ne (← ints c 0) (← intVars c 1) (← int c 2) (← boolVar c 3),
    .linear_le (← ints c 0) (← intVars c 1) (← int c 2) (.not (← boolVar c 3)),
    .linear_le (negs (← ints c 0)) (← intVars c 1) (-(← int c 2)) (.not (← boolVar c 3))]
/-- `p_int_lin_le_reif`, `solvers/geas/geas_constraints.cpp:239-248` -/
def p_int_lin_le_reif (c : Call) : Res (List Post) := do
  .ok [.linear_le (← ints c 0) (← intVars c 1) (← int c 2) (← boolVar c 3),
    .linear_le (negs (← ints c 0)) (← intVars c 1) (-(← int c 2) - 1) (.not (← boolVar c 3))]

/-! ## Boolean comparisons -/

/-- `SOL.post(b ? x : ~x)`, `solvers/geas/geas_constraints.cpp:252`. -/
def postIf (b : Bool) (x : Atom) : Post := .clause [if b then x else .not x]

/-- `p_bool_eq`, `solvers/geas/geas_constraints.cpp:250-259`; the second test is `PAR(2)`. -/
def p_bool_eq (c : Call) : Res (List Post) := do
  if ← par c 0 then .ok [postIf (← bool c 0) (← boolVar c 1)]
  else if ← par c 2 then .ok [postIf (← bool c 1) (← boolVar c 0)]
  else .ok [.clause [← boolVar c 0, .not (← boolVar c 1)], .clause [.not (← boolVar c 0), ← boolVar c 1]]

/-- `p_bool_ne`, `solvers/geas/geas_constraints.cpp:261-270` -/
def p_bool_ne (c : Call) : Res (List Post) := do
  if ← par c 0 then .ok [postIf (!(← bool c 0)) (← boolVar c 1)]
  else if ← par c 1 then .ok [postIf (!(← bool c 1)) (← boolVar c 0)]
  else .ok [.clause [← boolVar c 0, ← boolVar c 1], .clause [.not (← boolVar c 0), .not (← boolVar c 1)]]

/-- `p_bool_le`, `solvers/geas/geas_constraints.cpp:272-284` -/
def p_bool_le (c : Call) : Res (List Post) := do
  if ← par c 0 then
    if ← bool c 0 then .ok [.clause [← boolVar c 1]] else .ok []
  else if ← par c 1 then
    if !(← bool c 1) then .ok [.clause [.not (← boolVar c 0)]] else .ok []
  else .ok [.clause [.not (← boolVar c 0), ← boolVar c 1]]

/-- `p_bool_lt`, `solvers/geas/geas_constraints.cpp:286-289` -/
def p_bool_lt (c : Call) : Res (List Post) := do .ok [.clause [.not (← boolVar c 0)], .clause [← boolVar c 1]]

/-- `p_bool_eq_imp`, `solvers/geas/geas_constraints.cpp:291-300` -/
def p_bool_eq_imp (c : Call) : Res (List Post) := do
  if ← par c 2 then
    if ← bool c 2 then p_bool_eq c else .ok []
  else
    .ok [.clause [.not (← boolVar c 2), .not (← boolVar c 0), ← boolVar c 1],
      .clause [.not (← boolVar c 2), ← boolVar c 0, .not (← boolVar c 1)]]

/-- `p_bool_ne_imp`, `solvers/geas/geas_constraints.cpp:302-311` -/
def p_bool_ne_imp (c : Call) : Res (List Post) := do
  if ← par c 2 then
    if ← bool c 2 then p_bool_ne c else .ok []
  else
    .ok [.clause [.not (← boolVar c 2), ← boolVar c 0, ← boolVar c 1],
      .clause [.not (← boolVar c 2), .not (← boolVar c 0), .not (← boolVar c 1)]]

/-- `p_bool_le_imp`, `solvers/geas/geas_constraints.cpp:313-321` -/
def p_bool_le_imp (c : Call) : Res (List Post) := do
  if ← par c 2 then
    if ← bool c 2 then p_bool_le c else .ok []
  else .ok [.clause [.not (← boolVar c 2), .not (← boolVar c 0), ← boolVar c 1]]

/-- `p_bool_lt_imp`, `solvers/geas/geas_constraints.cpp:323-332` -/
def p_bool_lt_imp (c : Call) : Res (List Post) := do
  if ← par c 2 then
    if ← bool c 2 then p_bool_lt c else .ok []
  else .ok [.clause [.not (← boolVar c 2), .not (← boolVar c 0)], .clause [.not (← boolVar c 2), ← boolVar c 1]]

/-- `p_bool_eq_reif`, `solvers/geas/geas_constraints.cpp:334-347` -/
def p_bool_eq_reif (c : Call) : Res (List Post) := do
  if ← par c 2 then
    if ← bool c 2 then p_bool_eq c else p_bool_ne c
  else
    .ok [.clause [← boolVar c 2, ← boolVar c 0, ← boolVar c 1],
      .clause [← boolVar c 2, .not (← boolVar c 0), .not (← boolVar c 1)],
      .clause [.not (← boolVar c 2), .not (← boolVar c 0), ← boolVar c 1],
      .clause [.not (← boolVar c 2), ← boolVar c 0, .not (← boolVar c 1)]]

/-- `p_bool_ne_reif`, `solvers/geas/geas_constraints.cpp:349-362` -/
def p_bool_ne_reif (c : Call) : Res (List Post) := do
  if ← par c 2 then
    if ← bool c 2 then p_bool_ne c else p_bool_eq c
  else
    .ok [.clause [← boolVar c 2, .not (← boolVar c 0), ← boolVar c 1],
      .clause [← boolVar c 2, ← boolVar c 0, .not (← boolVar c 1)],
      .clause [.not (← boolVar c 2), ← boolVar c 0, ← boolVar c 1],
      .clause [.not (← boolVar c 2), .not (← boolVar c 0), .not (← boolVar c 1)]]

/-- `p_bool_le_reif`, `solvers/geas/geas_constraints.cpp:364-377` -/
def p_bool_le_reif (c : Call) : Res (List Post) := do
  if ← par c 2 then
    if ← bool c 2 then p_bool_le c else p_bool_lt (← swapped c)
  else
    .ok [.clause [← boolVar c 2, .not (← boolVar c 1)], .clause [← boolVar c 2, ← boolVar c 0],
      .clause [.not (← boolVar c 2), .not (← boolVar c 0), ← boolVar c 1]]

/-- `p_bool_lt_reif`, `solvers/geas/geas_constraints.cpp:379-392`; the functions for integers are called if the result is known. -/
def p_bool_lt_reif (c : Call) : Res (List Post) := do
  if ← par c 2 then
    if ← bool c 2 then p_int_lt c else p_int_le (← swapped c)
  else
    .ok [.clause [.not (← boolVar c 2), .not (← boolVar c 0)], .clause [.not (← boolVar c 2), ← boolVar c 1],
      .clause [← boolVar c 2, ← boolVar c 0, .not (← boolVar c 1)]]

/-! ## Boolean connectives -/

/-- `p_bool_or`, `solvers/geas/geas_constraints.cpp:374-398` -/
def p_bool_or (c : Call) : Res (List Post) := do
  .ok [.clause [← boolVar c 2, .not (← boolVar c 0)], .clause [← boolVar c 2, .not (← boolVar c 1)],
    .clause [.not (← boolVar c 2), ← boolVar c 0, ← boolVar c 1]]
/-- `p_bool_and`, `solvers/geas/geas_constraints.cpp:400-404` -/
def p_bool_and (c : Call) : Res (List Post) := do
  .ok [.clause [.not (← boolVar c 2), ← boolVar c 0], .clause [.not (← boolVar c 2), ← boolVar c 1],
    .clause [← boolVar c 2, .not (← boolVar c 0), .not (← boolVar c 1)]]
/-- `p_bool_xor`, `solvers/geas/geas_constraints.cpp:406-412` -/
def p_bool_xor (c : Call) : Res (List Post) := if c.length = 2 then p_bool_ne c else p_bool_ne_reif c
/-- `p_bool_not`, `solvers/geas/geas_constraints.cpp:414` -/
def p_bool_not (c : Call) : Res (List Post) := p_bool_ne c
/-- `p_bool_or_imp`, `solvers/geas/geas_constraints.cpp:416-418` -/
def p_bool_or_imp (c : Call) : Res (List Post) := do .ok [.clause [.not (← boolVar c 2), ← boolVar c 0, ← boolVar c 1]]
/-- `p_bool_and_imp`, `solvers/geas/geas_constraints.cpp:420-423` -/
def p_bool_and_imp (c : Call) : Res (List Post) := do
  .ok [.clause [.not (← boolVar c 2), ← boolVar c 0], .clause [.not (← boolVar c 2), ← boolVar c 1]]
/-- `p_bool_xor_imp`, `solvers/geas/geas_constraints.cpp:425` -/
def p_bool_xor_imp (c : Call) : Res (List Post) := p_bool_ne_imp c

/-- `p_bool_clause`, `solvers/geas/geas_constraints.cpp:427-439` -/
def p_bool_clause (c : Call) : Res (List Post) := do
  .ok [.clause ((← boolVars c 0) ++ (← boolVars c 1).map Atom.not)]
/-- `p_array_bool_or`, `solvers/geas/geas_constraints.cpp:441-451` -/
def p_array_bool_or (c : Call) : Res (List Post) := do
  let r ← boolVar c 1
  let l ← boolVars c 0
  .ok (l.map (fun e => Post.clause [r, .not e]) ++ [.clause (.not r :: l)])
/-- `p_array_bool_and`, `solvers/geas/geas_constraints.cpp:453-463` -/
def p_array_bool_and (c : Call) : Res (List Post) := do
  let r ← boolVar c 1
  let l ← boolVars c 0
  .ok (l.map (fun e => Post.clause [.not r, e]) ++ [.clause (r :: l.map Atom.not)])
/-- `p_bool_clause_imp`, `solvers/geas/geas_constraints.cpp:465-477` -/
def p_bool_clause_imp (c : Call) : Res (List Post) := do
  .ok [.clause (.not (← boolVar c 2) :: ((← boolVars c 0) ++ (← boolVars c 1).map Atom.not))]
/-- `p_array_bool_or_imp`, `solvers/geas/geas_constraints.cpp:479-488` -/
def p_array_bool_or_imp (c : Call) : Res (List Post) := do .ok [.clause (.not (← boolVar c 1) :: (← boolVars c 0))]
/-- `p_array_bool_and_imp`, `solvers/geas/geas_constraints.cpp:490-495` -/
def p_array_bool_and_imp (c : Call) : Res (List Post) := do
  let r ← boolVar c 1
  .ok ((← boolVars c 0).map (fun e => Post.clause [.not r, e]))
/-- `p_bool_clause_reif`, `solvers/geas/geas_constraints.cpp:497-513` -/
def p_bool_clause_reif (c : Call) : Res (List Post) := do
  let r ← boolVar c 2
  let pos ← boolVars c 0
  let neg ← boolVars c 1
  .ok (pos.map (fun e => Post.clause [r, .not e]) ++ neg.map (fun e => Post.clause [r, e]) ++
    [.clause (.not r :: (pos ++ neg.map Atom.not))])

/-! ## Linear constraints over Booleans -/

/-- `SI.zero`, `include/minizinc/solvers/geas_solverinstance.hh:104`. -/
def zero : IVar := .const 0

/-- `p_bool_lin_eq`, `solvers/geas/geas_constraints.cpp:515-521` -/
def p_bool_lin_eq (c : Call) : Res (List Post) := do
  .ok [.bool_linear_le .tt zero (← ints c 0) (← boolVars c 1) (-(← int c 2)),
    .bool_linear_ge .tt zero (← ints c 0) (← boolVars c 1) (-(← int c 2))]
/-- `p_bool_lin_ne`, `solvers/geas/geas_constraints.cpp:523-527` -/
def p_bool_lin_ne (c : Call) : Res (List Post) := do .ok [.bool_linear_ne (← ints c 0) (← boolVars c 1) (← int c 2) .tt]
/-- `p_bool_lin_le`, `solvers/geas/geas_constraints.cpp:529-533` -/
def p_bool_lin_le (c : Call) : Res (List Post) := do
  .ok [.bool_linear_ge .tt zero (← ints c 0) (← boolVars c 1) (-(← int c 2))]
/-- `p_bool_lin_eq_imp`, `solvers/geas/geas_constraints.cpp:535-541` -/
def p_bool_lin_eq_imp (c : Call) : Res (List Post) := do
  .ok [.bool_linear_le (← boolVar c 3) zero (← ints c 0) (← boolVars c 1) (-(← int c 2)),
    .bool_linear_ge (← boolVar c 3) zero (← ints c 0) (← boolVars c 1) (-(← int c 2))]
/-- `p_bool_lin_ne_imp`, `solvers/geas/geas_constraints.cpp:543-547` -/
def p_bool_lin_ne_imp (c : Call) : Res (List Post) := do
  .ok [.bool_linear_ne (← ints c 0) (← boolVars c 1) (← int c 2) (← boolVar c 3)]
/-- `p_bool_lin_le_imp`, `solvers/geas/geas_constraints.cpp:549-553` -/
def p_bool_lin_le_imp (c : Call) : Res (List Post) := do
  .ok [.bool_linear_ge (← boolVar c 3) zero (← ints c 0) (← boolVars c 1) (-(← int c 2))]
/-- `p_bool_lin_eq_reif`, `solvers/geas/geas_constraints.cpp:555-562` -/
def p_bool_lin_eq_reif (c : Call) : Res (List Post) := do
  .ok [.bool_linear_le (← boolVar c 3) zero (← ints c 0) (← boolVars c 1) (-(← int c 2)),
    .bool_linear_ge (← boolVar c 3) zero (← ints c 0) (← boolVars c 1) (-(← int c 2)),
    .bool_linear_ne (← ints c 0) (← boolVars c 1) (← int c 2) (.not (← boolVar c 3))]
/-- `p_bool_lin_ne_reif`, `solvers/geas/geas_constraints.cpp:564-571` -/
def p_bool_lin_ne_reif (c : Call) : Res (List Post) := do
  .ok [.bool_linear_ne (← ints c 0) (← boolVars c 1) (← int c 2) (← boolVar c 3),
    .bool_linear_le (.not (← boolVar c 3)) zero (← ints c 0) (← boolVars c 1) (-(← int c 2)),
    .bool_linear_ge (.not (← boolVar c 3)) zero (← ints c 0) (← boolVars c 1) (-(← int c 2))]
/-- `p_bool_lin_le_reif`, `solvers/geas/geas_constraints.cpp:573-579` -/
def p_bool_lin_le_reif (c : Call) : Res (List Post) := do
  .ok [.bool_linear_ge (← boolVar c 3) zero (← ints c 0) (← boolVars c 1) (-(← int c 2)),
    .bool_linear_le (.not (← boolVar c 3)) zero (← ints c 0) (← boolVars c 1) (-(← int c 2) - 1)]

/-- `p_bool2int`, `solvers/geas/geas_constraints.cpp:581-584` -/
def p_bool2int (c : Call) : Res (List Post) := do
  .ok [.clause [← boolVar c 0, .le (← intVar c 1) 0], .clause [.not (← boolVar c 0), .ge (← intVar c 1) 1]]

/-! ## Elements of arrays -/

/-- `vals[i - 1]` of a vector, undefined out of bounds, `solvers/geas/geas_constraints.cpp:590`. -/
def vecAt {α} (l : List α) (i : Int) : Res α :=
  if 1 ≤ i then
    match l[(i - 1).toNat]? with
    | some v => .ok v
    | none => .ub
  else .ub

/-- `SOL.post(x != j + 1)` for the positions whose value is not `v`, from `j` on, `solvers/geas/geas_constraints.cpp:592-596`. -/
def exclude {α} [DecidableEq α] (x : IVar) (v : α) : Nat → List α → List Post
  | _, [] => []
  | j, w :: l => (if w ≠ v then [.clause [.ne x (j + 1)]] else []) ++ exclude x v (j + 1) l

/-- `p_array_int_element`, `solvers/geas/geas_constraints.cpp:586-600` -/
def p_array_int_element (c : Call) : Res (List Post) := do
  let vals ← ints c 1
  if ← par c 0 then .ok [.clause [.eq (← intVar c 2) (← vecAt vals (← int c 0))]]
  else if ← par c 2 then .ok (exclude (← intVar c 0) (← int c 2) 0 vals)
  else .ok [.int_element (← intVar c 2) (← intVar c 0) vals]

/-- `geas::add_clause(SD, INTVAR(0) != j + 1, vals[j] ? BOOLVAR(2) : ~BOOLVAR(2))`, from `j` on, `solvers/geas/geas_constraints.cpp:614-616`. -/
def choices (x : IVar) (r : Atom) : Nat → List Bool → List Post
  | _, [] => []
  | j, w :: l => .clause [.ne x (j + 1), if w then r else .not r] :: choices x r (j + 1) l

/-- `p_array_bool_element`, `solvers/geas/geas_constraints.cpp:602-618` -/
def p_array_bool_element (c : Call) : Res (List Post) := do
  let vals ← bools c 1
  if ← par c 0 then .ok [postIf (← vecAt vals (← int c 0)) (← boolVar c 2)]
  else if ← par c 2 then .ok (exclude (← intVar c 0) (← bool c 2) 0 vals)
  else .ok (choices (← intVar c 0) (← boolVar c 2) 0 vals)

/-- The loop for a known result, `solvers/geas/geas_constraints.cpp:635-644`. -/
def intCases (x : IVar) (v : Int) : Nat → List Arg → Res (List Post)
  | _, [] => .ok []
  | j, e :: l => do
    let p ← (if !e.isPar then do .ok [Post.clause [.ne x (j + 1), .eq (← e.asIntVar) v]]
      else do
        if (← e.asInt) ≠ v then .ok [.clause [.ne x (j + 1)]] else .ok [])
    .ok (p ++ (← intCases x v (j + 1) l))

/-- `p_array_var_int_element`, `solvers/geas/geas_constraints.cpp:620-649` -/
def p_array_var_int_element (c : Call) : Res (List Post) := do
  if ← par c 1 then p_array_int_element c
  else
    let l ← array c 1
    if (← par c 0) && (← par c 2) then .ok [.clause [.eq (← (← vecAt l (← int c 0)).asIntVar) (← int c 2)]]
    else if ← par c 0 then
      let e ← vecAt l (← int c 0)
      if e.isPar then p_array_int_element c
      else .ok [.int_eq (← e.asIntVar) (← intVar c 2) .tt]
    else if ← par c 2 then intCases (← intVar c 0) (← int c 2) 0 l
    else .ok [.var_int_element (← intVar c 2) (← intVar c 0) (← intVars c 1)]

/-- The loop for a known result, `solvers/geas/geas_constraints.cpp:668-677`. -/
def boolCases (x : IVar) (v : Int) : Nat → List Arg → Res (List Post)
  | _, [] => .ok []
  | j, e :: l => do
    let p ← (if !e.isPar then do
        let b ← e.asBoolVar
        .ok [Post.clause [.ne x (j + 1), if v ≠ 0 then b else .not b]]
      else do
        if (if ← e.asBool then 1 else 0) ≠ v then .ok [.clause [.ne x (j + 1)]] else .ok [])
    .ok (p ++ (← boolCases x v (j + 1) l))

/-- The two clauses for each position, `solvers/geas/geas_constraints.cpp:680-683`. -/
def boolChannel (x : IVar) (r : Atom) : Nat → List Atom → List Post
  | _, [] => []
  | j, e :: l => .clause [.ne x (j + 1), .not e, r] :: .clause [.ne x (j + 1), e, .not r] :: boolChannel x r (j + 1) l

/-- `p_array_var_bool_element`, `solvers/geas/geas_constraints.cpp:651-685` -/
def p_array_var_bool_element (c : Call) : Res (List Post) := do
  if ← par c 1 then p_array_bool_element c
  else
    let l ← array c 1
    if (← par c 0) && (← par c 2) then .ok [postIf (← bool c 2) (← (← vecAt l (← int c 0)).asBoolVar)]
    else if ← par c 0 then
      let e ← vecAt l (← int c 0)
      if e.isPar then p_array_bool_element c
      else
        .ok [.clause [← boolVar c 2, .not (← e.asBoolVar)], .clause [.not (← boolVar c 2), ← e.asBoolVar]]
    else if ← par c 2 then boolCases (← intVar c 0) (← int c 2) 0 l
    else .ok (boolChannel (← intVar c 0) (← boolVar c 2) 0 (← boolVars c 1))

/-! ## Global constraints -/

/-- `p_all_different`, `solvers/geas/geas_constraints.cpp:687-690` -/
def p_all_different (c : Call) : Res (List Post) := do .ok [.all_different (← intVars c 0)]
/-- `p_all_different_except_0`, `solvers/geas/geas_constraints.cpp:692-695` -/
def p_all_different_except_0 (c : Call) : Res (List Post) := do .ok [.all_different_except_0 (← intVars c 0)]
/-- `p_at_most`, `solvers/geas/geas_constraints.cpp:697-709`; `atmost_1` is `atmost_k` with 1. -/
def p_at_most (c : Call) : Res (List Post) := do
  let v ← int c 2
  .ok [.atmost ((← intVars c 1).map (fun x => .eq x v)) (← int c 0)]
/-- `p_at_most1`, `solvers/geas/geas_constraints.cpp:711-718` -/
def p_at_most1 (c : Call) : Res (List Post) := do
  let v ← int c 1
  .ok [.atmost ((← intVars c 0).map (fun x => .eq x v)) 1]
/-- `p_cumulative`, `solvers/geas/geas_constraints.cpp:720-731` -/
def p_cumulative (c : Call) : Res (List Post) := do
  if (← par c 1) && (← par c 2) && (← par c 3) then .ok [.cumulative (← intVars c 0) (← ints c 1) (← ints c 2) (← int c 3)]
  else .ok [.cumulative_var (← intVars c 0) (← intVars c 1) (← intVars c 2) (← intVar c 3)]
/-- `p_disjunctive`, `solvers/geas/geas_constraints.cpp:733-742` -/
def p_disjunctive (c : Call) : Res (List Post) := do
  if ← par c 1 then .ok [.disjunctive (← intVars c 0) (← ints c 1)]
  else .ok [.disjunctive_var (← intVars c 0) (← intVars c 1)]

/-- The loops of `p_global_cardinality`, `solvers/geas/geas_constraints.cpp:751-757`; `inDom x v`: `v` is between the bounds of `x`. -/
def gccFlows (inDom : IVar → Int → Bool) (xs : List IVar) (cover : List Int) : List (Nat × Nat × Atom) :=
  (xs.zipIdx).flatMap (fun (x, i) => (cover.zipIdx).flatMap (fun (v, j) => if inDom x v then [(i, j, .eq x v)] else []))

/-- `p_global_cardinality`, `solvers/geas/geas_constraints.cpp:744-759` -/
def p_global_cardinality (inDom : IVar → Int → Bool) (c : Call) : Res (List Post) := do
  let xs ← intVars c 0
  .ok [.flow (xs.map (fun _ => 1)) (← ints c 2) (gccFlows inDom xs (← ints c 1))]

/-- The rows of a table, `solvers/geas/geas_constraints.cpp:766-772`. -/
def rows (n : Nat) (t : List Int) : List (List Int) :=
  (List.range (if t = [] then 0 else t.length / n)).map (fun i => (List.range n).map (fun j => t.getD (i * n + j) 0))

/-- `p_table_int`, `solvers/geas/geas_constraints.cpp:761-776`; the division by the number of variables is undefined if it is 0. -/
def p_table_int (c : Call) : Res (List Post) := do
  let xs ← intVars c 0
  let t ← ints c 1
  if xs = [] ∧ t ≠ [] then .ub
  else .ok [.table (rows xs.length t) xs]

/-! ## The table of constraints -/

/-- `GeasSolverInstance::registerConstraints`, `solvers/geas/geas_solverinstance.cpp:29-130`; each is also known under the name with
`geas_` in front, so that `poster` takes the name without it. -/
def poster (inDom : IVar → Int → Bool) (name : String) : Option (Call → Res (List Post)) :=
  match name with
  | "int_eq" => some p_int_eq
  | "int_ne" => some p_int_ne
  | "int_le" => some p_int_le
  | "int_lt" => some p_int_lt
  | "int_eq_imp" => some p_int_eq_imp
  | "int_ne_imp" => some p_int_ne_imp
  | "int_le_imp" => some p_int_le_imp
  | "int_lt_imp" => some p_int_lt_imp
  | "int_eq_reif" => some p_int_eq_reif
  | "int_ne_reif" => some p_int_ne_reif
  | "int_le_reif" => some p_int_le_reif
  | "int_lt_reif" => some p_int_lt_reif
  | "int_abs" => some p_int_abs
  | "int_times" => some p_int_times
  | "int_div" => some p_int_div
  | "int_min" => some p_int_min
  | "int_max" => some p_int_max
  | "int_lin_eq" => some p_int_lin_eq
  | "int_lin_ne" => some p_int_lin_ne
  | "int_lin_le" => some p_int_lin_le
  | "int_lin_eq_imp" => some p_int_lin_eq_imp
  | "int_lin_ne_imp" => some p_int_lin_ne_imp
  | "int_lin_le_imp" => some p_int_lin_le_imp
  | "int_lin_eq_reif" => some p_int_lin_eq_reif
  | "int_lin_ne_reif" => some p_int_lin_ne_reif
  | "int_lin_le_reif" => some p_int_lin_le_reif
  | "bool_eq" => some p_bool_eq
  | "bool_ne" => some p_bool_ne
  | "bool_le" => some p_bool_le
  | "bool_lt" => some p_bool_lt
  | "bool_eq_imp" => some p_bool_eq_imp
  | "bool_ne_imp" => some p_bool_ne_imp
  | "bool_le_imp" => some p_bool_le_imp
  | "bool_lt_imp" => some p_bool_lt_imp
  | "bool_eq_reif" => some p_bool_eq_reif
  | "bool_ne_reif" => some p_bool_ne_reif
  | "bool_le_reif" => some p_bool_le_reif
  | "bool_lt_reif" => some p_bool_lt_reif
  | "bool_or" => some p_bool_or
  | "bool_and" => some p_bool_and
  | "bool_xor" => some p_bool_xor
  | "bool_not" => some p_bool_not
  | "bool_or_imp" => some p_bool_or_imp
  | "bool_and_imp" => some p_bool_and_imp
  | "bool_xor_imp" => some p_bool_xor_imp
  | "bool_clause" => some p_bool_clause
  | "array_bool_or" => some p_array_bool_or
  | "array_bool_and" => some p_array_bool_and
  | "bool_clause_imp" => some p_bool_clause_imp
  | "array_bool_or_imp" => some p_array_bool_or_imp
  | "array_bool_and_imp" => some p_array_bool_and_imp
  | "bool_clause_reif" => some p_bool_clause_reif
  | "bool_lin_eq" => some p_bool_lin_eq
  | "bool_lin_ne" => some p_bool_lin_ne
  | "bool_lin_le" => some p_bool_lin_le
  | "bool_lin_eq_imp" => some p_bool_lin_eq_imp
  | "bool_lin_ne_imp" => some p_bool_lin_ne_imp
  | "bool_lin_le_imp" => some p_bool_lin_le_imp
  | "bool_lin_eq_reif" => some p_bool_lin_eq_reif
  | "bool_lin_ne_reif" => some p_bool_lin_ne_reif
  | "bool_lin_le_reif" => some p_bool_lin_le_reif
  | "bool2int" => some p_bool2int
  | "array_int_element" => some p_array_int_element
  | "array_bool_element" => some p_array_bool_element
  | "array_var_int_element" => some p_array_var_int_element
  | "array_var_bool_element" => some p_array_var_bool_element
  | "all_different_int" => some p_all_different
  | "alldifferent_except_0" => some p_all_different_except_0
  | "at_most" => some p_at_most
  | "at_most1" => some p_at_most1
  | "cumulative" => some p_cumulative
  | "cumulative_var" => some p_cumulative
  | "disjunctive" => some p_disjunctive
  | "disjunctive_var" => some p_disjunctive
  | "global_cardinality" => some (p_global_cardinality inDom)
  | "table_int" => some p_table_int
  | _ => none

/-- `Registry::post`, `lib/solver_instance_base.cpp:39-50`. -/
def post (inDom : IVar → Int → Bool) (name : String) (c : Call) : Res (List Post) :=
  match poster inDom name with
  | some p => p c
  | none => .err

/-! ## Variables -/

/-- The values given to `make_sparse`, `solvers/geas/geas_solverinstance.cpp:251-261`, for the ranges of a domain. -/
def sparse (dom : List (Int × Int)) : List Int :=
  dom.flatMap (fun r => (List.range (r.2 - r.1 + 1).toNat).map (fun k : Nat => toInt32 (r.1 + (k : Int))))

/-- A new variable: the bounds, and the values if there are several ranges, `solvers/geas/geas_solverinstance.cpp:244-262`. -/
def newVar (dom : List (Int × Int)) : Option (Int × Int × Option (List Int)) :=
  match dom.head?, dom.getLast? with
  | some f, some l => some (f.1, l.2, if 1 < dom.length then some (sparse dom) else none)
  | _, _ => none

/-- `resolveVar` of an array access, `solvers/geas/geas_solverinstance.cpp:595-600`: the index is used as it is. -/
def resolveAccess {α} (al : List α) (idx : Int) : Res α :=
  if 0 ≤ idx then
    match al[idx.toNat]? with
    | some v => .ok v
    | none => .ub
  else .ub

/-! ## Solving -/

/-- Values of the variables, `geas::model`, `solvers/geas/geas_solverinstance.cpp:405`. -/
structure Asg where
  iv : Nat → Int
  bv : Nat → Bool

/-- Variables with output annotations, `solvers/geas/geas_solverinstance.cpp:407-441`. -/
inductive OutVar where
  | i (x : Nat)
  | b (x : Nat)
  deriving DecidableEq

/-- One literal in `addSolutionNoGood`, `solvers/geas/geas_solverinstance.cpp:414-424, 430-440`. -/
def differs (m : Asg) : OutVar → Atom
  | .b x => if m.bv x then .not (.b x) else .b x
  | .i x => .ne (.var x) (m.iv x)

/-- `addSolutionNoGood`, `solvers/geas/geas_solverinstance.cpp:403-444`. -/
def nogood (outs : List OutVar) (m : Asg) : List Atom := outs.map (differs m)

/-- What `solve` returns, and what the solver answers, `solvers/geas/geas_solverinstance.cpp:473-494`. -/
inductive Status where
  | opt | sat | unsat | unknown | error
  deriving DecidableEq

/-- One round of the loop for satisfaction problems: the time is up, or the answer of the solver; for `sat`, the model, and
whether `addSolutionNoGood` fails, `solvers/geas/geas_solverinstance.cpp:460-471`. -/
inductive Ans where
  | timeout
  | sat (m : Asg) (fails : Bool)
  | unsat
  | unknown

/-- The loop, `solvers/geas/geas_solverinstance.cpp:460-472`: the number of solutions, the last result, and the models printed.  `last` is what
`get_model` returns, which stays when there is no new model.  The list of answers stands for the run of the solver. -/
def satLoop (all : Bool) (nr : Nat) : List Ans → Nat → Option Asg → Status → List (Option Asg) → Nat × Status × List (Option Asg)
  | [], n, _, res, out => (n, res, out)
  | a :: as, n, last, res, out =>
    if all ∨ n < nr then
      match a with
      | .timeout => (n, res, out)
      | .sat m fails =>
        if fails then (n + 1, .unsat, out ++ [some m]) else satLoop all nr as (n + 1) (some m) .sat (out ++ [some m])
      | .unsat => (n, .unsat, out ++ [last])
      | .unknown => (n, .unknown, out ++ [last])
    else (n, res, out)

/-- `solve` for satisfaction problems, `solvers/geas/geas_solverinstance.cpp:457-494`. -/
def solveSat (all : Bool) (nr : Nat) (as : List Ans) : Status × List (Option Asg) :=
  let (n, res, out) := satLoop all nr as 0 none .unknown []
  (match res with
    | .sat => .sat
    | .unsat => if 0 < n then .opt else .unsat
    | .unknown => if 0 < n then .sat else .unknown
    | _ => .error, out)

/-- Answers in the loop for optimisation problems, `solvers/geas/geas_solverinstance.cpp:502-526`. -/
inductive OAns where
  | sat (m : Asg)
  | unsat
  | unknown
  /-- `assume` failed -/
  | refused

/-- The state of the loop: the best value, the last model, and the models printed, `solvers/geas/geas_solverinstance.cpp:501-534`. -/
structure OState where
  val : Int
  last : Asg
  out : List Asg

/-- The value that is tried, `solvers/geas/geas_solverinstance.cpp:516-517`; `lb` is the current lower bound of the objective. -/
def probeValue (lb val : Int) (step : Nat) : Int := if lb > val - step then lb else val - step

/-- The inner loop, `solvers/geas/geas_solverinstance.cpp:513-532`: the answers that are left, or nothing if they run out. -/
def probe (all : Bool) (obj : Asg → Int) : List OAns → Nat → OState → Option (List OAns × OState)
  | [], _, _ => none
  | .sat m :: as, step, s =>
    probe all obj as (step * 2) ⟨obj m, m, if all then s.out ++ [m] else s.out⟩
  | _ :: as, _, s => some (as, s)

/-- The outer loop, `solvers/geas/geas_solverinstance.cpp:501-534`; nothing if the answers run out.  `limit`: `objProbeLimit > 0`. -/
def optLoop (all limit : Bool) (obj : Asg → Int) : Nat → List OAns → Option OState → Option (OAns × Option OState)
  | 0, _, _ => none
  | _ + 1, [], _ => none
  | n + 1, .sat m :: as, s =>
    let s' : OState := ⟨obj m, m, ((s.map OState.out).getD []) ++ (if all then [m] else [])⟩
    if limit then
      match probe all obj as 1 s' with
      | none => none
      | some (as, s') => optLoop all limit obj n as (some s')
    else optLoop all limit obj n as (some s')
  | _ + 1, a :: _, s => some (a, s)

/-- `solve` for optimisation problems, `solvers/geas/geas_solverinstance.cpp:495-556`. -/
def solveOpt (all limit : Bool) (obj : Asg → Int) (as : List OAns) : Option (Status × List Asg) :=
  match optLoop all limit obj (as.length + 1) as none with
  | none => none
  | some (res, none) =>
    some (match res with
      | .unsat => .unsat
      | .unknown => .unknown
      | _ => .error, [])
  | some (res, some s) =>
    some (match res with
      | .unsat => .opt
      | _ => .sat, if all then s.out else s.out ++ [s.last])

end Geas
end MZ
