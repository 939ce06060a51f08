import Verif.IntVal.Model
import Mathlib.Data.Finset.Max
import Mathlib.Data.Finset.Sort
import Mathlib.Data.Int.Interval
import Mathlib.Data.Int.Notation

/-!
# The constraints of the Gecode interface

`solvers/gecode/gecode_constraints.cpp` posts every FlatZinc constraint as calls of Gecode's functions.  The posters are modelled as functions from
the arguments of the constraint to the list of the calls; what the calls enforce is in `Verif.Gecode.Spec`.

Not modelled: float and set constraints, `cumulatives` with several machines, `circuit`, costs of circuits, propagation strength (`ann2icl`) and
`unshare` (Gecode's function that replaces repeated variables by equal new ones).
-/

namespace MZ
namespace Gecode

/-! ## Gecode's interface -/

/-- `IntRelType` of Gecode: `IRT_EQ`, `IRT_NQ`, `IRT_LQ` (≤), `IRT_LE` (<), `IRT_GQ` (≥), `IRT_GR` (>), as used in
`solvers/gecode/gecode_constraints.cpp:65-81`. -/
inductive IRT | EQ | NQ | LQ | LE | GQ | GR
deriving DecidableEq, Repr

/-- Gecode's `swap`: the relation with its sides exchanged (used in `solvers/gecode/gecode_constraints.cpp:59`). -/
def IRT.swap : IRT → IRT
  | .EQ => .EQ | .NQ => .NQ | .LQ => .GQ | .LE => .GR | .GQ => .LQ | .GR => .LE

/-- Gecode's `neg`: the opposite relation (used in `solvers/gecode/gecode_constraints.cpp:89`). -/
def IRT.neg : IRT → IRT
  | .EQ => .NQ | .NQ => .EQ | .LQ => .GR | .LE => .GQ | .GQ => .LE | .GR => .LQ

/-- `ReifyMode`: `RM_EQV` and `RM_IMP`. -/
inductive RM | eqv | imp
deriving DecidableEq, Repr

/-- `BoolOpType` of Gecode. -/
inductive BOT | AND | OR | XOR | IMP
deriving DecidableEq, Repr

/-- Integer variables and the expressions that the posters build with `expr`; `aux k` is a variable that the poster creates
(`IntVar(*gi.currentSpace, lo, hi)`); `within s t e` is the integer channelled from `s <= t && t < e`
(`solvers/gecode/gecode_constraints.cpp:1381-1382`). -/
inductive Term
  | var (x : Nat)
  | const (c : Int)
  | aux (k : Nat)
  | add (a b : Term)
  | sub (a b : Term)
  | mul (a b : Term)
  | ofBool (b : Nat)
  | within (s : Term) (t : Int) (e : Term)
deriving DecidableEq, Repr

/-- Boolean variables; `aux k` is a variable that the poster creates. -/
inductive BTerm
  | var (x : Nat)
  | const (b : Bool)
  | aux (k : Nat)
deriving DecidableEq, Repr

/-- Reification: absent, or a variable with a mode (`Reify(b, rm)`). -/
abbrev Reif := Option (BTerm × RM)

/-- The functions of Gecode that the posters call. -/
inductive Post
  | fail
  | rel (x : Term) (r : IRT) (y : Term) (re : Reif)
  | relB (x : BTerm) (r : IRT) (y : BTerm) (re : Reif)
  | linear (ks : List Int) (xs : List Term) (r : IRT) (c : Term) (re : Reif)
  | linearB (ks : List Int) (xs : List BTerm) (r : IRT) (c : Term) (re : Reif)
  | mult (x y z : Term)
  | div (x y z : Term)
  | mod (x y z : Term)
  | min (x y z : Term)
  | max (x y z : Term)
  | abs (x y : Term)
  | op (x : BTerm) (o : BOT) (y : BTerm) (z : BTerm)
  | opN (o : BOT) (xs : List BTerm) (z : BTerm)
  | clause (ps ns : List BTerm) (z : BTerm)
  | element (xs : List Term) (i : Term) (y : Term)
  | elementB (xs : List BTerm) (i : Term) (y : BTerm)
  | channel (b : BTerm) (x : Term)
  | dom (x : Term) (s : Finset Int) (re : Reif)
  | eqB (x : BTerm) (neg : Bool) (y : BTerm)
  | impB (x : BTerm) (neg : Bool) (y : BTerm)
  | lex (xs ys : List Term) (r : IRT)
  | relN (xs : List Term) (r : IRT)
  | distinct (cs : List Int) (xs : List Term)
  | count (xs : List Term) (y : Term) (r : IRT) (c : Term)
  | reifEq (b : BTerm) (x y : Term) (m : RM)
  | countSet (xs : List Term) (s : Finset Int) (r : IRT) (c : Term)
  | binpacking (ls bins : List Term) (sizes : List Int)
  | cards (xs counts : List Term) (cover : List Int)
  | cardSets (xs : List Term) (sets : List (Int × Int)) (cover : List Int)
  | minN (xs : List Term) (y : Term)
  | maxN (xs : List Term) (y : Term)
  | argmin (xs : List Term) (i : Term)
  | argmax (xs : List Term) (i : Term)
  | dfa (xs : List Term) (q0 : Int) (trans : List (Int × Int × Int)) (final : List Int)
  | sorted (xs ys : List Term)
  | channelN (xs : List Term) (xoff : Int) (ys : List Term) (yoff : Int)
  | tuples (xs : List Term) (ts : List (List Int))
  | geMax (b : Term) (xs : List Term)
  | unary (ss ds : List Term)
  | cumulative (b : Term) (ss ds hs : List Term)
  | cumulatives1 (limit : Int) (ss ds hs : List Term)
  | sequence (xs : List Term) (s : Finset Int) (q l u : Int)
  | nooverlap (xs ws ys hs : List Term)
  | precede (xs : List Term) (s t : Int)
  | nvalues (xs : List Term) (n : Term)
  | member (xs : List Term) (y : Term) (re : Reif)

/-- What a poster does: variables that it creates, with their bounds, and calls. -/
structure Posted where
  aux : List (Int × Int) := []
  posts : List Post

/-! ## Arguments -/

/-- An integer argument of a constraint. -/
inductive IArg
  | var (x : Nat)
  | lit (c : Int)
deriving DecidableEq, Repr

/-- A Boolean argument of a constraint. -/
inductive BArg
  | var (x : Nat)
  | lit (b : Bool)
deriving DecidableEq, Repr

/-- `static_cast<int>` of a 64-bit number: the lower 32 bits (used for every literal that is not in an array of variables, for example
`solvers/gecode/gecode_constraints.cpp:55`). -/
def int32 (c : Int) : Int := (c + 2147483648) % 4294967296 - 2147483648

/-- `valueWithinBounds`, `solvers/gecode/gecode_solverinstance.cpp:504-507`: `Gecode::Int::Limits` are ±2147483646. -/
def withinBounds (c : Int) : Bool := decide (-2147483646 ≤ c ∧ c ≤ 2147483646)

/-- `arg2intvar`, `solvers/gecode/gecode_solverinstance.cpp:992-1014`. -/
def arg2intvar : IArg → Term
  | .var x => .var x
  | .lit c => .const (int32 c)

/-- `arg2boolvar`, `solvers/gecode/gecode_solverinstance.cpp:973-990`. -/
def arg2boolvar : BArg → BTerm
  | .var x => .var x
  | .lit b => .const b

/-- `arg2intargs`, `solvers/gecode/gecode_solverinstance.cpp:804-822`. -/
def arg2intargs (offset : Nat) (cs : List Int) : List Int := List.replicate offset 0 ++ cs.map int32

/-- An element of an array of variables, `solvers/gecode/gecode_solverinstance.cpp:906-926`. -/
def elemVar : IArg → Res Term
  | .var x => .ok (.var x)
  | .lit c => if withinBounds c then .ok (.const c) else .err

/-- All results, or the first error. -/
def sequenceRes {α : Type} : List (Res α) → Res (List α)
  | [] => .ok []
  | r :: rs => do .ok ((← r) :: (← sequenceRes rs))

/-- `arg2intvarargs`, `solvers/gecode/gecode_solverinstance.cpp:896-928`: an empty array is not padded. -/
def arg2intvarargs (offset : Nat) (xs : List IArg) : Res (List Term) :=
  if xs = [] then .ok [] else do .ok (List.replicate offset (.const 0) ++ (← sequenceRes (xs.map elemVar)))

/-- `arg2boolvarargs`, `solvers/gecode/gecode_solverinstance.cpp:930-971`, without the position to be left out. -/
def arg2boolvarargs (offset : Nat) (xs : List BArg) : List BTerm :=
  if xs = [] then [] else List.replicate offset (.const false) ++ xs.map arg2boolvar

/-- The names of FlatZinc's comparisons. -/
inductive Rel | eq | ne | le | lt | ge | gt
deriving DecidableEq, Repr

/-- A constraint, its reification (`_reif`) or its half-reification (`_imp`). -/
inductive Mode | plain | reif | imp
deriving DecidableEq, Repr

/-- `p_int_eq` … `p_int_lt` and the other posters of comparisons, `solvers/gecode/gecode_constraints.cpp:65-67, 68-70, 71-73, 74-76, 77-79, 80-82`. -/
def irt : Rel → IRT
  | .eq => .EQ | .ne => .NQ | .ge => .GQ | .gt => .GR | .le => .LQ | .lt => .LE

/-- `Reify(b, rm)`, or nothing for the plain constraint, `solvers/gecode/gecode_constraints.cpp:110-146`. -/
def reify (m : Mode) (b : BTerm) : Reif :=
  match m with
  | .plain => none
  | .reif => some (b, .eqv)
  | .imp => some (b, .imp)

/-- The domains of the integer variables when the constraint is posted. -/
structure Doms where
  vals : Nat → Finset Int
  ne : ∀ x, (vals x).Nonempty

/-- `x.min()` -/
def Doms.min (D : Doms) : Term → Int
  | .var x => (D.vals x).min' (D.ne x)
  | .const c => c
  | _ => 0

/-- `x.max()` -/
def Doms.max (D : Doms) : Term → Int
  | .var x => (D.vals x).max' (D.ne x)
  | .const c => c
  | _ => 0

/-- `x.assigned()` -/
def Doms.assigned (D : Doms) (t : Term) : Bool := D.min t == D.max t

/-- The domain of a variable. -/
def Doms.dom (D : Doms) : Term → Finset Int
  | .var x => D.vals x
  | .const c => {c}
  | _ => ∅

/-! ## Comparisons and linear constraints -/

/-- `p_int_cmp`, `solvers/gecode/gecode_constraints.cpp:45-63`. -/
def p_int_cmp (r : IRT) (x y : IArg) (re : Reif) : Posted :=
  match x, y with
  | .var x, .var y => ⟨[], [.rel (.var x) r (.var y) re]⟩
  | .var x, .lit c => ⟨[], [.rel (.var x) r (.const (int32 c)) re]⟩
  | .lit c, y => ⟨[], [.rel (arg2intvar y) r.swap (.const (int32 c)) re]⟩

/-- `p_int_cmp_reif`, `solvers/gecode/gecode_constraints.cpp:83-107`, and the plain form. -/
def p_int_rel (r : Rel) (m : Mode) (x y : IArg) (b : BArg) : Posted :=
  match m, b with
  | .plain, _ => p_int_cmp (irt r) x y none
  | .reif, .lit v => if v then p_int_cmp (irt r) x y none else p_int_cmp (irt r).neg x y none
  | m, b => p_int_cmp (irt r) x y (reify m (arg2boolvar b))

/-- An element of the array of a linear constraint: a Boolean, an integer literal, or an integer variable with the index of the Boolean variable that
`bool2int` made equal to it. -/
inductive Elem
  | bool (b : BArg)
  | int (x : IArg) (alias_ : Option Nat)
deriving DecidableEq, Repr

/-- The loop of `isBoolArray`, `solvers/gecode/gecode_solverinstance.cpp:1046-1064`; the last element is looked at first. -/
def isBoolLoop : List Elem → Option (Option Nat)
  | [] => some none
  | e :: es =>
    match isBoolLoop es with
    | none => none
    | some s =>
      match e with
      | .bool _ => some s
      | .int (.var _) (some k) => if s = none then some (some k) else none
      | .int _ _ => none

/-- `isBoolArray`, `solvers/gecode/gecode_solverinstance.cpp:1041-1066`: the result, and `singleInt` (the index of a Boolean variable). -/
def isBoolArray (l : List Elem) : Option (Option Nat) :=
  if l = [] then some none
  else match isBoolLoop l with
    | some none => some none
    | some (some k) => if l.length > 1 then some (some k) else none
    | none => none

/-- An element of the array as an integer variable, `solvers/gecode/gecode_solverinstance.cpp:906-926`; Booleans are an error
(`IntLit` and integer variables are expected). -/
def Elem.intVar : Elem → Res Term
  | .bool _ => .err
  | .int x _ => elemVar x

/-- An element of the array as a Boolean variable, `solvers/gecode/gecode_solverinstance.cpp:944-968`. -/
def Elem.boolVar : Elem → Res BTerm
  | .bool b => .ok (arg2boolvar b)
  | .int (.var _) (some k) => .ok (.var k)
  | .int _ _ => .err

/-- `p_int_lin_cmp` and `p_int_lin_cmp_reif`, `solvers/gecode/gecode_constraints.cpp:148-186, 187-234`; the test whether the third argument is a Boolean
is always false, as it is an integer. -/
def p_int_lin (r : Rel) (m : Mode) (ks : List Int) (xs : List Elem) (c : Int) (b : BArg) : Res Posted :=
  let ia := arg2intargs 0 ks
  let re := reify m (arg2boolvar b)
  match isBoolArray xs with
  | some (some k) =>
    match ia[k]?, xs[k]? with
    | some a, some e =>
      if a.natAbs = 1 ∧ c = 0 then do
        let siv ← e.intVar
        let iv ← sequenceRes ((xs.eraseIdx k).map Elem.boolVar)
        let ia' := (ia.eraseIdx k).map (fun q => if a = -1 then q else -q)
        .ok ⟨[], [.linearB ia' iv (if a = -1 then irt r else (irt r).swap) siv re]⟩
      else do
        let iv ← sequenceRes (xs.map Elem.intVar)
        .ok ⟨[], [.linear ia iv (irt r) (.const (int32 c)) re]⟩
    | _, _ => .ub
  | some none => do
    let iv ← sequenceRes (xs.map Elem.boolVar)
    .ok ⟨[], [.linearB ia iv (irt r) (.const (int32 c)) re]⟩
  | none => do
    let iv ← sequenceRes (xs.map Elem.intVar)
    .ok ⟨[], [.linear ia iv (irt r) (.const (int32 c)) re]⟩

/-- `p_bool_lin_cmp` and `p_bool_lin_cmp_reif`, `solvers/gecode/gecode_constraints.cpp:291-304, 305-326`. -/
def p_bool_lin (r : Rel) (m : Mode) (ks : List Int) (xs : List BArg) (c : IArg) (b : BArg) : Posted :=
  ⟨[], [.linearB (arg2intargs 0 ks) (arg2boolvarargs 0 xs) (irt r) (arg2intvar c) (reify m (arg2boolvar b))]⟩

/-! ## Arithmetic -/

/-- `p_int_plus`, `solvers/gecode/gecode_constraints.cpp:384-408`. -/
def p_int_plus (x y z : IArg) : Posted := ⟨[], [.rel (.add (arg2intvar x) (arg2intvar y)) .EQ (arg2intvar z) none]⟩

/-- `p_int_minus`, `solvers/gecode/gecode_constraints.cpp:410-434`. -/
def p_int_minus (x y z : IArg) : Posted := ⟨[], [.rel (.sub (arg2intvar x) (arg2intvar y)) .EQ (arg2intvar z) none]⟩

/-- `p_int_times`, `solvers/gecode/gecode_constraints.cpp:436-442`. -/
def p_int_times (x y z : IArg) : Posted := ⟨[], [.mult (arg2intvar x) (arg2intvar y) (arg2intvar z)]⟩

/-- `p_int_div`, `solvers/gecode/gecode_constraints.cpp:443-451`. -/
def p_int_div (x y z : IArg) : Posted := ⟨[], [.div (arg2intvar x) (arg2intvar y) (arg2intvar z)]⟩

/-- `p_int_mod`, `solvers/gecode/gecode_constraints.cpp:452-460`. -/
def p_int_mod (x y z : IArg) : Posted := ⟨[], [.mod (arg2intvar x) (arg2intvar y) (arg2intvar z)]⟩

/-- `p_int_min`, `solvers/gecode/gecode_constraints.cpp:462-468`. -/
def p_int_min (x y z : IArg) : Posted := ⟨[], [.min (arg2intvar x) (arg2intvar y) (arg2intvar z)]⟩

/-- `p_int_max`, `solvers/gecode/gecode_constraints.cpp:469-475`. -/
def p_int_max (x y z : IArg) : Posted := ⟨[], [.max (arg2intvar x) (arg2intvar y) (arg2intvar z)]⟩

/-- `p_int_negate`, `solvers/gecode/gecode_constraints.cpp:476-481`. -/
def p_int_negate (x y : IArg) : Posted := ⟨[], [.rel (arg2intvar x) .EQ (.sub (.const 0) (arg2intvar y)) none]⟩

/-- `p_abs`, `solvers/gecode/gecode_constraints.cpp:814-820`. -/
def p_abs (x y : IArg) : Posted := ⟨[], [.abs (arg2intvar x) (arg2intvar y)]⟩

/-! ## Boolean constraints -/

/-- `p_bool_cmp` and `p_bool_cmp_reif`, `solvers/gecode/gecode_constraints.cpp:484-488, 489-493`. -/
def p_bool_rel (r : Rel) (m : Mode) (x y : BArg) (b : BArg) : Posted :=
  ⟨[], [.relB (arg2boolvar x) (irt r) (arg2boolvar y) (reify m (arg2boolvar b))]⟩

/-- `BOOL_OP`, `solvers/gecode/gecode_constraints.cpp:549-558`: `p_bool_or`, `p_bool_and`, `p_bool_xor` and `p_bool_r_imp`. -/
def p_bool_op (o : BOT) (x y z : BArg) : Posted := ⟨[], [.op (arg2boolvar x) o (arg2boolvar y) (arg2boolvar z)]⟩

/-- `p_bool_l_imp`, `solvers/gecode/gecode_constraints.cpp:679-693`: `isbool()` also holds of variables, which are then cast to literals. -/
def p_bool_l_imp (x y z : BArg) : Res Posted :=
  match z with
  | .lit b => .ok ⟨[], [.op (arg2boolvar y) .IMP (arg2boolvar x) (.const b)]⟩
  | .var _ => .ub

/-- `p_bool_not`, `solvers/gecode/gecode_constraints.cpp:699-705`. -/
def p_bool_not (x y : BArg) : Posted := ⟨[], [.op (arg2boolvar x) .XOR (arg2boolvar y) (.const true)]⟩

/-- `p_bool_or_imp`, `solvers/gecode/gecode_constraints.cpp:576-584`. -/
def p_bool_or_imp (x y z : BArg) : Posted :=
  ⟨[], [.clause [arg2boolvar x, arg2boolvar y] [arg2boolvar z] (.const true)]⟩

/-- `p_bool_and_imp`, `solvers/gecode/gecode_constraints.cpp:590-598`. -/
def p_bool_and_imp (x y z : BArg) : Posted :=
  ⟨[], [.op (arg2boolvar z) .IMP (arg2boolvar x) (.const true), .op (arg2boolvar z) .IMP (arg2boolvar y) (.const true)]⟩

/-- `p_bool_xor_imp`, `solvers/gecode/gecode_constraints.cpp:668-678`. -/
def p_bool_xor_imp (x y z : BArg) : Posted :=
  ⟨[], [.clause [arg2boolvar x, arg2boolvar y] [arg2boolvar z] (.const true),
    .clause [] [arg2boolvar x, arg2boolvar y, arg2boolvar z] (.const true)]⟩

/-- `BOOL_ARRAY_OP`, `solvers/gecode/gecode_constraints.cpp:560-569`: `p_array_bool_and`, `p_array_bool_or` and `p_array_bool_xor`; without a
second argument the result is 1. -/
def p_array_bool_op (o : BOT) (xs : List BArg) (z : Option BArg) : Posted :=
  ⟨[], [.opN o (arg2boolvarargs 0 xs) (match z with | none => .const true | some b => arg2boolvar b)]⟩

/-- `p_array_bool_and_imp`, `solvers/gecode/gecode_constraints.cpp:604-613`. -/
def p_array_bool_and_imp (xs : List BArg) (z : BArg) : Posted :=
  ⟨[], (arg2boolvarargs 0 xs).reverse.map (fun x => .op (arg2boolvar z) .IMP x (.const true))⟩

/-- `p_array_bool_or_imp`, `solvers/gecode/gecode_constraints.cpp:619-626`. -/
def p_array_bool_or_imp (xs : List BArg) (z : BArg) : Posted :=
  ⟨[], [.clause (arg2boolvarargs 0 xs) [arg2boolvar z] (.const true)]⟩

/-- `p_array_bool_xor_imp`, `solvers/gecode/gecode_constraints.cpp:632-639`. -/
def p_array_bool_xor_imp (xs : List BArg) (z : BArg) : Posted :=
  ⟨[(0, 1)], [.opN .XOR (arg2boolvarargs 0 xs) (.aux 0), .op (arg2boolvar z) .IMP (.aux 0) (.const true)]⟩

/-- `p_array_bool_clause`, `p_array_bool_clause_reif` and `p_array_bool_clause_imp`, `solvers/gecode/gecode_constraints.cpp:640-646, 647-654, 655-662`: the last two
are the same. -/
def p_array_bool_clause (m : Mode) (ps ns : List BArg) (b : BArg) : Posted :=
  match m with
  | .plain => ⟨[], [.clause (arg2boolvarargs 0 ps) (arg2boolvarargs 0 ns) (.const true)]⟩
  | .reif => ⟨[], [.clause (arg2boolvarargs 0 ps) (arg2boolvarargs 0 ns) (arg2boolvar b)]⟩
  | .imp => ⟨[], [.clause (arg2boolvarargs 0 ps) (arg2boolvarargs 0 ns) (arg2boolvar b)]⟩

/-! ## Elements, coercions, domains -/

/-- `p_array_int_element` with variables, `solvers/gecode/gecode_constraints.cpp:708-722`; Gecode refuses empty arrays. -/
def p_array_var_int_element (i : IArg) (xs : List IArg) (y : IArg) : Res Posted := do
  let iv ← arg2intvarargs 1 xs
  if iv = [] then .err
  else .ok ⟨[], [.rel (arg2intvar i) .GR (.const 0) none, .element iv (arg2intvar i) (arg2intvar y)]⟩

/-- `p_array_int_element` with literals, `solvers/gecode/gecode_constraints.cpp:708-722`. -/
def p_array_int_element (i : IArg) (cs : List Int) (y : IArg) : Posted :=
  ⟨[], [.rel (arg2intvar i) .GR (.const 0) none, .element ((arg2intargs 1 cs).map .const) (arg2intvar i) (arg2intvar y)]⟩

/-- `p_array_bool_element`, `solvers/gecode/gecode_constraints.cpp:723-737`; literals are padded in the same way but also when there are none. -/
def p_array_bool_element (i : IArg) (xs : List BArg) (y : BArg) : Res Posted :=
  let iv := arg2boolvarargs 1 xs
  if iv = [] then .err
  else .ok ⟨[], [.rel (arg2intvar i) .GR (.const 0) none, .elementB iv (arg2intvar i) (arg2boolvar y)]⟩

/-- `p_bool2int`, `solvers/gecode/gecode_constraints.cpp:740-750`. -/
def p_bool2int (b : BArg) (x : IArg) : Posted := ⟨[], [.channel (arg2boolvar b) (arg2intvar x)]⟩

/-- `p_int_in`, `p_int_in_reif` and `p_int_in_imp` of an integer, `solvers/gecode/gecode_constraints.cpp:752-769, 770-790, 791-810`. -/
def p_int_in (m : Mode) (x : IArg) (s : Finset Int) (b : BArg) : Posted :=
  ⟨[], [.dom (arg2intvar x) s (reify m (arg2boolvar b))]⟩

/-- `p_int_in`, `p_int_in_reif` and `p_int_in_imp` of a Boolean, `solvers/gecode/gecode_constraints.cpp:752-769, 770-790, 791-810`. -/
def p_int_in_bool (m : Mode) (x : BArg) (s : Finset Int) (b : BArg) : Posted :=
  let d01 := s ∩ {0, 1}
  if h : d01.Nonempty then
    match m with
    | .plain => ⟨[], [.relB (arg2boolvar x) .GQ (.const (d01.min' h == 1)) none, .relB (arg2boolvar x) .LQ (.const (d01.max' h == 1)) none]⟩
    | .reif =>
      if d01.max' h = 0 then ⟨[], [.eqB (arg2boolvar b) true (arg2boolvar x)]⟩
      else if d01.min' h = 1 then ⟨[], [.eqB (arg2boolvar b) false (arg2boolvar x)]⟩
      else ⟨[], [.eqB (arg2boolvar b) false (.const true)]⟩
    | .imp =>
      if d01.max' h = 0 then ⟨[], [.impB (arg2boolvar b) true (arg2boolvar x)]⟩
      else if d01.min' h = 1 then ⟨[], [.impB (arg2boolvar b) false (arg2boolvar x)]⟩
      else ⟨[], []⟩
  else
    match m with
    | .plain => ⟨[], [.fail]⟩
    | _ => ⟨[], [.eqB (arg2boolvar b) false (.const false)]⟩

/-! ## Global constraints -/

/-- `p_distinct`, `solvers/gecode/gecode_constraints.cpp:22-28`. -/
def p_distinct (xs : List IArg) : Res Posted := do
  let va ← arg2intvarargs 0 xs
  .ok ⟨[], [.distinct (va.map (fun _ => 0)) va]⟩

/-- `p_distinct_offset`, `solvers/gecode/gecode_constraints.cpp:30-37`. -/
def p_distinct_offset (cs : List Int) (xs : List IArg) : Res Posted := do
  let va ← arg2intvarargs 0 xs
  .ok ⟨[], [.distinct (arg2intargs 0 cs) va]⟩

/-- `p_all_equal`, `p_increasing_int` and `p_decreasing_int`, `solvers/gecode/gecode_constraints.cpp:39-43, 1154-1159, 1168-1173`. -/
def p_chain (r : IRT) (xs : List IArg) : Res Posted := do
  let va ← arg2intvarargs 0 xs
  .ok ⟨[], [.relN va r]⟩

/-- `p_array_int_lt` (`strict`) and `p_array_int_lq`, `solvers/gecode/gecode_constraints.cpp:822-828, 830-836`. -/
def p_array_int_lex (strict : Bool) (xs ys : List IArg) : Res Posted := do
  let a ← arg2intvarargs 0 xs
  let b ← arg2intvarargs 0 ys
  .ok ⟨[], [.lex a b (if strict then .LE else .LQ)]⟩

/-- `p_count`, `solvers/gecode/gecode_constraints.cpp:854-877, 879-889, 890-900`, `p_count_reif` and `p_count_imp`. -/
def p_count (m : Mode) (xs : List IArg) (y c : IArg) (b : BArg) : Res Posted := do
  let iv ← arg2intvarargs 0 xs
  match m with
  | .plain => .ok ⟨[], [.count iv (arg2intvar y) .EQ (arg2intvar c)]⟩
  | .reif => .ok ⟨[(0, 2147483646)], [.count iv (arg2intvar y) .EQ (.aux 0), .reifEq (arg2boolvar b) (.aux 0) (arg2intvar c) .eqv]⟩
  | .imp => .ok ⟨[(0, 2147483646)], [.count iv (arg2intvar y) .EQ (.aux 0), .reifEq (arg2boolvar b) (.aux 0) (arg2intvar c) .imp]⟩

/-- `count_rel`, `p_at_most` and `p_at_least`, `solvers/gecode/gecode_constraints.cpp:902-910, 912, 914`. -/
def p_at (most : Bool) (n : Int) (xs : List IArg) (v : Int) : Res Posted := do
  let iv ← arg2intvarargs 0 xs
  .ok ⟨[], [.count iv (.const (int32 v)) (if most then .LQ else .GQ) (.const (int32 n))]⟩

/-- `p_bin_packing_load`, `solvers/gecode/gecode_constraints.cpp:916-944`; Gecode refuses negative sizes. -/
def p_bin_packing_load (ls bins : List IArg) (ws : List Int) (minIdx : Int) : Res Posted := do
  let k := int32 minIdx
  let load ← arg2intvarargs 0 ls
  let bin ← arg2intvarargs 0 bins
  let low := bin.reverse.map (fun t => Post.rel t .GQ (.const k) none)
  let l := (if 0 < k then List.replicate k.toNat (Term.const 0) else []) ++ load
  let bin' := if k < 0 then bin.map (fun t => Term.sub t (.const k)) else bin
  let sizes := arg2intargs 0 ws
  if sizes.any (· < 0) then .err
  else .ok ⟨[], low ++ [.binpacking l bin' sizes]⟩

/-- The values that the variables can take and that are not in `cover`, in increasing order:
`extra` of `solvers/gecode/gecode_constraints.cpp:953-967` and the loop at 1012-1017. -/
def extra (D : Doms) (xs : List Term) (cover : List Int) : List Int :=
  ((xs.map D.dom).foldr (· ∪ ·) ∅ \ cover.toFinset).sort (· ≤ ·)

/-- `p_global_cardinality` and `p_global_cardinality_closed`, `solvers/gecode/gecode_constraints.cpp:946-979, 981-989`; Gecode refuses repeated values and
arrays of different lengths. -/
def p_global_cardinality (D : Doms) (closed : Bool) (xs : List IArg) (cover : List Int) (counts : List IArg) : Res Posted := do
  let iv0 ← arg2intvarargs 0 xs
  let cover := arg2intargs 0 cover
  let iv1 ← arg2intvarargs 0 counts
  let more := if closed then [] else extra D iv0 cover
  let cover' := cover ++ more
  let iv1' := iv1 ++ (List.range more.length).map Term.aux
  if cover'.Nodup ∧ cover'.length = iv1'.length then
    .ok ⟨more.map (fun _ => (0, (iv0.length : Int))), [.cards iv0 iv1' cover']⟩
  else .err

/-- `p_global_cardinality_low_up` and `p_global_cardinality_low_up_closed`, `solvers/gecode/gecode_constraints.cpp:991-1021, 1023-1038`. -/
def p_global_cardinality_low_up (D : Doms) (closed : Bool) (xs : List IArg) (cover lo up : List Int) : Res Posted := do
  let x ← arg2intvarargs 0 xs
  let cover := arg2intargs 0 cover
  let y := List.zip (arg2intargs 0 lo) (arg2intargs 0 up)
  let more := if closed then [] else extra D x cover
  let cover' := cover ++ more
  let y' := y ++ more.map (fun _ => (0, (x.length : Int)))
  if cover'.Nodup ∧ cover'.length = y'.length then .ok ⟨[], [.cardSets x y' cover']⟩ else .err

/-- `p_minimum` and `p_maximum`, `solvers/gecode/gecode_constraints.cpp:1040-1045, 1047-1052`; Gecode refuses empty arrays. -/
def p_extremum (least : Bool) (y : IArg) (xs : List IArg) : Res Posted := do
  let iv ← arg2intvarargs 0 xs
  if iv = [] then .err
  else .ok ⟨[], [if least then .minN iv (arg2intvar y) else .maxN iv (arg2intvar y)]⟩

/-- `p_minimum_arg` and `p_maximum_arg`, `solvers/gecode/gecode_constraints.cpp:1054-1060, 1062-1068`: the first position in case of ties, counted from 0. -/
def p_arg (least : Bool) (xs : List IArg) (i : IArg) : Res Posted := do
  let iv ← arg2intvarargs 0 xs
  if iv = [] then .err
  else .ok ⟨[], [if least then .argmin iv (arg2intvar i) else .argmax iv (arg2intvar i)]⟩

/-- The transitions of `p_regular`, `solvers/gecode/gecode_constraints.cpp:1079-1101`; positions outside the array are not defined. -/
def transitions (q s : Nat) (d : List Int) : Res (List (Int × Int × Int)) :=
  if d.length < q * s then .ub
  else .ok ((List.range q).flatMap (fun i => (List.range s).filterMap (fun j =>
    if d.getD (i * s + j) 0 > 0 then some ((i : Int) + 1, (j : Int) + 1, d.getD (i * s + j) 0) else none)))

/-- `p_regular`, `solvers/gecode/gecode_constraints.cpp:1070-1117`; the list of final states ends at the first negative number. -/
def p_regular (xs : List IArg) (q s : Nat) (d : List Int) (q0 : Int) (F : Finset Int) : Res Posted := do
  let iv ← arg2intvarargs 0 xs
  let t ← transitions q s (arg2intargs 0 d)
  let f := ((F.sort (· ≤ ·)).map int32 ++ [-1]).takeWhile (fun v => decide (0 ≤ v))
  .ok ⟨[], [.dfa iv (int32 q0) t f]⟩

/-- `p_sort`, `solvers/gecode/gecode_constraints.cpp:1119-1139`; Gecode refuses arrays of different lengths. -/
def p_sort (xs ys : List IArg) : Res Posted := do
  let x ← arg2intvarargs 0 xs
  let y ← arg2intvarargs 0 ys
  if x.length = y.length then .ok ⟨[], [.sorted x y]⟩ else .err

/-- `p_inverse_offsets`, `solvers/gecode/gecode_constraints.cpp:1141-1152`; Gecode refuses arrays of different lengths and negative offsets. -/
def p_inverse_offsets (xs : List IArg) (xoff : Int) (ys : List IArg) (yoff : Int) : Res Posted := do
  let x ← arg2intvarargs 0 xs
  let y ← arg2intvarargs 0 ys
  if x.length = y.length ∧ 0 ≤ int32 xoff ∧ 0 ≤ int32 yoff then .ok ⟨[], [.channelN x (int32 xoff) y (int32 yoff)]⟩ else .err

/-- `n` rows of `w` numbers, `solvers/gecode/gecode_constraints.cpp:1190-1196`. -/
def rows (w : Nat) (l : List Int) : Nat → List (List Int)
  | 0 => []
  | n + 1 => l.take w :: rows w (l.drop w) n

/-- `p_table_int`, `solvers/gecode/gecode_constraints.cpp:1182-1200`; the number of rows is a division by the number of variables. -/
def p_table_int (xs : List IArg) (ts : List Int) : Res Posted := do
  let x ← arg2intvarargs 0 xs
  let tuples := arg2intargs 0 ts
  if tuples.length = 0 then .ok ⟨[], [.tuples x []]⟩
  else if x.length = 0 then .ub
  else .ok ⟨[], [.tuples x (rows x.length tuples (tuples.length / x.length))]⟩

/-- The two numbers `minHeight` and `minHeight2`, `solvers/gecode/gecode_constraints.cpp:1313-1321`; the last height is looked at first. -/
def minHeights : List Int → Int × Int
  | [] => (2147483647, 2147483647)
  | h :: hs =>
    let (a, b) := minHeights hs
    if h < a then (h, b) else if h < b then (a, h) else (a, b)

/-- `disjunctive`, `solvers/gecode/gecode_constraints.cpp:1322-1323`; the sum can exceed the largest `int`. -/
def disjunctive (mins : Int × Int) (bmax : Int) : Res Bool :=
  if mins.1 > bmax.tdiv 2 then .ok true
  else if mins.2 > bmax.tdiv 2 then
    if mins.1 + mins.2 > 2147483647 then .ub else .ok (decide (mins.1 + mins.2 > bmax))
  else .ok false

/-- The least start and the greatest end, `solvers/gecode/gecode_constraints.cpp:1370-1377`. -/
def span (D : Doms) : List (Term × Term) → Int × Int
  | [] => (2147483646, -2147483646)
  | q :: qs => (Min.min (span D qs).1 (D.min q.1), Max.max (span D qs).2 (D.max q.1 + D.max q.2))

/-- The last case of `p_cumulatives`, `solvers/gecode/gecode_constraints.cpp:1378-1386`: one constraint for every time. -/
def timeSlices (D : Doms) (s d h : List Term) (b : Term) : List Post :=
  let (lo, hi) := span D (List.zip s d)
  (List.range (hi - lo).toNat).map (fun (k : Nat) =>
    Post.linear (s.map (fun _ => 1))
      ((List.zip s (List.zip d h)).map (fun q => Term.mul (.within q.1 (lo + k) (.add q.1 q.2.1)) q.2.2)) .LQ b none)

/-- `p_cumulatives` with four arguments, `solvers/gecode/gecode_constraints.cpp:1308-1388`; arrays of different lengths are not defined, Gecode
refuses the maximum of no variables.  `unary` and `cumulative` with fixed durations and with the end of every task are the same constraint. -/
def p_cumulative (D : Doms) (ss ds hs : List IArg) (b : IArg) : Res Posted := do
  let start ← arg2intvarargs 0 ss
  let duration ← arg2intvarargs 0 ds
  let height ← arg2intvarargs 0 hs
  let bound := arg2intvar b
  if start.length ≠ duration.length ∨ start.length ≠ height.length then .ub
  else do
    let dis ← disjunctive (minHeights (height.map D.min)) (D.max bound)
    if dis then
      if height = [] then .err
      else .ok ⟨[], [.geMax bound height, .unary start duration]⟩
    else if height.all D.assigned then
      .ok ⟨[], [.cumulative bound start duration (height.map (fun t => .const (D.min t)))]⟩
    else if D.assigned bound then
      .ok ⟨[], [.cumulatives1 (D.min bound) start duration height]⟩
    else .ok ⟨[], timeSlices D start duration height bound⟩

/-- `p_sliding_among_int`, `solvers/gecode/gecode_constraints.cpp:1390-1401`; Gecode refuses windows that are empty or longer than the array. -/
def p_sliding_among (l u q : Int) (xs : List IArg) (s : Finset Int) : Res Posted := do
  let x ← arg2intvarargs 0 xs
  if 1 ≤ int32 q ∧ int32 q ≤ x.length then .ok ⟨[], [.sequence x s (int32 q) (int32 l) (int32 u)]⟩ else .err

/-- `p_schedule_unary`, `solvers/gecode/gecode_constraints.cpp:1417-1423`. -/
def p_schedule_unary (xs : List IArg) (ps : List Int) : Res Posted := do
  let x ← arg2intvarargs 0 xs
  .ok ⟨[], [.unary x ((arg2intargs 0 ps).map .const)]⟩

/-- `p_nooverlap`, `solvers/gecode/gecode_constraints.cpp:1475-1503`: with fixed sizes or with the ends as expressions. -/
def p_nooverlap (xs ws ys hs : List IArg) : Res Posted := do
  let x ← arg2intvarargs 0 xs
  let w ← arg2intvarargs 0 ws
  let y ← arg2intvarargs 0 ys
  let h ← arg2intvarargs 0 hs
  .ok ⟨[], [.nooverlap x w y h]⟩

/-- `p_precede`, `solvers/gecode/gecode_constraints.cpp:1505-1512`. -/
def p_precede (xs : List IArg) (s t : Int) : Res Posted := do
  let x ← arg2intvarargs 0 xs
  .ok ⟨[], [.precede x (int32 s) (int32 t)]⟩

/-- `p_nvalue`, `solvers/gecode/gecode_constraints.cpp:1514-1526`. -/
def p_nvalue (n : IArg) (xs : List IArg) : Res Posted := do
  let x ← arg2intvarargs 0 xs
  .ok ⟨[], [.nvalues x (arg2intvar n)]⟩

/-- `p_among`, `solvers/gecode/gecode_constraints.cpp:1528-1543`. -/
def p_among (n : IArg) (xs : List IArg) (s : Finset Int) : Res Posted := do
  let x ← arg2intvarargs 0 xs
  .ok ⟨[], [.countSet x s .EQ (arg2intvar n)]⟩

/-- `p_member_int` and `p_member_int_reif`, `solvers/gecode/gecode_constraints.cpp:1545-1551, 1552-1559`. -/
def p_member_int (m : Mode) (xs : List IArg) (y : IArg) (b : BArg) : Res Posted := do
  let x ← arg2intvarargs 0 xs
  .ok ⟨[], [.member x (arg2intvar y) (reify m (arg2boolvar b))]⟩

end Gecode
end MZ
