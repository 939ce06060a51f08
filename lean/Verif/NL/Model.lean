import Mathlib.Algebra.Order.Field.Basic
import Mathlib.Algebra.Order.Floor.Ring
import Mathlib.Data.List.Nodup

/-!
# The NL file written for nonlinear solvers

`solvers/nl/nl_file.cpp`, `solvers/nl/nl_components.cpp` and `solvers/nl/nl_solreader.cpp`: the
FlatZinc problem is collected (phase 1), its variables and constraints are ordered (phase 2), the
file is printed, and the solution file is read back.

Simplifications, throughout:

* numbers are elements of an ordered field `K` instead of doubles.  The stream is set to seventeen
  digits (nl_solverinstance.cpp 164–168), so that printing loses nothing, but the conversion of an
  integer of more than 53 bits to a double does (nl_file.cpp 72);
* a printed line is a value of `Line`; the comments after `#` are dropped;
* `assert` is compiled out, as in a release build; `should_not_happen` and `map::at` on a missing
  key throw, which is `none`;
* the maps `variables` and `constraints` are lists in the order of their keys; the theorems hold
  for lists in any order.  The key of a constraint is the address of its call, hence unique.
-/

namespace MZ.NL

variable {K : Type}

/-! ## Components -/

/-- `NLBound` (nl_components.hh 122–165) with its five tags. -/
inductive Bound (K : Type) where
  | lbub (lb ub : K)
  | ub (ub : K)
  | lb (lb : K)
  | free
  | eq (v : K)
deriving DecidableEq, Repr

/-- `NLBound::makeBounded` (nl_components.cpp 21–27). -/
def makeBounded [DecidableEq K] (lb ub : K) : Bound K :=
  if lb = ub then .eq lb else .lbub lb ub

/-- `NLBound::updateLB` (nl_components.cpp 37–71); `none`: it throws. -/
def updateLB [LinearOrder K] (b : Bound K) (newLb : K) : Option (Bound K) :=
  match b with
  | .lbub l u => some (.lbub (if newLb > l then newLb else l) u)
  | .ub u => some (.lbub newLb u)
  | .lb l => some (.lb (if newLb > l then newLb else l))
  | .free => some (.lb newLb)
  | .eq _ => none

/-- `NLBound::updateUB` (nl_components.cpp 74–108); `none`: it throws. -/
def updateUB [LinearOrder K] (b : Bound K) (newUb : K) : Option (Bound K) :=
  match b with
  | .lbub l u => some (.lbub l (if newUb < u then newUb else u))
  | .ub u => some (.ub (if newUb < u then newUb else u))
  | .lb l => some (.lbub l newUb)
  | .free => some (.ub newUb)
  | .eq _ => none

/-- `NLBound::updateEq` (nl_components.cpp 111–150): the old bounds are only asserted. -/
def updateEq (b : Bound K) (newEq : K) : Bound K :=
  match b with
  | .lbub _ _ => .eq newEq
  | .ub _ => .eq newEq
  | .lb _ => .eq newEq
  | .free => .eq newEq
  | .eq v => .eq v

/-- `NLToken` (nl_components.hh 238–385): a number, a variable by name, an operator, an operator
with a number of operands.  Strings and function calls are never built. -/
inductive Tok (K : Type) where
  | n (x : K)
  | v (name : String)
  | o (oc : Nat)
  | mo (moc cnt : Nat)
deriving DecidableEq, Repr

/-- `NLVar` (nl_components.hh 175–216) without the marks of phase 2, which are computed there. -/
structure Var (K : Type) where
  name : String
  isInteger : Bool
  toReport : Bool
  bound : Bound K
  jacobianCount : Nat
deriving DecidableEq, Repr

/-- `NLAlgCons` (nl_components.hh 387–419). -/
structure Alg (K : Type) where
  range : Bound K
  graph : List (Tok K)
  jacobian : List (String × K)
deriving DecidableEq, Repr

/-- `NLObjective::MinMax` (nl_components.hh 467–472). -/
inductive Sense where
  | undef
  | satisfy
  | minimize
  | maximize
deriving DecidableEq, Repr

/-- `NLFile` (nl_file.hh 60–120), the part that phase 1 fills. -/
structure File (K : Type) where
  vars : List (Var K)
  cons : List (Alg K)
  logical : List (List (Tok K))
  sense : Sense
  objGraph : List (Tok K)
  gradient : List (String × K)

/-! ## Phase 1: what the FlatZinc says -/

/-- An argument of a FlatZinc call: a constant or a variable. -/
inductive Arg (K : Type) where
  | c (x : K)
  | v (name : String)
deriving DecidableEq, Repr

/-- A FlatZinc call.  The linear ones carry an array of coefficients and one of variables before
the scalar arguments. -/
structure Call (K : Type) where
  id : String
  coeffs : List K := []
  vars : List String := []
  args : List (Arg K) := []

/-- A FlatZinc variable declaration: `dom` is the list of ranges of its domain, if it has one. -/
structure Decl (K : Type) where
  name : String
  isInt : Bool
  dom : Option (List (K × K))
  output : Bool := false

/-- A FlatZinc problem. -/
structure Flat (K : Type) where
  decls : List (Decl K)
  calls : List (Call K)
  sense : Sense
  obj : Option (Arg K)

/-- `getTokenFromVarOrInt` and `getTokenFromVarOrFloat` (nl_file.cpp 393–417). -/
def tokOf : Arg K → Tok K
  | .c x => .n x
  | .v s => .v s

/-- `addVarDeclInteger` and `addVarDeclFloat` (nl_file.cpp 190–233): a domain must be one range. -/
def addVarDecl [DecidableEq K] (d : Decl K) : Option (Var K) :=
  match d.dom with
  | none => some ⟨d.name, d.isInt, d.output, .free, 0⟩
  | some [(l, u)] => some ⟨d.name, d.isInt, d.output, makeBounded l u, 0⟩
  | some _ => none

/-- `nl_file->variables.at(vn).jacobianCount++` (nl_components.cpp 437). -/
def bumpVar : List (Var K) → String → Option (List (Var K))
  | [], _ => none
  | v :: vs, n =>
    if v.name = n then some ({ v with jacobianCount := v.jacobianCount + 1 } :: vs)
    else (bumpVar vs n).map (v :: ·)

/-- `NLAlgCons::setJacobian` (nl_components.cpp 432–440), the counting part. -/
def bumpVars : List (Var K) → List String → Option (List (Var K))
  | vs, [] => some vs
  | vs, n :: ns => (bumpVar vs n).bind fun vs' => bumpVars vs' ns

/-- Adding an algebraic constraint with its jacobian: `setJacobian`, then the insertion in
`constraints` (e.g. nl_file.cpp 480, 496). -/
def addAlg (f : File K) (range : Bound K) (graph : List (Tok K)) (jac : List (String × K)) :
    Option (File K) :=
  (bumpVars f.vars (jac.map Prod.fst)).map fun vs =>
    { f with vars := vs, cons := f.cons ++ [⟨range, graph, jac⟩] }

/-- Adding a logical constraint (nl_file.cpp 556, 657). -/
def addLogical (f : File K) (graph : List (Tok K)) : File K :=
  { f with logical := f.logical ++ [graph] }

/-- `variables.at(n).bound.update…` (nl_file.cpp 577–583, 618–624). -/
def onBound (upd : Bound K → Option (Bound K)) : List (Var K) → String → Option (List (Var K))
  | [], _ => none
  | v :: vs, n =>
    if v.name = n then (upd v.bound).map fun b => { v with bound := b } :: vs
    else (onBound upd vs n).map (v :: ·)

/-- One summand of `makeSigmaMult` (nl_file.cpp 449–458). -/
def sigmaTerm [DecidableEq K] [One K] (c : K) (x : String) : List (Tok K) :=
  (if c = 1 then [] else [Tok.o 2, Tok.n c]) ++ [Tok.v x]

/-- `makeSigmaMult` (nl_file.cpp 432–459): `OPPLUS` for two summands, `OPSUMLIST` otherwise. -/
def makeSigmaMult [DecidableEq K] [One K] (cs : List K) (xs : List String) : List (Tok K) :=
  (if cs.length = 2 then [Tok.o 0] else [Tok.mo 54 cs.length]) ++
    (List.zipWith sigmaTerm cs xs).flatten

/-- `linconsEq` (nl_file.cpp 463–497). -/
def linconsEq [Zero K] [One K] [Neg K] (f : File K) (cs : List K) (xs : List String) (value : Arg K) :
    Option (File K) :=
  match value with
  | .c k => addAlg f (.eq k) [] (xs.zip cs)
  | .v y => addAlg f (.eq 0) [] ((xs ++ [y]).zip (cs ++ [-1]))

/-- `linconsLe` (nl_file.cpp 500–534). -/
def linconsLe [Zero K] [One K] [Neg K] (f : File K) (cs : List K) (xs : List String) (value : Arg K) :
    Option (File K) :=
  match value with
  | .c k => addAlg f (.ub k) [] (xs.zip cs)
  | .v y => addAlg f (.ub 0) [] ((xs ++ [y]).zip (cs ++ [-1]))

/-- `linconsPredicate` (nl_file.cpp 541–563). -/
def linconsPredicate [DecidableEq K] [One K] (f : File K) (oc : Nat) (cs : List K) (xs : List String)
    (value : Arg K) : File K :=
  addLogical f (Tok.o oc :: (makeSigmaMult cs xs ++ [tokOf value]))

/-- `nlconsEq` (nl_file.cpp 576–608): a bound if one side is a constant, `x - y = 0` for two
different variables, nothing otherwise. -/
def nlconsEq [Zero K] [One K] [Neg K] (f : File K) (x y : Arg K) : Option (File K) :=
  match x, y with
  | .c k, .v b => (onBound (fun bd => some (updateEq bd k)) f.vars b).map fun vs => { f with vars := vs }
  | .v a, .c k => (onBound (fun bd => some (updateEq bd k)) f.vars a).map fun vs => { f with vars := vs }
  | .v a, .v b => if a = b then some f else addAlg f (.eq 0) [] [(a, 1), (b, -1)]
  | .c _, .c _ => some f

/-- `nlconsLe` (nl_file.cpp 614–648). -/
def nlconsLe [LinearOrder K] [Zero K] [One K] [Neg K] (f : File K) (x y : Arg K) : Option (File K) :=
  match x, y with
  | .c k, .v b => (onBound (fun bd => updateLB bd k) f.vars b).map fun vs => { f with vars := vs }
  | .v a, .c k => (onBound (fun bd => updateUB bd k) f.vars a).map fun vs => { f with vars := vs }
  | .v a, .v b => if a = b then some f else addAlg f (.ub 0) [] [(a, 1), (b, -1)]
  | .c _, .c _ => some f

/-- `nlconsPredicate` (nl_file.cpp 655–672). -/
def nlconsPredicate (f : File K) (oc : Nat) (x y : Arg K) : File K :=
  addLogical f [Tok.o oc, tokOf x, tokOf y]

/-- The jacobian of a binary operator with a variable result (nl_file.cpp 692–715): the operands
have coefficient 0, the result has -1. -/
def binJacobian [Zero K] [One K] [Neg K] (x y : Arg K) (z : String) : List (String × K) :=
  ((match x, y with
    | .v a, .v b => if a = b then [] else [(a, 0)]
    | .v a, .c _ => [(a, 0)]
    | .c _, _ => []) : List (String × K)) ++
  ((match y with
    | .v b => [(b, 0)]
    | .c _ => []) : List (String × K)) ++ [(z, -1)]

/-- `nlconsOperatorBinary` (nl_file.cpp 675–727 and 732–784); `op` is the operator token. -/
def nlconsBinary [Zero K] [One K] [Neg K] (f : File K) (op : Tok K) (x y z : Arg K) :
    Option (File K) :=
  match z with
  | .c k => addAlg f (.eq k) [op, tokOf x, tokOf y] []
  | .v w => addAlg f (.eq 0) [op, tokOf x, tokOf y] (binJacobian x y w)

/-- The jacobian of a unary operator with a variable result (nl_file.cpp 806–823). -/
def unJacobian [Zero K] [One K] [Neg K] (x : Arg K) (y : String) : List (String × K) :=
  ((match x with
    | .v a => [(a, 0)]
    | .c _ => []) : List (String × K)) ++ [(y, -1)]

/-- `nlconsOperatorUnary` (nl_file.cpp 787–832). -/
def nlconsUnary [Zero K] [One K] [Neg K] (f : File K) (oc : Nat) (x y : Arg K) : Option (File K) :=
  match y with
  | .c k => addAlg f (.eq k) [Tok.o oc, tokOf x] []
  | .v w => addAlg f (.eq 0) [Tok.o oc, tokOf x] (unJacobian x w)

/-- `nlconsOperatorUnaryLog2` (nl_file.cpp 835–882): `log x / log 2`. -/
def nlconsLog2 [Zero K] [One K] [Neg K] [OfNat K 2] (f : File K) (x y : Arg K) : Option (File K) :=
  match y with
  | .c k => addAlg f (.eq k) [Tok.o 3, Tok.o 43, tokOf x, Tok.o 43, Tok.n 2] []
  | .v w => addAlg f (.eq 0) [Tok.o 3, Tok.o 43, tokOf x, Tok.o 43, Tok.n 2] (unJacobian x w)

/-- What `analyseConstraint` does with a call: which builder, with which operator code. -/
inductive Kind where
  | linEq
  | linLe
  | linPred (oc : Nat)
  | eq
  | le
  | pred (oc : Nat)
  | bin (oc : Nat)
  | mbin (moc : Nat)
  | un (oc : Nat)
  | log2
  | int2float
deriving DecidableEq, Repr

/-- The tests of `analyseConstraint` (nl_file.cpp 236–390) in their order, and the methods called
(nl_file.cpp 886–1231), with the operator codes of nl_components.hh 258–330. -/
def kinds : List (String × Kind) :=
  [ ("int_lin_eq", .linEq),
    ("int_lin_le", .linLe),
    ("int_lin_ne", .linPred 30),
    ("int_le", .le),
    ("int_eq", .eq),
    ("int_ne", .pred 30),
    ("int_times", .bin 2),
    ("int_div", .bin 3),
    ("int_mod", .bin 4),
    ("int_plus", .bin 0),
    ("int_pow", .bin 5),
    ("int_max", .mbin 12),
    ("int_min", .mbin 11),
    ("int_abs", .un 15),
    ("float_lin_eq", .linEq),
    ("float_lin_le", .linLe),
    ("float_lin_lt", .linPred 22),
    ("float_lin_ne", .linPred 30),
    ("float_lt", .pred 22),
    ("float_le", .le),
    ("float_eq", .eq),
    ("float_ne", .pred 30),
    ("float_plus", .bin 0),
    ("float_minus", .bin 1),
    ("float_div", .bin 3),
    ("float_times", .bin 2),
    ("float_pow", .bin 5),
    ("float_max", .mbin 12),
    ("float_min", .mbin 11),
    ("float_abs", .un 15),
    ("float_acos", .un 53),
    ("float_acosh", .un 52),
    ("float_asin", .un 51),
    ("float_asinh", .un 50),
    ("float_atan", .un 49),
    ("float_atanh", .un 47),
    ("float_cos", .un 46),
    ("float_cosh", .un 45),
    ("float_exp", .un 44),
    ("float_ln", .un 43),
    ("float_log10", .un 42),
    ("float_log2", .log2),
    ("float_sqrt", .un 39),
    ("float_sin", .un 41),
    ("float_sinh", .un 40),
    ("float_tan", .un 38),
    ("float_tanh", .un 37),
    ("int2float", .int2float) ]

/-- `analyseConstraint` (nl_file.cpp 236–390): the first test that succeeds; `none`: it throws. -/
def kindOf (id : String) : Option Kind := kinds.lookup id

/-- The builder of a kind on the arguments of the call (nl_file.cpp 886–1231).  A call with the
wrong number of arguments does not occur in FlatZinc; it is `none` here. -/
def build [LinearOrder K] [Zero K] [One K] [Neg K] [OfNat K 2] (f : File K) (k : Kind) (c : Call K) :
    Option (File K) :=
  match k, c.args with
  | .linEq, [v] => linconsEq f c.coeffs c.vars v
  | .linLe, [v] => linconsLe f c.coeffs c.vars v
  | .linPred oc, [v] => some (linconsPredicate f oc c.coeffs c.vars v)
  | .eq, [x, y] => nlconsEq f x y
  | .le, [x, y] => nlconsLe f x y
  | .pred oc, [x, y] => some (nlconsPredicate f oc x y)
  | .bin oc, [x, y, z] => nlconsBinary f (.o oc) x y z
  | .mbin moc, [x, y, z] => nlconsBinary f (.mo moc 2) x y z
  | .un oc, [x, y] => nlconsUnary f oc x y
  | .log2, [x, y] => nlconsLog2 f x y
  | .int2float, [.v x, .v y] => linconsEq f [1, -1] [x, y] (.c 0)
  | _, _ => none

/-- `analyseConstraint` (nl_file.cpp 236–390). -/
def analyse [LinearOrder K] [Zero K] [One K] [Neg K] [OfNat K 2] (f : File K) (c : Call K) :
    Option (File K) :=
  (kindOf c.id).bind fun k => build f k c

/-- The constraints, one after the other (nl_solverinstance.cpp 193–200). -/
def analyseAll [LinearOrder K] [Zero K] [One K] [Neg K] [OfNat K 2] (f : File K) :
    List (Call K) → Option (File K)
  | [] => some f
  | c :: cs => (analyse f c).bind fun f' => analyseAll f' cs

/-- `addSolve` (nl_file.cpp 1236–1273): the objective is a variable, its gradient is 1. -/
def addSolve [One K] (f : File K) (st : Sense) (e : Option (Arg K)) : Option (File K) :=
  match st, e with
  | .satisfy, _ => some { f with sense := .satisfy }
  | .minimize, some (.v x) => some { f with sense := .minimize, gradient := [(x, 1)] }
  | .maximize, some (.v x) => some { f with sense := .maximize, gradient := [(x, 1)] }
  | _, _ => none

/-- Phase 1 (nl_solverinstance.cpp 184–202). -/
def collect [LinearOrder K] [Zero K] [One K] [Neg K] [OfNat K 2] (p : Flat K) : Option (File K) :=
  (p.decls.mapM addVarDecl).bind fun vs =>
    (analyseAll ⟨vs, [], [], .undef, [], []⟩ p.calls).bind fun f => addSolve f p.sense p.obj

/-! ## Phase 2: the order -/

/-- The token is this variable. -/
def isVar (s : String) : Tok K → Bool
  | .v n => n == s
  | _ => false

/-- `isInNLConstraint` after phase 2 (nl_file.cpp 1279–1293). -/
def inNLCons (f : File K) (s : String) : Bool :=
  f.cons.any (fun a => a.graph.any (isVar s)) || f.logical.any (fun g => g.any (isVar s))

/-- `isInNLObjective` after phase 2 (nl_file.cpp 1296–1300). -/
def inNLObj (f : File K) (s : String) : Bool := f.objGraph.any (isVar s)

/-- The names of the variables of one of the eight classes (nl_file.cpp 1303–1344): nonlinear in
the objective, nonlinear in a constraint, integer. -/
def cls (f : File K) (o c i : Bool) : List String :=
  (f.vars.filter fun v => (inNLObj f v.name == o) && (inNLCons f v.name == c) && (v.isInteger == i)).map
    Var.name

/-- `vnames` (nl_file.cpp 1351–1363): both, constraints only, objective only, linear; in each the
continuous variables come first.  The lists of arcs and of binary variables are always empty. -/
def vnames (f : File K) : List String :=
  cls f true true false ++ cls f true true true ++
  cls f false true false ++ cls f false true true ++
  cls f true false false ++ cls f true false true ++
  cls f false false false ++ cls f false false true

/-- `variableIndexes` (nl_file.cpp 1366–1368). -/
def varIndex (f : File K) (s : String) : Nat := (vnames f).idxOf s

/-- `cnames` (nl_file.cpp 1371–1399), as the constraints in that order: the nonlinear ones first. -/
def cnames (f : File K) : List (Alg K) :=
  f.cons.filter (fun a => !a.graph.isEmpty) ++ f.cons.filter (fun a => a.graph.isEmpty)

/-- A range counts for `algConsRangeCount` (nl_file.cpp 1383–1386). -/
def isRange : Bound K → Bool
  | .lbub _ _ => true
  | _ => false

/-- A range counts for `algConsEqCount` (nl_file.cpp 1383–1393): for lack of a `break`, a range
with two bounds counts here as well. -/
def isEqCounted : Bound K → Bool
  | .lbub _ _ => true
  | .eq _ => true
  | _ => false

/-- Every variable named in a graph, a jacobian or the gradient exists: `variables.at` and
`variableIndexes.at` do not throw (nl_file.cpp 1282, 1290, 1298; nl_components.cpp 401, 462, 613). -/
def closed (f : File K) : Bool :=
  let known := fun s => f.vars.any (fun v => v.name == s)
  let okTok := fun (t : Tok K) => match t with | .v s => known s | _ => true
  f.cons.all (fun a => a.graph.all okTok && a.jacobian.all (fun e => known e.1)) &&
    f.logical.all (fun g => g.all okTok) && f.objGraph.all okTok &&
    f.gradient.all (fun e => known e.1)

/-! ## Printing -/

/-- A line of the file, without its comment.  An operator with a number of operands takes two
lines, `o54` and the number; they are one `opn` here. -/
inductive Line (K : Type) where
  | hdr (xs : List Nat)
  | seg (c : Char) (xs : List Nat)
  | cnt (n : Nat)
  | bnd (code : Nat) (xs : List K)
  | lin (i : Nat) (c : K)
  | num (x : K)
  | var (i : Nat)
  | op (o : Nat)
  | opn (o n : Nat)
deriving DecidableEq, Repr

/-- `NLBound::printToStream` (nl_components.cpp 153–178). -/
def printBound : Bound K → Line K
  | .lbub l u => .bnd 0 [l, u]
  | .ub u => .bnd 1 [u]
  | .lb l => .bnd 2 [l]
  | .free => .bnd 3 []
  | .eq v => .bnd 4 [v]

/-- `NLToken::printToStream` (nl_components.cpp 391–427). -/
def printTok (f : File K) : Tok K → Line K
  | .n x => .num x
  | .v s => .var (varIndex f s)
  | .o oc => .op oc
  | .mo moc cnt => .opn moc cnt

/-- An expression graph, `n0` if it is empty (nl_components.cpp 451–459). -/
def printGraph [Zero K] (f : File K) (g : List (Tok K)) : List (Line K) :=
  match g with
  | [] => [.num 0]
  | t :: ts => printTok f t :: ts.map (printTok f)

/-- A linear part (nl_components.cpp 464–467, 612–615). -/
def printTerms (f : File K) (js : List (String × K)) : List (Line K) :=
  js.map fun e => .lin (varIndex f e.1) e.2

/-- `NLAlgCons::printToStream` (nl_components.cpp 446–471): `idx` is its position in `cnames`. -/
def printAlg [Zero K] (f : File K) (idx : Nat) (a : Alg K) : List (Line K) :=
  Line.seg 'C' [idx] :: printGraph f a.graph ++
    (if a.jacobian.isEmpty then []
     else Line.seg 'J' [idx, a.jacobian.length] :: printTerms f a.jacobian)

/-- The algebraic constraints from a position on (nl_file.cpp 1522–1525). -/
def printAlgs [Zero K] (f : File K) : Nat → List (Alg K) → List (Line K)
  | _, [] => []
  | i, a :: as => printAlg f i a ++ printAlgs f (i + 1) as

/-- `NLLogicalCons::printToStream` (nl_components.cpp 476–484). -/
def printLogical (f : File K) (idx : Nat) (g : List (Tok K)) : List (Line K) :=
  Line.seg 'L' [idx] :: g.map (printTok f)

/-- The logical constraints from a position on (nl_file.cpp 1528–1530); `index` is the position
(nl_file.cpp 544). -/
def printLogicals (f : File K) : Nat → List (List (Tok K)) → List (Line K)
  | _, [] => []
  | i, g :: gs => printLogical f i g ++ printLogicals f (i + 1) gs

/-- `NLObjective::printToStream` (nl_components.cpp 594–620). -/
def printObjective [Zero K] (f : File K) : List (Line K) :=
  match f.sense with
  | .undef => []
  | .satisfy => [.seg 'O' [0, 0], .num 0]
  | s => Line.seg 'O' [0, if s = .maximize then 1 else 0] :: printGraph f f.objGraph ++
      (if f.gradient.isEmpty then []
       else Line.seg 'G' [0, f.gradient.length] :: printTerms f f.gradient)

/-- `lvbCount` (nl_file.cpp 1437–1439). -/
def lvbCount (f : File K) : Nat := (cls f true true false).length + (cls f true true true).length

/-- `lvcCount` (nl_file.cpp 1425–1428). -/
def lvcCount (f : File K) : Nat :=
  lvbCount f + (cls f false true true).length + (cls f false true false).length

/-- `lvoCount` (nl_file.cpp 1431–1434). -/
def lvoCount (f : File K) : Nat :=
  lvbCount f + (cls f true false true).length + (cls f true false false).length

/-- `_jacobianCount` (nl_file.cpp 1307). -/
def jacobianCount (f : File K) : Nat := (f.vars.map Var.jacobianCount).sum

/-- `NLHeader::printToStream` (nl_components.cpp 491–574), ten lines. -/
def printHeader (f : File K) : List (Line K) :=
  [ .hdr [3, 1, 1, 0],
    .hdr [f.vars.length, f.cons.length, 1, f.cons.countP (fun a => isRange a.range),
      f.cons.countP (fun a => isEqCounted a.range), f.logical.length],
    .hdr [(f.cons.filter (fun a => !a.graph.isEmpty)).length, if f.objGraph.isEmpty then 0 else 1],
    .hdr [0, 0],
    .hdr [lvcCount f, lvoCount f, lvbCount f],
    .hdr [0, 0, 0, 1],
    .hdr [0, (cls f false false true).length, (cls f true true true).length,
      (cls f false true true).length, (cls f true false true).length],
    .hdr [jacobianCount f, f.gradient.length],
    .hdr [0, 0],
    .hdr [0, 0, 0, 0, 0] ]

/-- `variables.at(name)` (nl_file.cpp 1493, 1501). -/
def varAt (f : File K) (s : String) : Option (Var K) := f.vars.find? (fun v => v.name == s)

/-- The cumulative counts of the `k` segment (nl_file.cpp 1489–1495). -/
def printCounts (f : File K) : Nat → List String → List (Line K)
  | _, [] => []
  | acc, s :: ss =>
    let acc' := acc + ((varAt f s).map Var.jacobianCount).getD 0
    .cnt acc' :: printCounts f acc' ss

/-- The bounds of the `b` segment (nl_file.cpp 1498–1504). -/
def printBounds (f : File K) (ss : List String) : List (Line K) :=
  ss.map fun s => printBound (((varAt f s).map Var.bound).getD .free)

/-- `NLFile::printToStream` (nl_file.cpp 1477–1546). -/
def printFile [Zero K] (f : File K) : List (Line K) :=
  printHeader f ++
  (if f.vars.length > 1 then
    (Line.seg 'k' [f.vars.length - 1] :: printCounts f 0 ((vnames f).take (f.vars.length - 1))) ++
    (Line.seg 'b' [] :: printBounds f (vnames f))
   else []) ++
  (if (cnames f).isEmpty then [] else Line.seg 'r' [] :: (cnames f).map (fun a => printBound a.range)) ++
  printAlgs f 0 (cnames f) ++ printLogicals f 0 f.logical ++ printObjective f

/-- The file for a FlatZinc problem (nl_solverinstance.cpp 180–206). -/
def writeNL [LinearOrder K] [Zero K] [One K] [Neg K] [OfNat K 2] (p : Flat K) :
    Option (File K × List (Line K)) :=
  (collect p).bind fun f => if closed f then some (f, printFile f) else none

/-! ## Reading the solution -/

/-- `NL_Solver_Status` (nl_solreader.hh). -/
inductive Status where
  | parseError
  | unknown
  | solved
  | uncertain
  | infeasible
  | unbounded
  | limit
  | failure
  | interrupted
deriving DecidableEq, Repr

/-- The status of a result code (nl_solreader.cpp 91–109). -/
def statusOf (code : Int) : Status :=
  if code = -1 then .unknown
  else if 0 ≤ code ∧ code < 100 then .solved
  else if 100 ≤ code ∧ code < 200 then .uncertain
  else if 200 ≤ code ∧ code < 300 then .infeasible
  else if 300 ≤ code ∧ code < 400 then .unbounded
  else if 400 ≤ code ∧ code < 500 then .limit
  else if 500 ≤ code ∧ code < 600 then .failure
  else if code = 600 then .interrupted
  else .unknown

/-- What the user is told (nl_solreader.cpp 155–272). -/
inductive Verdict where
  | error
  | unknown
  | solution (complete : Bool)
  | unsatisfiable
  | unbounded
deriving DecidableEq, Repr

/-- The switch over the status (nl_solreader.cpp 155–272): with an objective, the line that says the
search is complete follows the solution.  `none`: there is no case for `FAILURE`, the default throws. -/
def verdict (sense : Sense) : Status → Option Verdict
  | .parseError => some .error
  | .unknown => some .unknown
  | .solved => some (.solution (decide (sense = .minimize ∨ sense = .maximize)))
  | .uncertain => some .unknown
  | .infeasible => some .unsatisfiable
  | .unbounded => some .unbounded
  | .limit => some .unknown
  | .interrupted => some .unknown
  | .failure => none

/-- Reading `n` lines as numbers (nl_solreader.cpp 74–78): the rest of the lines and the values.
`none`: `stod` throws. -/
def readVals (stod : String → Option K) : Nat → List String → Option (List K × List String)
  | 0, ls => some ([], ls)
  | _ + 1, [] => some ([], [])
  | n + 1, l :: ls => (stod l).bind fun d => (readVals stod n ls).map fun r => (d :: r.1, r.2)

/-- `NLSol::parseSolution` (nl_solreader.cpp 16–116) on the lines of the file, with `stoi` and `stod`
as parameters; `none` is a parse error.  Reading past the end of the file is a parse error as well. -/
def parseSol (stoi : String → Option Int) (stod : String → Option K) (ls : List String) :
    Option (List K × Status) :=
  -- the message, up to an empty line
  let ls1 := (ls.dropWhile (fun l => !l.isEmpty)).drop 1
  -- the line of the options is consumed, whatever it is
  let afterOptions : Option (List String) :=
    match ls1 with
    | [] => none
    | l :: rest =>
      if l = "Options" then
        match rest with
        | [] => none
        | n :: rest' => (stoi n).map fun k => rest'.drop k.toNat
      else some rest
  afterOptions.bind fun r =>
    match r with
    | _ :: d :: _ :: v :: rest =>
      (stoi d).bind fun nd => (stoi v).bind fun nv =>
        (readVals stod nv.toNat (rest.drop nd.toNat)).bind fun (vals, rest') =>
          match rest' with
          | [] => none
          | l :: _ =>
            if l.length < 8 then none
            else (stoi (String.ofList (l.toList.drop 8))).map fun code => (vals, statusOf code)
    | _ => none

/-- `static_cast<long long int>` of a number (nl_solreader.cpp 183, 213): rounding towards 0. -/
def truncZ [Field K] [LinearOrder K] [IsStrictOrderedRing K] [FloorRing K] (x : K) : Int :=
  if 0 ≤ x then ⌊x⌋ else ⌈x⌉

/-- What is reported for each variable to be output (nl_solreader.cpp 177–191). -/
def report [Field K] [LinearOrder K] [IsStrictOrderedRing K] [FloorRing K] (f : File K)
    (values : List K) : List (String × K) :=
  ((vnames f).zip values).filterMap fun (s, x) =>
    match varAt f s with
    | some v => if v.toReport then some (s, if v.isInteger then ((truncZ x : Int) : K) else x) else none
    | none => none

/-- The value reported for a variable inside an output array (nl_solreader.cpp 211–217). -/
def reportItem [Field K] [LinearOrder K] [IsStrictOrderedRing K] [FloorRing K] (f : File K)
    (values : List K) (isInteger : Bool) (s : String) : Option K :=
  (values[varIndex f s]?).map fun x => if isInteger then ((truncZ x : Int) : K) else x

end MZ.NL
