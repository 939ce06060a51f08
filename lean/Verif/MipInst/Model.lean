import Verif.IntVal.Model
import Mathlib.Data.Rat.Floor
import Mathlib.Algebra.Order.Round

/-!
# The interface to MIP solvers

`include/minizinc/solvers/MIP/MIP_solverinstance.hpp` and `include/minizinc/solvers/MIP/MIP_wrap.hh`: how FlatZinc becomes columns, rows and
general constraints, and how the answer of the solver is read.

Simplified: `double` is a rational number, so rounding is left out; names of columns and rows, statistics and messages are left out; the cut
generators are in `Verif/MipCuts`.
-/

namespace MZ
namespace MipInst

/-! ## The wrapper -/

/-- `VarType`, `include/minizinc/solvers/MIP/MIP_wrap.hh:46`. -/
inductive Ty where
  | real | int | binary
  deriving DecidableEq

/-- `LinConType`, `include/minizinc/solvers/MIP/MIP_wrap.hh:47`. -/
inductive Sense where
  | lq | eq | gq
  deriving DecidableEq

/-- A column, `include/minizinc/solvers/MIP/MIP_wrap.hh:62-64`. -/
structure Col where
  obj : Rat
  lb : Rat
  ub : Rat
  ty : Ty

/-- The arguments of `addRow`, `include/minizinc/solvers/MIP/MIP_wrap.hh:262-264`; `mask` as three bits: normal, user cut, lazy. -/
structure Row where
  terms : List (Nat × Rat)
  sense : Sense
  rhs : Rat
  mask : Nat

/-- The other functions for constraints, `include/minizinc/solvers/MIP/MIP_wrap.hh:265-305`. -/
inductive Gen where
  /-- `addIndicatorConstraint` -/
  | indicator (b : Nat) (bVal : Rat) (terms : List (Nat × Rat)) (sense : Sense) (rhs : Rat)
  /-- `addMinimum` -/
  | minimum (res : Nat) (args : List Nat)
  /-- `addTimes` -/
  | times (x y z : Nat)
  /-- `addBoundsDisj` -/
  | boundsDisj (l lF : List (Rat × Rat × Nat))
  /-- `addCumulative` -/
  | cumulative (s : List (Nat × Rat × Rat)) (b : Rat)
  /-- `addLexLesseq` -/
  | lexLesseq (v : List (Nat × Nat)) (isModelCons : Bool)
  /-- `addLexChainLesseq` -/
  | lexChain (m n : Int) (vars : List Nat) (kind : Int) (resolveprop isModelCons : Bool)

/-- The problem in the wrapper, `_variableMap`, and whether `_status` is `UNSAT`. -/
structure Mip where
  cols : List Col
  rows : List Row
  gens : List Gen
  names : Nat → Option Nat
  unsat : Bool
  objVar : Option Nat

/-- The empty problem. -/
def Mip.empty : Mip := ⟨[], [], [], fun _ => none, false, none⟩

/-- `addVarLocal`, `include/minizinc/solvers/MIP/MIP_wrap.hh:167-184`. -/
def addVar (m : Mip) (c : Col) : Mip × Nat := ({ m with cols := m.cols ++ [c] }, m.cols.length)

/-- `addLitVar`, `include/minizinc/solvers/MIP/MIP_wrap.hh:214-236`. -/
def addLitVar (m : Mip) (v : Rat) : Mip × Nat := addVar m ⟨0, v, v, .real⟩

/-- `setVarBounds`, `solvers/MIP/MIP_gurobi_wrap.cpp:624-630`. -/
def setVarBounds (m : Mip) (k : Nat) (lb ub : Rat) : Mip := { m with cols := m.cols.modify k (fun c => { c with lb := lb, ub := ub }) }

/-- `setVarUB`, `solvers/MIP/MIP_gurobi_wrap.cpp:637-640`. -/
def setVarUB (m : Mip) (k : Nat) (ub : Rat) : Mip := { m with cols := m.cols.modify k (fun c => { c with ub := ub }) }

/-- `addRow`. -/
def addRow (m : Mip) (r : Row) : Mip := { m with rows := m.rows ++ [r] }

/-- The functions for other constraints. -/
def addGen (m : Mip) (g : Gen) : Mip := { m with gens := m.gens ++ [g] }

/-- `si.setStatus(SolverInstance::UNSAT)`. -/
def setUnsat (m : Mip) : Mip := { m with unsat := true }

/-! ## FlatZinc -/

/-- Arguments: identifiers and literals; Boolean literals are 0 and 1, `include/minizinc/solvers/MIP/MIP_solverinstance.hpp:115-128`. -/
inductive Arg where
  | var (n : Nat)
  | lit (v : Rat)
  deriving DecidableEq

/-- Arguments of calls. -/
inductive Val where
  | one (a : Arg)
  | arr (l : List Arg)
  deriving DecidableEq

/-- A constraint with its annotations. -/
structure Call where
  name : String
  args : List Val
  userCut : Bool := false
  isLazy : Bool := false

/-- A declaration: the domain is a list of ranges in increasing order. -/
structure Decl where
  id : Nat
  ty : Ty
  dom : Option (List (Rat × Rat))
  rhs : Option Arg

/-! ## Arguments -/

/-- `exprToVar`, `include/minizinc/solvers/MIP/MIP_solverinstance.hpp:96-102`. -/
def exprToVar (m : Mip) : Arg → Res (Mip × Nat)
  | .var n => match m.names n with
    | some k => .ok (m, k)
    | none => .ub
  | .lit v => .ok (addLitVar m v)

/-- `exprToVarArray`, `include/minizinc/solvers/MIP/MIP_solverinstance.hpp:104-112`. -/
def exprToVars (m : Mip) : List Arg → Res (Mip × List Nat)
  | [] => .ok (m, [])
  | a :: l => do
    let (m, k) ← exprToVar m a
    let (m, ks) ← exprToVars m l
    .ok (m, k :: ks)

/-- `exprToConst`, `include/minizinc/solvers/MIP/MIP_solverinstance.hpp:130-139`. -/
def exprToConst : Arg → Res Rat
  | .lit v => .ok v
  | .var _ => .err

/-- `exprToArray`, `include/minizinc/solvers/MIP/MIP_solverinstance.hpp:141-149`. -/
def exprToArray : List Arg → Res (List Rat)
  | [] => .ok []
  | a :: l => do
    let v ← exprToConst a
    let vs ← exprToArray l
    .ok (v :: vs)

/-! ## Variables -/

/-- `follow_id_to_decl`, `lib/eval_par.cpp:3783-3815`. -/
def follow (ds : List Decl) : Nat → Decl → Res Decl
  | 0, _ => .ub
  | n + 1, d =>
    match d.rhs with
    | some (.var x) =>
      match ds.find? (fun e => e.id = x) with
      | some e => follow ds n e
      | none => .ub
    | _ => .ok d

/-- The bounds of a declaration, `include/minizinc/solvers/MIP/MIP_solverinstance.hpp:347-374`; `inf` is `getInfBound()`. -/
def bounds (inf : Rat) (d : Decl) : Rat × Rat :=
  match d.dom with
  | some l =>
    if d.ty = .binary then (0, 1)
    else
      match l.head?, l.getLast? with
      | some a, some b => (a.1, b.2)
      | _, _ => (1, 0)
  | none => if d.ty = .binary then (0, 1) else (-inf, inf)

/-- One declaration, `include/minizinc/solvers/MIP/MIP_solverinstance.hpp:331-427`. -/
def declare (inf : Rat) (ds : List Decl) (obj : Option Nat) (m : Mip) (d : Decl) : Res Mip := do
  let r ← follow ds (ds.length + 1) d
  let (lb, ub) := bounds inf d
  let (lb, ub) := match r.rhs with
    | some (.lit v) => (max lb v, min ub v)
    | _ => (lb, ub)
  let isObj := decide (obj = some d.id)
  if d.id ≠ r.id then
    match m.names r.id with
    | none => .ub
    | some k =>
      match m.cols[k]? with
      | none => .ub
      | some c =>
        let lb := max c.lb lb
        let ub := min c.ub ub
        .ok { m with
          cols := m.cols.set k ⟨if isObj then 1 else c.obj, lb, ub, c.ty⟩
          names := fun n => if n = d.id then some k else m.names n
          unsat := m.unsat || decide (ub < lb)
          objVar := if isObj then some k else m.objVar }
  else
    let k := m.cols.length
    .ok { m with
      cols := m.cols ++ [⟨if isObj then 1 else 0, lb, ub, d.ty⟩]
      names := fun n => if n = d.id then some k else m.names n
      unsat := m.unsat || decide (ub < lb)
      objVar := if isObj then some k else m.objVar }

/-- All declarations, `include/minizinc/solvers/MIP/MIP_solverinstance.hpp:315-428`. -/
def declareAll (inf : Rat) (ds : List Decl) (obj : Option Nat) : List Decl → Mip → Res Mip
  | [], m => .ok m
  | d :: l, m => do declareAll inf ds obj l (← declare inf ds obj m d)

/-! ## Constraints -/

/-- The map that collects coefficients, `include/minizinc/solvers/MIP/MIP_solverinstance.hpp:721-725`. -/
def addTerm (k : Nat) (c : Rat) : List (Nat × Rat) → List (Nat × Rat)
  | [] => [(k, c)]
  | (k', c') :: l => if k' = k then (k', c' + c) :: l else (k', c') :: addTerm k c l

/-- `remove_duplicates`, `include/minizinc/solvers/MIP/MIP_solverinstance.hpp:720-737`; the order of the map is not specified. -/
def removeDuplicates (l : List (Nat × Rat)) : List (Nat × Rat) :=
  let r := l.foldr (fun t acc => addTerm t.1 t.2 acc) []
  if l.length = r.length then l else r

/-- `get_mask_cons_type`, `solvers/MIP/MIP_solverinstance.cpp:57-72`. -/
def mask (c : Call) : Nat := (if c.userCut then 2 else 0) + (if c.isLazy then 4 else 0) + (if !c.userCut && !c.isLazy then 1 else 0)

/-- A constraint without variables cannot be satisfied, `include/minizinc/solvers/MIP/MIP_solverinstance.hpp:776-778`. -/
def violated (s : Sense) (rhs : Rat) : Bool :=
  match s with
  | .eq => decide (1 / 100000 < |rhs|)
  | .lq => decide (rhs < -(1 / 100000))
  | .gq => decide (1 / 100000 < rhs)

/-- The end of `p_lin` and `p_non_lin`, `include/minizinc/solvers/MIP/MIP_solverinstance.hpp:775-792`. -/
def finish (m : Mip) (terms : List (Nat × Rat)) (s : Sense) (rhs : Rat) (mk : Nat) : Mip :=
  if terms = [] then (if violated s rhs then setUnsat m else m)
  else addRow m ⟨removeDuplicates terms, s, rhs, mk⟩

/-- The loop of `p_lin`, `include/minizinc/solvers/MIP/MIP_solverinstance.hpp:763-771`: the terms, and the right hand side. -/
def linTerms (m : Mip) : List Arg → List Arg → Rat → Res (List (Nat × Rat) × Rat)
  | _, [], rhs => .ok ([], rhs)
  | [], _ :: _, _ => .ub
  | c :: cs, x :: xs, rhs => do
    let v ← exprToConst c
    match x with
    | .var n =>
      match m.names n with
      | none => .ub
      | some k => do
        let (ts, rhs) ← linTerms m cs xs rhs
        .ok ((k, v) :: ts, rhs)
    | .lit w => linTerms m cs xs (rhs - v * w)

/-- `p_lin`, `include/minizinc/solvers/MIP/MIP_solverinstance.hpp:740-793`. -/
def pLin (m : Mip) (c : Call) (s : Sense) : Res Mip :=
  match c.args with
  | [.arr cs, .arr xs, .one r] => do
    let rhs ← exprToConst r
    let (ts, rhs) ← linTerms m cs xs rhs
    .ok (finish m ts s rhs (mask c))
  | _ => .ub

/-- One argument of `p_non_lin`, `include/minizinc/solvers/MIP/MIP_solverinstance.hpp:819-830`. -/
def side (m : Mip) (coef : Rat) : Arg → Res (List (Nat × Rat) × Rat)
  | .var n => match m.names n with
    | some k => .ok ([(k, coef)], 0)
    | none => .ub
  | .lit v => .ok ([], -(coef * v))

/-- `p_non_lin`, `include/minizinc/solvers/MIP/MIP_solverinstance.hpp:813-850`. -/
def pNonLin (m : Mip) (c : Call) (s : Sense) : Res Mip :=
  match c.args with
  | .one a :: .one b :: _ => do
    let (ta, ra) ← side m 1 a
    let (tb, rb) ← side m (-1) b
    .ok (finish m (ta ++ tb) s (ra + rb) (mask c))
  | _ => .ub

/-- `p_indicator_le0_if0`, `include/minizinc/solvers/MIP/MIP_solverinstance.hpp:860-908`. -/
def pIndicatorLe0If0 (m : Mip) (c : Call) : Res Mip :=
  match c.args with
  | [.one (.lit v1), .one (.lit v2)] => .ok (if 1 / 1000000 < v1 ∧ v2 < 1 / 1000000 then setUnsat m else m)
  | [.one (.lit v1), .one (.var y)] =>
    match m.names y with
    | none => .ub
    | some k => .ok (if 1 / 1000000 < v1 then setVarBounds m k 1 1 else m)
  | [.one (.var x), .one (.lit v2)] =>
    match m.names x with
    | none => .ub
    | some k => .ok (if v2 < 1 / 1000000 then setVarUB m k 0 else m)
  | [.one (.var x), .one (.var y)] =>
    match m.names x, m.names y with
    | some k, some b => .ok (addGen m (.indicator b 0 [(k, 1)] .lq 0))
    | _, _ => .ub
  | _ => .ub

/-- `p_indicator_eq_if1`, `include/minizinc/solvers/MIP/MIP_solverinstance.hpp:910-984`: where the flag is known, the second value is tested in
its place, and it is not initialised if it is a variable. -/
def pIndicatorEqIf1 (m : Mip) (c : Call) : Res Mip :=
  match c.args with
  | [.one a, .one b, .one f] => do
    let (ta, ra) ← side m 1 a
    let (tb, rb) ← side m (-1) b
    match f with
    | .lit _ =>
      match a, b with
      | .lit v1, .lit v2 => .ok (if 1 / 1000000 < |v1 - v2| ∧ 999999 / 1000000 < v2 then setUnsat m else m)
      | .var _, .lit v2 =>
        .ok (if 999999 / 1000000 < v2 then addRow m ⟨removeDuplicates (ta ++ tb), .eq, ra + rb, 1⟩ else m)
      | _, .var _ => .ub
    | .var n =>
      match m.names n with
      | none => .ub
      | some k =>
        match a, b with
        | .lit v1, .lit v2 => .ok (if 1 / 1000000 < |v1 - v2| then setVarBounds m k 0 0 else m)
        | _, _ => .ok (addGen m (.indicator k 1 (ta ++ tb) .eq (ra + rb)))
  | _ => .ub

/-- Three arrays side by side; reading beyond the end is undefined. -/
def zip3 : List Nat → List Rat → List Rat → Res (List (Nat × Rat × Rat))
  | [], _, _ => .ok []
  | k :: ks, d :: ds, r :: rs => do .ok ((k, d, r) :: (← zip3 ks ds rs))
  | _, _, _ => .ub

/-- `p_cumulative`, `include/minizinc/solvers/MIP/MIP_solverinstance.hpp:986-1004`. -/
def pCumulative (m : Mip) (c : Call) : Res Mip :=
  match c.args with
  | [.arr s, .arr d, .arr r, .one b] => do
    let (m, ks) ← exprToVars m s
    let ds ← exprToArray d
    let rs ← exprToArray r
    let b ← exprToConst b
    .ok (addGen m (.cumulative (← zip3 ks ds rs) b))
  | _ => .ub

/-- `p_lex_lesseq_binary`, `include/minizinc/solvers/MIP/MIP_solverinstance.hpp:1006-1022`. -/
def pLexLesseq (m : Mip) (c : Call) : Res Mip :=
  match c.args with
  | [.arr a, .arr b, .one t] => do
    let (m, ka) ← exprToVars m a
    let (m, kb) ← exprToVars m b
    let t ← exprToConst t
    if ka.length = kb.length then .ok (addGen m (.lexLesseq (ka.zip kb) (decide (t ≠ 0)))) else .err
  | _ => .ub

/-- Conversion to `int`. -/
def toInt (q : Rat) : Int := if 0 ≤ q then ⌊q⌋ else ⌈q⌉

/-- `p_lex_chain_lesseq_binary`, `include/minizinc/solvers/MIP/MIP_solverinstance.hpp:1024-1043`. -/
def pLexChain (m : Mip) (c : Call) : Res Mip :=
  match c.args with
  | [.arr xs, .one r, .one k, .one p, .one t] => do
    let (m, ks) ← exprToVars m xs
    let r ← exprToConst r
    let k ← exprToConst k
    let p ← exprToConst p
    let t ← exprToConst t
    if r = 0 then .ub
    else .ok (addGen m (.lexChain (toInt r) (toInt ((ks.length : Rat) / r)) ks (toInt k) (decide (p ≠ 0)) (decide (t ≠ 0))))
  | _ => .ub

/-- The first arrays decide the number of entries, `include/minizinc/solvers/MIP/MIP_solverinstance.hpp:1101-1104`. -/
def zipDisj : List Rat → List Rat → List Nat → Res (List (Rat × Rat × Nat))
  | [], _, _ => .ok []
  | u :: us, b :: bs, k :: ks => do .ok ((u, b, k) :: (← zipDisj us bs ks))
  | _, _, _ => .ub

/-- `p_bounds_disj`, `include/minizinc/solvers/MIP/MIP_solverinstance.hpp:1085-1106`. -/
def pBoundsDisj (m : Mip) (c : Call) : Res Mip :=
  match c.args with
  | [.arr u, .arr b, .arr x, .arr uF, .arr bF, .arr xF] => do
    let u ← exprToArray u
    let uF ← exprToArray uF
    let b ← exprToArray b
    let bF ← exprToArray bF
    let (m, k) ← exprToVars m x
    let (m, kF) ← exprToVars m xF
    .ok (addGen m (.boundsDisj (← zipDisj u b k) (← zipDisj uF bF kF)))
  | _ => .ub

/-- `p_array_minimum`, `include/minizinc/solvers/MIP/MIP_solverinstance.hpp:1108-1118`. -/
def pMinimum (m : Mip) (c : Call) : Res Mip :=
  match c.args with
  | [.one r, .arr xs] => do
    let (m, k) ← exprToVar m r
    let (m, ks) ← exprToVars m xs
    .ok (addGen m (.minimum k ks))
  | _ => .ub

/-- `p_times`, `include/minizinc/solvers/MIP/MIP_solverinstance.hpp:1120-1130`. -/
def pTimes (m : Mip) (c : Call) : Res Mip :=
  match c.args with
  | [.one x, .one y, .one z] => do
    let (m, kx) ← exprToVar m x
    let (m, ky) ← exprToVar m y
    let (m, kz) ← exprToVar m z
    .ok (addGen m (.times kx ky kz))
  | _ => .ub

/-- `registerConstraints`, `include/minizinc/solvers/MIP/MIP_solverinstance.hpp:1134-1172`, and the call; an unknown name is an error.  The two
cut generators add nothing to the problem. -/
def post (m : Mip) (c : Call) : Res Mip :=
  match c.name with
  | "int2float" => pNonLin m c .eq
  | "bool_eq" => pNonLin m c .eq
  | "int_eq" => pNonLin m c .eq
  | "int_le" => pNonLin m c .lq
  | "int_lin_eq" => pLin m c .eq
  | "int_lin_le" => pLin m c .lq
  | "float_eq" => pNonLin m c .eq
  | "float_le" => pNonLin m c .lq
  | "float_lin_eq" => pLin m c .eq
  | "float_lin_le" => pLin m c .lq
  | "aux_int_le_zero_if_0__IND" => pIndicatorLe0If0 m c
  | "aux_float_le_zero_if_0__IND" => pIndicatorLe0If0 m c
  | "aux_float_eq_if_1__IND" => pIndicatorEqIf1 m c
  | "fzn_cumulative_fixed_d_r" => pCumulative m c
  | "fzn_lex_lesseq__orbisack" => pLexLesseq m c
  | "fzn_lex_chain_lesseq__orbitope" => pLexChain m c
  | "bounds_disj" => pBoundsDisj m c
  | "fzn_array_float_minimum" => pMinimum m c
  | "fzn_int_times" => pTimes m c
  | "fzn_float_times" => pTimes m c
  | _ => .err

/-- All constraints, `include/minizinc/solvers/MIP/MIP_solverinstance.hpp:442-449`. -/
def postAll : List Call → Mip → Res Mip
  | [], m => .ok m
  | c :: l, m => do postAll l (← post m c)

/-- `processFlatZinc`, `include/minizinc/solvers/MIP/MIP_solverinstance.hpp:298-471`; `obj` is the variable of the objective. -/
def processFlatZinc (inf : Rat) (ds : List Decl) (obj : Option Nat) (cs : List Call) : Res Mip := do
  postAll cs (← declareAll inf ds obj ds Mip.empty)

/-! ## Answers -/

/-- `Status` of the wrapper and of the instance, `include/minizinc/solvers/MIP/MIP_wrap.hh:56`. -/
inductive Status where
  | opt | sat | unsat | unbnd | unsatOrUnbnd | unknown | error
  deriving DecidableEq

/-- `solve`, `include/minizinc/solvers/MIP/MIP_solverinstance.hpp:600-687`: what is reported, given whether there is an objective and what the
solver answers if it is called. -/
def solve (m : Mip) (hasObj : Bool) (answer : Status) : Status :=
  if m.unsat then .unsat
  else
    match (if m.cols.length ≠ 0 then answer else .opt) with
    | .opt => if hasObj then .opt else .sat
    | s => s

/-- `setObjSense`: 1 for maximisation, -1 for minimisation, `include/minizinc/solvers/MIP/MIP_solverinstance.hpp:605-619`. -/
def objSense (isMax : Bool) : Int := if isMax then 1 else -1

/-- `round_to_longlong`, `include/minizinc/utils.hh:34`: halves away from zero. -/
def llround (v : Rat) : Int := if 0 ≤ v then ⌊v + 1 / 2⌋ else -⌊-v + 1 / 2⌋

/-- `getSolutionValue`, `include/minizinc/solvers/MIP/MIP_solverinstance.hpp:474-494`; Booleans are 0 and 1. -/
def solutionValue (m : Mip) (ty : Ty) (x : Nat → Rat) (n : Nat) : Res Rat :=
  match m.names n with
  | none => .ub
  | some k =>
    .ok (match ty with
      | .int => (llround (x k) : Rat)
      | .real => x k
      | .binary => if llround (x k) ≠ 0 then 1 else 0)

/-! ## Annotations -/

/-- Annotations of the solve item. -/
inductive Ann where
  /-- `int_search` or `float_search` with variables and two strategies -/
  | search (vars : List Arg) (varSel valSel : String)
  /-- `warm_start` -/
  | warm (vars vals : List Arg)
  /-- `seq_search` and `warm_start_array` -/
  | seq (l : List Ann)
  | other

/-- `flattenSearchAnnotations`, `lib/solver_instance_base.cpp:182-199`. -/
def flattenSearch : List Ann → List Ann
  | [] => []
  | .seq l :: r => flattenSearch l ++ flattenSearch r
  | a :: r => a :: flattenSearch r

/-- The state of the loop of `processSearchAnnotations`. -/
structure Search where
  vars : List Nat
  pri : List Int
  varSel : List String
  valSel : List String
  priority : Int

/-- The columns of identifiers. -/
def columns (m : Mip) : List Arg → Res (List Nat)
  | [] => .ok []
  | .var n :: l => match m.names n with
    | some k => do .ok (k :: (← columns m l))
    | none => .ub
  | .lit _ :: _ => .err

/-- The loop of `processSearchAnnotations`, `include/minizinc/solvers/MIP/MIP_solverinstance.hpp:168-203`.  Simplified: arrays without literals, which
would become columns. -/
def searchLoop (m : Mip) : List Ann → Search → Res Search
  | [], s => .ok s
  | .search xs a b :: l, s => do
    let ks ← columns m xs
    searchLoop m l
      { vars := s.vars ++ ks, pri := s.pri ++ List.replicate ks.length (s.priority - 1), varSel := a :: s.varSel, valSel := b :: s.valSel,
        priority := s.priority - 1 }
  | _ :: l, s => searchLoop m l s

/-- `processSearchAnnotations` for fixed search, `include/minizinc/solvers/MIP/MIP_solverinstance.hpp:151-229`: variables, priorities and strategies. -/
def processSearch (m : Mip) (anns : List Ann) : Res Search := do
  let l := flattenSearch anns
  let s ← searchLoop m l ⟨[], [], [], [], l.length⟩
  .ok { s with pri := s.pri.map (fun p => p - s.priority) }

/-- The pairs of one `warm_start`, `include/minizinc/solvers/MIP/MIP_solverinstance.hpp:258-268`. -/
def warmPairs (m : Mip) : List Arg → List Arg → Res (List (Nat × Rat))
  | .var n :: xs, .lit v :: vs => match m.names n with
    | some k => do .ok ((k, v) :: (← warmPairs m xs vs))
    | none => .ub
  | _ :: xs, _ :: vs => warmPairs m xs vs
  | _, _ => .ok []

/-- `processWarmstartAnnotations`, `include/minizinc/solvers/MIP/MIP_solverinstance.hpp:231-280`, for a solver that accepts all of them: the
calls of `addWarmStart`. -/
def warmStarts (m : Mip) : List Ann → Res (List (List (Nat × Rat)))
  | [] => .ok []
  | .seq l :: r => do .ok ((← warmStarts m l) ++ (← warmStarts m r))
  | .warm xs vs :: r => do
    let p ← warmPairs m xs vs
    .ok ((if p = [] then [] else [p]) ++ (← warmStarts m r))
  | _ :: r => warmStarts m r

end MipInst
end MZ
