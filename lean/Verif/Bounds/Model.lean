import Verif.Ranges.Model
/-!
# Model: bounds of integer expressions (lib/eval_par.cpp 2606–3075, `ComputeIntBounds`)

The visitor works on a stack of bounds: visiting a node pops the bounds of its children and pushes
its own; a flag records that some node had no usable bounds. The stack is modelled as it is (reading
or popping an empty one is undefined behaviour), because the code does not always keep it balanced.

The expression type lists the cases the visitor distinguishes. Fixed (par) expressions are
represented by their value: `enter` (2623–2636) evaluates them and does not descend. Declarations are
inlined at their uses (2704–2706 follows `flat()`). Bounds are `IntVal`s, with their checked
arithmetic; domains are range sequences.
-/
namespace MZ
namespace Bounds

/-- The binary operators with integer result that reach `vBinOp`; `pow` stands for all the operators
the visitor gives up on. -/
inductive Op | plus | minus | mult | idiv | mod | pow
deriving DecidableEq, Repr

/-- Condition of a branch: fixed, or a decision numbered `k`. -/
inductive Cond
  | par (b : Bool)
  | var (k : Nat)
deriving DecidableEq, Repr

mutual
/-- Expressions as distinguished by `ComputeIntBounds`. Numbers name the unknowns whose value an
assignment gives. -/
inductive E
  /-- fixed integer or Boolean -/
  | parInt (v : Int)
  | parBool (b : Bool)
  /-- fixed expression that is absent or of another type -/
  | parOther
  /-- array- or annotation-typed argument -/
  | array
  /-- non-fixed Boolean expression that is not an identifier -/
  | boolExpr (k : Nat)
  /-- Boolean identifier: with a fixed domain, with a right-hand side, free -/
  | boolDom (b : Bool)
  | boolRhs (e : E)
  | boolVar (k : Nat)
  /-- integer identifier: with a domain, with a right-hand side, free -/
  | varDom (k : Nat) (D : List Range)
  | varRhs (e : E)
  | var (k : Nat)
  /-- array access that can be evaluated, with the element found -/
  | accElem (idx : Es) (elem : E)
  /-- array access of which only the declared element domain is known -/
  | accDom (k : Nat) (idx : Es) (D : List Range)
  /-- array access with no information -/
  | acc (k : Nat) (idx : Es)
  | bin (op : Op) (a b : E)
  | plus (a : E)
  | neg (a : E)
  | ite (bs : Bs)
  /-- `lin_exp(cs, xs, d)` -/
  | lin (cs : List Int) (xs : Es) (d : Int)
  /-- `sum(xs)` -/
  | sum (xs : Es)
  /-- `card(s)` with the computed bounding set of `s` -/
  | card (k : Nat) (B : Option (List Range))
  /-- `int_times(a,b)`, `bool2int(a)`, `abs(a)` -/
  | times (a b : E)
  | bool2int (a : E)
  | abs (a : E)
  /-- `uniform_on_restart(a,b)` -/
  | uniform (k : Nat) (a b : E)
  /-- calls that take the bounds of their argument (`sol`, `last_val`) -/
  | same (a : E)
  /-- call of a function with declared result domain -/
  | call (k : Nat) (args : Es) (D : List Range)
  /-- anything else: children are visited, then the result is unknown -/
  | unknown (k : Nat) (args : Es)
/-- Lists of expressions. -/
inductive Es
  | nil
  | cons (e : E) (es : Es)
/-- Branches of a conditional, ending in the `else` branch. -/
inductive Bs
  | els (e : E)
  | cons (c : Cond) (e : E) (bs : Bs)
end

/-- `Expression::type(e).isint()`: integer type, dimension 0. -/
def E.isInt : E → Bool
  | .parInt _ => true
  | .parBool _ => false
  | .parOther => false
  | .array => false
  | .boolExpr _ => false
  | .boolDom _ => false
  | .boolRhs _ => false
  | .boolVar _ => false
  | _ => true

/-- `std::pair<IntVal, IntVal>`. -/
abbrev B := IntVal × IntVal

/-- The state of the visitor, 2609–2610 (top of the stack first). -/
structure St where
  stack : List B
  valid : Bool
deriving DecidableEq, Repr

def ofExt : Ext → IntVal
  | .negInf => ⟨-1, true⟩
  | .fin i => .fin i
  | .posInf => ⟨1, true⟩

/-- `bounds.emplace_back(l, u)`. -/
def push (b : B) (s : St) : St := ⟨b :: s.stack, s.valid⟩

/-- `valid = false; bounds.emplace_back(0, 0)`. -/
def giveUp (s : St) : St := ⟨(.fin 0, .fin 0) :: s.stack, false⟩

/-- `bounds.back()` followed by `bounds.pop_back()`. -/
def pop (s : St) : Res (B × St) :=
  match s.stack with
  | [] => .ub
  | b :: r => .ok (b, ⟨r, s.valid⟩)

/-- 2719 `isv->min(0)`, `isv->max(isv->size() - 1)`. -/
def hull : List Range → B
  | [] => (.fin 0, .fin 0)
  | r :: l => (ofExt r.lo, ofExt ((r :: l).getLast (by simp)).hi)

/-- 2714–2720, 2762–2773: hull of a declared domain, giving up when it is empty. -/
def pushDom (D : List Range) (s : St) : St :=
  if D.isEmpty then giveUp s else push (hull D) s

/-- 2807–2808: minimum and maximum of four values. -/
def minmax4 (x0 x1 x2 x3 : IntVal) : B :=
  (IntVal.min x0 (IntVal.min x1 (IntVal.min x2 x3)), IntVal.max x0 (IntVal.max x1 (IntVal.max x2 x3)))

/-- 2802–2810. -/
def mulBounds (b0 b1 : B) : Res B := do
  let x0 ← IntVal.mul b0.1 b1.1
  let x1 ← IntVal.mul b0.1 b1.2
  let x2 ← IntVal.mul b0.2 b1.1
  let x3 ← IntVal.mul b0.2 b1.2
  .ok (minmax4 x0 x1 x2 x3)

/-- 2812–2815, 2825–2828: `b.first == 0 ? 1 : b.first`, `b.second == 0 ? -1 : b.second`. -/
def noZero (b : B) : B :=
  (if IntVal.eqb b.1 (.fin 0) then .fin 1 else b.1, if IntVal.eqb b.2 (.fin 0) then .fin (-1) else b.2)

/-- 2811–2823 and 2824–2836, with the quotient or the remainder. -/
def cornerBounds (f : IntVal → IntVal → Res IntVal) (b0 b1 : B) : Res B := do
  let x0 ← f (noZero b0).1 (noZero b1).1
  let x1 ← f (noZero b0).1 (noZero b1).2
  let x2 ← f (noZero b0).2 (noZero b1).1
  let x3 ← f (noZero b0).2 (noZero b1).2
  .ok (minmax4 x0 x1 x2 x3)

def finite4 (b0 b1 : B) : Bool :=
  b1.1.isFinite && b1.2.isFinite && b0.1.isFinite && b0.2.isFinite

/-- 2795–2862 the switch of `vBinOp` for finite operands. -/
def opBounds : Op → B → B → Res (Option B)
  | .plus, b0, b1 => do
    let l ← IntVal.add b0.1 b1.1
    let u ← IntVal.add b0.2 b1.2
    .ok (some (l, u))
  | .minus, b0, b1 => do
    let l ← IntVal.sub b0.1 b1.2
    let u ← IntVal.sub b0.2 b1.1
    .ok (some (l, u))
  | .mult, b0, b1 => some <$> mulBounds b0 b1
  | .idiv, b0, b1 => some <$> cornerBounds IntVal.div b0 b1
  | .mod, b0, b1 => some <$> cornerBounds IntVal.mod b0 b1
  | .pow, _, _ => .ok none

def pushOpt (o : Option B) (s : St) : St :=
  match o with
  | none => giveUp s
  | some b => push b s

/-- 2785–2864 `vBinOp`. -/
def vBinOp (op : Op) (s : St) : Res St := do
  let (b1, s) ← pop s
  let (b0, s) ← pop s
  if !finite4 b0 b1 then .ok (giveUp s)
  else do
    let r ← opBounds op b0 b1
    .ok (pushOpt r s)

/-- 2866–2878 `vUnOp` for unary minus. -/
def vNeg (s : St) : Res St := do
  let (b, s) ← pop s
  let l ← IntVal.neg b.1
  let u ← IntVal.neg b.2
  .ok (push (u, l) s)

/-- 2960–2977 the case `int_times` (the first argument is on top: call arguments are visited last to
first, astiterator.hh 234–238). -/
def vTimes (s : St) : Res St := do
  let (b1, s) ← pop s
  let (b0, s) ← pop s
  if !finite4 b0 b1 then .ok (giveUp s)
  else do
    let r ← mulBounds b0 b1
    .ok (push r s)

/-- 2978–2980 the case `bool2int`. -/
def vBool2Int (s : St) : Res St := do
  let (b, s) ← pop s
  .ok (push (IntVal.max (.fin 0) b.1, IntVal.min (.fin 1) b.2) s)

/-- 2981–2990 the case `abs`. -/
def vAbs (s : St) : Res St := do
  let (b, s') ← pop s
  if IntVal.lt b.1 (.fin 0) then
    if IntVal.lt b.2 (.fin 0) then do
      let l ← IntVal.neg b.2
      let u ← IntVal.neg b.1
      .ok (push (l, u) s')
    else do
      let n ← IntVal.neg b.1
      .ok (push (.fin 0, IntVal.max n b.2) s')
  else .ok s

/-- 2991–2998 the case `uniform_on_restart` with two arguments. -/
def vUniform (s : St) : Res St := do
  let (b0, s) ← pop s
  let (b1, s) ← pop s
  .ok (push (b0.1, b1.1) s)

/-- 2919–2949 one half of the accumulation: `t` is the bound of the summand used for the running
bound `acc`, `inf` the value the running bound becomes when `t` is infinite. -/
def accum (acc cv t : IntVal) (inf : Res IntVal) : Res IntVal :=
  if t.isFinite then
    if acc.isFinite then do
      let p ← IntVal.mul cv t
      IntVal.add acc p
    else .ok acc
  else inf

/-- 2915–2950 the loop over the summands. -/
def linLoop : List Int → St → IntVal → IntVal → Res (B × St)
  | [], s, lb, ub => .ok ((lb, ub), s)
  | c :: cs, s, lb, ub => do
    let (b, s) ← pop s
    if c > 0 then do
      let lb ← accum lb (.fin c) b.1 (.ok b.1)
      let ub ← accum ub (.fin c) b.2 (.ok b.2)
      linLoop cs s lb ub
    else do
      let lb ← accum lb (.fin c) b.2 (IntVal.neg b.2)
      let ub ← accum ub (.fin c) b.1 (IntVal.neg b.1)
      linLoop cs s lb ub

/-- `Expression::type(c->arg(i)).isint()`: how many bounds 3007–3012 pops. -/
def Es.intCount : Es → Nat
  | .nil => 0
  | .cons e es => (if e.isInt then 1 else 0) + es.intCount

def Es.length : Es → Nat
  | .nil => 0
  | .cons _ es => es.length + 1

def popN : Nat → St → Res St
  | 0, s => .ok s
  | n + 1, s => do
    let (_, s) ← pop s
    popN n s

/-- 3013–3018: the declared result domain of a function. -/
def pushResult (D : List Range) (s : St) : St :=
  if D.isEmpty then push (.fin 1, .fin 0) s else push (hull D) s

/-- 2646–2647, 2655–2656, 2662–2663: combination with the bounds of the earlier branches. -/
def join (a b : B) : B := (IntVal.min a.1 b.1, IntVal.max a.2 b.2)

mutual
/-- 2613–3055: `enter` and the `v…` members, driven by `BottomUpIterator::run` (astiterator.hh 93–262). -/
def run : E → St → Res St
  | .parInt v, s => .ok (push (.fin v, .fin v) s)
  | .parBool b, s => .ok (push (if b then (.fin 1, .fin 1) else (.fin 0, .fin 0)) s)
  | .parOther, s => .ok ⟨s.stack, false⟩
  | .array, s => .ok s
  | .boolExpr _, s => .ok (push (.fin 0, .fin 1) s)
  | .boolDom b, s => .ok (push (if b then (.fin 1, .fin 1) else (.fin 0, .fin 0)) s)
  | .boolRhs e, s => run e s
  | .boolVar _, s => .ok (push (.fin 0, .fin 1) s)
  | .varDom _ D, s => .ok (pushDom D s)
  | .varRhs e, s => run e s
  | .var _, s => .ok (push (⟨-1, true⟩, ⟨1, true⟩) s)
  | .accElem idx e, s => do
    let s ← runRev idx s
    let s ← popN idx.length s
    run e s
  | .accDom _ idx D, s => do
    let s ← runRev idx s
    let s ← popN idx.length s
    .ok (pushDom D s)
  | .acc _ idx, s => do
    let s ← runRev idx s
    let s ← popN idx.length s
    .ok (giveUp s)
  | .bin op a b, s => do
    let s ← run a s
    let s ← run b s
    vBinOp op s
  | .plus a, s => run a s
  | .neg a, s => do
    let s ← run a s
    vNeg s
  | .ite bs, s => runIte bs (⟨1, true⟩, ⟨-1, true⟩) s
  -- 2887–2950; the constant (third argument) is pushed and popped again. When an element has no
  -- bounds the code leaves the loop early; only the fact that the flag is cleared is kept here.
  | .lin cs xs d, s => do
    let s ← runRev xs s
    if !s.valid then .ok (giveUp s) else do
      let (b, s) ← linLoop cs s (.fin d) (.fin d)
      .ok (push b s)
  | .sum xs, s => do
    let s ← runRev xs s
    if !s.valid then .ok (giveUp s) else do
      let (b, s) ← linLoop (List.replicate xs.length 1) s (.fin 0) (.fin 0)
      .ok (push b s)
  | .card _ none, s => .ok (giveUp s)
  | .card _ (some B), s => .ok (push (.fin 0, ofExt (Ranges.cardinality B)) s)
  | .times a b, s => do
    let s ← run b s
    let s ← run a s
    vTimes s
  | .bool2int a, s => do
    let s ← run a s
    vBool2Int s
  | .abs a, s => do
    let s ← run a s
    vAbs s
  | .uniform _ a b, s => do
    let s ← run b s
    let s ← run a s
    vUniform s
  | .same a, s => run a s
  | .call _ args D, s => do
    let s ← runRev args s
    let s ← popN args.intCount s
    .ok (pushResult D s)
  | .unknown _ args, s => do
    let s ← runRev args s
    .ok (giveUp s)
/-- Arguments (and array elements, 2901–2911) are visited from the last to the first. -/
def runRev : Es → St → Res St
  | .nil, s => .ok s
  | .cons e es, s => do
    let s ← runRev es s
    run e s
/-- 2638–2665: a conditional, with the bounds `acc` of the branches met so far. -/
def runIte : Bs → B → St → Res St
  | .els e, acc, s => do
    let s ← run e s
    let (b, s) ← pop s
    .ok (push (join acc b) s)
  | .cons (.par true) e _, acc, s => do
    let s ← run e s
    let (b, s) ← pop s
    .ok (push (join acc b) s)
  | .cons (.par false) _ bs, acc, s => runIte bs acc s
  | .cons (.var _) e bs, acc, s => do
    let s ← run e s
    let (b, s) ← pop s
    runIte bs (join acc b) s
end

/-- 3057–3075 `compute_int_bounds` for an integer expression: the bounds, or `none` when they are
not valid. -/
def computeIntBounds (e : E) : Res (Option B) := do
  let s ← run e ⟨[], true⟩
  if s.valid then do
    let (b, _) ← pop s
    .ok (some b)
  else .ok none

end Bounds
end MZ
