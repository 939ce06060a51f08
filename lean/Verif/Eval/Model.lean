import Verif.Eval.Syntax
/-!
# Model of the evaluation of parameter expressions

lib/eval_par.cpp (`eval_int`, `eval_bool`, `eval_intset`, `eval_array_lit`, `eval_call`),
include/minizinc/eval_par.hh (`eval_comp`, `eval_arrayaccess`) and the built-ins of
lib/builtins.cpp they call.

Simplifications: integers are finite (the literal `infinity` is not in the fragment); the lazy
evaluation of the right-hand sides of identifiers (`eval_id`) is replaced by environments of values;
where C++ leaves the order of evaluation of two operands open the left one comes first.
-/
namespace MZ
namespace Eval

/-- How an evaluation ends: with a value, with a `ResultUndefinedError`, with another exception
(`EvalError`, `ArithmeticError`), or with undefined behaviour of the C++ program. -/
inductive Out (α : Type) where
  | val (a : α)
  | undef
  | err
  | ub
deriving DecidableEq, Repr

namespace Out
variable {α β : Type}
/-- Sequencing of C++ statements; an exception skips the rest. -/
def bind : Out α → (α → Out β) → Out β
  | val a, f => f a
  | undef, _ => undef
  | err, _ => err
  | ub, _ => ub
instance : Monad Out where
  pure := val
  bind := bind
/-- `catch (ResultUndefinedError&) { return false; }`, eval_par.cpp 1452, 1475, 1514, 1561, 1716,
1768. -/
def catchU : Out Bool → Out Bool
  | undef => val false
  | o => o
/-- The result of an `IntVal` operation on finite operands. An `ArithmeticError` is rethrown as an
`EvalError` (eval_par.cpp 2077). -/
def ofRes : Res IntVal → Out Int
  | .ok r => val r.v
  | .err => err
  | .ub => ub
end Out

/-- The values the C++ code computes with: `IntVal` (finite), `bool`, `IntSetVal*`. -/
@[reducible] def Val : Base → Type
  | .int => Int
  | .bool => Bool
  | .set => List Range

abbrev Env := EnvOf Val

/-- A value together with its type, as an argument of a call. -/
abbrev AnyVal := Σ b : Base, Val b

/-- eval_par.cpp 1988–2014, the binary integer operators. -/
def arith (op : AOp) (a b : Int) : Out Int :=
  match op with
  | .plus => .ofRes (IntVal.add (.fin a) (.fin b))
  | .minus => .ofRes (IntVal.sub (.fin a) (.fin b))
  | .mult => .ofRes (IntVal.mul (.fin a) (.fin b))
  | .pow => if a = 0 ∧ b < 0 then .undef else .ofRes (IntVal.pow (.fin a) (.fin b))
  | .idiv => if b = 0 then .undef else .ofRes (IntVal.div (.fin a) (.fin b))
  | .mod => if b = 0 then .undef else .ofRes (IntVal.mod (.fin a) (.fin b))

/-- eval_par.cpp 1425–1456, the operators on two Booleans, given the evaluations of the two operands
(`&&`, `||` do not evaluate the right one if the left one decides). -/
def bop (op : BOp) (l r : Unit → Out Bool) : Out Bool :=
  match op with
  | .le => do let a ← l (); let b ← r (); .val (decide (a.toNat < b.toNat))
  | .lq => do let a ← l (); let b ← r (); .val (decide (a.toNat ≤ b.toNat))
  | .gr => do let a ← l (); let b ← r (); .val (decide (a.toNat > b.toNat))
  | .gq => do let a ← l (); let b ← r (); .val (decide (a.toNat ≥ b.toNat))
  | .eq => do let a ← l (); let b ← r (); .val (a == b)
  | .nq => do let a ← l (); let b ← r (); .val (a != b)
  | .equiv => do let a ← l (); let b ← r (); .val (a == b)
  | .impl => do let a ← l (); if !a then .val true else r ()
  | .rimpl => do let b ← r (); if !b then .val true else l ()
  | .or => do let a ← l (); if a then .val true else r ()
  | .and => do let a ← l (); if a then r () else .val false
  | .xor => do let a ← l (); let b ← r (); .val (a ^^ b)

/-- eval_par.cpp 1461–1474, the comparisons of integers. -/
def icmp (op : ICmp) (a b : Int) : Bool :=
  match op with
  | .le => IntVal.lt (.fin a) (.fin b)
  | .lq => IntVal.le (.fin a) (.fin b)
  | .gr => IntVal.gt (.fin a) (.fin b)
  | .gq => IntVal.ge (.fin a) (.fin b)
  | .eq => IntVal.eqb (.fin a) (.fin b)
  | .nq => IntVal.neb (.fin a) (.fin b)

/-- eval_par.cpp 1539–1560, the comparisons of sets. -/
def scmp (op : SCmp) (a b : List Range) : Bool :=
  match op with
  | .le => Ranges.less a b
  | .lq => Ranges.lessEq a b
  | .gr => Ranges.less b a
  | .gq => Ranges.lessEq b a
  | .eq => Ranges.equal a b
  | .nq => !Ranges.equal a b
  | .subset => Ranges.subset a b
  | .superset => Ranges.subset b a

/-- The difference iterator, iter.hh 482–600 (`none`: it would not terminate). -/
def diffO (a b : List Range) : Out (List Range) :=
  match Ranges.diff a b with
  | some l => .val l
  | none => .ub

/-- eval_par.cpp 1108–1131, the set operators. -/
def sop (op : SOp) (a b : List Range) : Out (List Range) :=
  match op with
  | .union => .val (Ranges.union a b)
  | .diff => diffO a b
  | .symdiff => diffO (Ranges.union a b) (Ranges.inter a b)
  | .intersect => .val (Ranges.inter a b)

/-- `IntSetVal::card` / `Ranges::cardinality` (values.hh 627, iter.hh 683): the sum of the widths in
checked arithmetic. -/
def card (a : List Range) : Out Int :=
  match Ranges.cardinality a with
  | .fin n => if inLL n then .val n else .err
  | _ => .err

/-- The integers of one range, ascending. -/
def rangeVals (r : Range) : List Int :=
  match r.lo, r.hi with
  | .fin a, .fin b => (List.range (b - a + 1).toNat).map (fun (k : Nat) => a + (k : Int))
  | _, _ => []

/-- iter.hh 563–645 `ToValues`: the integers the iterator delivers for a set with finite bounds. -/
def setVals (s : List Range) : List Int := s.flatMap rangeVals

/-- The loop of `eval_comp_set` (eval_par.hh 276–278): body, then `++rsv`, which increments the
current integer in checked arithmetic (iter.hh 632). -/
def loopSet {α : Type} : List Int → (Int → Out (List α)) → Out (List α)
  | [], _ => .val []
  | v :: vs, k => do
    let xs ← k v
    let _ ← Out.ofRes (IntVal.incr (.fin v))
    let ys ← loopSet vs k
    .val (xs ++ ys)

/-- The loop of `eval_comp_array` over an array (eval_par.hh 291–293). -/
def loopArr {α β : Type} : List β → (β → Out (List α)) → Out (List α)
  | [], _ => .val []
  | v :: vs, k => do
    let xs ← k v
    let ys ← loopArr vs k
    .val (xs ++ ys)

/-- eval_par.hh 270–278, 194–203, 244–246: one nested loop over the set for every identifier of the
generator; `k` is what follows the last one. -/
def idsSet {α : Type} (s : List Range) : List Nat → Env → (Env → Out (List α)) → Out (List α)
  | [], env, k => k env
  | n :: ns, env, k => do
    let _ ← card s
    loopSet (setVals s) (fun v => idsSet s ns (env.set .int n v) k)

/-- eval_par.hh 289–293, 194–203, 247–249: the same over an array. -/
def idsArr {α : Type} {b : Base} (vs : List (Val b)) : List Nat → Env → (Env → Out (List α)) →
    Out (List α)
  | [], env, k => k env
  | n :: ns, env, k => loopArr vs (fun v => idsArr vs ns (env.set b n v) k)

/-- eval_par.cpp 103–132, 154–180 (`check_par_domain`) and 397–409 (`checkRetVal`), given the
evaluation of the domain: integers must be in it, sets included in it; for Booleans it is not even
evaluated. -/
def domCheck : (b : Base) → Val b → Out (List Range) → Out Bool
  | .int, v, d => do let d ← d; .val (IntSet.contains (.fin v) d)
  | .bool, _, _ => .val true
  | .set, v, d => do let d ← d; .val (Ranges.subset v d)

/-- builtins.cpp 524–536 `b_sum_int`, 538–550 `b_product_int`: the loops (`m += …`, `m *= …`), given
the evaluations of the elements. -/
def foldO (f : Int → Int → Out Int) : Int → List (Unit → Out Int) → Out Int
  | m, [] => .val m
  | m, x :: xs => do let v ← x (); let m' ← f m v; foldO f m' xs

/-- builtins.cpp 200–214 `b_arg_min_int` / 217–231 `b_arg_max_int`: the loop; `i` is the position of
the next element, `m` the best value so far, `mi` its position. -/
def argLoop (better : Int → Int → Bool) : Nat → Int → Nat → List (Unit → Out Int) → Out Nat
  | _, _, mi, [] => .val mi
  | i, m, mi, x :: xs => do
    let v ← x ()
    if better v m then argLoop better (i + 1) v i xs else argLoop better (i + 1) m mi xs

/-- builtins.cpp 117–139 `b_int_min`, 143–165 `b_int_max`, 200–231 `b_arg_min_int`,
`b_arg_max_int`, 524–550 `b_sum_int`, `b_product_int`: given the smallest index of the array and the
evaluations of its elements. -/
def iagg (op : IAgg) (lo : Int) (xs : List (Unit → Out Int)) : Out Int :=
  match op, xs with
  | .sum, xs => foldO (fun m v => .ofRes (IntVal.add (.fin m) (.fin v))) 0 xs
  | .product, xs => foldO (fun m v => .ofRes (IntVal.mulAssign (.fin m) (.fin v))) 1 xs
  | _, [] => .undef
  | .min, x :: xs => do
    let m ← x (); foldO (fun m v => .val (IntVal.min (.fin m) (.fin v)).v) m xs
  | .max, x :: xs => do
    let m ← x (); foldO (fun m v => .val (IntVal.max (.fin m) (.fin v)).v) m xs
  | .argMin, x :: xs => do
    let m ← x ()
    let i ← argLoop (fun v m => IntVal.lt (.fin v) (.fin m)) 1 m 0 xs
    .ofRes (IntVal.add (.fin i) (.fin lo))
  | .argMax, x :: xs => do
    let m ← x ()
    let i ← argLoop (fun v m => IntVal.gt (.fin v) (.fin m)) 1 m 0 xs
    .ofRes (IntVal.add (.fin i) (.fin lo))

/-- builtins.cpp 1569–1580 `b_forall_par`, 1582–1593 `b_exists_par`, 1595–1612 `b_clause_par`: scan
from the last element to the first (`xs` is the reversed array) until one evaluates to `stop`. -/
def scan (stop : Bool) : List (Unit → Out Bool) → Out Bool
  | [] => .val false
  | x :: xs => do let b ← x (); if b == stop then .val true else scan stop xs

/-- builtins.cpp 1614–1640 `b_xorall_par`, `b_iffall_par`: count the true elements (from the last to
the first). -/
def count : List (Unit → Out Bool) → Out Nat
  | [] => .val 0
  | x :: xs => do let b ← x (); let c ← count xs; .val (b.toNat + c)

/-- builtins.cpp 1569–1640. -/
def bagg (op : BAgg) (xs : List (Unit → Out Bool)) : Out Bool :=
  match op with
  | .all => do let b ← scan false xs.reverse; .val (!b)
  | .any => scan true xs.reverse
  | .xorall => do let c ← count xs.reverse; .val (c % 2 == 1)
  | .iffall => do let c ← count xs.reverse; .val (c % 2 == 0)

/-- eval_par.hh 59–78 and eval_par.cpp 1004–1012, one dimension: outside the index set the access is
undefined. (The index arithmetic of several dimensions is modelled in `Verif/Arr`.) -/
def access {α : Type} (lo : Int) (xs : List α) (i : Int) : Out α :=
  if i < lo ∨ i > lo + xs.length - 1 then .undef
  else match xs[(i - lo).toNat]? with
    | some v => .val v
    | none => .ub

/-- The exception handler around every evaluation of a Boolean expression (eval_par.cpp 1372,
1768–1771): undefined means false. -/
def guard : (b : Base) → Out (Val b) → Out (Val b)
  | .bool, o => Out.catchU o
  | _, o => o

/-- An identifier without a value: "cannot evaluate expression" (eval_par.cpp 346–355). -/
def lookup {α : Type} : Option α → Out α
  | some v => .val v
  | none => .err

mutual
/-- `eval_int` (eval_par.cpp 1941–2081), `eval_bool` (1370–1773), `eval_intset` (1037–1199). `K` is
the evaluation of a call of a user-defined function with evaluated arguments (`eval_call`,
701–721). -/
def evalE (K : (b : Base) → Nat → List AnyVal → Out (Val b)) :
    {b : Base} → E b → Env → Out (Val b)
  | _, .ilit n _, _ => .val n
  | _, .blit b, _ => .val b
  | _, .var b n, env => lookup (env.s b n)
  | _, .arith op l r, env => do
    let a ← evalE K l env; let b ← evalE K r env; arith op a b
  | _, .neg e, env => do let a ← evalE K e env; .ofRes (IntVal.neg (.fin a))
  | _, .bool2int e, env => do let a ← evalE K e env; .val (if a = true then (1 : Int) else 0)
  | _, .not e, env => Out.catchU (do let a ← evalE K e env; .val (!a))
  | _, .bop op l r, env =>
    Out.catchU (bop op (fun _ => evalE K l env) (fun _ => evalE K r env))
  | _, .icmp op l r, env =>
    Out.catchU (do let a ← evalE K l env; let b ← evalE K r env; .val (icmp op a b))
  | _, .scmp op l r, env =>
    Out.catchU (do let a ← evalE K l env; let b ← evalE K r env; .val (scmp op a b))
  | _, .isin x s, env =>
    Out.catchU (do
      let a ← evalE K x env; let s ← evalE K s env; .val (IntSet.contains (.fin a) s))
  | _, .sop op l r, env => do
    let a ← evalE K l env; let b ← evalE K r env; sop op a b
  | _, .dotdot l r, env => do
    let a ← evalE K l env; let b ← evalE K r env
    .val (IntSet.ofBounds (.fin a) (.fin b))
  | _, .setlit es, env => do let vs ← evalEs K es env; .val (IntSet.ofValues vs)
  | _, .setcomp c, env => do let vs ← evalComp K c env; .val (IntSet.ofValues vs)
  | b, .ite cs e, env => guard b (do
      match ← evalBrs K cs env with
      | some v => .val v
      | none => evalE K e env)
  | .bool, .letin ds e, env => Out.catchU (do
      let (env', ret) ← evalLets K true ds env true
      if ret then evalE K e env' else .val false)
  | .int, .letin ds e, env => do
      let (env', _) ← evalLets K false ds env true; evalE K e env'
  | .set, .letin ds e, env => do
      let (env', _) ← evalLets K false ds env true; evalE K e env'
  | _, .iagg op a, env => do let (lo, xs) ← evalSq K a env; iagg op lo xs
  | _, .bagg op a, env => Out.catchU (do let (_, xs) ← evalSq K a env; bagg op xs)
  | _, .clause p n, env => Out.catchU (do
      let (_, xs) ← evalSq K p env
      let b ← scan true xs.reverse
      if b then .val true
      else do
        let (_, ys) ← evalSq K n env
        scan false ys.reverse)
  | _, .min2 l r, env => do
    let a ← evalE K l env; let b ← evalE K r env; .val (IntVal.min (.fin a) (.fin b)).v
  | _, .max2 l r, env => do
    let a ← evalE K l env; let b ← evalE K r env; .val (IntVal.max (.fin a) (.fin b)).v
  | _, .card s, env => do let v ← evalE K s env; card v
  | _, .smin s, env => do
    let v ← evalE K s env
    match IntSet.min? v with
    | some (.fin n) => .val n
    | some _ => .err
    | none => .undef
  | _, .smax s, env => do
    let v ← evalE K s env
    match IntSet.max? v with
    | some (.fin n) => .val n
    | some _ => .err
    | none => .undef
  | b, .access a i, env => guard b (do
      let (lo, xs) ← evalSq K a env
      let i ← evalE K i env
      let x ← access lo xs i
      x ())
  | b, .call _ f as, env => guard b (do let vs ← evalArgs K as env; K b f vs)
/-- The elements of a literal from left to right. -/
def evalEs (K : (b : Base) → Nat → List AnyVal → Out (Val b)) :
    {b : Base} → Es b → Env → Out (List (Val b))
  | _, .nil, _ => .val []
  | _, .cons e es, env => do
    let v ← evalE K e env; let vs ← evalEs K es env; .val (v :: vs)
/-- The elements of a literal, not yet evaluated (`eval_array_lit` returns an array literal as it
is, eval_par.cpp 791–792). -/
def thunks (K : (b : Base) → Nat → List AnyVal → Out (Val b)) :
    {b : Base} → Es b → Env → List (Unit → Out (Val b))
  | _, .nil, _ => []
  | _, .cons e es, env => (fun _ => evalE K e env) :: thunks K es env
/-- The loop over the branches of a conditional (eval_par.cpp 1401–1406, 1090–1095, 1971–1976);
`none`: no condition holds. -/
def evalBrs (K : (b : Base) → Nat → List AnyVal → Out (Val b)) :
    {b : Base} → Brs b → Env → Out (Option (Val b))
  | _, .nil, _ => .val none
  | _, .cons c t cs, env => do
    let b ← evalE K c env
    if b = true then do let v ← evalE K t env; .val (some v) else evalBrs K cs env
/-- The items of a `let` (eval_par.cpp 2046–2062, 1172–1190 and, with `isBool`, 1728–1761); `ret` is
the variable of that name. -/
def evalLets (K : (b : Base) → Nat → List AnyVal → Out (Val b)) (isBool : Bool) :
    Lets → Env → Bool → Out (Env × Bool)
  | .nil, env, ret => .val (env, ret)
  | .decl b n rhs ds, env, ret => do
    let v ← evalE K rhs env
    evalLets K isBool ds (env.set b n v) ret
  | .declDom b n rhs dom ds, env, ret => do
    let v ← evalE K rhs env
    let env' := env.set b n v
    match domCheck b v (evalE K dom env') with
    | .val true => evalLets K isBool ds env' ret
    | .val false => if isBool then evalLets K isBool ds env' false else .undef
    | .undef => if isBool then evalLets K isBool ds env' false else .undef
    | .err => .err
    | .ub => .ub
  | .con mp e ds, env, ret => do
    let b ← evalE K e env
    if b = true then evalLets K isBool ds env ret
    else if isBool && mp then evalLets K isBool ds env false
    else .undef
/-- `eval_array_lit` (eval_par.cpp 775–): smallest index and elements. The elements of a literal are
evaluated when they are used, those of identifiers and comprehensions are values already. -/
def evalSq (K : (b : Base) → Nat → List AnyVal → Out (Val b)) :
    {b : Base} → Sq b → Env → Out (Int × List (Unit → Out (Val b)))
  | _, .lit es, env => .val (1, thunks K es env)
  | _, .arr a, env => do
    let (lo, vs) ← evalArr K a env
    .val (lo, vs.map (fun v _ => Out.val v))
/-- `eval_array_lit` for an identifier or a comprehension (`eval_array_comp`, eval_par.cpp 746–771:
the index set is `1..n`). -/
def evalArr (K : (b : Base) → Nat → List AnyVal → Out (Val b)) :
    {b : Base} → Arr b → Env → Out (Int × List (Val b))
  | _, .var b n, env => lookup (env.a b n)
  | _, .comp c, env => do
    let vs ← evalComp K c env
    .val (1, vs)
/-- `eval_comp` (eval_par.hh 154–340). -/
def evalComp (K : (b : Base) → Nat → List AnyVal → Out (Val b)) :
    {b : Base} → Comp b → Env → Out (List (Val b))
  | _, .body e, env => do let v ← evalE K e env; .val [v]
  | _, .gen n ns s w c, env => do
    let sv ← evalE K s env
    idsSet sv (n :: ns) env (fun env' => do
      let b ← evalE K w env'
      if b = true then evalComp K c env' else .val [])
  | _, .genArr n ns b' a w c, env => do
    let (_, vs) ← evalArr K a env
    idsArr vs (n :: ns) env (fun env' => do
      let b ← evalE K w env'
      if b = true then evalComp K c env' else .val [])
  | _, .asn n b' e c, env => do
    let v ← evalE K e env
    evalComp K c (env.set b' n v)
/-- The arguments of a call, from left to right (eval_par.cpp 703–706). -/
def evalArgs (K : (b : Base) → Nat → List AnyVal → Out (Val b)) :
    Args → Env → Out (List AnyVal)
  | .nil, _ => .val []
  | .cons b e as, env => do
    let v ← evalE K e env; let vs ← evalArgs K as env; .val (⟨b, v⟩ :: vs)
end

/-- The checked assignment of the arguments to the parameters (eval_par.cpp 708–718): each value is
assigned, then its domain, which may use the parameters so far, is checked. A wrong number or type
of arguments is excluded by the type checker. -/
def bindParams (K : (b : Base) → Nat → List AnyVal → Out (Val b)) :
    List Param → List AnyVal → Env → Out Env
  | [], _, env => .val env
  | _ :: _, [], _ => .err
  | p :: ps, ⟨b, v⟩ :: vs, env =>
    if h : b = p.b then
      let env' := env.set p.b p.n (h ▸ v)
      match p.dom with
      | none => bindParams K ps vs env'
      | some d => do
        let ok ← domCheck p.b (h ▸ v) (evalE K d env')
        if ok then bindParams K ps vs env' else .undef
    else .err

/-- `eval_call` (eval_par.cpp 701–721) with evaluated arguments: parameters, body, check of the
returned value against the declared domain (`checkRetVal`). -/
def evalFn (K : (b : Base) → Nat → List AnyVal → Out (Val b)) (glob : Env) {b : Base} (fn : Fn b)
    (vs : List AnyVal) : Out (Val b) := do
  let env ← bindParams K fn.params vs glob
  let v ← evalE K fn.body env
  match fn.retDom with
  | none => .val v
  | some d => do
    let ok ← domCheck b v (evalE K d env)
    if ok then .val v else .undef

/-- Calls nested at most `n` deep; deeper nesting is reported as an error (the C++ program goes on
until its stack is exhausted). -/
def callN (P : Prog Val) : Nat → (b : Base) → Nat → List AnyVal → Out (Val b)
  | 0, _, _, _ => .err
  | n + 1, b, f, vs =>
    match P.fns b f with
    | none => .err
    | some fn => evalFn (callN P n) P.glob fn vs

/-- Evaluation of an expression with calls nested at most `n` deep. -/
def eval (P : Prog Val) (n : Nat) {b : Base} (e : E b) (env : Env) : Out (Val b) :=
  evalE (callN P n) e env

end Eval
end MZ
