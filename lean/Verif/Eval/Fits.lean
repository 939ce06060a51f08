import Verif.Eval.Spec
import Verif.IntVal.Spec
/-!
# Specification: evaluations that do not leave the 64-bit range

`okE R OK e env` says, in terms of the mathematical meaning of the subexpressions only, that the
evaluation of `e` needs no number of magnitude greater than `LLONG_MAX`, no set iteration up to
`LLONG_MAX`, and no unbound identifier; `OK` says the same of calls. Operands that are not needed
(the other branches of a conditional, the right operand of a decided `/\`, `\/`, `->`) do not matter.
-/
namespace MZ
namespace Eval

/-- All combinations of values for the identifiers of a generator. -/
def allIds {b : Base} (vs : List (DVal b)) : List Nat → DEnv → (DEnv → Prop) → Prop
  | [], env, p => p env
  | n :: ns, env, p => ∀ v ∈ vs, allIds vs ns (env.set b n v) p

/-- The operands and the result fit; exponents fit into 32 bits. -/
def okArith (op : AOp) (a b : Int) : Prop :=
  magLL a ∧ magLL b ∧ (∀ c, mathArith op a b = some c → magLL c) ∧ (op = .pow → b ≤ INTMAX)

/-- The partial sums and products from the left fit; so does the index computed by `arg_min`,
`arg_max`. -/
def okIAgg (op : IAgg) (lo : Int) (os : List (Option Int)) : Prop :=
  match op with
  | .sum => ∀ k vs, allSome (os.take k) = some vs → inLL vs.sum
  | .product => (∀ v, some v ∈ os → magLL v) ∧
    ∀ k vs, allSome (os.take k) = some vs → magLL vs.prod
  | .min => True
  | .max => True
  | .argMin => inLL lo ∧ inLL os.length ∧ inLL (lo + os.length)
  | .argMax => inLL lo ∧ inLL os.length ∧ inLL (lo + os.length)

/-- Operands of a Boolean operator, the second one only if it is needed. -/
def okBop (op : BOp) (l r : Prop) (a b : Option Bool) : Prop :=
  match op with
  | .and => l ∧ (a = some true → r)
  | .or => l ∧ (a = some false → r)
  | .impl => l ∧ (a = some true → r)
  | .rimpl => r ∧ (b = some true → l)
  | _ => l ∧ r

open Classical in
mutual
/-- The evaluation of an expression stays within 64 bits. -/
def okE (R : (b : Base) → Nat → List AnyD → Option (DVal b))
    (OK : (b : Base) → Nat → List AnyD → Prop) : {b : Base} → E b → DEnv → Prop
  | _, .ilit _ _, _ => True
  | _, .blit _, _ => True
  | _, .var b n, env => env.s b n ≠ none
  | _, .arith op l r, env => okE R OK l env ∧ okE R OK r env ∧
    ∀ a b, denE R l env = some a → denE R r env = some b → okArith op a b
  | _, .neg e, env => okE R OK e env ∧ ∀ a, denE R e env = some a → magLL a
  | _, .bool2int e, env => okE R OK e env
  | _, .not e, env => okE R OK e env
  | _, .bop op l r, env =>
    okBop op (okE R OK l env) (okE R OK r env) (denE R l env) (denE R r env)
  | _, .icmp _ l r, env => okE R OK l env ∧ okE R OK r env
  | _, .scmp _ l r, env => okE R OK l env ∧ okE R OK r env
  | _, .isin x s, env => okE R OK x env ∧ okE R OK s env
  | _, .sop _ l r, env => okE R OK l env ∧ okE R OK r env
  | _, .dotdot l r, env => okE R OK l env ∧ okE R OK r env
  | _, .setlit es, env => okEs R OK es env
  | _, .setcomp c, env => okComp R OK c env
  | _, .ite cs e, env => okBrs R OK cs env ∧ (denBrs R cs env = none → okE R OK e env)
  | _, .letin ds e, env => okLets R OK ds env ∧ ∀ env', denLets R ds env = some env' → okE R OK e env'
  | _, .iagg op a, env => okSq R OK a env ∧
    ∀ lo os, denSq R a env = some (lo, os) → okIAgg op lo os
  | _, .bagg _ a, env => okSq R OK a env
  | _, .clause p n, env => okSq R OK p env ∧ okSq R OK n env
  | _, .min2 l r, env => okE R OK l env ∧ okE R OK r env
  | _, .max2 l r, env => okE R OK l env ∧ okE R OK r env
  | _, .card s, env => okE R OK s env ∧ ∀ A, denE R s env = some A → inLL A.card
  | _, .smin s, env => okE R OK s env
  | _, .smax s, env => okE R OK s env
  | _, .access a i, env => okSq R OK a env ∧ okE R OK i env
  | b, .call _ f as, env => okArgs R OK as env ∧ ∀ vs, allSome (denArgs R as env) = some vs → OK b f vs
def okEs (R : (b : Base) → Nat → List AnyD → Option (DVal b))
    (OK : (b : Base) → Nat → List AnyD → Prop) : {b : Base} → Es b → DEnv → Prop
  | _, .nil, _ => True
  | _, .cons e es, env => okE R OK e env ∧ okEs R OK es env
/-- The conditions up to the first true one, and its branch. -/
def okBrs (R : (b : Base) → Nat → List AnyD → Option (DVal b))
    (OK : (b : Base) → Nat → List AnyD → Prop) : {b : Base} → Brs b → DEnv → Prop
  | _, .nil, _ => True
  | _, .cons c t cs, env => okE R OK c env ∧
    (denE R c env = some true → okE R OK t env) ∧ (denE R c env ≠ some true → okBrs R OK cs env)
/-- The items of a `let`. (The evaluation of a Boolean `let` goes on after a failure.) -/
def okLets (R : (b : Base) → Nat → List AnyD → Option (DVal b))
    (OK : (b : Base) → Nat → List AnyD → Prop) : Lets → DEnv → Prop
  | .nil, _ => True
  | .decl b n rhs ds, env => okE R OK rhs env ∧
    ∀ v, denE R rhs env = some v → okLets R OK ds (env.set b n v)
  | .declDom b n rhs dom ds, env => okE R OK rhs env ∧
    ∀ v, denE R rhs env = some v → okE R OK dom (env.set b n v) ∧ okLets R OK ds (env.set b n v)
  | .con _ e ds, env => okE R OK e env ∧ okLets R OK ds env
def okSq (R : (b : Base) → Nat → List AnyD → Option (DVal b))
    (OK : (b : Base) → Nat → List AnyD → Prop) : {b : Base} → Sq b → DEnv → Prop
  | _, .lit es, env => okEs R OK es env
  | _, .arr a, env => okArr R OK a env
def okArr (R : (b : Base) → Nat → List AnyD → Option (DVal b))
    (OK : (b : Base) → Nat → List AnyD → Prop) : {b : Base} → Arr b → DEnv → Prop
  | _, .var b n, env => env.a b n ≠ none
  | _, .comp c, env => okComp R OK c env
/-- The sets have at most `LLONG_MAX` elements and do not contain `LLONG_MAX`. -/
def okComp (R : (b : Base) → Nat → List AnyD → Option (DVal b))
    (OK : (b : Base) → Nat → List AnyD → Prop) : {b : Base} → Comp b → DEnv → Prop
  | _, .body e, env => okE R OK e env
  | _, .gen n ns s w c, env => okE R OK s env ∧ ∀ A, denE R s env = some A →
    inLL A.card ∧ LMAX ∉ A ∧ allIds (b := .int) (A.sort (· ≤ ·)) (n :: ns) env (fun env' =>
      okE R OK w env' ∧ (denE R w env' = some true → okComp R OK c env'))
  | _, .genArr n ns b' a w c, env => okArr R OK a env ∧ ∀ lo vs, denArr R a env = some (lo, vs) →
    allIds (b := b') vs (n :: ns) env (fun env' =>
      okE R OK w env' ∧ (denE R w env' = some true → okComp R OK c env'))
  | _, .asn n b' e c, env => okE R OK e env ∧
    ∀ v, denE R e env = some v → okComp R OK c (env.set b' n v)
def okArgs (R : (b : Base) → Nat → List AnyD → Option (DVal b))
    (OK : (b : Base) → Nat → List AnyD → Prop) : Args → DEnv → Prop
  | .nil, _ => True
  | .cons _ e as, env => okE R OK e env ∧ okArgs R OK as env
end

/-- The domains of the parameters, up to the first argument that is not in its domain. -/
def okParams (R : (b : Base) → Nat → List AnyD → Option (DVal b))
    (OK : (b : Base) → Nat → List AnyD → Prop) : List Param → List AnyD → DEnv → Prop
  | [], _, _ => True
  | _ :: _, [], _ => False
  | p :: ps, ⟨b, v⟩ :: vs, env =>
    ∃ h : b = p.b,
      let env' := env.set p.b p.n (h ▸ v)
      match p.dom with
      | none => okParams R OK ps vs env'
      | some d => okE R OK d env' ∧
        ∀ ok, inDom p.b (h ▸ v) (denE R d env') = some ok → ok → okParams R OK ps vs env'

/-- A call: the parameters, the body, the domain of the result. -/
def okFn (R : (b : Base) → Nat → List AnyD → Option (DVal b))
    (OK : (b : Base) → Nat → List AnyD → Prop) (glob : DEnv) {b : Base} (fn : Fn b)
    (vs : List AnyD) : Prop :=
  okParams R OK fn.params vs glob ∧ ∀ env, denParams R fn.params vs glob = some env →
    okE R OK fn.body env ∧ ∀ d, fn.retDom = some d → okE R OK d env

/-- Calls nested at most `n` deep. -/
def okN (P : Prog DVal) (R : (b : Base) → Nat → List AnyD → Option (DVal b)) :
    Nat → (b : Base) → Nat → List AnyD → Prop
  | 0, _, _, _ => False
  | n + 1, b, f, vs => ∃ fn, P.fns b f = some fn ∧ okFn R (okN P R n) P.glob fn vs

end Eval
end MZ
