import Verif.Eval.Syntax
import Verif.Ranges.Spec
import Mathlib.Data.Finset.Sort
import Mathlib.Data.Finset.SymmDiff
import Mathlib.Order.Interval.Finset.Defs
import Mathlib.Data.Int.Interval
/-!
# Specification: the relational semantics of parameter expressions

The meaning of an expression in terms of mathematical integers, truth values and finite sets of
integers. An expression of type `int` or `set of int` may be *undefined* (`none`), because of a
division by zero, an access outside an array, a violated constraint or domain in a `let`, and so on.
Undefinedness propagates to the nearest enclosing Boolean expression, which is then false
(`truth`): the relational semantics of the MiniZinc language.

User-defined functions are given by an interpretation `R`; `Satisfies` says that it fulfils the
equations of the program's function definitions.
-/
namespace MZ
namespace Eval

/-- The mathematical values. -/
@[reducible] def DVal : Base → Type
  | .int => Int
  | .bool => Bool
  | .set => Finset Int

abbrev DEnv := EnvOf DVal
abbrev AnyD := Σ b : Base, DVal b

/-- Undefined means false. -/
def truth (o : Option Bool) : Option Bool := some (o.getD false)

/-- An undefined Boolean expression is false; other types stay undefined. -/
def close : (b : Base) → Option (DVal b) → Option (DVal b)
  | .bool, o => truth o
  | _, o => o

/-- The integer operators: division truncates towards zero; a negative power is the truncated
reciprocal. -/
def mathArith : AOp → Int → Int → Option Int
  | .plus, a, b => some (a + b)
  | .minus, a, b => some (a - b)
  | .mult, a, b => some (a * b)
  | .idiv, a, b => if b = 0 then none else some (a.tdiv b)
  | .mod, a, b => if b = 0 then none else some (a.tmod b)
  | .pow, a, b =>
    if 0 ≤ b then some (a ^ b.toNat) else if a = 0 then none else some ((1 : Int).tdiv (a ^ (-b).toNat))

/-- The truth tables (`false < true`). -/
def mathBop : BOp → Bool → Bool → Bool
  | .le, a, b => !a && b
  | .lq, a, b => !a || b
  | .gr, a, b => a && !b
  | .gq, a, b => a || !b
  | .eq, a, b => a == b
  | .nq, a, b => !(a == b)
  | .equiv, a, b => a == b
  | .impl, a, b => !a || b
  | .rimpl, a, b => !b || a
  | .or, a, b => a || b
  | .and, a, b => a && b
  | .xor, a, b => !(a == b)

def mathICmp : ICmp → Int → Int → Prop
  | .le, a, b => a < b
  | .lq, a, b => a ≤ b
  | .gr, a, b => b < a
  | .gq, a, b => b ≤ a
  | .eq, a, b => a = b
  | .nq, a, b => a ≠ b

/-- Sets are ordered lexicographically (`SetLex`, `Verif/Ranges/Spec.lean`). -/
def mathSCmp : SCmp → Finset Int → Finset Int → Prop
  | .le, A, B => SetLex (· ∈ A) (· ∈ B)
  | .lq, A, B => SetLex (· ∈ A) (· ∈ B) ∨ A = B
  | .gr, A, B => SetLex (· ∈ B) (· ∈ A)
  | .gq, A, B => SetLex (· ∈ B) (· ∈ A) ∨ B = A
  | .eq, A, B => A = B
  | .nq, A, B => A ≠ B
  | .subset, A, B => A ⊆ B
  | .superset, A, B => B ⊆ A

def mathSop : SOp → Finset Int → Finset Int → Finset Int
  | .union, A, B => A ∪ B
  | .diff, A, B => A \ B
  | .symdiff, A, B => symmDiff A B
  | .intersect, A, B => A ∩ B

/-- All elements defined. -/
def allSome {α : Type} : List (Option α) → Option (List α)
  | [] => some []
  | none :: _ => none
  | some a :: l => (allSome l).map (a :: ·)

/-- Aggregation of an array of integers with smallest index `lo`; minimum and maximum of the empty
array are undefined; `arg_min`, `arg_max` give the least index at which the extremum occurs. -/
def mathIAgg : IAgg → Int → List Int → Option Int
  | .sum, _, xs => some xs.sum
  | .product, _, xs => some xs.prod
  | .min, _, xs => xs.min?
  | .max, _, xs => xs.max?
  | .argMin, lo, xs => xs.min?.map (fun m => lo + (xs.idxOf m : Nat))
  | .argMax, lo, xs => xs.max?.map (fun m => lo + (xs.idxOf m : Nat))

/-- `forall`, `exists`, exclusive disjunction, and its negation. -/
def mathBAgg : BAgg → List Bool → Bool
  | .all, xs => xs.all id
  | .any, xs => xs.any id
  | .xorall, xs => xs.foldr xor false
  | .iffall, xs => !(xs.foldr xor false)

/-- Integers must be elements of the domain, sets subsets. -/
def inDom : (b : Base) → DVal b → Option (Finset Int) → Option Prop
  | .int, v, D => D.map (fun D => v ∈ D)
  | .bool, _, _ => some True
  | .set, v, D => D.map (fun D => v ⊆ D)

/-- The concatenation of the lists for all values, in order. -/
def forEach {α β : Type} (vs : List β) (k : β → Option (List α)) : Option (List α) :=
  (allSome (vs.map k)).map List.flatten

/-- All combinations of values for the identifiers of a generator, in lexicographic order. -/
def forIds {α : Type} {b : Base} (vs : List (DVal b)) : List Nat → DEnv → (DEnv → Option (List α)) →
    Option (List α)
  | [], env, k => k env
  | n :: ns, env, k => forEach vs (fun v => forIds vs ns (env.set b n v) k)

open Classical in
mutual
/-- The meaning of an expression. -/
noncomputable def denE (R : (b : Base) → Nat → List AnyD → Option (DVal b)) :
    {b : Base} → E b → DEnv → Option (DVal b)
  | _, .ilit n _, _ => some n
  | _, .blit b, _ => some b
  | _, .var b n, env => close b (env.s b n)
  | _, .arith op l r, env => do let a ← denE R l env; let b ← denE R r env; mathArith op a b
  | _, .neg e, env => do let a ← denE R e env; some (-a)
  | _, .bool2int e, env => do let a ← denE R e env; some (if a then 1 else 0)
  | _, .not e, env => truth (do let a ← denE R e env; some (!a))
  | _, .bop op l r, env =>
    truth (do let a ← denE R l env; let b ← denE R r env; some (mathBop op a b))
  | _, .icmp op l r, env =>
    truth (do let a ← denE R l env; let b ← denE R r env; some (decide (mathICmp op a b)))
  | _, .scmp op l r, env =>
    truth (do let a ← denE R l env; let b ← denE R r env; some (decide (mathSCmp op a b)))
  | _, .isin x s, env =>
    truth (do let a ← denE R x env; let A ← denE R s env; some (decide (a ∈ A)))
  | _, .sop op l r, env => do let A ← denE R l env; let B ← denE R r env; some (mathSop op A B)
  | _, .dotdot l r, env => do let a ← denE R l env; let b ← denE R r env; some (Finset.Icc a b)
  | _, .setlit es, env => do let xs ← allSome (denEs R es env); some xs.toFinset
  | _, .setcomp c, env => do let xs ← denComp R c env; some xs.toFinset
  | b, .ite cs e, env => close b (match denBrs R cs env with
      | some o => o
      | none => denE R e env)
  | b, .letin ds e, env => close b (do let env' ← denLets R ds env; denE R e env')
  | _, .iagg op a, env => do
    let (lo, xs) ← denSq R a env
    let vs ← allSome xs
    mathIAgg op lo vs
  | _, .bagg op a, env => truth (do
    let (_, xs) ← denSq R a env
    let vs ← allSome xs
    some (mathBAgg op vs))
  | _, .clause p n, env => truth (do
    let (_, xs) ← denSq R p env
    let vs ← allSome xs
    if true ∈ vs then some true
    else do
      let (_, ys) ← denSq R n env
      let ws ← allSome ys
      some (decide (false ∈ ws)))
  | _, .min2 l r, env => do let a ← denE R l env; let b ← denE R r env; some (min a b)
  | _, .max2 l r, env => do let a ← denE R l env; let b ← denE R r env; some (max a b)
  | _, .card s, env => do let A ← denE R s env; some (A.card : Int)
  | _, .smin s, env => do
    let A ← denE R s env
    if h : A.Nonempty then some (A.min' h) else none
  | _, .smax s, env => do
    let A ← denE R s env
    if h : A.Nonempty then some (A.max' h) else none
  | b, .access a i, env => close b (do
    let (lo, xs) ← denSq R a env
    let i ← denE R i env
    if lo ≤ i ∧ i < lo + xs.length then xs[(i - lo).toNat]?.join else none)
  | b, .call _ f as, env => close b (do let vs ← allSome (denArgs R as env); R b f vs)
/-- The meanings of the elements of a literal. -/
noncomputable def denEs (R : (b : Base) → Nat → List AnyD → Option (DVal b)) :
    {b : Base} → Es b → DEnv → List (Option (DVal b))
  | _, .nil, _ => []
  | _, .cons e es, env => denE R e env :: denEs R es env
/-- The meaning of the first branch whose condition is true, if there is one. -/
noncomputable def denBrs (R : (b : Base) → Nat → List AnyD → Option (DVal b)) :
    {b : Base} → Brs b → DEnv → Option (Option (DVal b))
  | _, .nil, _ => none
  | _, .cons c t cs, env => if denE R c env = some true then some (denE R t env) else denBrs R cs env
/-- The environment after the items of a `let`, if all its constraints and domains are fulfilled. -/
noncomputable def denLets (R : (b : Base) → Nat → List AnyD → Option (DVal b)) :
    Lets → DEnv → Option DEnv
  | .nil, env => some env
  | .decl b n rhs ds, env => do
    let v ← denE R rhs env
    denLets R ds (env.set b n v)
  | .declDom b n rhs dom ds, env => do
    let v ← denE R rhs env
    let ok ← inDom b v (denE R dom (env.set b n v))
    if ok then denLets R ds (env.set b n v) else none
  | .con _ e ds, env => if denE R e env = some true then denLets R ds env else none
/-- Smallest index and elements of an array; an element of a literal may be undefined. -/
noncomputable def denSq (R : (b : Base) → Nat → List AnyD → Option (DVal b)) :
    {b : Base} → Sq b → DEnv → Option (Int × List (Option (DVal b)))
  | _, .lit es, env => some (1, denEs R es env)
  | _, .arr a, env => do let (lo, vs) ← denArr R a env; some (lo, vs.map some)
/-- Smallest index and elements of an array. -/
noncomputable def denArr (R : (b : Base) → Nat → List AnyD → Option (DVal b)) :
    {b : Base} → Arr b → DEnv → Option (Int × List (DVal b))
  | _, .var b n, env => env.a b n
  | _, .comp c, env => do let vs ← denComp R c env; some (1, vs)
/-- The values of the body for all values of the identifiers that fulfil the `where` clauses;
undefined if a generator's set or array or a value of the body is. -/
noncomputable def denComp (R : (b : Base) → Nat → List AnyD → Option (DVal b)) :
    {b : Base} → Comp b → DEnv → Option (List (DVal b))
  | _, .body e, env => do let v ← denE R e env; some [v]
  | _, .gen n ns s w c, env => do
    let A ← denE R s env
    forIds (b := .int) (A.sort (· ≤ ·)) (n :: ns) env (fun env' =>
      if denE R w env' = some true then denComp R c env' else some [])
  | _, .genArr n ns b' a w c, env => do
    let (_, vs) ← denArr R a env
    forIds (b := b') vs (n :: ns) env (fun env' =>
      if denE R w env' = some true then denComp R c env' else some [])
  | _, .asn n b' e c, env => do let v ← denE R e env; denComp R c (env.set b' n v)
/-- The meanings of the arguments of a call. -/
noncomputable def denArgs (R : (b : Base) → Nat → List AnyD → Option (DVal b)) :
    Args → DEnv → List (Option AnyD)
  | .nil, _ => []
  | .cons b e as, env => (denE R e env).map (fun v => ⟨b, v⟩) :: denArgs R as env
end

open Classical in
/-- The parameters take the values of the arguments; undefined if one is not in its domain. -/
noncomputable def denParams (R : (b : Base) → Nat → List AnyD → Option (DVal b)) :
    List Param → List AnyD → DEnv → Option DEnv
  | [], _, env => some env
  | _ :: _, [], _ => none
  | p :: ps, ⟨b, v⟩ :: vs, env =>
    if h : b = p.b then
      let env' := env.set p.b p.n (h ▸ v)
      match p.dom with
      | none => denParams R ps vs env'
      | some d => do
        let ok ← inDom p.b (h ▸ v) (denE R d env')
        if ok then denParams R ps vs env' else none
    else none

open Classical in
/-- The meaning of a function: the meaning of its body, which must be in the declared domain. -/
noncomputable def denFn (R : (b : Base) → Nat → List AnyD → Option (DVal b)) (glob : DEnv) {b : Base}
    (fn : Fn b) (vs : List AnyD) : Option (DVal b) := do
  let env ← denParams R fn.params vs glob
  let v ← denE R fn.body env
  match fn.retDom with
  | none => some v
  | some d => do
    let ok ← inDom b v (denE R d env)
    if ok then some v else none

/-- The interpretation fulfils the equations of the function definitions. -/
def Satisfies (P : Prog DVal) (R : (b : Base) → Nat → List AnyD → Option (DVal b)) : Prop :=
  ∀ (b : Base) (f : Nat) (fn : Fn b), P.fns b f = some fn → ∀ vs, R b f vs = denFn R P.glob fn vs

end Eval
end MZ
