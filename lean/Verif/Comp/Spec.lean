import Verif.Comp.Model
/-!
# What a comprehension generates
-/
namespace MZ
namespace Comp

/-- The values a generator ranges over under the assignment: for a set variable the elements of its value. -/
def Src.vals : Src → Env → List Val
  | .par _ vals, env => vals env
  | .vset s, env => (s.val env).map .int
  | .asn _ v, env => [v env]

/-- The declarations an expression depends on. -/
def Src.fv : Src → List Nat
  | .par fv _ => fv
  | .vset s => s.fv
  | .asn fv _ => fv

/-- All tuples of `n` of the values, in lexicographic order. -/
def tuples (vals : List Val) : Nat → List (List Val)
  | 0 => [[]]
  | n + 1 => vals.flatMap fun v => (tuples vals n).map (v :: ·)

/-- The declarations get these values. -/
def bindAll : Env → List Nat → List Val → Env
  | env, d :: ds, v :: vs => bindAll (upd env d v) ds vs
  | env, _, _ => env

/-- The where clause holds. -/
def holds (wh : Option W) (env : Env) : Bool :=
  match wh with
  | none => true
  | some w => w.val env

/-- The values of the declarations for which the comprehension has an element, in order: each generator ranges over the tuples of
elements of its set or array that satisfy its where clause, for each choice of the previous ones. -/
def bindings : List Gen → Env → List Env
  | [], env => [env]
  | g :: gs, env =>
    (((tuples (g.src.vals env) g.decls.length).map (bindAll env g.decls)).filter (holds g.wh)).flatMap (bindings gs)

/-- The value of an expression only depends on the declarations in it. -/
def LocalTo {β : Type} (fv : List Nat) (f : Env → β) : Prop :=
  ∀ env env' : Env, (∀ x ∈ fv, env x = env' x) → f env = f env'

/-- The same for where clauses. -/
def W.Local : W → Prop
  | .leaf c => LocalTo c.fv c.val
  | .and l r => l.Local ∧ r.Local

/-- The same for what a generator ranges over; and the value of a set variable is a part of its upper bound. -/
def Src.Local : Src → Prop
  | .par fv vals => LocalTo fv vals
  | .vset s => LocalTo s.fv s.val ∧ LocalTo s.fv s.ub ∧
      ∀ env, s.val env = (s.ub env).filter fun i => (s.val env).contains i
  | .asn fv v => LocalTo fv v

/-- The declarations of the generators. -/
def declsOf : List Gen → List Nat
  | [] => []
  | g :: gs => g.decls ++ declsOf gs

/-- Static scoping: the declarations are different; what a generator ranges over does not use its own and later declarations, and
its where clause no later ones. Assignments have one declaration and no where clause. -/
def Scoped : List Gen → Prop
  | [] => True
  | g :: gs =>
    g.decls ≠ [] ∧ g.decls.Nodup ∧ (∀ d ∈ g.decls, d ∉ declsOf gs) ∧
    (g.isAsn = true → g.decls.length = 1 ∧ g.wh = none) ∧
    g.src.Local ∧ (∀ x ∈ g.src.fv, x ∉ g.decls ∧ x ∉ declsOf gs) ∧
    (∀ w, g.wh = some w → w.Local ∧ ∀ x ∈ w.fv, x ∉ declsOf gs) ∧
    Scoped gs

end Comp
end MZ
