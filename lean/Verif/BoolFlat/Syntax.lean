/-!
# Boolean constraints: source expressions, flat model and their meaning

The source side is what a user writes: Boolean operators over Boolean variables, predicate
calls and integer comparisons.  The flat side is the FlatZinc-like model the compiler keeps:
a list of Boolean declarations (with a right-hand side call, a context annotation and possibly a
fixed domain) and a list of constraints.
-/

namespace MZ
namespace BoolFlat

/-- include/minizinc/model.hh 487–492 (`BCtx`): root, positive, negative and mixed context. -/
inductive BCtx where
  | root | pos | neg | mix
deriving DecidableEq, Repr

/-- lib/flatten.cpp 239–252 (`operator+(const BCtx&)`). -/
def BCtx.up : BCtx → BCtx
  | .root => .pos
  | .pos => .pos
  | .neg => .neg
  | .mix => .mix

/-- lib/flatten.cpp 254–267 (`operator-(const BCtx&)`). -/
def BCtx.dn : BCtx → BCtx
  | .root => .neg
  | .pos => .neg
  | .neg => .pos
  | .mix => .mix

/-- include/minizinc/ast.hh (`BOT_LE`, `BOT_LQ`, `BOT_GR`, `BOT_GQ`, `BOT_EQ`, `BOT_NQ`). -/
inductive Cmp where
  | le | lq | gr | gq | eq | nq
deriving DecidableEq, Repr

/-- What the comparison operators mean on integers. -/
def Cmp.holds : Cmp → Int → Int → Bool
  | .le, a, b => decide (a < b)
  | .lq, a, b => decide (a ≤ b)
  | .gr, a, b => decide (b < a)
  | .gq, a, b => decide (b ≤ a)
  | .eq, a, b => decide (a = b)
  | .nq, a, b => decide (a ≠ b)

/-- An assignment of the non-Boolean part of the model: the truth value of every atomic predicate
call and the value of every integer term. -/
structure Interp where
  pred : Nat → Bool
  term : Nat → Int

/-- Boolean expressions of the source model.  `cmp o s t d` compares two integer terms; `d` is the
condition under which the terms are defined, if they are partial.  `cnt o es t` is the comparison
`sum (bool2int(e) for e in es) o t`. -/
inductive BE where
  | lit (b : Bool)
  | var (x : Nat)
  | pred (p : Nat)
  | cmp (o : Cmp) (s t : Nat) (d : Option Nat)
  | cnt (o : Cmp) (es : List BE) (t : Nat)
  | not (e : BE)
  | and (a b : BE)
  | or (a b : BE)
  | impl (a b : BE)
  | rimpl (a b : BE)
  | equiv (a b : BE)
  | xor (a b : BE)
  | forall_ (es : List BE)
  | exists_ (es : List BE)

/-- The number of true values in a list. -/
def countTrue (bs : List Bool) : Int := ((bs.filter id).length : Int)

/-- Whether a definedness condition holds. -/
def defHolds (I : Interp) : Option Nat → Bool
  | none => true
  | some p => I.pred p

mutual
/-- The truth value of a source expression (relational semantics: a comparison with an undefined
operand is false). -/
def BE.val (I : Interp) (σ : Nat → Bool) : BE → Bool
  | .lit b => b
  | .var x => σ x
  | .pred p => I.pred p
  | .cmp o s t d => defHolds I d && o.holds (I.term s) (I.term t)
  | .cnt o es t => o.holds (countTrue (BE.vals I σ es)) (I.term t)
  | .not e => !(BE.val I σ e)
  | .and a b => BE.val I σ a && BE.val I σ b
  | .or a b => BE.val I σ a || BE.val I σ b
  | .impl a b => !(BE.val I σ a) || BE.val I σ b
  | .rimpl a b => !(BE.val I σ b) || BE.val I σ a
  | .equiv a b => BE.val I σ a == BE.val I σ b
  | .xor a b => BE.val I σ a != BE.val I σ b
  | .forall_ es => (BE.vals I σ es).all id
  | .exists_ es => (BE.vals I σ es).any id
/-- The truth values of a list of expressions. -/
def BE.vals (I : Interp) (σ : Nat → Bool) : List BE → List Bool
  | [] => []
  | e :: es => BE.val I σ e :: BE.vals I σ es
end

mutual
/-- Every variable of the expression is one of the first `n`. -/
def BE.scope (n : Nat) : BE → Prop
  | .lit _ => True
  | .var x => x < n
  | .pred _ => True
  | .cmp .. => True
  | .cnt _ es _ => BE.scopes n es
  | .not e => BE.scope n e
  | .and a b => BE.scope n a ∧ BE.scope n b
  | .or a b => BE.scope n a ∧ BE.scope n b
  | .impl a b => BE.scope n a ∧ BE.scope n b
  | .rimpl a b => BE.scope n a ∧ BE.scope n b
  | .equiv a b => BE.scope n a ∧ BE.scope n b
  | .xor a b => BE.scope n a ∧ BE.scope n b
  | .forall_ es => BE.scopes n es
  | .exists_ es => BE.scopes n es
/-- `BE.scope` for every expression of a list. -/
def BE.scopes (n : Nat) : List BE → Prop
  | [] => True
  | e :: es => BE.scope n e ∧ BE.scopes n es
end

/-- Items of the source model: `var bool: v = e` for an already declared `v`, and
`constraint e`. -/
inductive Item where
  | decl (v : Nat) (e : BE)
  | con (e : BE)

/-- What an item says about an assignment. -/
def Item.holds (I : Interp) (σ : Nat → Bool) : Item → Prop
  | .decl v e => σ v = e.val I σ
  | .con e => e.val I σ = true

/-- The variables of an item are declared. -/
def Item.scope (n : Nat) : Item → Prop
  | .decl v e => v < n ∧ e.scope n
  | .con e => e.scope n

/-! ### Flat models -/

/-- A flattened Boolean expression: a literal or (the identifier of) a declaration. -/
inductive FE where
  | lit (b : Bool)
  | var (v : Nat)
deriving DecidableEq, Repr

/-- The value of a flat expression. -/
def FE.val (μ : Nat → Bool) : FE → Bool
  | .lit b => b
  | .var v => μ v

/-- Right-hand sides and constraints of the flat model: the calls `forall`, `exists`, `clause`,
`bool_not`, `bool_eq`, `bool_ne`, a comparison call, a predicate call, a linear comparison over
`bool2int` variables, and an identifier or literal as right-hand side. -/
inductive FC where
  | all_ (es : List FE)
  | any_ (es : List FE)
  | clause (ps ns : List FE)
  | not_ (e : FE)
  | iff_ (a b : FE)
  | xor_ (a b : FE)
  | cmp (o : Cmp) (s t : Nat)
  | pred (p : Nat)
  | cnt (o : Cmp) (es : List FE) (t : Nat)
  | alias (e : FE)
deriving DecidableEq, Repr

/-- The truth value of a flat call. -/
def FC.val (I : Interp) (μ : Nat → Bool) : FC → Bool
  | .all_ es => es.all (FE.val μ)
  | .any_ es => es.any (FE.val μ)
  | .clause ps ns => ps.any (FE.val μ) || ns.any (fun e => !(FE.val μ e))
  | .not_ e => !(e.val μ)
  | .iff_ a b => a.val μ == b.val μ
  | .xor_ a b => a.val μ != b.val μ
  | .cmp o s t => o.holds (I.term s) (I.term t)
  | .pred p => I.pred p
  | .cnt o es t => o.holds (countTrue (es.map (FE.val μ))) (I.term t)
  | .alias e => e.val μ

/-- A declaration of a Boolean variable: whether it stems from the source model, its right-hand
side, its context annotation (`ctx_root`, `ctx_pos`, `ctx_neg`, `ctx_mix`) and its domain if
fixed. -/
structure Decl where
  src : Bool
  rhs : Option FC
  ann : Option BCtx
  dom : Option Bool
deriving DecidableEq, Repr

/-- Constraints of the flat model: a call, a reified (or half-reified) call for a variable that
already has a right-hand side, and an equality of two variables. -/
inductive Con where
  | call (c : FC)
  | reif (half : Bool) (c : FC) (v : Nat)
  | eqv (v w : Nat)
deriving DecidableEq, Repr

/-- The flat model under construction, with the table of common subexpressions, the flag
`fopts.enableHalfReification` and whether inconsistency has been found. -/
structure St where
  hr : Bool
  decls : List Decl
  cons : List Con
  cse : List (FC × FE)
  failed : Bool
deriving DecidableEq, Repr

/-- lib/flatten.cpp 4815–4990: a declaration annotated `ctx_pos` is written with a half-reified
constraint (only if half-reification is enabled), every other one with a reified constraint. -/
def half (hr : Bool) (d : Decl) : Bool := hr && decide (d.ann = some .pos)

/-- What a flat constraint says. -/
def Con.holds (I : Interp) (ρ : Nat → Bool) : Con → Prop
  | .call c => c.val I ρ = true
  | .reif h c v => if h then (ρ v = true → c.val I ρ = true) else ρ v = c.val I ρ
  | .eqv v w => ρ v = ρ w

/-- The solutions of a flat model: it is not inconsistent, all constraints hold, all domains
are respected, and every variable with a right-hand side implies it (half-reified) or is equal
to it. -/
structure Sat (I : Interp) (s : St) (ρ : Nat → Bool) : Prop where
  ok : s.failed = false
  cons : ∀ c ∈ s.cons, c.holds I ρ
  dom : ∀ v d b, s.decls[v]? = some d → d.dom = some b → ρ v = b
  rhs : ∀ v d c, s.decls[v]? = some d → d.rhs = some c →
    if half s.hr d then (ρ v = true → c.val I ρ = true) else ρ v = c.val I ρ

end BoolFlat
end MZ
