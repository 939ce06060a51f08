import Verif.BoolFlat.Syntax
/-!
# Let expressions

The flattening of let expressions (`flatten_let`, lib/flatten/flatten_let.cpp 16–136) within a small language of Boolean and integer
expressions: local variables with and without a right-hand side, local constraints, partial functions, and the contexts in which let
expressions occur. The operators other than let are in a simple form (they are the subject of C30 and others): each result is a new flat
variable. Annotations (`promise_total`, `promise_monotone`), integer contexts, arrays and optional types are left out.
-/
namespace MZ
namespace Let
open BoolFlat (BCtx Cmp)

mutual
/-- Integer expressions. Variables are declarations, named by numbers. -/
inductive IE where
  | lit (v : Int)
  | var (x : Nat)
  | add (s t : IE)
  | div (s t : IE)
  | let_ (its : Items) (t : IE)
/-- Boolean expressions. -/
inductive BE where
  | var (x : Nat)
  | cmp (o : Cmp) (s t : IE)
  | not (e : BE)
  | and (a b : BE)
  | or (a b : BE)
  | iff (a b : BE)
  | let_ (its : Items) (e : BE)
/-- The items of a let: an integer variable with a right-hand side and possibly a domain, a Boolean variable with a right-hand side, an
integer variable with a domain but no right-hand side, a constraint. -/
inductive Items where
  | nil
  | dcl (x : Nat) (t : IE) (d : Option (List Int)) (r : Items)
  | dclB (x : Nat) (e : BE) (r : Items)
  | free (x : Nat) (d : List Int) (r : Items)
  | con (e : BE) (r : Items)
end

/-- A flat expression: a literal or a flat variable. Boolean values are 0 and 1. -/
inductive Atom where
  | lit (v : Int)
  | var (k : Nat)
deriving DecidableEq, Repr

/-- The definition of a flat variable: a variable of the model, a variable with a domain, or the value of a constraint. -/
inductive Def where
  | glob
  | free (d : List Int)
  | add (a b : Atom)
  | div (a b : Atom)
  | ne0 (a : Atom)
  | mem (a : Atom) (d : List Int)
  | cmp (o : Cmp) (a b : Atom)
  | conj (neg : Bool) (cs : List Atom)
  | disj (cs : List Atom)
  | iff (neg : Bool) (a b : Atom)
deriving DecidableEq, Repr

/-- The flat model and `VarDecl::flat`, the flat variable of each declaration. -/
structure St where
  decls : List Def
  cons : List Atom
  fl : Nat → Atom

/-- A new flat variable (lib/flatten.cpp 651–753, `new_vardecl`). -/
def mk (st : St) (d : Def) : St × Atom := ({ st with decls := st.decls ++ [d] }, .var st.decls.length)

/-- A constraint of the flat model. -/
def post (st : St) (a : Atom) : St := { st with cons := st.cons ++ [a] }

/-- Bind a value to `varTrue` or to a new variable (`bind`). -/
def out (tru : Bool) (st : St) (d : Def) : St × Atom :=
  let p := mk st d
  if tru then (post p.1 p.2, .lit 1) else p

/-- lib/flatten.cpp 3645–3725 `conj`: with a negated context the negation of the conjunction. -/
def conj (neg tru : Bool) (cs : List Atom) (st : St) : St × Atom := out tru st (.conj neg cs)

/-- `vd->flat(…)`. -/
def setFl (st : St) (x : Nat) (a : Atom) : St := { st with fl := fun y => if y = x then a else st.fl y }

/-- flatten_let.cpp 128–133: the previous flat variables of the declarations, in order. -/
def restore (st : St) : List (Nat × Atom) → St
  | [] => st
  | (x, a) :: r => restore (setFl st x a) r

mutual
/-- Integer expressions: the value and whether it is defined. In root context the definedness is bound to `varTrue`
(`Ctx::partialityVar`). `none`: the error about free variables. -/
def flatI (c : BCtx) : IE → St → Option (St × Atom × Atom)
  | .lit v, st => some (st, .lit v, .lit 1)
  | .var x, st => some (st, st.fl x, .lit 1)
  | .add s t, st =>
    match flatI c s st with
    | none => none
    | some (st1, a1, b1) =>
      match flatI c t st1 with
      | none => none
      | some (st2, a2, b2) =>
        let r := mk st2 (.add a1 a2)
        let b := conj false (c = .root) [b1, b2] r.1
        some (b.1, r.2, b.2)
  | .div s t, st =>
    match flatI c s st with
    | none => none
    | some (st1, a1, b1) =>
      match flatI c t st1 with
      | none => none
      | some (st2, a2, b2) =>
        let r := mk st2 (.div a1 a2)
        let d := mk r.1 (.ne0 a2)
        let b := conj false (c = .root) [b1, b2, d.2] d.1
        some (b.1, r.2, b.2)
  | .let_ its t, st =>
    match flatItems c its st with
    | none => none
    | some (st1, cs, sv) =>
      -- flatten_let.cpp 103–121
      match flatI c t st1 with
      | none => none
      | some (st2, a, b) =>
        let r := conj false (c = .root) (cs ++ [b]) st2
        some (restore r.1 sv, a, r.2)
/-- Boolean expressions: `tru` if the result is bound to `varTrue`. -/
def flatB (c : BCtx) (neg tru : Bool) : BE → St → Option (St × Atom)
  | .var x, st => some (conj neg tru [st.fl x] st)
  | .cmp o s t, st =>
    match flatI c s st with
    | none => none
    | some (st1, a1, b1) =>
      match flatI c t st1 with
      | none => none
      | some (st2, a2, b2) =>
        let k := mk st2 (.cmp o a1 a2)
        some (conj neg tru [b1, b2, k.2] k.1)
  | .not e, st => flatB c.dn (!neg) tru e st
  | .and a b, st =>
    if tru && !neg then
      match flatB c false true a st with
      | none => none
      | some (st1, _) =>
        match flatB c false true b st1 with
        | none => none
        | some (st2, _) => some (st2, .lit 1)
    else
      match flatB c neg false a st with
      | none => none
      | some (st1, a1) =>
        match flatB c neg false b st1 with
        | none => none
        | some (st2, a2) => some (out tru st2 (if neg then .disj [a1, a2] else .conj false [a1, a2]))
  | .or a b, st =>
    if tru && neg then
      match flatB c true true a st with
      | none => none
      | some (st1, _) =>
        match flatB c true true b st1 with
        | none => none
        | some (st2, _) => some (st2, .lit 1)
    else
      match flatB c.up neg false a st with
      | none => none
      | some (st1, a1) =>
        match flatB c.up neg false b st1 with
        | none => none
        | some (st2, a2) => some (out tru st2 (if neg then .conj false [a1, a2] else .disj [a1, a2]))
  | .iff a b, st =>
    match flatB .mix false false a st with
    | none => none
    | some (st1, a1) =>
      match flatB .mix false false b st1 with
      | none => none
      | some (st2, a2) => some (out tru st2 (.iff neg a1 a2))
  | .let_ its e, st =>
    match flatItems c its st with
    | none => none
    | some (st1, cs, sv) =>
      if c = .root then
        -- flatten_let.cpp 99–102
        match flatB .root false true e st1 with
        | none => none
        | some (st2, _) =>
          let r := conj false true cs st2
          some (restore r.1 sv, r.2)
      else
        -- flatten_let.cpp 103–117
        match flatB c false false e st1 with
        | none => none
        | some (st2, a) =>
          let r := conj neg tru (cs ++ [a]) st2
          some (restore r.1 sv, r.2)
/-- The items: the conditions `cs` and the previous flat variables of the declarations. -/
def flatItems (c : BCtx) : Items → St → Option (St × List Atom × List (Nat × Atom))
  | .nil, st => some (st, [], [])
  | .dcl x t d r, st =>
    -- flatten_let.cpp 28–67
    match flatI c t st with
    | none => none
    | some (st1, a, b) =>
      let (st2, cs) := match d with
        | none => (st1, [b])
        | some dom => let m := out (c = .root) st1 (.mem a dom); (m.1, [b, m.2])
      match flatItems c r (setFl st2 x a) with
      | none => none
      | some (st3, cs', sv) => some (st3, cs ++ cs', (x, st.fl x) :: sv)
  | .dclB x e r, st =>
    -- flatten_let.cpp 46–52: the right-hand side is in mixed context
    match flatB .mix false false e st with
    | none => none
    | some (st1, a) =>
      match flatItems c r (setFl st1 x a) with
      | none => none
      | some (st2, cs, sv) => some (st2, cs, (x, st.fl x) :: sv)
  | .free x d r, st =>
    -- flatten_let.cpp 68–81
    if c = .neg ∨ c = .mix then none
    else
      let p := mk st (.free d)
      match flatItems c r (setFl p.1 x p.2) with
      | none => none
      | some (st2, cs, sv) => some (st2, cs, (x, st.fl x) :: sv)
  | .con e r, st =>
    -- flatten_let.cpp 88–97
    if c = .root then
      match flatB .root false true e st with
      | none => none
      | some (st1, _) => flatItems c r st1
    else
      match flatB c false false e st with
      | none => none
      | some (st1, a) =>
        match flatItems c r st1 with
        | none => none
        | some (st2, cs, sv) => some (st2, a :: cs, sv)
end

end Let
end MZ
