import Verif.Let.Basic
/-!
# Calls of user-defined functions and predicates

The part of `flatten_call` that deals with functions that have a body (lib/flatten/flatten_call.cpp 1040–1360): the arguments, common
subexpressions, the domains of the parameters and of the result, the binding of the parameters (which are declarations that are changed in
place, also in recursive calls) and `promise_total`. The flat model is that of the model of let expressions (`Verif.Let.Model`). Left out:
arrays, optional types, overloading (C61), functions without a body, reified versions of predicates, annotations, integer contexts, negated
contexts (C59), the evaluation of calls whose type is par (C58).
-/
namespace MZ
namespace Call
open BoolFlat (Cmp)
open Let (Atom Def St mk post out setFl restore)

/-- Parameter expressions: they are evaluated while flattening. -/
inductive PE where
  | lit (v : Int)
  | var (x : Nat)
  | add (s t : PE)
  | sub (s t : PE)
deriving Repr

mutual
/-- Integer expressions. Declarations (of variables of the model, parameters of functions and locals) are named by numbers. -/
inductive IE where
  | lit (v : Int)
  | var (x : Nat)
  | par (p : PE)
  | add (s t : IE)
  | div (s t : IE)
  | ite (o : Cmp) (p q : PE) (s t : IE)
  | let_ (x : Nat) (s t : IE)
  | call (f : Nat) (as : Args)
/-- The arguments of a call. -/
inductive Args where
  | nil
  | cons (t : IE) (r : Args)
end

/-- Boolean expressions. -/
inductive BE where
  | cmp (o : Cmp) (s t : IE)
  | not (e : BE)
  | and (a b : BE)
  | or (a b : BE)
  | ite (o : Cmp) (p q : PE) (a b : BE)
  | call (p : Nat) (as : Args)

/-- A parameter with its domain. -/
abbrev Param := Nat × Option (List Int)

/-- A function with an integer result: its parameters, body, the domain of its result and whether it has the annotation
`promise_total`. -/
structure IFun where
  params : List Param
  body : IE
  dom : Option (List Int)
  total : Bool

/-- A predicate. -/
structure PFun where
  params : List Param
  body : BE

/-- The functions and predicates of a model. -/
structure Prog where
  ifuns : List IFun
  pfuns : List PFun

/-- The state of the flattening: the flat model with the values of declarations, and the map for common subexpressions with the calls of
functions (value and definedness) and of predicates (value). -/
structure S where
  st : St
  cse : List ((Nat × List Atom) × Atom × Atom)
  cseP : List ((Nat × List Atom) × Atom)

/-- The value of a parameter expression (`eval_par`): an error if a declaration does not have a literal value. -/
def evalP (fl : Nat → Atom) : PE → Option Int
  | .lit v => some v
  | .var x => match fl x with
    | .lit v => some v
    | .var _ => none
  | .add s t => match evalP fl s, evalP fl t with
    | some a, some b => some (a + b)
    | _, _ => none
  | .sub s t => match evalP fl s, evalP fl t with
    | some a, some b => some (a - b)
    | _, _ => none

/-- `flatten_call` for a function after its arguments have been flattened: whether in root context, the function, the arguments and their
definedness. -/
abbrev HI := Bool → Nat → List Atom → List Atom → S → Option (S × Atom × Atom)

/-- Likewise for predicates, with the result. -/
abbrev HP := Bool → Nat → List Atom → List Atom → S → Option (S × Atom)

/-- A new flat variable. -/
def mkS (s : S) (d : Def) : S × Atom := ({ s with st := (mk s.st d).1 }, (mk s.st d).2)

/-- Bind to `varTrue` or to a new variable. -/
def outS (tru : Bool) (s : S) (d : Def) : S × Atom := ({ s with st := (out tru s.st d).1 }, (out tru s.st d).2)

/-- lib/flatten.cpp 3645–3680 (`conj` in a context that is not negated): true conditions are left out; a single condition is the result;
in root context the conditions are posted. -/
def conjS (root : Bool) (s : S) (cs : List Atom) : S × Atom :=
  let nt := cs.filter (· ≠ .lit 1)
  if nt = [] then (s, .lit 1)
  else if root then ({ s with st := nt.foldl post s.st }, .lit 1)
  else if .lit 0 ∈ nt then (s, .lit 0)
  else match nt with
    | [a] => (s, a)
    | _ => mkS s (.conj false nt)

/-- Set the value of a declaration. -/
def setS (s : S) (x : Nat) (a : Atom) : S := { s with st := setFl s.st x a }

mutual
/-- Integer expressions: the value and its definedness, which is bound to `varTrue` in root context. -/
def flatI (H : HI) (root : Bool) : IE → S → Option (S × Atom × Atom)
  | .lit v, s => some (s, .lit v, .lit 1)
  | .var x, s => some (s, s.st.fl x, .lit 1)
  | .par p, s => match evalP s.st.fl p with
    | none => none
    | some v => some (s, .lit v, .lit 1)
  | .add t u, s =>
    match flatI H root t s with
    | none => none
    | some (s1, a1, b1) =>
      match flatI H root u s1 with
      | none => none
      | some (s2, a2, b2) =>
        let r := mkS s2 (.add a1 a2)
        let b := conjS root r.1 [b1, b2]
        some (b.1, r.2, b.2)
  | .div t u, s =>
    match flatI H root t s with
    | none => none
    | some (s1, a1, b1) =>
      match flatI H root u s1 with
      | none => none
      | some (s2, a2, b2) =>
        let r := mkS s2 (.div a1 a2)
        let d := mkS r.1 (.ne0 a2)
        let b := conjS root d.1 [b1, b2, d.2]
        some (b.1, r.2, b.2)
  | .ite o p q t u, s =>
    match evalP s.st.fl p, evalP s.st.fl q with
    | some v, some w => if o.holds v w then flatI H root t s else flatI H root u s
    | _, _ => none
  | .let_ x t u, s =>
    match flatI H root t s with
    | none => none
    | some (s1, a, b) =>
      match flatI H root u (setS s1 x a) with
      | none => none
      | some (s2, a2, b2) =>
        let c := conjS root s2 [b, b2]
        some (setS c.1 x (s.st.fl x), a2, c.2)
  | .call f as, s =>
    match flatArgs H root as s with
    | none => none
    | some (s1, vs, bs) => H root f vs bs s1
/-- flatten_call.cpp 740–787: the arguments, from the last to the first. -/
def flatArgs (H : HI) (root : Bool) : Args → S → Option (S × List Atom × List Atom)
  | .nil, s => some (s, [], [])
  | .cons t r, s =>
    match flatArgs H root r s with
    | none => none
    | some (s1, vs, bs) =>
      match flatI H root t s1 with
      | none => none
      | some (s2, a, b) => some (s2, a :: vs, b :: bs)
end

/-- Boolean expressions: the result is bound to `varTrue` in root context. -/
def flatB (H : HI) (P : HP) (root : Bool) : BE → S → Option (S × Atom)
  | .cmp o t u, s =>
    match flatI H root t s with
    | none => none
    | some (s1, a1, b1) =>
      match flatI H root u s1 with
      | none => none
      | some (s2, a2, b2) =>
        let k := mkS s2 (.cmp o a1 a2)
        some (conjS root k.1 [b1, b2, k.2])
  | .not e, s =>
    match flatB H P false e s with
    | none => none
    | some (s1, a) => some (outS root s1 (.conj true [a]))
  | .and x y, s =>
    match flatB H P root x s with
    | none => none
    | some (s1, a1) =>
      match flatB H P root y s1 with
      | none => none
      | some (s2, a2) => some (conjS root s2 [a1, a2])
  | .or x y, s =>
    match flatB H P false x s with
    | none => none
    | some (s1, a1) =>
      match flatB H P false y s1 with
      | none => none
      | some (s2, a2) => some (outS root s2 (.disj [a1, a2]))
  | .ite o p q x y, s =>
    match evalP s.st.fl p, evalP s.st.fl q with
    | some v, some w => if o.holds v w then flatB H P root x s else flatB H P root y s
    | _, _ => none
  | .call p as, s =>
    match flatArgs H root as s with
    | none => none
    | some (s1, vs, bs) => P root p vs bs s1

/-- flatten_call.cpp 1112–1138: the domains of the parameters, posted in root context. -/
def paramDoms (root : Bool) : List Param → List Atom → S → S × List Atom
  | (_, some d) :: ps, a :: vs, s =>
    let m := outS root s (.mem a d)
    let r := paramDoms root ps vs m.1
    (r.1, m.2 :: r.2)
  | (_, none) :: ps, _ :: vs, s => paramDoms root ps vs s
  | _, _, s => (s, [])

/-- flatten_call.cpp 1266–1271: the values of the parameters are the arguments, from the last to the first. -/
def bindParams : List Param → List Atom → S → S
  | (x, _) :: ps, a :: vs, s => setS (bindParams ps vs s) x a
  | _, _, s => s

/-- flatten_call.cpp 1344–1348: the previous values of the parameters. -/
def unbind (fl : Nat → Atom) : List Param → S → S
  | (x, _) :: ps, s => setS (unbind fl ps s) x (fl x)
  | [], s => s

/-- flatten_call.cpp 1318–1335: the domain of the result. -/
def retDom (root : Bool) (d : Option (List Int)) (r : Atom) (s : S) : S × List Atom :=
  match d with
  | none => (s, [])
  | some d => let m := outS root s (.mem r d); (m.1, [m.2])

/-- `EnvI::cseMapFind`. -/
def find {α : Type} (k : Nat × List Atom) : List ((Nat × List Atom) × α) → Option α
  | [] => none
  | (k', v) :: r => if k' = k then some v else find k r

/-- The conjunction of the definedness of the arguments and the conditions of the call, and what is stored for common subexpressions. The
code stores the former (`fix = false`); with `fix = true`, a repair, only the conditions of the call are stored. -/
def result (fix root : Bool) (s : S) (bs cs : List Atom) : (S × Atom) × Atom :=
  if fix then
    let k := conjS root s cs
    (conjS root k.1 (bs ++ [k.2]), k.2)
  else
    let c := conjS root s (bs ++ cs)
    (c, c.2)

/-- flatten_call.cpp 1092–1360 for a function, with at most `n` nested calls. -/
def callI (fix : Bool) (G : Prog) : Nat → HI
  | 0, _, _, _, _, _ => none
  | n + 1, root, f, vs, bs, s =>
    match G.ifuns[f]? with
    | none => none
    | some F =>
      if F.params.length ≠ vs.length then none
      else
        match find (f, vs) s.cse with
        | some (r, b) =>
          -- 1092–1109
          let c := conjS root s (bs ++ [b])
          some (c.1, r, c.2)
        | none =>
          let (s1, ds) := paramDoms root F.params vs s
          let s2 := bindParams F.params vs s1
          match flatI (callI fix G n) (root || F.total) F.body s2 with
          | none => none
          | some (s3, r, b) =>
            -- 1293–1339
            let (s4, cs) := if F.total then (s3, []) else
              let q := retDom root F.dom r s3
              (q.1, b :: q.2)
            let (c, k) := result fix root s4 bs (ds ++ cs)
            let s5 := { c.1 with cse := ((f, vs), r, k) :: c.1.cse }
            some (unbind s.st.fl F.params s5, r, c.2)

/-- Likewise for a predicate. -/
def callP (fix : Bool) (G : Prog) : Nat → HP
  | 0, _, _, _, _, _ => none
  | n + 1, root, p, vs, bs, s =>
    match G.pfuns[p]? with
    | none => none
    | some F =>
      if F.params.length ≠ vs.length then none
      else
        match find (p, vs) s.cseP with
        | some a => some (conjS root s (bs ++ [a]))
        | none =>
          let (s1, ds) := paramDoms root F.params vs s
          let s2 := bindParams F.params vs s1
          match flatB (callI fix G n) (callP fix G n) root F.body s2 with
          | none => none
          | some (s3, a) =>
            -- 1273–1286
            let (c, k) := result fix root s3 bs (ds ++ [a])
            let s5 := { c.1 with cseP := ((p, vs), k) :: c.1.cseP }
            some (unbind s.st.fl F.params s5, c.2)

/-- The flat model before a constraint is flattened: `n` variables of the model. -/
def start (n : Nat) : S := ⟨⟨List.replicate n .glob, [], fun x => if x < n then .var x else .lit 0⟩, [], []⟩

/-- A list of constraints, each in root context. -/
def flatAll (fix : Bool) (G : Prog) (n : Nat) : List BE → S → Option S
  | [], s => some s
  | e :: es, s =>
    match flatB (callI fix G n) (callP fix G n) true e s with
    | none => none
    | some (s1, _) => flatAll fix G n es s1

end Call
end MZ
