import Verif.Call.Model
/-!
# The meaning of calls

A functional semantics: the parameters of a function have the values of the arguments, nothing is changed in place. `none` is "no result
with `n` nested calls", `some none` is "undefined".
-/
namespace MZ
namespace Call
open BoolFlat (Cmp)

/-- The values of declarations with another value for `x`. -/
def upd (η : Nat → Int) (x : Nat) (v : Int) : Nat → Int := fun y => if y = x then v else η y

/-- Parameter expressions. -/
def PE.val (η : Nat → Int) : PE → Int
  | .lit v => v
  | .var x => η x
  | .add s t => s.val η + t.val η
  | .sub s t => s.val η - t.val η

/-- An operation on two values: undefined if one of them is. -/
def both {α β γ : Type} (f : α → β → Option γ) : Option (Option α) → Option (Option β) → Option (Option γ)
  | some (some a), some (some b) => some (f a b)
  | some _, some _ => some none
  | _, _ => none

mutual
/-- The value of an integer expression; `A` is the meaning of functions. -/
def IE.val (A : Nat → List Int → Option (Option Int)) (η : Nat → Int) : IE → Option (Option Int)
  | .lit v => some (some v)
  | .var x => some (some (η x))
  | .par p => some (some (p.val η))
  | .add s t => both (fun a b => some (a + b)) (s.val A η) (t.val A η)
  | .div s t => both (fun a b => if b = 0 then none else some (a.tdiv b)) (s.val A η) (t.val A η)
  | .ite o p q s t => if o.holds (p.val η) (q.val η) then s.val A η else t.val A η
  | .let_ x s t =>
    match s.val A η with
    | some (some v) => t.val A (upd η x v)
    | o => o
  | .call f as =>
    match as.val A η with
    | some (some vs) => A f vs
    | some none => some none
    | none => none
/-- The values of arguments. -/
def Args.val (A : Nat → List Int → Option (Option Int)) (η : Nat → Int) : Args → Option (Option (List Int))
  | .nil => some (some [])
  | .cons t r => both (fun a l => some (a :: l)) (t.val A η) (r.val A η)
end

/-- The truth of a Boolean expression: a comparison with an undefined side and a call with an undefined argument are false. -/
def BE.val (A : Nat → List Int → Option (Option Int)) (P : Nat → List Int → Option Bool) (η : Nat → Int) : BE → Option Bool
  | .cmp o s t =>
    match s.val A η, t.val A η with
    | some (some a), some (some b) => some (o.holds a b)
    | some _, some _ => some false
    | _, _ => none
  | .not e => (e.val A P η).map (!·)
  | .and x y =>
    match x.val A P η, y.val A P η with
    | some a, some b => some (a && b)
    | _, _ => none
  | .or x y =>
    match x.val A P η, y.val A P η with
    | some a, some b => some (a || b)
    | _, _ => none
  | .ite o p q x y => if o.holds (p.val η) (q.val η) then x.val A P η else y.val A P η
  | .call p as =>
    match as.val A η with
    | some (some vs) => P p vs
    | some none => some false
    | none => none

/-- A value is in a domain. -/
def inDom (v : Int) : Option (List Int) → Bool
  | none => true
  | some d => decide (v ∈ d)

/-- The arguments are in the domains of the parameters. -/
def inDoms : List Param → List Int → Bool
  | p :: ps, v :: vs => inDom v p.2 && inDoms ps vs
  | _, _ => true

/-- The parameters have the values of the arguments. -/
def bind (g : Nat → Int) : List Param → List Int → Nat → Int
  | p :: ps, v :: vs => upd (bind g ps vs) p.1 v
  | _, _ => g

/-- The meaning of functions, with at most `n` nested calls; `g` gives the values of the variables of the model. The result is undefined if
an argument or the result is not in its domain. -/
def Prog.fn (G : Prog) (g : Nat → Int) : Nat → Nat → List Int → Option (Option Int)
  | 0, _, _ => none
  | n + 1, f, vs =>
    match G.ifuns[f]? with
    | none => none
    | some F =>
      if F.params.length ≠ vs.length then none
      else
        match F.body.val (G.fn g n) (bind g F.params vs) with
        | none => none
        | some o => some (if inDoms F.params vs then o.bind fun v => if inDom v F.dom then some v else none else none)

/-- The meaning of predicates. -/
def Prog.pr (G : Prog) (g : Nat → Int) : Nat → Nat → List Int → Option Bool
  | 0, _, _ => none
  | n + 1, p, vs =>
    match G.pfuns[p]? with
    | none => none
    | some F =>
      if F.params.length ≠ vs.length then none
      else
        match F.body.val (G.fn g n) (G.pr g n) (bind g F.params vs) with
        | none => none
        | some b => some (inDoms F.params vs && b)

/-- The values of the variables of the model, of which there are `n`; other declarations do not have a value outside of calls (0 here). -/
def gl (n : Nat) (σ : Nat → Int) : Nat → Int := fun x => if x < n then σ x else 0

/-- A constraint is true for the values `g` of the `n` variables of the model: with some number of nested calls (C72_meaning: more calls do
not change the result). -/
def Prog.True (G : Prog) (n : Nat) (g : Nat → Int) (e : BE) : Prop := ∃ k, e.val (G.fn (gl n g) k) (G.pr (gl n g) k) (gl n g) = some true

/-! ## Well-formed programs -/

/-- The declarations that a parameter expression mentions are in `X`. -/
def PE.In (X : Nat → Prop) : PE → Prop
  | .lit _ => True
  | .var x => X x
  | .add s t => s.In X ∧ t.In X
  | .sub s t => s.In X ∧ t.In X

mutual
/-- Identifiers are in scope; locals are not variables of the model (of which there are `n`). -/
def IE.In (n : Nat) (X : Nat → Prop) : IE → Prop
  | .lit _ => True
  | .var x => X x
  | .par p => p.In X
  | .add s t => s.In n X ∧ t.In n X
  | .div s t => s.In n X ∧ t.In n X
  | .ite _ p q s t => p.In X ∧ q.In X ∧ s.In n X ∧ t.In n X
  | .let_ x s t => n ≤ x ∧ s.In n X ∧ t.In n (fun y => y = x ∨ X y)
  | .call _ as => as.In n X
/-- Likewise. -/
def Args.In (n : Nat) (X : Nat → Prop) : Args → Prop
  | .nil => True
  | .cons t r => t.In n X ∧ r.In n X
end

/-- Likewise. -/
def BE.In (n : Nat) (X : Nat → Prop) : BE → Prop
  | .cmp _ s t => s.In n X ∧ t.In n X
  | .not e => e.In n X
  | .and x y => x.In n X ∧ y.In n X
  | .or x y => x.In n X ∧ y.In n X
  | .ite _ p q x y => p.In X ∧ q.In X ∧ x.In n X ∧ y.In n X
  | .call _ as => as.In n X

mutual
/-- Expressions that are defined for all values, by their form. -/
def IE.Tot : IE → Prop
  | .lit _ => True
  | .var _ => True
  | .par _ => True
  | .add s t => s.Tot ∧ t.Tot
  | .div _ _ => False
  | .ite _ _ _ s t => s.Tot ∧ t.Tot
  | .let_ _ s t => s.Tot ∧ t.Tot
  | .call _ _ => False
/-- Likewise. -/
def Args.Tot : Args → Prop
  | .nil => True
  | .cons t r => t.Tot ∧ r.Tot
end

mutual
/-- The arguments of all calls are defined for all values, by their form. -/
def IE.TotArgs : IE → Prop
  | .lit _ => True
  | .var _ => True
  | .par _ => True
  | .add s t => s.TotArgs ∧ t.TotArgs
  | .div s t => s.TotArgs ∧ t.TotArgs
  | .ite _ _ _ s t => s.TotArgs ∧ t.TotArgs
  | .let_ _ s t => s.TotArgs ∧ t.TotArgs
  | .call _ as => as.Tot ∧ as.TotArgs
/-- Likewise. -/
def Args.TotArgs : Args → Prop
  | .nil => True
  | .cons t r => t.TotArgs ∧ r.TotArgs
end

/-- Likewise. -/
def BE.TotArgs : BE → Prop
  | .cmp _ s t => s.TotArgs ∧ t.TotArgs
  | .not e => e.TotArgs
  | .and x y => x.TotArgs ∧ y.TotArgs
  | .or x y => x.TotArgs ∧ y.TotArgs
  | .ite _ _ _ x y => x.TotArgs ∧ y.TotArgs
  | .call _ as => as.Tot ∧ as.TotArgs

/-- The body of a function mentions its parameters and the variables of the model. -/
def Scope (n : Nat) (ps : List Param) (x : Nat) : Prop := x < n ∨ x ∈ ps.map (·.1)

/-- A program: parameters of a function are not variables of the model, bodies mention what is in scope, and functions with
`promise_total` have a result in their domain for all arguments. -/
structure Prog.Fine (n : Nat) (G : Prog) : Prop where
  inames : ∀ F ∈ G.ifuns, ∀ x ∈ F.params.map (·.1), n ≤ x
  pnames : ∀ F ∈ G.pfuns, ∀ x ∈ F.params.map (·.1), n ≤ x
  ibody : ∀ F ∈ G.ifuns, F.body.In n (Scope n F.params)
  pbody : ∀ F ∈ G.pfuns, F.body.In n (Scope n F.params)
  total : ∀ F ∈ G.ifuns, F.total = true → ∀ g vs, F.params.length = vs.length →
    ∃ m v, F.body.val (G.fn g m) (bind g F.params vs) = some (some v) ∧ inDom v F.dom = true

/-- The arguments of all calls in the bodies of functions are defined for all values, by their form. -/
def Prog.TotArgs (G : Prog) : Prop := (∀ F ∈ G.ifuns, F.body.TotArgs) ∧ ∀ F ∈ G.pfuns, F.body.TotArgs

end Call
end MZ
