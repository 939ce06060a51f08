import Mathlib.Algebra.Order.Field.Rat
import Mathlib.Algebra.BigOperators.Group.List.Basic

/-! # What the domain constraints on integer variables mean

An assignment gives every variable of the program an integer.  The constraints below are those that the library for linear
solvers leaves to the compiler (`share/minizinc/linear/redefinitions.mzn`, the predicates with names ending in `__POST`). -/

namespace MZ.Mip

/-- A range of integers; `none` is no bound. -/
structure IRange where
  lo : Option Int
  hi : Option Int
deriving DecidableEq

/-- The range contains the integer. -/
def IRange.has (r : IRange) (v : Int) : Prop := (∀ a ∈ r.lo, a ≤ v) ∧ ∀ b ∈ r.hi, v ≤ b

/-- The union of the ranges contains the integer. -/
def InSet (S : List IRange) (v : Int) : Prop := ∃ r ∈ S, r.has v

/-- A constraint on a variable: `f <-> x <= c`, `f <-> x >= c`, `f <-> x = c`, `x != c`, `x in S`, `f <-> x in S`. -/
inductive Post where
  | leReif (c : Int) (f : Nat)
  | geReif (c : Int) (f : Nat)
  | eqReif (c : Int) (f : Nat)
  | ne (c : Int)
  | setIn (S : List IRange)
  | setInReif (S : List IRange) (f : Nat)

/-- The constraint holds of the value `v`; the flags are integer variables. -/
def Post.Holds (σ : Nat → Int) (v : Int) : Post → Prop
  | .leReif c f => σ f = 1 ↔ v ≤ c
  | .geReif c f => σ f = 1 ↔ c ≤ v
  | .eqReif c f => σ f = 1 ↔ v = c
  | .ne c => v ≠ c
  | .setIn S => InSet S v
  | .setInReif S f => σ f = 1 ↔ InSet S v

/-- The flag of a constraint. -/
def Post.flag? : Post → Option Nat
  | .leReif _ f | .geReif _ f | .eqReif _ f | .setInReif _ f => some f
  | _ => none

/-- The set of a constraint. -/
def Post.set? : Post → Option (List IRange)
  | .setIn S | .setInReif S _ => some S
  | _ => none

/-- A variable with its constraints, and its relation `ref = A * var + B` to the variable all others of the same group are
related to. -/
structure View where
  var : Nat
  A : ℚ
  B : ℚ
  posts : List Post

/-- The domains of the variables, `none` for a variable without one. -/
abbrev Doms := Nat → Option (List IRange)

/-- All variables take values of their domains. -/
def Doms.Sat (dom : Doms) (σ : Nat → Int) : Prop := ∀ x, ∀ S ∈ dom x, InSet S (σ x)

/-- The linear equations that relate the variables hold. -/
def Linked (views : List View) (ref : Nat) (σ : Nat → Int) : Prop := ∀ w ∈ views, (σ ref : ℚ) = w.A * σ w.var + w.B

/-- All the constraints hold. -/
def PostsHold (views : List View) (σ : Nat → Int) : Prop := ∀ w ∈ views, ∀ p ∈ w.posts, p.Holds σ (σ w.var)

/-! ## The linear constraints that replace them -/

/-- An argument of a linear constraint: a variable of the program, a new 0-1 variable or a constant. -/
inductive Arg where
  | var (x : Nat)
  | flag (i : Nat)
  | const (k : Int)
deriving DecidableEq

/-- The value of an argument; `z` are the values of the new variables. -/
def Arg.val (σ : Nat → Int) (z : Nat → Int) : Arg → Int
  | .var x => σ x
  | .flag i => z i
  | .const k => k

/-- `sum(c_i * x_i) = rhs` or `sum(c_i * x_i) <= rhs`. -/
structure Lin where
  terms : List (Int × Arg)
  eq : Bool
  rhs : Int
deriving DecidableEq

/-- The linear constraint holds. -/
def Lin.Holds (σ z : Nat → Int) (l : Lin) : Prop :=
  if l.eq then (l.terms.map fun t => t.1 * t.2.val σ z).sum = l.rhs else (l.terms.map fun t => t.1 * t.2.val σ z).sum ≤ l.rhs

/-- The new variables are 0 or 1, and all the linear constraints hold. -/
def LinSat (n : Nat) (outs : List Lin) (σ z : Nat → Int) : Prop :=
  (∀ i < n, z i = 0 ∨ z i = 1) ∧ ∀ l ∈ outs, l.Holds σ z

/-- The flags of an equality encoding that starts at `iMin`: flag number `k` is 1 exactly if the variable is `iMin + k`, which
is so for one of them. -/
def EncHolds (ref : Nat) (enc : Option (Int × List Arg)) (σ : Nat → Int) : Prop :=
  ∀ e ∈ enc, (∀ k (h : k < e.2.length), (e.2[k]'h).val σ (fun _ => 0) = if σ ref = e.1 + k then 1 else 0) ∧
    e.1 ≤ σ ref ∧ σ ref < e.1 + e.2.length

end MZ.Mip
