import Verif.Geas.Model
import Mathlib.Data.Int.Notation
import Mathlib.Data.List.Basic

/-!
# What the constraints mean

The meaning of the solver's functions (the solver itself is trusted to implement it), and of the arguments of FlatZinc constraints.
-/

namespace MZ
namespace Geas

/-- The value of an integer expression of the solver. -/
def IVar.val (a : Asg) : IVar → Int
  | .var x => a.iv x
  | .const c => c
  | .neg v => -(v.val a)

/-- The truth of an atom. -/
def Atom.holds (a : Asg) : Atom → Prop
  | .tt => True
  | .ff => False
  | .b x => a.bv x = true
  | .eq v c => v.val a = c
  | .ne v c => v.val a ≠ c
  | .le v c => v.val a ≤ c
  | .ge v c => c ≤ v.val a
  | .not l => ¬ l.holds a

/-- `Σ kᵢ · vᵢ` -/
def dot (ks vs : List Int) : Int := (List.zipWith (· * ·) ks vs).sum

open Classical in
/-- 1 or 0. -/
noncomputable def ind (p : Prop) : Int := if p then 1 else 0

/-- Tasks at the times `s` with the durations `d` use `r` of a resource; at no time is more than `b` used. -/
def Cumulative (s d r : List Int) (b : Int) : Prop :=
  ∀ t : Int, ((List.zip s (List.zip d r)).map (fun q => if q.1 ≤ t ∧ t < q.1 + q.2.1 then q.2.2 else 0)).sum ≤ b

/-- Tasks at the times `s` with the durations `d` do not overlap. -/
def Disjunctive (s d : List Int) : Prop :=
  (List.zip s d).Pairwise (fun p q => p.1 + p.2 ≤ q.1 ∨ q.1 + q.2 ≤ p.1)

/-- `v` is the element at `i`, counted from 1. -/
def IsElement {α} (l : List α) (i : Int) (v : α) : Prop := ∃ j : Nat, i = j + 1 ∧ l[j]? = some v

/-- What a call of one of the solver's functions enforces. -/
def Post.holds (a : Asg) : Post → Prop
  | .int_eq x y r => r.holds a → x.val a = y.val a
  | .int_ne x y r => r.holds a → x.val a ≠ y.val a
  | .int_le x y k r => r.holds a → x.val a ≤ y.val a + k
  | .int_abs z x => z.val a = ((x.val a).natAbs : Int)
  | .int_mul z x y => z.val a = x.val a * y.val a
  | .int_div z x y => y.val a ≠ 0 ∧ z.val a = (x.val a).tdiv (y.val a)
  | .int_max z xs => z.val a ∈ xs.map (IVar.val a) ∧ ∀ v ∈ xs.map (IVar.val a), v ≤ z.val a
  | .linear_le ks xs k r => r.holds a → dot ks (xs.map (IVar.val a)) ≤ k
  | .linear_ne ks xs k r => r.holds a → dot ks (xs.map (IVar.val a)) ≠ k
  | .clause ls => ∃ l ∈ ls, l.holds a
  | .bool_linear_le r z ks xs k => r.holds a → z.val a ≤ dot ks (xs.map (fun x => ind (x.holds a))) + k
  | .bool_linear_ge r z ks xs k => r.holds a → dot ks (xs.map (fun x => ind (x.holds a))) + k ≤ z.val a
  | .bool_linear_ne ks xs k r => r.holds a → dot ks (xs.map (fun x => ind (x.holds a))) ≠ k
  | .int_element z i vs => IsElement vs (i.val a) (z.val a)
  | .var_int_element z i vs => IsElement (vs.map (IVar.val a)) (i.val a) (z.val a)
  | .all_different xs => (xs.map (IVar.val a)).Pairwise (· ≠ ·)
  | .all_different_except_0 xs => (xs.map (IVar.val a)).Pairwise (fun v w => v = 0 ∨ w = 0 ∨ v ≠ w)
  | .atmost ls k => (ls.map (fun l => ind (l.holds a))).sum ≤ k
  | .cumulative s d r b => Cumulative (s.map (IVar.val a)) d r b
  | .cumulative_var s d r b => Cumulative (s.map (IVar.val a)) (d.map (IVar.val a)) (r.map (IVar.val a)) (b.val a)
  | .disjunctive s d => Disjunctive (s.map (IVar.val a)) d
  | .disjunctive_var s d => Disjunctive (s.map (IVar.val a)) (d.map (IVar.val a))
  | .flow srcs sinks flows =>
    (∀ i k, srcs[i]? = some k → ((flows.filter (fun f => f.1 = i)).map (fun f => ind (f.2.2.holds a))).sum = k) ∧
    (∀ j k, sinks[j]? = some k → ((flows.filter (fun f => f.2.1 = j)).map (fun f => ind (f.2.2.holds a))).sum = k)
  | .table rows xs => xs.map (IVar.val a) ∈ rows

/-! ## Arguments of FlatZinc constraints -/

/-- An integer literal or variable. -/
def Arg.IsInt : Arg → Prop
  | .int _ => True
  | .ivar _ => True
  | _ => False

/-- A Boolean literal or variable. -/
def Arg.IsBool : Arg → Prop
  | .bool _ => True
  | .bvar _ => True
  | _ => False

/-- The value of an integer argument. -/
def Arg.int! (a : Asg) : Arg → Int
  | .int c => c
  | .ivar x => a.iv x
  | _ => 0

/-- The value of a Boolean argument. -/
def Arg.bool! (a : Asg) : Arg → Bool
  | .bool b => b
  | .bvar x => a.bv x
  | _ => false

/-- The values of integer arguments. -/
def ints! (a : Asg) (l : List Arg) : List Int := l.map (Arg.int! a)

/-- The values of Boolean arguments. -/
def bools! (a : Asg) (l : List Arg) : List Bool := l.map (Arg.bool! a)

/-- 1 or 0 for each Boolean. -/
def numbers (l : List Bool) : List Int := l.map (fun b => if b then 1 else 0)

/-- `-2^31 < c < 2^31` -/
def Small (c : Int) : Prop := -2 ^ 31 < c ∧ c < 2 ^ 31

/-- A constant integer array. -/
def consts (ks : List Int) : Param := .arr false (ks.map Arg.int)

/-- An array whose type is `array of var`, or that has only literals. -/
def Typed (v : Bool) (l : List Arg) : Prop := v = false → ∀ e ∈ l, e.isPar = true

/-- The constraint is accepted, and what is posted to the solver means `P`. -/
def Posts (inDom : IVar → Int → Bool) (name : String) (c : Call) (P : Asg → Prop) : Prop :=
  ∃ ps, post inDom name c = .ok ps ∧ ∀ a, (∀ p ∈ ps, p.holds a) ↔ P a

/-- The same for the values of the variables that satisfy `D`. -/
def PostsIn (D : Asg → Prop) (inDom : IVar → Int → Bool) (name : String) (c : Call) (P : Asg → Prop) : Prop :=
  ∃ ps, post inDom name c = .ok ps ∧ ∀ a, D a → ((∀ p ∈ ps, p.holds a) ↔ P a)

/-! ## Runs of the solver -/

/-- The value of an output variable. -/
def OutVar.same (a b : Asg) : OutVar → Prop
  | .i x => a.iv x = b.iv x
  | .b x => a.bv x = b.bv x

/-- Two assignments print the same. -/
def SameOut (outs : List OutVar) (a b : Asg) : Prop := ∀ o ∈ outs, o.same a b

/-- The answers of a correct solver for the problem `C`, when each solution is then excluded. -/
def Correct (outs : List OutVar) : (Asg → Prop) → List Ans → Prop
  | _, [] => True
  | _, .timeout :: _ => True
  | _, .unknown :: _ => True
  | C, .unsat :: _ => ∀ a, ¬ C a
  | C, .sat m fails :: as =>
    C m ∧ (fails = true → ∀ a, C a → SameOut outs a m) ∧ Correct outs (fun a => C a ∧ ∃ l ∈ nogood outs m, l.holds a) as

/-- The answers of a correct solver while it minimises `obj`: after a solution better ones are asked for; with `limit`, the answers after a
solution with the value `v` are for the values that `probeValue` gives, for some lower bound that `v` respects, until one of these fails. -/
def CorrectOpt (limit : Bool) (obj : Asg → Int) : (Asg → Prop) → Option (Int × Nat) → List OAns → Prop
  | _, _, [] => True
  | C, none, .sat m :: as =>
    C m ∧ (if limit then CorrectOpt limit obj C (some (obj m, 1)) as else CorrectOpt limit obj (fun a => C a ∧ obj a < obj m) none as)
  | C, none, .unsat :: _ => ∀ a, ¬ C a
  | _, none, .unknown :: _ => True
  | _, none, .refused :: _ => False
  | C, some (v, step), .sat m :: as =>
    C m ∧ (∃ lb ≤ v, obj m = probeValue lb v step) ∧ CorrectOpt limit obj C (some (obj m, step * 2)) as
  | C, some (v, _), _ :: as => CorrectOpt limit obj (fun a => C a ∧ obj a < v) none as

end Geas
end MZ
