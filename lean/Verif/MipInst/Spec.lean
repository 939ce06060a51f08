import Verif.MipInst.Model
import Mathlib.Algebra.BigOperators.Group.Finset.Basic

/-!
# What FlatZinc and mixed integer programs mean

The meaning of declarations and constraints of FlatZinc, and what is trusted about the solvers: which assignments of values to columns satisfy
the columns, rows and general constraints of a problem.
-/

namespace MZ
namespace MipInst

/-! ## FlatZinc -/

/-- The value of an argument. -/
def Arg.value (σ : Nat → Rat) : Arg → Rat
  | .var n => σ n
  | .lit v => v

/-- A variable has a value of its type and domain, and the value it is defined by. -/
structure Decl.Holds (σ : Nat → Rat) (d : Decl) : Prop where
  int : d.ty = .int → ∃ z : Int, σ d.id = z
  bool : d.ty = .binary → σ d.id = 0 ∨ σ d.id = 1
  dom : ∀ l, d.dom = some l → ∃ r ∈ l, r.1 ≤ σ d.id ∧ σ d.id ≤ r.2
  rhs : ∀ a, d.rhs = some a → σ d.id = a.value σ

/-- Values of arguments of constraints. -/
inductive V where
  | one (v : Rat)
  | arr (l : List Rat)

/-- The values of an argument. -/
def Val.value (σ : Nat → Rat) : Val → V
  | .one a => .one (a.value σ)
  | .arr l => .arr (l.map (Arg.value σ))

/-- The scalar product. -/
def dot (c x : List Rat) : Rat := ((c.zip x).map (fun p => p.1 * p.2)).sum

/-- At every time the demands of the tasks that run are at most the capacity; a task is its start, duration and demand. -/
def Cumulative (l : List (Rat × Rat × Rat)) (b : Rat) : Prop :=
  ∀ t, ((l.filter (fun p => decide (p.1 ≤ t ∧ t < p.1 + p.2.1))).map (fun p => p.2.2)).sum ≤ b

/-- Lexicographic order of sequences of the same length, given as pairs. -/
def LexLe : List (Rat × Rat) → Prop
  | [] => True
  | (a, b) :: l => a < b ∨ a = b ∧ LexLe l

/-- The columns of a matrix of `m` rows and `n` columns, given row by row, are in lexicographic order; for kind 1 every row sums to 1, for kind 2 to
at most 1. -/
def Orbitope (m n : Nat) (v : List Rat) (kind : Int) : Prop :=
  (∀ j, j + 1 < n → LexLe ((List.range m).map (fun i => (v.getD (i * n + j) 0, v.getD (i * n + (j + 1)) 0)))) ∧
  (kind = 1 → ∀ i < m, ((List.range n).map (fun j => v.getD (i * n + j) 0)).sum = 1) ∧
  (kind = 2 → ∀ i < m, ((List.range n).map (fun j => v.getD (i * n + j) 0)).sum ≤ 1)

/-- A bound: whether it is an upper bound, the bound, and the value. -/
def BoundOk (p : Rat × Rat × Rat) : Prop := (p.1 ≠ 0 → p.2.2 ≤ p.2.1) ∧ (p.1 = 0 → p.2.1 ≤ p.2.2)

/-- A value is the least of an array. -/
def Least (r : Rat) (l : List Rat) : Prop := r ∈ l ∧ ∀ v ∈ l, r ≤ v

/-- `a = b` -/
def Equal : List V → Prop
  | [.one a, .one b] => a = b
  | _ => False

/-- `a ≤ b` -/
def LessEq : List V → Prop
  | [.one a, .one b] => a ≤ b
  | _ => False

/-- `sum(c * x) = r` -/
def LinEq : List V → Prop
  | [.arr c, .arr x, .one r] => dot c x = r
  | _ => False

/-- `sum(c * x) ≤ r` -/
def LinLe : List V → Prop
  | [.arr c, .arr x, .one r] => dot c x ≤ r
  | _ => False

/-- `b = 0 -> x ≤ 0` -/
def Le0If0 : List V → Prop
  | [.one x, .one b] => b = 0 → x ≤ 0
  | _ => False

/-- `b = 1 -> x = y` -/
def EqIf1 : List V → Prop
  | [.one x, .one y, .one b] => b = 1 → x = y
  | _ => False

/-- What a constraint of FlatZinc means. -/
def Sem : String → List V → Prop
  | "int2float", a => Equal a
  | "bool_eq", a => Equal a
  | "int_eq", a => Equal a
  | "float_eq", a => Equal a
  | "int_le", a => LessEq a
  | "float_le", a => LessEq a
  | "int_lin_eq", a => LinEq a
  | "float_lin_eq", a => LinEq a
  | "int_lin_le", a => LinLe a
  | "float_lin_le", a => LinLe a
  | "aux_int_le_zero_if_0__IND", a => Le0If0 a
  | "aux_float_le_zero_if_0__IND", a => Le0If0 a
  | "aux_float_eq_if_1__IND", a => EqIf1 a
  | "fzn_cumulative_fixed_d_r", [.arr s, .arr d, .arr r, .one b] => Cumulative (s.zip (d.zip r)) b
  | "fzn_lex_lesseq__orbisack", [.arr a, .arr b, .one _] => LexLe (a.zip b)
  | "fzn_lex_chain_lesseq__orbitope", [.arr x, .one m, .one k, .one _, .one _] => Orbitope ⌊m⌋.toNat (x.length / ⌊m⌋.toNat) x ⌊k⌋
  | "bounds_disj", [.arr u, .arr b, .arr x, .arr uF, .arr bF, .arr xF] =>
    ∃ p ∈ u.zip (b.zip x) ++ uF.zip (bF.zip xF), BoundOk p
  | "fzn_array_float_minimum", [.one r, .arr x] => Least r x
  | "fzn_int_times", [.one x, .one y, .one z] => x * y = z
  | "fzn_float_times", [.one x, .one y, .one z] => x * y = z
  | _, _ => False

/-- A constraint holds. -/
def Call.Holds (σ : Nat → Rat) (c : Call) : Prop := Sem c.name (c.args.map (Val.value σ))

/-! ## Mixed integer programs -/

/-- The value of a linear expression. -/
def evalTerms (x : Nat → Rat) (l : List (Nat × Rat)) : Rat := (l.map (fun t => t.2 * x t.1)).sum

/-- Comparisons. -/
def Sense.Rel : Sense → Rat → Rat → Prop
  | .lq, a, b => a ≤ b
  | .eq, a, b => a = b
  | .gq, a, b => b ≤ a

/-- A value is possible for a column; bounds beyond `inf` are no bounds. -/
structure Col.Ok (inf : Rat) (c : Col) (v : Rat) : Prop where
  lb : -inf < c.lb → c.lb ≤ v
  ub : c.ub < inf → v ≤ c.ub
  int : c.ty = .int → ∃ z : Int, v = z
  binary : c.ty = .binary → v = 0 ∨ v = 1

/-- A row is satisfied; the solver need not enforce user cuts. -/
def Row.Ok (x : Nat → Rat) (r : Row) : Prop := r.mask = 2 ∨ r.sense.Rel (evalTerms x r.terms) r.rhs

/-- What the other constraints enforce. -/
def Gen.Ok (x : Nat → Rat) : Gen → Prop
  | .indicator b v ts s rhs => x b = v → s.Rel (evalTerms x ts) rhs
  | .minimum r l => Least (x r) (l.map x)
  | .times a b c => x a * x b = x c
  | .boundsDisj l lF => ∃ p ∈ l ++ lF, BoundOk (p.1, p.2.1, x p.2.2)
  | .cumulative l b => Cumulative (l.map (fun p => (x p.1, p.2))) b
  | .lexLesseq l _ => LexLe (l.map (fun p => (x p.1, x p.2)))
  | .lexChain m n l k _ _ => Orbitope m.toNat n.toNat (l.map x) k

/-- The solutions of a problem that was not found to be infeasible. -/
structure Mip.Feasible (inf : Rat) (m : Mip) (x : Nat → Rat) : Prop where
  sat : m.unsat = false
  cols : ∀ (j : Nat) (c : Col), m.cols[j]? = some c → c.Ok inf (x j)
  rows : ∀ r ∈ m.rows, r.Ok x
  gens : ∀ g ∈ m.gens, g.Ok x

/-- The objective function. -/
def Mip.objective (m : Mip) (x : Nat → Rat) : Rat := ∑ j ∈ Finset.range m.cols.length, ((m.cols[j]?.map Col.obj).getD 0) * x j

/-- The values of the variables, from the values of the columns. -/
def Mip.values (m : Mip) (x : Nat → Rat) (n : Nat) : Rat := (m.names n).elim 0 x

/-! ## The problems that are covered -/

/-- A number within the range that solvers distinguish from infinity. -/
def Within (inf v : Rat) : Prop := -inf < v ∧ v < inf

/-- Declarations in order: definitions refer to earlier variables of the same type, domains are ranges, Booleans have no domain. -/
structure WellFormed (inf : Rat) (ds : List Decl) : Prop where
  big : 1 < inf
  ids : (ds.map Decl.id).Nodup
  earlier : ∀ l d r, ds = l ++ d :: r → ∀ x, d.rhs = some (.var x) → ∃ e ∈ l, e.id = x ∧ e.ty = d.ty
  lits : ∀ d ∈ ds, ∀ v, d.rhs = some (.lit v) → Within inf v
  doms : ∀ d ∈ ds, ∀ l, d.dom = some l → d.ty ≠ .binary ∧ l.length ≤ 1 ∧ ∀ r ∈ l, Within inf r.1 ∧ Within inf r.2

/-- An integer. -/
def Integral (v : Rat) : Prop := ∃ z : Int, v = z

/-- Calls with arguments of the right form.  Rows without variables have integers, so that the tolerance does not matter; flags of indicator
constraints are variables, or all arguments are known. -/
inductive Usual : String → List Val → Prop
  | lin (name) (h : name ∈ ["int_lin_eq", "int_lin_le", "float_lin_eq", "float_lin_le"]) (cs : List Rat) (xs : List Arg) (r : Rat)
      (hl : cs.length = xs.length)
      (hs : (∃ n, .var n ∈ xs) ∨ (∀ v ∈ cs, Integral v) ∧ (∀ v, .lit v ∈ xs → Integral v) ∧ Integral r) :
      Usual name [.arr (cs.map .lit), .arr xs, .one (.lit r)]
  | cmp (name) (h : name ∈ ["int2float", "bool_eq", "int_eq", "int_le", "float_eq", "float_le"]) (a b : Arg)
      (hs : (∃ n, a = .var n ∨ b = .var n) ∨ ∀ v, a = .lit v ∨ b = .lit v → Integral v) : Usual name [.one a, .one b]
  | indicator (name) (h : name ∈ ["aux_int_le_zero_if_0__IND", "aux_float_le_zero_if_0__IND"]) (x b : Nat) :
      Usual name [.one (.var x), .one (.var b)]
  | indicatorKnown (name) (h : name ∈ ["aux_int_le_zero_if_0__IND", "aux_float_le_zero_if_0__IND"]) (v : Rat) (hv : Integral v) (b : Rat)
      (hb : b = 0 ∨ b = 1) : Usual name [.one (.lit v), .one (.lit b)]
  | eqIf1 (a b : Arg) (hs : ∃ n, a = .var n ∨ b = .var n) (f : Nat) : Usual "aux_float_eq_if_1__IND" [.one a, .one b, .one (.var f)]
  | cumulative (s : List Arg) (d r : List Rat) (b : Rat) (h₁ : s.length = d.length) (h₂ : s.length = r.length) :
      Usual "fzn_cumulative_fixed_d_r" [.arr s, .arr (d.map .lit), .arr (r.map .lit), .one (.lit b)]
  | lex (a b : List Arg) (t : Rat) (h : a.length = b.length) : Usual "fzn_lex_lesseq__orbisack" [.arr a, .arr b, .one (.lit t)]
  | chain (x : List Arg) (m n : Nat) (h : 0 < m) (hx : x.length = m * n) (k : Int) (p t : Rat) :
      Usual "fzn_lex_chain_lesseq__orbitope" [.arr x, .one (.lit m), .one (.lit k), .one (.lit p), .one (.lit t)]
  | disj (u b : List Rat) (x : List Arg) (uF bF : List Rat) (xF : List Arg) (h₁ : u.length = b.length) (h₂ : u.length = x.length)
      (h₃ : uF.length = bF.length) (h₄ : uF.length = xF.length) :
      Usual "bounds_disj" [.arr (u.map .lit), .arr (b.map .lit), .arr x, .arr (uF.map .lit), .arr (bF.map .lit), .arr xF]
  | minimum (r : Arg) (x : List Arg) : Usual "fzn_array_float_minimum" [.one r, .arr x]
  | times (name) (h : name ∈ ["fzn_int_times", "fzn_float_times"]) (x y z : Arg) : Usual name [.one x, .one y, .one z]

/-- The single arguments in the arguments of a call. -/
def Val.list : Val → List Arg
  | .one a => [a]
  | .arr l => l

/-- A constraint that is covered: usual arguments, declared variables, constants within range, and not only a user cut. -/
structure Covered (inf : Rat) (declared : Nat → Prop) (c : Call) : Prop where
  usual : Usual c.name c.args
  vars : ∀ v ∈ c.args, ∀ n, .var n ∈ v.list → declared n
  lits : ∀ v ∈ c.args, ∀ q, .lit q ∈ v.list → Within inf q
  enforced : c.userCut = true → c.isLazy = true

/-- The values of the variables satisfy all declarations and constraints. -/
def Solution (ds : List Decl) (cs : List Call) (σ : Nat → Rat) : Prop := (∀ d ∈ ds, d.Holds σ) ∧ ∀ c ∈ cs, c.Holds σ

/-! ## Answers -/

/-- What is trusted about the answer of a solver: solutions are feasible, optimal ones are at least as good as all feasible ones in the direction
it was given, and infeasible problems have no feasible values. -/
structure Correct (inf : Rat) (m : Mip) (dir : Int) (answer : Status) (x : Nat → Rat) : Prop where
  sat : answer = .sat → m.Feasible inf x
  opt : answer = .opt → m.Feasible inf x ∧ ∀ y, m.Feasible inf y → (dir = 1 → m.objective y ≤ m.objective x) ∧ (dir = -1 → m.objective x ≤ m.objective y)
  unsat : answer = .unsat → ∀ y, ¬ m.Feasible inf y

/-! ## Annotations -/

/-- The search annotations, in the order they are written. -/
def searches : List Ann → List (List Arg × String × String)
  | [] => []
  | .seq l :: r => searches l ++ searches r
  | .search xs a b :: r => (xs, a, b) :: searches r
  | _ :: r => searches r

/-- The warm starts, in the order they are written. -/
def warms : List Ann → List (List Arg × List Arg)
  | [] => []
  | .seq l :: r => warms l ++ warms r
  | .warm xs vs :: r => (xs, vs) :: warms r
  | _ :: r => warms r

/-- The column and the value at one position of a warm start. -/
def startAt (m : Mip) : Arg × Arg → Option (Nat × Rat)
  | (.var n, .lit v) => (m.names n).map (fun k => (k, v))
  | _ => none

end MipInst
end MZ
