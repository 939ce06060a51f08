import Verif.Domain.Model
import Verif.Dbl.Model
/-!
# Model: linear expressions in the flattener

`simplify_lin` and `LinearTraits<IntLit>::constructLinBuiltin`
(include/minizinc/flatten_internal.hh) and `flatten_linexp_binop<IntLit>`
(lib/flatten/flatten_binop.cpp 468–870).

Coefficients and constants are finite `IntVal`s, given by their value; their arithmetic is the
checked arithmetic of `Verif/IntVal/Model.lean`.
-/
namespace MZ
namespace Linear
open Domain (Cmp)

/-- The operands that occur in a linear expression after aliases have been followed
(flatten_internal.hh 922–935): an integer literal, an identifier with a number (`idn() != -1`), or
any other expression (identifier with a name, call, …), which is represented by its rank among such
expressions in `Expression::compare` (lib/ast.cpp 2069–2341; rank equality is
`Expression::equal`). -/
inductive Atom
  | lit (v : Int)
  | id (n : Nat)
  | other (rank : Nat)
deriving DecidableEq, Repr

/-- flatten_internal.hh 610–629 `CmpExpIdx::operator()`. `E_INTLIT` is the smallest expression id
(ast.hh 343–364), so literals come before all other expressions without a number. -/
def cmpExpIdx : Atom → Atom → Bool
  | .id i, .id j => decide (i < j)
  | .id _, _ => true
  | _, .id _ => false
  | .lit a, .lit b => decide (a < b)
  | .lit _, .other _ => true
  | .other _, .lit _ => false
  | .other i, .other j => decide (i < j)

/-- `v[i] = a`. -/
def upd (f : Nat → Int) (i : Nat) (a : Int) : Nat → Int := fun j => if j = i then a else f j

/-- `d += c * v` (flatten_internal.hh 940 and 951). -/
def addMul (d c v : Int) : Res Int := do
  let t ← safeMult c v
  safePlus d t

/-- flatten_internal.hh 937–945, the first loop: fold the literals at the front of the sorted
index. Returns the coefficients, the constant and the rest of the index. -/
def foldLits (x : Nat → Atom) : List Nat → (Nat → Int) → Int → Res ((Nat → Int) × Int × List Nat)
  | [], c, d => .ok (c, d, [])
  | i :: is, c, d =>
    match x i with
    | .lit v => do
      let d' ← addMul d (c i) v
      foldLits x is (upd c i 0) d'
    | _ => .ok (c, d, i :: is)

/-- flatten_internal.hh 946–956, the second loop: `cur` is `idx[ci]`. -/
def merge (x : Nat → Atom) : Nat → List Nat → (Nat → Int) → Int → Res ((Nat → Int) × Int)
  | _, [], c, d => .ok (c, d)
  | cur, i :: is, c, d =>
    if x i = x cur then do
      let s ← safePlus (c cur) (c i)
      merge x cur is (upd (upd c cur s) i 0) d
    else
      match x i with
      | .lit v => do
        let d' ← addMul d (c i) v
        merge x cur is (upd c i 0) d'
      | _ => merge x i is c d

/-- flatten_internal.hh 957–966: drop the zero coefficients. -/
def compact (n : Nat) (x : Nat → Atom) (c : Nat → Int) : List (Int × Atom) :=
  ((List.range n).filter (fun i => c i ≠ 0)).map (fun i => (c i, x i))

/-- flatten_internal.hh 919–967 `simplify_lin`, after the aliases have been followed. `idx` is the
index vector as left by `std::sort`. -/
def simplifyLinIdx (idx : List Nat) (ts : List (Int × Atom)) (d : Int) :
    Res (List (Int × Atom) × Int) :=
  let c : Nat → Int := fun i => (ts.getD i (0, .lit 0)).1
  let x : Nat → Atom := fun i => (ts.getD i (0, .lit 0)).2
  do
  let (c1, d1, rest) ← foldLits x idx c d
  match rest with
  | [] => .ok (compact ts.length x c1, d1)
  | cur :: is => do
    let (c2, d2) ← merge x cur is c1 d1
    .ok (compact ts.length x c2, d2)

/-- What `std::sort(idx.begin(), idx.end(), CmpExpIdx(x))` guarantees about `idx`: it holds every
index once and no later index compares below an earlier one. -/
structure SortedIdx (ts : List (Int × Atom)) (idx : List Nat) : Prop where
  perm : idx.Perm (List.range ts.length)
  sorted : idx.Pairwise (fun i j =>
    cmpExpIdx (ts.getD j (0, .lit 0)).2 (ts.getD i (0, .lit 0)).2 = false)

/-- One such index vector (used where a concrete one is needed). -/
def sortIdx (ts : List (Int × Atom)) : List Nat :=
  (List.range ts.length).mergeSort
    (fun i j => !cmpExpIdx (ts.getD j (0, .lit 0)).2 (ts.getD i (0, .lit 0)).2)

/-- The builtins constructed for a linear comparison: `int_lin_le`, `int_lin_eq`, `int_lin_ne`. -/
inductive LinOp | le | eq | ne
deriving DecidableEq, Repr

/-- flatten_internal.hh 648–680 `constructLinBuiltin`: builtin, sign of the coefficients, and new
constant. -/
def constructLinBuiltin (bot : Cmp) (d : Int) : Res (LinOp × Int × Int) :=
  match bot with
  | .le => do let d' ← safePlus d 1; .ok (.le, 1, d')
  | .lq => .ok (.le, 1, d)
  | .gr => do let m ← safeMinus 0 d; let d' ← safePlus m 1; .ok (.le, -1, d')
  | .gq => do let m ← safeMinus 0 d; .ok (.le, -1, m)
  | .eq => .ok (.eq, 1, d)
  | .nq => .ok (.ne, 1, d)

/-- `coeff_sign * coeffv[i]` for all terms (flatten_binop.cpp 846–851). -/
def scale (sign : Int) : List (Int × Atom) → Res (List (Int × Atom))
  | [] => .ok []
  | (c, x) :: ts => do
    let c' ← safeMult sign c
    let ts' ← scale sign ts
    .ok ((c', x) :: ts')

/-- flatten_binop.cpp 846–868: the constraint posted for `Σ ts + d bot 0`. -/
def buildLin (bot : Cmp) (ts : List (Int × Atom)) (d : Int) :
    Res (LinOp × List (Int × Atom) × Int) := do
  let (op, sign, d') ← constructLinBuiltin bot d
  let ts' ← scale sign ts
  let k ← safeMinus 0 d'
  .ok (op, ts', k)

end Linear
end MZ
