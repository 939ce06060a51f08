import Verif.NL.Model
import Mathlib.Algebra.BigOperators.Group.List.Basic

/-!
# What a FlatZinc problem means, and what an NL file means

The two sides are defined separately: the FlatZinc builtins by their names, as in the reference of
FlatZinc, and the NL file by its lines, as in *Writing .nl Files* (D. M. Gay), tables 1–13: the
operator codes, the bound codes, the order of the variables, the segments.
-/

namespace MZ.NL

variable {K : Type} [Field K] [LinearOrder K] [IsStrictOrderedRing K] [FloorRing K]

/-- The functions of the floating point builtins; they may be undefined.  Three laws are used: the
base of `log2`, a power with a natural exponent, and a power with a negative one. -/
structure Funs (K : Type) [Field K] [LinearOrder K] where
  acos : K → Option K
  acosh : K → Option K
  asin : K → Option K
  asinh : K → Option K
  atan : K → Option K
  atanh : K → Option K
  cos : K → Option K
  cosh : K → Option K
  exp : K → Option K
  ln : K → Option K
  log10 : K → Option K
  log2 : K → Option K
  sqrt : K → Option K
  sin : K → Option K
  sinh : K → Option K
  tan : K → Option K
  tanh : K → Option K
  pow : K → K → Option K
  /-- The logarithm to base two, by the change of base. -/
  log2_eq : ∀ x, log2 x = (ln x).bind fun a => (ln 2).bind fun b => if b = 0 then none else some (a / b)
  /-- A power with a natural exponent is a product. -/
  pow_nat : ∀ (x : K) (n : ℕ), pow x n = some (x ^ n)
  /-- A power with a negative exponent is the inverse. -/
  pow_neg : ∀ (x : K) (n : ℕ), x ≠ 0 → pow x (-(n : K)) = some (x ^ n)⁻¹

/-! ## FlatZinc -/

/-- The scalar product of coefficients and values. -/
def dot (cs xs : List K) : K := (List.zipWith (· * ·) cs xs).sum

/-- A relation of a scalar product with the last argument. -/
def linRel (r : K → K → Prop) (cs xs as : List K) : Prop :=
  match as with
  | [v] => r (dot cs xs) v
  | _ => False

/-- A relation of two arguments. -/
def rel2 (r : K → K → Prop) (as : List K) : Prop :=
  match as with
  | [x, y] => r x y
  | _ => False

/-- A relation of three arguments. -/
def rel3 (r : K → K → K → Prop) (as : List K) : Prop :=
  match as with
  | [x, y, z] => r x y z
  | _ => False

/-- A FlatZinc builtin holds of the values of its arguments. -/
def meaning (F : Funs K) (id : String) (cs xs as : List K) : Prop :=
  if id = "int_lin_eq" ∨ id = "float_lin_eq" then linRel (· = ·) cs xs as
  else if id = "int_lin_le" ∨ id = "float_lin_le" then linRel (· ≤ ·) cs xs as
  else if id = "int_lin_ne" ∨ id = "float_lin_ne" then linRel (· ≠ ·) cs xs as
  else if id = "float_lin_lt" then linRel (· < ·) cs xs as
  else if id = "int_eq" ∨ id = "float_eq" then rel2 (· = ·) as
  else if id = "int_le" ∨ id = "float_le" then rel2 (· ≤ ·) as
  else if id = "int_ne" ∨ id = "float_ne" then rel2 (· ≠ ·) as
  else if id = "float_lt" then rel2 (· < ·) as
  else if id = "int_plus" ∨ id = "float_plus" then rel3 (fun x y z => x + y = z) as
  else if id = "float_minus" then rel3 (fun x y z => x - y = z) as
  else if id = "int_times" ∨ id = "float_times" then rel3 (fun x y z => x * y = z) as
  else if id = "float_div" then rel3 (fun x y z => y ≠ 0 ∧ x / y = z) as
  else if id = "int_div" then
    rel3 (fun x y z : K => ∃ a b : ℤ, x = a ∧ y = b ∧ b ≠ 0 ∧ z = ((a.tdiv b : ℤ) : K)) as
  else if id = "int_mod" then
    rel3 (fun x y z : K => ∃ a b : ℤ, x = a ∧ y = b ∧ b ≠ 0 ∧ z = ((a.tmod b : ℤ) : K)) as
  else if id = "int_pow" then
    rel3 (fun x y z : K => ∃ a b : ℤ, x = a ∧ y = b ∧
      ((0 ≤ b ∧ z = ((a ^ b.toNat : ℤ) : K)) ∨
       (b < 0 ∧ a ≠ 0 ∧ z = (((1 : ℤ).tdiv (a ^ (-b).toNat) : ℤ) : K)))) as
  else if id = "float_pow" then rel3 (fun x y z => F.pow x y = some z) as
  else if id = "int_max" ∨ id = "float_max" then rel3 (fun x y z => max x y = z) as
  else if id = "int_min" ∨ id = "float_min" then rel3 (fun x y z => min x y = z) as
  else if id = "int_abs" ∨ id = "float_abs" then rel2 (fun x y => max x (-x) = y) as
  else if id = "float_acos" then rel2 (fun x y => F.acos x = some y) as
  else if id = "float_acosh" then rel2 (fun x y => F.acosh x = some y) as
  else if id = "float_asin" then rel2 (fun x y => F.asin x = some y) as
  else if id = "float_asinh" then rel2 (fun x y => F.asinh x = some y) as
  else if id = "float_atan" then rel2 (fun x y => F.atan x = some y) as
  else if id = "float_atanh" then rel2 (fun x y => F.atanh x = some y) as
  else if id = "float_cos" then rel2 (fun x y => F.cos x = some y) as
  else if id = "float_cosh" then rel2 (fun x y => F.cosh x = some y) as
  else if id = "float_exp" then rel2 (fun x y => F.exp x = some y) as
  else if id = "float_ln" then rel2 (fun x y => F.ln x = some y) as
  else if id = "float_log10" then rel2 (fun x y => F.log10 x = some y) as
  else if id = "float_log2" then rel2 (fun x y => F.log2 x = some y) as
  else if id = "float_sqrt" then rel2 (fun x y => F.sqrt x = some y) as
  else if id = "float_sin" then rel2 (fun x y => F.sin x = some y) as
  else if id = "float_sinh" then rel2 (fun x y => F.sinh x = some y) as
  else if id = "float_tan" then rel2 (fun x y => F.tan x = some y) as
  else if id = "float_tanh" then rel2 (fun x y => F.tanh x = some y) as
  else if id = "int2float" then rel2 (· = ·) as
  else False

/-- The value of an argument. -/
def Arg.val (s : String → K) : Arg K → K
  | .c x => x
  | .v n => s n

/-- An assignment satisfies a call. -/
def Call.holds (F : Funs K) (s : String → K) (c : Call K) : Prop :=
  meaning F c.id c.coeffs (c.vars.map s) (c.args.map (Arg.val s))

/-- An assignment respects a declaration: the type and the domain. -/
def Decl.holds (s : String → K) (d : Decl K) : Prop :=
  (d.isInt = true → ∃ z : ℤ, s d.name = z) ∧
  (∀ rs, d.dom = some rs → ∃ r ∈ rs, r.1 ≤ s d.name ∧ s d.name ≤ r.2)

/-- An assignment is a solution of the FlatZinc problem. -/
def Flat.Sol (F : Funs K) (p : Flat K) (s : String → K) : Prop :=
  (∀ d ∈ p.decls, d.holds s) ∧ ∀ c ∈ p.calls, c.holds F s

/-! ## The NL file -/

/-- A truth value as a number. -/
def b2k (b : Prop) [Decidable b] : K := if b then 1 else 0

/-- The operators with one operand (table 8 of *Writing .nl Files*). -/
def nlOp1 (F : Funs K) (o : Nat) (x : K) : Option K :=
  match o with
  | 13 => some (⌊x⌋ : ℤ)
  | 14 => some (⌈x⌉ : ℤ)
  | 15 => some (max x (-x))
  | 16 => some (-x)
  | 34 => some (b2k (x = 0))
  | 37 => F.tanh x
  | 38 => F.tan x
  | 39 => F.sqrt x
  | 40 => F.sinh x
  | 41 => F.sin x
  | 42 => F.log10 x
  | 43 => F.ln x
  | 44 => F.exp x
  | 45 => F.cosh x
  | 46 => F.cos x
  | 47 => F.atanh x
  | 49 => F.atan x
  | 50 => F.asinh x
  | 51 => F.asin x
  | 52 => F.acosh x
  | 53 => F.acos x
  | _ => none

/-- The operators with two operands (table 8): `mod` is the remainder of the division rounded
towards 0 (`fmod`), `55` is the rounded division. -/
def nlOp2 (F : Funs K) (o : Nat) (x y : K) : Option K :=
  match o with
  | 0 => some (x + y)
  | 1 => some (x - y)
  | 2 => some (x * y)
  | 3 => if y = 0 then none else some (x / y)
  | 4 => if y = 0 then none else some (x - y * (if 0 ≤ x / y then (⌊x / y⌋ : ℤ) else (⌈x / y⌉ : ℤ)))
  | 5 => F.pow x y
  | 6 => some (if x < y then 0 else x - y)
  | 20 => some (b2k (x ≠ 0 ∨ y ≠ 0))
  | 21 => some (b2k (x ≠ 0 ∧ y ≠ 0))
  | 22 => some (b2k (x < y))
  | 23 => some (b2k (x ≤ y))
  | 24 => some (b2k (x = y))
  | 28 => some (b2k (x ≥ y))
  | 29 => some (b2k (x > y))
  | 30 => some (b2k (x ≠ y))
  | 55 => if y = 0 then none else some (if 0 ≤ x / y then (⌊x / y⌋ : ℤ) else (⌈x / y⌉ : ℤ))
  | _ => none

/-- The operators with a list of operands: `min`, `max`, and the sum, which needs at least three. -/
def nlOpN (o : Nat) (xs : List K) : Option K :=
  match o, xs with
  | 11, x :: xs => some (xs.foldl min x)
  | 12, x :: xs => some (xs.foldl max x)
  | 54, xs => if xs.length < 3 then none else some xs.sum
  | _, _ => none

/-- The codes with one operand. -/
def isOp1 (o : Nat) : Bool :=
  o ∈ [13, 14, 15, 16, 34, 37, 38, 39, 40, 41, 42, 43, 44, 45, 46, 47, 49, 50, 51, 52, 53]

/-- One line of an expression in prefix notation, evaluated onto the values of what follows it. -/
def evalLine (F : Funs K) (p : Nat → K) (l : Line K) (st : Option (List K)) : Option (List K) :=
  st.bind fun vs =>
    match l with
    | .num x => some (x :: vs)
    | .var i => some (p i :: vs)
    | .op o =>
      if isOp1 o then
        match vs with
        | x :: r => (nlOp1 F o x).map (· :: r)
        | [] => none
      else
        match vs with
        | x :: y :: r => (nlOp2 F o x y).map (· :: r)
        | _ => none
    | .opn o n => if vs.length < n then none else (nlOpN o (vs.take n)).map (· :: vs.drop n)
    | _ => none

/-- The value of an expression in prefix notation: the lines must be exactly one expression. -/
def evalExpr (F : Funs K) (p : Nat → K) (ls : List (Line K)) : Option K :=
  match ls.foldr (evalLine F p) (some []) with
  | some [v] => some v
  | _ => none

/-- A line that starts a segment. -/
def Line.isSeg : Line K → Bool
  | .seg _ _ => true
  | _ => false

/-- A segment: its letter, its numbers, and the lines that follow. -/
structure Seg (K : Type) where
  letter : Char
  nums : List Nat
  body : List (Line K)

/-- Cutting the lines into those before the first segment and the segments. -/
def cut (ls : List (Line K)) : List (Line K) × List (Seg K) :=
  ls.foldr (fun l r =>
    match l with
    | .seg c ns => ([], ⟨c, ns, r.1⟩ :: r.2)
    | l => (l :: r.1, r.2)) ([], [])

/-- The segments of a file. -/
def segs (ls : List (Line K)) : List (Seg K) := (cut ls).2

/-- Number `j` of line `i` of the header, counted from 0. -/
def hdrNum (ls : List (Line K)) (i j : Nat) : Nat :=
  match (cut ls).1[i]? with
  | some (.hdr xs) => xs.getD j 0
  | _ => 0

/-- A bound line allows a value (table 6: 0 both, 1 upper, 2 lower, 3 none, 4 equal). -/
def bndAllows (l : Line K) (x : K) : Prop :=
  match l with
  | .bnd 0 [lo, hi] => lo ≤ x ∧ x ≤ hi
  | .bnd 1 [hi] => x ≤ hi
  | .bnd 2 [lo] => lo ≤ x
  | .bnd 3 [] => True
  | .bnd 4 [v] => x = v
  | _ => False

/-- The value of the lines of a linear part. -/
def linVal (p : Nat → K) (ls : List (Line K)) : K :=
  (ls.map fun l => match l with | .lin i c => c * p i | _ => 0).sum

/-- Which variables are integer, by the counts in the header (tables 3 and 4). -/
def isIntIdx (ls : List (Line K)) (i : Nat) : Prop :=
  let n := hdrNum ls 1 0
  let nlvc := hdrNum ls 4 0
  let nlvo := hdrNum ls 4 1
  let nlvb := hdrNum ls 4 2
  let nbv := hdrNum ls 6 0
  let niv := hdrNum ls 6 1
  let nlvbi := hdrNum ls 6 2
  let nlvci := hdrNum ls 6 3
  let nlvoi := hdrNum ls 6 4
  (nlvb - nlvbi ≤ i ∧ i < nlvb) ∨
  (nlvc - nlvci ≤ i ∧ i < nlvc) ∨
  (nlvc < nlvo ∧ nlvo - nlvoi ≤ i ∧ i < nlvo) ∨
  (n - (niv + nbv) ≤ i ∧ i < n)

/-- The value of algebraic constraint `j`: its expression and its linear part. -/
def bodyVal (F : Funs K) (p : Nat → K) (ls : List (Line K)) (j : Nat) : Option K :=
  ((segs ls).find? (fun s => s.letter == 'C' && s.nums == [j])).bind fun c =>
    (evalExpr F p c.body).map fun v =>
      v + (((segs ls).filter fun s => s.letter == 'J' && s.nums.head? == some j).map
        fun s => linVal p s.body).sum

/-- A point (the values of variables 0, 1, …) is feasible for the NL file. -/
def Feasible (F : Funs K) (ls : List (Line K)) (p : Nat → K) : Prop :=
  (∀ i, i < hdrNum ls 1 0 → isIntIdx ls i → ∃ z : ℤ, p i = z) ∧
  (∀ s ∈ segs ls, s.letter = 'b' → ∀ i l, s.body[i]? = some l → bndAllows l (p i)) ∧
  (∀ s ∈ segs ls, s.letter = 'r' → ∀ j l, s.body[j]? = some l →
    ∃ v, bodyVal F p ls j = some v ∧ bndAllows l v) ∧
  (∀ s ∈ segs ls, s.letter = 'L' → ∃ v, evalExpr F p s.body = some v ∧ v ≠ 0)

/-- The value of the objective of the NL file. -/
def objVal (F : Funs K) (p : Nat → K) (ls : List (Line K)) : Option K :=
  ((segs ls).find? (fun s => s.letter == 'O')).bind fun o =>
    (evalExpr F p o.body).map fun v =>
      v + (((segs ls).filter fun s => s.letter == 'G').map fun s => linVal p s.body).sum

/-- The sense of the objective: `true` to maximise. -/
def objMax (ls : List (Line K)) : Option Bool :=
  ((segs ls).find? (fun s => s.letter == 'O')).map fun o => o.nums == [0, 1]

/-! ## When the file is exact -/

/-- A call is as FlatZinc has it: the arrays of a linear constraint have the same length, the
logical ones have two terms at least, an equality or inequality of two constants is true, and the
arguments of the integer builtins are integer. -/
def Call.wf (p : Flat K) (c : Call K) : Prop :=
  c.coeffs.length = c.vars.length ∧
  (c.id ∈ ["int_lin_ne", "float_lin_ne", "float_lin_lt"] → 2 ≤ c.coeffs.length) ∧
  (∀ x y, c.args = [.c x, .c y] →
    (c.id ∈ ["int_eq", "float_eq"] → x = y) ∧ (c.id ∈ ["int_le", "float_le"] → x ≤ y)) ∧
  (c.id ∈ ["int_div", "int_mod", "int_pow"] → ∀ a ∈ c.args,
    (∀ x, a = .c x → ∃ z : ℤ, x = z) ∧ ∀ n, a = .v n → ∃ d ∈ p.decls, d.name = n ∧ d.isInt = true)

/-- The two integer operations that the NL file states over the real numbers: at this point the
division has no remainder and the exponent is not negative. -/
def Call.exact (s : String → K) (c : Call K) : Prop :=
  (c.id = "int_div" → rel3 (fun x y _ : K => ∀ a b : ℤ, x = a → y = b → b ∣ a) (c.args.map (Arg.val s))) ∧
  (c.id = "int_pow" → rel3 (fun _ y _ => 0 ≤ y) (c.args.map (Arg.val s)))

/-- The comparisons of one variable with one constant, which become bounds. -/
def Call.unary (c : Call K) (n : String) : Prop :=
  c.id ∈ ["int_eq", "float_eq", "int_le", "float_le"] ∧
    ∃ x, c.args = [.c x, .v n] ∨ c.args = [.v n, .c x]

/-- For each variable, its domain and its comparisons with constants have a common value. -/
def Flat.boxOK (F : Funs K) (p : Flat K) : Prop :=
  ∀ d ∈ p.decls, ∃ w : K,
    (∀ rs, d.dom = some rs → ∃ r ∈ rs, r.1 ≤ w ∧ w ≤ r.2) ∧
    ∀ c ∈ p.calls, c.unary d.name → c.holds F (fun _ => w)

/-- The names of the variables are different. -/
def Flat.distinct (p : Flat K) : Prop := (p.decls.map Decl.name).Nodup

end MZ.NL
