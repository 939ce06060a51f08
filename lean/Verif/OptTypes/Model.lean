import Mathlib.Data.Set.Basic
import Mathlib.Data.Finset.Card
import Mathlib.Data.Finset.Lattice.Fold
import Mathlib.Data.Finset.Union

/-!
# Option types in the standard library

Models the part of `share/minizinc/std/stdlib` that gives option types a meaning: the two variables that stand for an optional
variable (`stdlib_opt.mzn`), and the operations on them (`stdlib_compare.mzn`, `stdlib_logic.mzn`, `stdlib_math.mzn`,
`stdlib_array.mzn`, `stdlib_internal.mzn`).  Paths are relative to `share/minizinc/std`.

The functions whose result is a `var opt` return its value as an `Option`; an outer `Option` is used where the expression may be
undefined.  That the conditionals in their bodies select the right branch is the subject of `Verif.Ite`.  The operators on values
that are not optional are taken by their meaning.  Floats and enums have the same bodies as integers and are not repeated.
-/

namespace MZ.OptTypes

/-- The two variables that stand for an optional variable: whether it occurs, and its value (the tuple of `opt_internal_int`,
`opt_internal_bool` and `opt_internal_float`, `stdlib/stdlib_opt.mzn` 98–102, 177–191, 253–257). -/
structure OV (α : Type) where
  occ : Bool
  val : α
deriving DecidableEq

variable {α β : Type}

/-- `absent(x)` for a variable: `stdlib/stdlib_opt.mzn` 96, 155, 251. -/
def OV.absent (x : OV α) : Bool := !x.occ

/-- `reverse_map_var_opt`: `stdlib/stdlib_opt.mzn` 270–271; the value printed for the optional variable. -/
def OV.mean (x : OV α) : Option α := if x.occ then some x.val else none

/-- `x default d`: `stdlib/stdlib_coercion.mzn` 193–199 (a builtin; absent is replaced by `d`). -/
def OV.dflt (x : OV α) (d : α) : α := if x.occ then x.val else d

/-- `had_zero`: `stdlib/stdlib_opt.mzn` 161–164; `az` is `mzn_check_absent_zero()` and `D` the domain of the variable. -/
def hadZero (az : Bool) (D : Set Int) : Prop := az = false ∨ (0 : Int) ∈ D

/-- The domain of `deopt(x)`: `stdlib/stdlib_opt.mzn` 183. -/
def valDom (az : Bool) (D : Set Int) : Set Int := fun v => v ∈ D ∨ (az = true ∧ v = 0)

/-- `opt_internal_int`: `stdlib/stdlib_opt.mzn` 177–191; the pairs that may stand for a variable of type `var opt D`. -/
def Rep (az : Bool) (D : Set Int) (x : OV Int) : Prop :=
  (D = ∅ ∧ x = ⟨false, 0⟩) ∨
  (D ≠ ∅ ∧ x.val ∈ valDom az D ∧
    (az = true → (hadZero az D → x.occ = true ∨ x.val = 0) ∧ (¬ hadZero az D → (x.occ = true ↔ x.val ≠ 0))))

/-- `mzn_alias_eq`: `stdlib/stdlib_internal.mzn` 101–102, 120–121, 157–158. -/
def aliasEq [DecidableEq α] (x y : OV α) : Bool := decide (x.val = y.val) && (x.occ == y.occ)

/-! ## Evaluation of parameters -/

/-- `deopt(x)` of a parameter: undefined if it is absent (`stdlib/stdlib_opt.mzn` 8–13). -/
def pdeopt (x : Option α) : Option α := x

/-- `absent(x)` of a parameter (`stdlib/stdlib_opt.mzn` 53–65). -/
def pabsent (x : Option α) : Bool := x.isNone

/-- `a \/ b` on parameters; the right operand is not evaluated if the left one is true (`lib/eval_par.cpp`, `eval_bool`). -/
def pOr (a b : Option Bool) : Option Bool :=
  match a with
  | none => none
  | some true => some true
  | some false => b

/-- `a /\ b` on parameters. -/
def pAnd (a b : Option Bool) : Option Bool :=
  match a with
  | none => none
  | some false => some false
  | some true => b

/-- A strict binary operation on parameters. -/
def pBin (f : α → α → β) (a b : Option α) : Option β := a.bind fun u => b.map fun v => f u v

/-! ## Comparisons -/

/-- The comparisons with weak versions for optional operands. -/
inductive Cmp | lt | gt | le | ge | weq | wne
deriving DecidableEq

/-- The comparison of two integers. -/
def Cmp.eval : Cmp → Int → Int → Bool
  | .lt, a, b => decide (a < b)
  | .gt, a, b => decide (b < a)
  | .le, a, b => decide (a ≤ b)
  | .ge, a, b => decide (b ≤ a)
  | .weq, a, b => decide (a = b)
  | .wne, a, b => decide (a ≠ b)

/-- `<`, `>`, `<=`, `>=`, `~=` and `~!=` on optional variables: `stdlib/stdlib_compare.mzn` 17–18, 40–41, 63–64, 86–87, 119–125. -/
def cmpV (o : Cmp) (x y : OV Int) : Bool := (x.absent || y.absent) || o.eval x.val y.val

/-- `<`, `>`, `<=` and `>=` on optional parameters: `stdlib/stdlib_compare.mzn` 21, 44, 67, 90. -/
def cmpP (o : Cmp) (x y : Option Int) : Option Bool :=
  pOr (pOr (some (pabsent x)) (some (pabsent y))) (pBin o.eval (pdeopt x) (pdeopt y))

/-- `x = y` on optional variables: `bool_eq`, `int_eq` and `float_eq`, `stdlib/stdlib_internal.mzn` 105–106, 124–125, 161–162. -/
def eqV [DecidableEq α] (x y : OV α) : Bool :=
  (x.absent && y.absent) || (x.occ && y.occ && decide (x.val = y.val))

/-- `x != y` on optional variables: `int_ne` and `float_ne`, `stdlib/stdlib_internal.mzn` 128–129, 166–167. -/
def neV [DecidableEq α] (x y : OV α) : Bool :=
  (x.absent != y.absent) || (x.occ && y.occ && decide (x.val ≠ y.val))

/-- `bool_eq` of an optional variable and a variable: `stdlib/stdlib_internal.mzn` 108, 110. -/
def eqV1 [DecidableEq α] (x : OV α) (y : α) : Bool := x.occ && decide (x.val = y)

/-- `x = y` on optional parameters: `stdlib/stdlib_compare.mzn` 102–103. -/
def eqP [DecidableEq α] (x y : Option α) : Option Bool :=
  pOr (pAnd (some (pabsent x)) (some (pabsent y)))
    (pAnd (pAnd (some (!pabsent x)) (some (!pabsent y))) (pBin (fun u v => decide (u = v)) (pdeopt x) (pdeopt y)))

/-! ## Logic -/

/-- `/\` on optional variables: `stdlib/stdlib_logic.mzn` 17–18. -/
def andV (x y : OV Bool) : Bool := (x.absent || x.val) && (y.absent || y.val)

/-- `\/` on optional variables: `stdlib/stdlib_logic.mzn` 30–31. -/
def orV (x y : OV Bool) : Bool := (x.occ && x.val) || (y.occ && y.val)

/-- `->` on optional variables: `stdlib/stdlib_logic.mzn` 40–41. -/
def implV (x y : OV Bool) : Bool := x.absent || y.absent || (!x.val || y.val)

/-- `<-` on optional variables: `stdlib/stdlib_logic.mzn` 49–50. -/
def rimplV (x y : OV Bool) : Bool := x.absent || y.absent || (x.val || !y.val)

/-- `<->` on optional variables: `stdlib/stdlib_logic.mzn` 59–60. -/
def iffV (x y : OV Bool) : Bool := x.absent || y.absent || (x.val == y.val)

/-- `xor` on optional variables: `stdlib/stdlib_logic.mzn` 69–70, as it is parsed: `\/` and `xor` have the same precedence and
associate to the left (`lib/parser.yxx` 306), so that the last operator of the body is `xor`. -/
def xorV (x y : OV Bool) : Bool := Bool.xor ((x.absent || y.absent) || x.val) y.val

/-- `bool_xor` on optional variables: `stdlib/stdlib_internal.mzn` 114–115. -/
def boolXorV (x y : OV Bool) : Bool := (x.absent || y.absent) || Bool.xor x.val y.val

/-- `not` on an optional variable: `stdlib/stdlib_logic.mzn` 78. -/
def notV (x : OV Bool) : Option Bool := if x.absent then none else some (!x.val)

/-- `/\` on optional parameters: `stdlib/stdlib_logic.mzn` 10–11. -/
def andP (x y : Option Bool) : Option Bool :=
  pAnd (pOr (some (pabsent x)) (pdeopt x)) (pOr (some (pabsent y)) (pdeopt y))

/-- `\/` on optional parameters: `stdlib/stdlib_logic.mzn` 23–24. -/
def orP (x y : Option Bool) : Option Bool :=
  pOr (pAnd (some (!pabsent x)) (pdeopt x)) (pAnd (some (!pabsent y)) (pdeopt y))

/-- `->` on optional parameters: `stdlib/stdlib_logic.mzn` 36. -/
def implP (x y : Option Bool) : Option Bool :=
  pOr (pOr (some (pabsent x)) (some (pabsent y))) (pBin (fun a b => !a || b) (pdeopt x) (pdeopt y))

/-- `<->` on optional parameters: `stdlib/stdlib_logic.mzn` 54–55. -/
def iffP (x y : Option Bool) : Option Bool :=
  pOr (pOr (some (pabsent x)) (some (pabsent y))) (pBin (fun a b => a == b) (pdeopt x) (pdeopt y))

/-- `xor` on optional parameters: `stdlib/stdlib_logic.mzn` 64–65, as it is parsed. -/
def xorP (x y : Option Bool) : Option Bool :=
  pBin Bool.xor (pOr (pOr (some (pabsent x)) (some (pabsent y))) (pdeopt x)) (pdeopt y)

/-- `forall` of optional variables: `stdlib/stdlib_logic.mzn` 85–86. -/
def forallV (xs : List (OV Bool)) : Bool := xs.all fun x => x.absent || x.val

/-- `exists` of optional variables: `stdlib/stdlib_logic.mzn` 93–94. -/
def existsV (xs : List (OV Bool)) : Bool := xs.any fun x => x.occ && x.val

/-- `xorall` of variables: whether an odd number of them is true (`stdlib/stdlib_logic.mzn` 102–103). -/
def xorall (xs : List Bool) : Bool := xs.foldr Bool.xor false

/-- `xorall` of optional variables: `stdlib/stdlib_logic.mzn` 105–106. -/
def xorallV (xs : List (OV Bool)) : Bool := xs.any OV.absent || xorall (xs.map OV.val)

/-- `iffall` of optional variables: `stdlib/stdlib_logic.mzn` 116–117, 113–114. -/
def iffallV (xs : List (OV Bool)) : Bool := xs.any OV.absent || xorall (xs.map OV.val ++ [true])

/-- `clause` of optional variables: `stdlib/stdlib_logic.mzn` 128–131. -/
def clauseV (xs ys : List (OV Bool)) : Bool :=
  xs.any OV.absent || ys.any OV.absent || ((xs.map OV.val).any id || (ys.map OV.val).any not)

/-! ## Arithmetic -/

/-- `+` on optional variables: `stdlib/stdlib_math.mzn` 18–19. -/
def addV (x y : OV Int) : Int := (if x.occ then x.val else 0) + (if y.occ then y.val else 0)

/-- `*` on optional variables: `stdlib/stdlib_math.mzn` 142–143. -/
def mulV (x y : OV Int) : Int := (if x.occ then x.val else 1) * (if y.occ then y.val else 1)

/-- `-` on optional variables: `stdlib/stdlib_math.mzn` 42–43. -/
def subV (x y : OV Int) : Option Int :=
  if x.absent then none else if y.absent then some x.val else some (x.val - y.val)

/-- `-` of a variable and an optional variable: `stdlib/stdlib_math.mzn` 44–45. -/
def subV1 (x : Int) (y : OV Int) : Int := if y.absent then x else x - y.val

/-- `-` on optional parameters: `stdlib/stdlib_math.mzn` 54–55. -/
def subP (x y : Option Int) : Option (Option Int) :=
  if pabsent x then some none else if pabsent y then (pdeopt x).map some else (pBin (· - ·) (pdeopt x) (pdeopt y)).map some

/-- Unary `-`: `stdlib/stdlib_math.mzn` 181. -/
def negV (x : OV Int) : Option Int := if x.occ then some (-x.val) else none

/-- `abs`: `stdlib/stdlib_math.mzn` 594. -/
def absV (x : OV Int) : Option Int := if x.occ then some (x.val.natAbs : Int) else none

/-- `~*` on optional variables: `stdlib/stdlib_math.mzn` 99–100. -/
def wmulV (x y : OV Int) : Option Int := if x.absent || y.absent then none else some (x.val * y.val)

/-- Integer division, undefined for the divisor 0. -/
def idiv (a b : Int) : Option Int := if b = 0 then none else some (a.tdiv b)

/-- The remainder of integer division, undefined for the divisor 0. -/
def imod (a b : Int) : Option Int := if b = 0 then none else some (a.tmod b)

/-- `div` on optional variables: `stdlib/stdlib_math.mzn` 202–203. -/
def divV (x y : OV Int) : Option (Option Int) :=
  if x.absent then some none else if y.absent then some (some x.val) else (idiv x.val y.val).map some

/-- `~div` on optional variables: `stdlib/stdlib_math.mzn` 216–217. -/
def wdivV (x y : OV Int) : Option (Option Int) :=
  if x.absent || y.absent then some none else (idiv x.val y.val).map some

/-- `mod` on optional variables: `stdlib/stdlib_math.mzn` 239–240. -/
def modV (x y : OV Int) : Option (Option Int) :=
  if x.occ && y.occ then (imod x.val y.val).map some else some none

/-- The bound of a sum, `none` standing for an infinite bound: `stdlib/stdlib_math.mzn` 69–70. -/
def boundAdd (a b : Option Int) : Option Int :=
  match a, b with
  | some u, some v => some (u + v)
  | _, _ => none

/-- The bound of a difference: `stdlib/stdlib_math.mzn` 85–86. -/
def boundSub (a b : Option Int) : Option Int :=
  match a, b with
  | some u, some v => some (u - v)
  | _, _ => none

/-- The range `l..u` with possibly infinite bounds. -/
def range (l u : Option Int) : Set Int := fun v => (∀ a, l = some a → a ≤ v) ∧ (∀ b, u = some b → v ≤ b)

/-- `~+` on optional variables with the bounds `lx..ux` and `ly..uy`, as a constraint on the result `r`:
`stdlib/stdlib_math.mzn` 67–74. -/
def waddC (az : Bool) (lx ux ly uy : Option Int) (x y r : OV Int) : Prop :=
  Rep az (range (boundAdd lx ly) (boundAdd ux uy)) r ∧
  ((x.absent || y.absent) = true → r.absent = true) ∧
  (x.absent = true ∨ y.absent = true ∨ eqV1 r (x.val + y.val) = true)

/-- `~-` on optional variables: `stdlib/stdlib_math.mzn` 83–90. -/
def wsubC (az : Bool) (lx ux ly uy : Option Int) (x y r : OV Int) : Prop :=
  Rep az (range (boundSub lx uy) (boundSub ux ly)) r ∧
  ((x.absent || y.absent) = true → r.absent = true) ∧
  (x.absent = true ∨ y.absent = true ∨ eqV1 r (x.val - y.val) = true)

/-! ## Arrays -/

/-- `sum` of optional variables: `stdlib/stdlib_math.mzn` 305–306. -/
def sumV (xs : List (OV Int)) : Int := (xs.map fun x => x.dflt 0).sum

/-- `product` of optional variables: `stdlib/stdlib_math.mzn` 331–332. -/
def productV (xs : List (OV Int)) : Int := (xs.map fun x => x.dflt 1).prod

/-- `count` of optional variables: `stdlib/stdlib_math.mzn` 289–290, 285–287. -/
def countV (xs : List (OV Bool)) : Int := (xs.map fun x => if x.dflt false then (1 : Int) else 0).sum

/-- `min` of optional variables: `stdlib/stdlib_math.mzn` 405–409; `ub` is `ub_array(x)`.  The builtin minimum of a non-empty
array is taken by its meaning; `none` means undefined. -/
def minV (ub : Int) (xs : List (OV Int)) : Option Int :=
  let xub := max 0 ub
  if xs.any OV.occ then (xs.map fun x => x.dflt xub).min? else none

/-- `max` of optional variables: `stdlib/stdlib_math.mzn` 505–509. -/
def maxV (lb : Int) (xs : List (OV Int)) : Option Int :=
  let xlb := min 0 lb
  if xs.any OV.occ then (xs.map fun x => x.dflt xlb).max? else none

/-- `min_weak`: `stdlib/stdlib_math.mzn` 413–420; here `none` means absent. -/
def minWeakV (ub : Int) (xs : List (OV Int)) : Option Int :=
  let xub := max 0 ub
  if xs.any OV.occ then (xs.map fun x => x.dflt xub).min? else none

/-- `max_weak`: `stdlib/stdlib_math.mzn` 513–520. -/
def maxWeakV (lb : Int) (xs : List (OV Int)) : Option Int :=
  let xlb := min 0 lb
  if xs.any OV.occ then (xs.map fun x => x.dflt xlb).max? else none

/-- The union of a list of sets (`array_union`). -/
def unionAll : List (Finset Int) → Finset Int
  | [] => ∅
  | s :: ss => s ∪ unionAll ss

/-- The constraint on the local set of one element: `fzn_array_opt_int_union.mzn` 11–13. -/
def localSet (x : Finset Int × OV Int) (s : Finset Int) : Prop :=
  s ⊆ x.1 ∧ if x.2.occ then x.2.val ∈ s ∧ s.card = 1 else s.card = 0

/-- `fzn_array_opt_int_union`: `fzn_array_opt_int_union.mzn` 2–17; each variable comes with its domain. -/
def optUnion : List (Finset Int × OV Int) → Finset Int → Prop
  | [], y => y = ∅
  | [x], y => (y.card : Int) = (if x.2.occ then 1 else 0) ∧ (x.2.occ = true → x.2.val ∈ y)
  | xs, y => ∃ ss, List.Forall₂ localSet xs ss ∧ y = unionAll ss

/-- `set_in` of an optional variable: `stdlib/stdlib_internal.mzn` 131, 133. -/
def setInV (x : OV Int) (s : Set Int) : Prop := if x.occ then x.val ∈ s else True

/-- `var_dom` of an optional variable that is not fixed to absent: `stdlib/stdlib_internal.mzn` 10–23.  The shortcut of
`var_dom` for integers (lines 8–9) only drops a constraint that the domain already implies. -/
def varDom (az : Bool) (D s : Set Int) (x : OV Int) : Prop :=
  ((valDom az D ∩ s = ∅) → x.absent = true) ∧
  ((valDom az D ∩ s ≠ ∅) → x.val ∈ valDom az (valDom az D ∩ s))

/-- `var_dom` of an optional parameter: `stdlib/stdlib_internal.mzn` 29. -/
def varDomP (x : Option Int) (s : Set Int) : Prop := ∀ v, pdeopt x = some v → v ∈ s

/-- `x[i]` for a fixed array with the index set `lo..hi`; out of bounds the constraint is false. -/
def acc (lo hi : Int) (x : Int → β) (i : Int) : Option β := if lo ≤ i ∧ i ≤ hi then some (x i) else none

/-- `element` with an optional index: `stdlib/stdlib_internal.mzn` 589–590. -/
def elementI (lo hi : Int) (idx : OV Int) (x : Int → Int) : Option (Option Int) :=
  if idx.absent then some none else (acc lo hi x idx.val).map some

/-- `element` on an array of optional variables: `stdlib/stdlib_internal.mzn` 721–725. -/
def elementX (lo hi : Int) (idx : Int) (x : Int → OV Int) : Option (Option Int) :=
  (acc lo hi (fun i => (x i).occ) idx).bind fun occ =>
    (acc lo hi (fun i => (x i).dflt 0) idx).map fun d => if occ then some d else none

open Classical in
/-- `element` with an optional index on an array of optional variables: `stdlib/stdlib_internal.mzn` 791–796; `D` is the domain
of the index. -/
noncomputable def elementIX (az : Bool) (D : Set Int) (lo hi : Int) (idx : OV Int) (x : Int → OV Int) : Option (Option Int) :=
  if lo ≤ hi ∧ ¬ hadZero az D ∧ lo = 1 then elementX 0 hi idx.val (fun i => if i = 0 then ⟨false, 0⟩ else x i)
  else if idx.absent then some none else elementX lo hi idx.val x

/-- `element` with two optional indices: `stdlib/stdlib_internal.mzn` 594–607. -/
def element2 (l1 h1 l2 h2 : Int) (i j : OV Int) (x : Int → Int → Int) : Option (Option Int) :=
  if h1 < l1 ∨ h2 < l2 then (if i.absent && j.absent then some none else none)
  else
    let i1 := i.dflt l1
    let i2 := j.dflt l2
    (if (l1 ≤ i1 ∧ i1 ≤ h1) ∧ (l2 ≤ i2 ∧ i2 ≤ h2) then some (x i1 i2) else none).map fun xx =>
      if i.absent || j.absent then none else some xx

/-- `objective_deopt_`: `stdlib/stdlib_opt.mzn` 203–206; `dir` is true for maximisation. -/
def objective (lb ub : Int) (dir : Bool) (x : OV Int) : Int :=
  let worst := if dir then lb - 1 else ub + 1
  if x.occ then x.val else worst

end MZ.OptTypes
