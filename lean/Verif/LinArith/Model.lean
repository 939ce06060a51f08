import Verif.LinLib.Bools
import Mathlib.Data.Finset.Sort
import Mathlib.Algebra.BigOperators.Fin
import Mathlib.Data.Fintype.Basic

/-!
# Arithmetic, element and set membership in the linear library

`share/minizinc/linear/redefinitions.mzn` 63–700 and the equality encodings of two variables and of arrays in
`domain_encodings.mzn`.  Variables, options and the comparison predicates are those of `Verif/LinLib`.

A constraint `x in S` with a constant set inside a `let` makes the domain of `x` smaller before the body of the predicate
looks at it: this is `V.restrict`.  Bounds posted on other variables also make their domains smaller; the model keeps the
larger domains (the theorems hold for every domain).
-/

namespace MZ.LinArith

open MZ.LinLib

/-- The variable after `x in s` was added to its domain (`lib/flatten/flatten_call.cpp`, `lib/ast.cpp`: the domain is
intersected). -/
def restrict (x : V) (s : Finset Int) (h : x.val ∈ s) : V := ⟨x.dom ∩ s, x.val, Finset.mem_inter.2 ⟨x.mem, h⟩⟩

/-- A domain is never empty. -/
theorem _root_.MZ.LinLib.V.dom_ne (x : V) : x.dom.Nonempty := ⟨_, x.mem⟩

/-- An element of an equality encoding as a 0/1 variable. -/
def flagOf (v : Int) : V := V.bit (decide (v = 1))

/-! ## Absolute value, minimum and maximum -/

/-- `int_abs` (`redefinitions.mzn` 63–83). -/
def intAbs (o : Opts) (x y : V) : Prop :=
  if 0 ≤ x.lb then y.val = x.val
  else if x.ub ≤ 0 then y.val = -x.val
  else ∃ p : Bool, y.val ≥ x.val ∧ y.val ≥ -x.val ∧ y.val ≥ 0 ∧ y.val ≤ max x.ub (-x.lb) ∧
    auxIntLeIf1 o y x (V.bit p) ∧ auxIntLeIf0 o y x.neg (V.bit p) ∧ intLeReifCV o 0 x (V.bit p)

/-- `float_abs` (`redefinitions.mzn` 89–108). -/
def floatAbs (o : Opts) (x y : F) : Prop :=
  if 0 ≤ x.lb then y.val = x.val
  else if x.ub ≤ 0 then y.val = -x.val
  else ∃ p : Bool, y.val ≥ x.val ∧ y.val ≥ -x.val ∧ y.val ≥ 0 ∧ y.val ≤ max x.ub (-x.lb) ∧
    auxFloatLeIf1 o y x (V.bit p) ∧ auxFloatLeIf0 o y x.neg (V.bit p)

section
variable {α : Type} [LinearOrder α] {n : Nat}

/-- `MinUB` (`redefinitions.mzn` 122–123, 155–156): the least upper bound. -/
def minUB (u : Fin (n + 1) → α) : α := Finset.univ.inf' ⟨0, Finset.mem_univ _⟩ u

theorem minUB_mem (u : Fin (n + 1) → α) : (Finset.univ.filter (fun i => u i = minUB u)).Nonempty := by
  obtain ⟨i, -, hi⟩ := Finset.exists_mem_eq_inf' (s := Finset.univ) ⟨(0 : Fin (n + 1)), Finset.mem_univ _⟩ u
  exact ⟨i, by simp [minUB, hi]⟩

/-- `iMinUB` (`redefinitions.mzn` 122, 155): the first index with the least upper bound. -/
def iMinUB (u : Fin (n + 1) → α) : Fin (n + 1) := (Finset.univ.filter (fun i => u i = minUB u)).min' (minUB_mem u)

/-- `sActive` (`redefinitions.mzn` 124–127, 157–160). -/
def active (l u : Fin (n + 1) → α) : Finset (Fin (n + 1)) :=
  let sLBLess := Finset.univ.filter (fun i => l i < minUB u)
  let sUBEqual := Finset.univ.filter (fun i => u i = minUB u)
  if 0 < (sLBLess ∩ sUBEqual).card then sLBLess else sLBLess ∪ {iMinUB u}

end

/-- `array_int_minimum_I` (`redefinitions.mzn` 114–148) for an array that is not empty; `gen` is `MZN__MinMaxGeneral`, with
which the constraint is passed to the solver. -/
def arrayIntMinI (o : Opts) (gen : Bool) {n : Nat} (m : V) (x : Fin (n + 1) → V) : Prop :=
  let A := active (fun i => (x i).lb) (fun i => (x i).ub)
  if h : A.card = 1 then m.val = (x (A.min' (Finset.card_pos.1 (by omega)))).val
  else if gen then (∀ i, m.val ≤ (x i).val) ∧ ∃ i, m.val = (x i).val
  else ∃ p : Fin (n + 1) → Bool, 1 = ∑ i, (if i ∈ A then (V.bit (p i)).val else 0) ∧
    m.val ≥ Finset.univ.inf' ⟨0, Finset.mem_univ _⟩ (fun i => (x i).lb) ∧ m.val ≤ minUB (fun i => (x i).ub) ∧
    ∀ i ∈ A, m.val ≤ (x i).val ∧ auxIntGeIf1 o m (x i) (V.bit (p i))

/-- `array_int_minimum` (`redefinitions-2.0.mzn` 10–11). -/
def arrayIntMin (o : Opts) (gen : Bool) {n : Nat} (m : V) (x : Fin (n + 1) → V) : Prop := arrayIntMinI o gen m x

/-- `array_int_maximum` (`redefinitions-2.0.mzn` 12–13). -/
def arrayIntMax (o : Opts) (gen : Bool) {n : Nat} (m : V) (x : Fin (n + 1) → V) : Prop :=
  arrayIntMinI o gen m.neg (fun i => (x i).neg)

/-- `int_min` (`redefinitions.mzn` 85). -/
def intMin (o : Opts) (gen : Bool) (x y z : V) : Prop := arrayIntMin o gen z ![x, y]

/-- `int_max` (`redefinitions.mzn` 87). -/
def intMax (o : Opts) (gen : Bool) (x y z : V) : Prop := arrayIntMax o gen z ![x, y]

/-- The cuts `array_var_float_element__XBZ_lb(x, b, z)` (`redefinitions.mzn` 548–576) on the elements `s`; `cutgen` is
`fUseXBZCutGen`, with which cuts are generated by the solver.  The elements are renumbered from 1 on, so the cuts for single
elements are those of the first twenty. -/
def xbzLb {ι : Type} [LinearOrder ι] (cutgen : Bool) (s : Finset ι) (x : ι → F) (b : ι → Int) (z : ℚ) : Prop :=
  if cutgen then True
  else z ≤ ∑ i ∈ s, (x i).ub * b i ∧
    (∀ i ∈ (s.sort (· ≤ ·)).take 20, z ≤ (x i).val + ∑ j ∈ s.erase i, ((x j).ub - (x i).lb) * b j) ∧
    (∀ i ∈ (s.sort (· ≤ ·)).take 20,
      z ≤ (x i).ub * b i + ∑ j ∈ s.erase i, ((x j).val + (x j).lb * (b j - 1))) ∧
    z ≤ ∑ i ∈ s, ((x i).val + (x i).lb * (b i - 1))

/-- `array_float_minimum_I` (`redefinitions.mzn` 150–211) for an array that is not empty; `cuts` is `fMinimumCutsXZB`.  The
option `fMinimumCutsXZ` is always false. -/
def arrayFloatMinI (o : Opts) (gen cuts cutgen : Bool) {n : Nat} (m : F) (x : Fin (n + 1) → F) : Prop :=
  let A := active (fun i => (x i).lb) (fun i => (x i).ub)
  if h : A.card = 1 then m.val = (x (A.min' (Finset.card_pos.1 (by omega)))).val
  else if gen then (∀ i, m.val ≤ (x i).val) ∧ ∃ i, m.val = (x i).val
  else ∃ p : Fin (n + 1) → Bool, 1 = ∑ i, (if i ∈ A then (V.bit (p i)).val else 0) ∧
    m.val ≥ Finset.univ.inf' ⟨0, Finset.mem_univ _⟩ (fun i => (x i).lb) ∧ m.val ≤ minUB (fun i => (x i).ub) ∧
    (∀ i ∈ A, m.val ≤ (x i).val ∧ auxFloatGeIf1 o m (x i) (V.bit (p i))) ∧
    (if 1 < A.card ∧ cuts = true then xbzLb cutgen A (fun i => (x i).neg) (fun i => (V.bit (p i)).val) (-m.val) else True)

/-- `array_float_minimum` (`redefinitions-2.0.mzn` 14–15). -/
def arrayFloatMin (o : Opts) (gen cuts cutgen : Bool) {n : Nat} (m : F) (x : Fin (n + 1) → F) : Prop :=
  arrayFloatMinI o gen cuts cutgen m x

/-- `array_float_maximum` (`redefinitions-2.0.mzn` 16–17). -/
def arrayFloatMax (o : Opts) (gen cuts cutgen : Bool) {n : Nat} (m : F) (x : Fin (n + 1) → F) : Prop :=
  arrayFloatMinI o gen cuts cutgen m.neg (fun i => (x i).neg)

/-! ## Division -/

/-- The domain of the quotient (`redefinitions.mzn` 222–230). -/
def domQ (x y : V) : Finset Int :=
  if y.lb * y.ub > 0 then
    let ep : Finset Int := {x.ub.tdiv y.ub, x.ub.tdiv y.lb, x.lb.tdiv y.ub, x.lb.tdiv y.lb}
    Finset.Icc (ep.min' (Finset.insert_nonempty _ _)) (ep.max' (Finset.insert_nonempty _ _))
  else
    let mm := max |x.lb| |x.ub|
    Finset.Icc (-mm) mm

/-- `aux_int_division_modulo_fn` (`redefinitions.mzn` 220–240): the quotient and the remainder.  The product is that of
`int_times`, the absolute value that of `int_abs`. -/
def divMod (x y : V) (q r : Int) : Prop :=
  let b := max |y.lb| |y.ub|
  q ∈ domQ x y ∧ r ∈ Finset.Icc (-b + 1) (b - 1) ∧ x.val = y.val * q + r ∧
  (0 ≤ x.val → 0 ≤ r) ∧ (x.val < 0 → r ≤ 0) ∧
  ∃ w ∈ Finset.Icc 1 b, w = |y.val| ∧ w > r ∧ w > -r

/-- `int_div` (`redefinitions.mzn` 216). -/
def intDiv (x y z : V) : Prop := ∃ q r, divMod x y q r ∧ z.val = q

/-- `int_mod` (`redefinitions.mzn` 218). -/
def intMod (x y z : V) : Prop := ∃ q r, divMod x y q r ∧ z.val = r

/-- `float_div` (`redefinitions.mzn` 245). -/
def floatDiv (x y z : F) : Prop := x.val = y.val * z.val

/-! ## Element -/

/-- `array_int_element` (`redefinitions.mzn` 385–415) of an array with the index set `lo..hi`. -/
def arrayIntElement (o : Opts) (idx : V) (lo hi : Int) (xs : Int → Int) (y : V) : Prop :=
  ∃ h : idx.val ∈ (Finset.Icc lo hi).filter (fun i => xs i ∈ y.dom),
    let d := restrict idx _ h
    let dMin := d.dom.inf' d.dom_ne xs
    let dMax := d.dom.sup' d.dom_ne xs
    if dMin = dMax then y.val = dMin
    else y.val ≥ dMin ∧ y.val ≤ dMax ∧
      if hne : (Finset.Icc d.lb (d.ub - 1)).Nonempty then
        let nMinDist := (Finset.Icc d.lb (d.ub - 1)).inf' hne (fun i => xs (i + 1) - xs i)
        let nMaxDist := (Finset.Icc d.lb (d.ub - 1)).sup' hne (fun i => xs (i + 1) - xs i)
        if nMinDist = nMaxDist then y.val = xs d.lb + nMinDist * (d.val - d.lb)
        else ∃ p, EqEncode o d p ∧ ∑ i ∈ d.dom, xs i * p i = y.val
      else False

/-- `array_float_element` (`redefinitions.mzn` 442–472). -/
def arrayFloatElement (o : Opts) (idx : V) (lo hi : Int) (xs : Int → ℚ) (y : F) : Prop :=
  ∃ h : idx.val ∈ (Finset.Icc lo hi).filter (fun i => xs i ≥ y.lb ∧ xs i ≤ y.ub),
    let d := restrict idx _ h
    let dMin := d.dom.inf' d.dom_ne xs
    let dMax := d.dom.sup' d.dom_ne xs
    if dMin = dMax then y.val = dMin
    else y.val ≥ dMin ∧ y.val ≤ dMax ∧
      if hne : (Finset.Icc d.lb (d.ub - 1)).Nonempty then
        let nMinDist := (Finset.Icc d.lb (d.ub - 1)).inf' hne (fun i => xs (i + 1) - xs i)
        let nMaxDist := (Finset.Icc d.lb (d.ub - 1)).sup' hne (fun i => xs (i + 1) - xs i)
        if nMinDist = nMaxDist then y.val = xs d.lb + nMinDist * ((d.val - d.lb : Int) : ℚ)
        else ∃ p, EqEncode o d p ∧ ∑ i ∈ d.dom, xs i * (p i : ℚ) = y.val
      else False

/-- `array_var_int_element` (`redefinitions.mzn` 417–440). -/
def arrayVarIntElement (o : Opts) (idx : V) (lo hi : Int) (xs : Int → V) (y : V) : Prop :=
  ∃ h : idx.val ∈ (Finset.Icc lo hi).filter (fun i => 0 < ((xs i).dom ∩ y.dom).card),
    let d := restrict idx _ h
    let minLB := d.dom.inf' d.dom_ne (fun i => (xs i).lb)
    let maxUB := d.dom.sup' d.dom_ne (fun i => (xs i).ub)
    if minLB = maxUB then y.val = minLB
    else y.val ≥ minLB ∧ y.val ≤ maxUB ∧
      if {0, 1} = d.dom then
        auxIntEqIf1 o y (xs d.lb) ((V.const d.ub).sub d) ∧ auxIntEqIf1 o y (xs d.ub) (d.addC (-d.lb))
      else ∃ p, EqEncode o d p ∧ ∀ i ∈ d.dom, auxIntEqIf1 o y (xs i) (flagOf (p i))

/-- `array_var_float_element` (`redefinitions.mzn` 474–516); `cuts` is `fElementCutsXZB`, the option `fElementCutsXZ` is
always false. -/
def arrayVarFloatElement (o : Opts) (cuts cutgen : Bool) (idx : V) (lo hi : Int) (xs : Int → F) (y : F) : Prop :=
  ∃ h : idx.val ∈ (Finset.Icc lo hi).filter (fun i => (xs i).lb ≤ y.ub ∧ (xs i).ub ≥ y.lb),
    let d := restrict idx _ h
    let minLB := d.dom.inf' d.dom_ne (fun i => (xs i).lb)
    let maxUB := d.dom.sup' d.dom_ne (fun i => (xs i).ub)
    if minLB = maxUB then y.val = minLB
    else y.val ≥ minLB ∧ y.val ≤ maxUB ∧
      if {0, 1} = d.dom then
        auxFloatEqIf1 o y (xs d.lb) ((V.const d.ub).sub d) ∧ auxFloatEqIf1 o y (xs d.ub) (d.addC (-d.lb))
      else ∃ p, EqEncode o d p ∧ (∀ i ∈ d.dom, auxFloatEqIf1 o y (xs i) (flagOf (p i))) ∧
        (if cuts then xbzLb cutgen d.dom xs p y.val ∧ xbzLb cutgen d.dom (fun i => (xs i).neg) p (-y.val) else True)

/-- `array_bool_element` (`redefinitions.mzn` 379–380). -/
def arrayBoolElement (o : Opts) (idx : V) (lo hi : Int) (xs : Int → Bool) (y : V) : Prop :=
  arrayIntElement o idx lo hi (fun i => if xs i then 1 else 0) y

/-- `array_var_bool_element` (`redefinitions.mzn` 382–383). -/
def arrayVarBoolElement (o : Opts) (idx : V) (lo hi : Int) (xs : Int → V) (y : V) : Prop :=
  arrayVarIntElement o idx lo hi xs y

/-! ## Multiplication -/

/-- `pp = eq_encode(x, y)` (`domain_encodings.mzn` 57–71, 16–29). -/
def EqEncode2 (o : Opts) (x y : V) (pp : Int → Int → Int) : Prop :=
  ∃ pX pY, EqEncode o x pX ∧ EqEncode o y pY ∧
    (∀ i ∈ Finset.Icc x.lb x.ub, ∀ j ∈ Finset.Icc y.lb y.ub,
      if i ∈ x.dom ∧ j ∈ y.dom then pp i j = 0 ∨ pp i j = 1 else pp i j = 0) ∧
    x.val ∈ Finset.Icc x.lb x.ub ∧ y.val ∈ Finset.Icc y.lb y.ub ∧
    ∑ d ∈ x.dom, ∑ e ∈ y.dom, pp d e = 1 ∧
    (∀ d ∈ x.dom, ∑ e ∈ y.dom, pp d e = pX d) ∧ (∀ e ∈ y.dom, ∑ d ∈ x.dom, pp d e = pY e)

/-- The products of the bounds (`redefinitions.mzn` 288, 300). -/
def cornerSet (x y : V) : Finset Int := {x.lb * y.lb, x.lb * y.ub, x.ub * y.lb, x.ub * y.ub}

/-- `min(r)`. -/
def rMin (x y : V) : Int := (cornerSet x y).min' (Finset.insert_nonempty _ _)

/-- `max(r)`. -/
def rMax (x y : V) : Int := (cornerSet x y).max' (Finset.insert_nonempty _ _)

/-- `int_times_unary` (`redefinitions.mzn` 298–308). -/
def intTimesUnary (o : Opts) (x y z : V) : Prop :=
  ∃ pp, EqEncode2 o x y pp ∧ z.val ≥ rMin x y ∧ z.val ≤ rMax x y ∧
    z.val = ∑ i ∈ Finset.Icc x.lb x.ub, ∑ j ∈ Finset.Icc y.lb y.ub, i * j * pp i j ∧
    ∀ i ∈ Finset.Icc x.lb x.ub, ∀ j ∈ Finset.Icc y.lb y.ub, i * j ∉ z.dom → pp i j = 0

/-- `int_times_unary__NOFN` (`redefinitions.mzn` 310–328). -/
def intTimesUnaryNofn (o : Opts) (x y z : V) : Prop :=
  if x.fixed ∨ y.fixed then z.val = x.val * y.val
  else ∃ pX pY, ∃ pp : Int → Int → Bool, EqEncode o x pX ∧ EqEncode o y pY ∧ z.val ≥ rMin x y ∧ z.val ≤ rMax x y ∧
    ∑ i ∈ Finset.Icc x.lb x.ub, ∑ j ∈ Finset.Icc y.lb y.ub, (V.bit (pp i j)).val = 1 ∧
    z.val = ∑ i ∈ Finset.Icc x.lb x.ub, ∑ j ∈ Finset.Icc y.lb y.ub, i * j * (V.bit (pp i j)).val ∧
    (∀ i ∈ Finset.Icc x.lb x.ub, pX i = ∑ j ∈ Finset.Icc y.lb y.ub, (V.bit (pp i j)).val) ∧
    ∀ j ∈ Finset.Icc y.lb y.ub, pY j = ∑ i ∈ Finset.Icc x.lb x.ub, (V.bit (pp i j)).val

/-- The multiplication by an element constraint (`redefinitions.mzn` 286–292). -/
def intTimesElem (o : Opts) (x y z : V) : Prop :=
  let ady := fun d => if d ∈ x.dom then V.smul d y else V.const (rMin x y)
  (∀ d ∈ Finset.Icc x.lb x.ub, (ady d).val ∈ Finset.Icc (rMin x y) (rMax x y)) ∧
    arrayVarIntElement o x x.lb x.ub ady z

/-- The other value of a domain of two values with 0 (`redefinitions.mzn` 266–268). -/
def otherVal (x : V) : Int := if h : (x.dom \ {0}).Nonempty then (x.dom \ {0}).max' h else 0

/-- `int_times` (`redefinitions.mzn` 248–295); `same` tells that the two arguments are the same variable, for which
`pow(x, 2)` is used.  The call with exchanged arguments does not exchange them again. -/
def intTimes (o : Opts) (same : Bool) (x y z : V) : Prop :=
  if x.fixed then z.val = x.fix * y.val
  else if y.fixed then z.val = x.val * y.fix
  else if same then z.val = x.val ^ 2
  else if Finset.Icc 0 1 = x.dom ∧ Finset.Icc 0 1 = y.dom then boolAndInt x y z
  else if x.dom.card = 2 ∧ y.dom.card = 2 ∧ 0 ∈ x.dom ∧ 0 ∈ y.dom then
    ∃ xn yn zn : Bool, x.val = (V.bit xn).val * otherVal x ∧ y.val = (V.bit yn).val * otherVal y ∧
      z.val = (V.bit zn).val * otherVal x * otherVal y ∧ boolAndInt (V.bit xn) (V.bit yn) (V.bit zn)
  else if (o.quadr.any fun q => decide (q ≤ min x.dom.card y.dom.card)) then z.val = x.val * y.val
  else if x.dom.card * y.dom.card > o.unaryTimes ∨ (x.dom.card = 2 ∧ 0 ∈ x.dom) ∨ (y.dom.card = 2 ∧ 0 ∈ y.dom) then
    if x.dom.card > y.dom.card ∨ (x.dom.card = y.dom.card ∧ 0 ∈ y.dom ∧ 0 ∉ x.dom) then intTimesElem o y x z
    else intTimesElem o x y z
  else intTimesUnary o x y z

/-! ## Membership in a constant set -/

/-- `set_in(x, s)` (`redefinitions.mzn` 584–609); `set_in__POST` means membership.  The minimum of an empty set is an
error. -/
def setIn (o : Opts) (x : V) (s : Finset Int) : Prop :=
  if h : (s ∩ x.dom).Nonempty then
    (s ∩ x.dom).min' h ≤ x.val ∧ x.val ≤ (s ∩ x.dom).max' h ∧
    if s ∩ x.dom = Finset.Icc ((s ∩ x.dom).min' h) ((s ∩ x.dom).max' h) then True
    else if o.post then x.val ∈ s ∩ x.dom
    else ∃ p, EqEncode o x p ∧ ∀ i ∈ Finset.Icc x.lb x.ub \ (s ∩ x.dom), p i = 0
  else False

/-- The beginnings of the subintervals of a set (`redefinitions.mzn` 681). -/
def runStarts (s : Finset Int) : List Int := (s.sort (· ≤ ·)).filter (fun e => e - 1 ∉ s)

/-- The ends of the subintervals (`redefinitions.mzn` 682). -/
def runEnds (s : Finset Int) : List Int := (s.sort (· ≤ ·)).filter (fun e => e + 1 ∉ s)

/-- `fVarInBigSetOfInt` (`redefinitions.mzn` 679–685): the number of subintervals that contain the value.  `none` is the
failed assertion. -/
def varInBigSet (x : V) (s : Finset Int) : Option Int :=
  if (runEnds s).length = (runStarts s).length then
    some ((((runStarts s).zip (runEnds s)).map (fun t => if x.val ≥ t.1 ∧ x.val ≤ t.2 then (1 : Int) else 0)).sum)
  else none

/-- `set_in_reif` for a subset of the domain and a variable `b` that is not fixed (`redefinitions.mzn` 618–638);
`set_in_reif__POST` means `b <-> x in s`. -/
def setInReifSub (o : Opts) (x : V) (s : Finset Int) (b : V) : Prop :=
  let si := s ∩ x.dom
  if x.dom ⊆ si then b.val = 1
  else if (x.dom ∩ si).card = 0 then b.val = 0
  else if o.post then (b.val = 1 ↔ x.val ∈ si)
  else if x.dom.card ≤ o.unarySet then ∃ p, EqEncode o x p ∧ ∑ i ∈ si ∩ x.dom, p i = b.val
  else some b.val = varInBigSet x si

/-- `set_in_reif` (`redefinitions.mzn` 612–639). -/
def setInReif (o : Opts) (x : V) (s : Finset Int) (b : V) : Prop :=
  if b.fixed then (if b.fix = 1 then setIn o x s else setIn o x (x.dom \ s))
  else if ¬ s ⊆ x.dom then setInReifSub o x (s ∩ x.dom) b
  else setInReifSub o x s b

/-- `set_in_imp` for a subset of the domain and a variable `b` that is not fixed (`redefinitions.mzn` 658–676). -/
def setInImpSub (o : Opts) (x : V) (s : Finset Int) (b : V) : Prop :=
  let si := s ∩ x.dom
  if x.dom ⊆ si then True
  else if (x.dom ∩ si).card = 0 then b.val = 0
  else if h : si.Nonempty then
    if si = Finset.Icc (si.min' h) (si.max' h) then (b.val = 1 → si.min' h ≤ x.val) ∧ (b.val = 1 → x.val ≤ si.max' h)
    else if x.dom.card ≤ o.unarySet then ∃ p, EqEncode o x p ∧ ∑ i ∈ si ∩ x.dom, p i ≥ b.val
    else ∃ v, varInBigSet x si = some v ∧ b.val ≤ v
  else False

/-- `set_in_imp` (`redefinitions.mzn` 652–677). -/
def setInImp (o : Opts) (x : V) (s : Finset Int) (b : V) : Prop :=
  if b.fixed then (if b.fix = 1 then setIn o x s else True)
  else if ¬ s ⊆ x.dom then setInImpSub o x (s ∩ x.dom) b
  else setInImpSub o x s b

/-- `alt_set_in_reif` (`redefinitions.mzn` 642–649). -/
def altSetInReif (x : V) (s : Finset Int) (b : V) : Prop :=
  b.val = 1 ↔ ∃ t ∈ (runStarts s).zip (runEnds s), t.1 ≤ x.val ∧ x.val ≤ t.2

/-! ## Equality encoding of an array -/

/-- `eq_encode(x)` of an array (`domain_encodings.mzn` 85–99). -/
def EqEncodeArr (o : Opts) {ι : Type} (x : ι → V) (p : ι → Int → Int) : Prop :=
  ∃ q : ι → Int → Int, (∀ i, EqEncode o (x i) (q i)) ∧
    ∀ i j, p i j = if (x i).lb ≤ j ∧ j ≤ (x i).ub then q i j else 0

end MZ.LinArith
