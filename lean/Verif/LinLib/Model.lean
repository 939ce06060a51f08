import Verif.LinLib.Base

/-!
# The comparison and Boolean predicates of the linear library

`share/minizinc/linear/redefs_lin_halfreifs.mzn`, `redefs_lin_reifs.mzn`, `redefs_lin_imp.mzn`, `redefs_bool_reifs.mzn`,
`redefs_bool_imp.mzn` and the equality encoding of `domain_encodings.mzn`.

The predicates without a body (`…__POST`, `…__IND`) are passed on to the solver or to the domain post-processing (modelled
in `Verif/Mip`); here they stand for their documented meaning.  Comparisons at the top level are linear constraints.
A new unconstrained 0/1 variable is a choice `∃ v : Bool` of its value.
-/

namespace MZ.LinLib

/-! ## Equality encoding -/

/-- `p = eq_encode(x)`: the elements are new 0/1 variables for values of the domain and 0 otherwise
(`domain_encodings.mzn` 39–45), constrained by `equality_encoding` (8–13).  `p d` is the value of the element `d`, for `d`
in `lb(x)..ub(x)`.  `equality_encoding__POST` (`redefinitions.mzn` 702) says again that element `d` tells whether `x = d`. -/
def EqEncode (o : Opts) (x : V) (p : Int → Int) : Prop :=
  (∀ d ∈ Finset.Icc x.lb x.ub, if d ∈ x.dom then p d = 0 ∨ p d = 1 else p d = 0) ∧
  x.val ∈ Finset.Icc x.lb x.ub ∧ ∑ d ∈ x.dom, p d = 1 ∧ ∑ d ∈ x.dom, d * p d = x.val ∧
  (if o.post then ∀ d ∈ x.dom, (p d = 1 ↔ x.val = d) else True)

/-! ## Indicator constraints on integers -/

/-- `aux_int_le_zero_if_0(x, p)`, without the case of a domain that has a hole at 0 (`redefs_lin_halfreifs.mzn` 77–81,
97–107). -/
def auxIntLeZeroIf0In (o : Opts) (x p : V) : Prop :=
  if p.fixed then (if p.fix = 0 then x.val ≤ 0 else True)
  else if 0 < x.lb then p.val = 1
  else if o.post && o.aux then (1 - p.val = 1 → x.val ≤ 0)
  else if o.ind then (p.val = 0 → x.val ≤ 0)
  else x.val ≤ x.ub * p.val

/-- `aux_int_le_zero_if_0(x, p)` (`redefs_lin_halfreifs.mzn` 77–108).  The recursive call for a domain without 0 is made
with the largest negative value subtracted; its domain contains 0. -/
def auxIntLeZeroIf0 (o : Opts) (x p : V) : Prop :=
  if p.fixed then (if p.fix = 0 then x.val ≤ 0 else True)
  else if 0 < x.lb then p.val = 1
  else if 0 ∉ x.dom then
    if h : (x.dom.filter (· < 0)).Nonempty then auxIntLeZeroIf0In o (x.sub (V.const ((x.dom.filter (· < 0)).max' h))) p
    else False
  else auxIntLeZeroIf0In o x p

/-- `aux_int_le_if_0` (`redefs_lin_halfreifs.mzn` 148). -/
def auxIntLeIf0 (o : Opts) (x y p : V) : Prop := auxIntLeZeroIf0 o (x.sub y) p

/-- `aux_int_ge_if_0` (`redefs_lin_halfreifs.mzn` 150). -/
def auxIntGeIf0 (o : Opts) (x y p : V) : Prop := auxIntLeZeroIf0 o (y.sub x) p

/-- `aux_int_le_if_1` (`redefs_lin_halfreifs.mzn` 152). -/
def auxIntLeIf1 (o : Opts) (x y p : V) : Prop := auxIntLeZeroIf0 o (x.sub y) p.inv

/-- `aux_int_ge_if_1` (`redefs_lin_halfreifs.mzn` 154). -/
def auxIntGeIf1 (o : Opts) (x y p : V) : Prop := auxIntLeZeroIf0 o (y.sub x) p.inv

/-- `aux_int_lt_if_0` (`redefs_lin_halfreifs.mzn` 156). -/
def auxIntLtIf0 (o : Opts) (x y p : V) : Prop := auxIntLeZeroIf0 o ((x.sub y).addC 1) p

/-- `aux_int_gt_if_0` (`redefs_lin_halfreifs.mzn` 158). -/
def auxIntGtIf0 (o : Opts) (x y p : V) : Prop := auxIntLeZeroIf0 o ((y.sub x).addC 1) p

/-- `aux_int_lt_if_1` (`redefs_lin_halfreifs.mzn` 160–161). -/
def auxIntLtIf1 (o : Opts) (x y p : V) : Prop := auxIntLeZeroIf0 o ((x.sub y).addC 1) p.inv

/-- `aux_int_gt_if_1` (`redefs_lin_halfreifs.mzn` 163–164). -/
def auxIntGtIf1 (o : Opts) (x y p : V) : Prop := auxIntLeZeroIf0 o ((y.sub x).addC 1) p.inv

/-- `aux_int_eq_if_1` (`redefs_lin_halfreifs.mzn` 31–44). -/
def auxIntEqIf1 (o : Opts) (x y p : V) : Prop :=
  if p.fixed then (if p.fix = 1 then x.val = y.val else True)
  else if x.fixed ∧ y.fixed then (if x.fix ≠ y.fix then p.val = 0 else True)
  else auxIntLeIf1 o x y p ∧ auxIntGeIf1 o x y p

/-! ## Half-reified comparisons of integers -/

/-- `int_le_imp` (`redefs_lin_imp.mzn` 5–14). -/
def intLeImp (o : Opts) (x y b : V) : Prop :=
  if b.fixed then (if b.fix = 1 then x.val ≤ y.val else True)
  else if x.ub ≤ y.lb then True
  else if y.ub < x.lb then b.val = 0
  else auxIntLeIf1 o x y b

/-- `int_lt_imp` (`redefs_lin_imp.mzn` 17–18). -/
def intLtImp (o : Opts) (x y b : V) : Prop :=
  if x.fixed then intLeImp o (x.addC 1) y b else intLeImp o x (y.addC (-1)) b

/-- `int_eq_imp` with a constant (`redefs_lin_imp.mzn` 38–50). -/
def intEqImpC (o : Opts) (x : V) (c : Int) (b : V) : Prop :=
  if b.fixed then (if b.fix = 1 then x.val = c else True)
  else if c ∈ x.dom then
    if x.fixed then (b.val = 1 → c = x.fix) else auxIntEqIf1 o x (V.const c) b
  else b.val = 0

/-- `int_eq_imp` (`redefs_lin_imp.mzn` 21–35). -/
def intEqImp (o : Opts) (x y b : V) : Prop :=
  if b.fixed then (if b.fix = 1 then x.val = y.val else True)
  else if 0 < (x.dom ∩ y.dom).card then
    if x.fixed then (if y.fixed then (b.val = 1 → x.fix = y.fix) else intEqImpC o y x.fix b)
    else if y.fixed then intEqImpC o x y.fix b
    else auxIntEqIf1 o x y b
  else b.val = 0

/-! ## Disequality and reified comparisons of integers -/

/-- `int_ne__SIMPLE` (`redefs_lin_reifs.mzn` 119–126). -/
def intNeSimple (o : Opts) (x : V) (c : Int) : Prop :=
  ∃ v : Bool, auxIntLtIf1 o x (V.const c) (V.bit v) ∧ auxIntGtIf0 o x (V.const c) (V.bit v)

/-- `int_ne` with a constant (`redefs_lin_reifs.mzn` 101–116); `int_ne__POST` means `x != c`. -/
def intNeC (o : Opts) (x : V) (c : Int) : Prop :=
  if c ∈ x.dom then
    if c = x.ub then x.val ≤ c - 1
    else if c = x.lb then x.val ≥ c + 1
    else if o.post then x.val ≠ c
    else if x.dom.card < o.unaryNeq then ∃ p, EqEncode o x p ∧ p c = 0
    else intNeSimple o x c
  else True

/-- `int_ne` (`redefs_lin_reifs.mzn` 97–98). -/
def intNe (o : Opts) (x y : V) : Prop :=
  if o.diff then intNeC o (x.sub y) 0 else intNeSimple o (x.sub y) 0

/-- `aux_int_ne_if_1` (`redefs_lin_halfreifs.mzn` 62–75). -/
def auxIntNeIf1 (o : Opts) (x y p : V) : Prop :=
  if p.fixed then (if p.fix = 1 then intNe o x y else True)
  else if x.fixed ∧ y.fixed then (if x.fix = y.fix then p.val = 0 else True)
  else ∃ q1 q2 : Bool, intLtImp o x y (V.bit q1) ∧ intLtImp o y x (V.bit q2) ∧
    (V.bit q1).val + (V.bit q2).val = p.val

/-- `int_le_reif__NOPOST` (`redefs_lin_reifs.mzn` 82–88). -/
def intLeReifNopost (o : Opts) (x y b : V) : Prop := auxIntLeIf1 o x y b ∧ auxIntGtIf0 o x y b

/-- `int_le_reif` of a variable and a constant, the last case (`redefs_lin_reifs.mzn` 76–78); `int_le_reif__POST` means
`b <-> x <= c`. -/
def intLeReifVCIn (o : Opts) (x : V) (c : Int) (b : V) : Prop :=
  if o.post then (b.val = 1 ↔ x.val ≤ c) else intLeReifNopost o x (V.const c) b

/-- `int_le_reif` of a variable and a constant (`redefs_lin_reifs.mzn` 60–79).  The recursive call for a constant in a hole
of the domain is made with a value of the domain, so it takes the last case or one of the first two. -/
def intLeReifVC (o : Opts) (x : V) (c : Int) (b : V) : Prop :=
  if b.fixed then (if b.fix = 1 then x.val ≤ c else x.val > c)
  else if x.ub ≤ c then b.val = 1
  else if c < x.lb then b.val = 0
  else if c ∉ x.dom then
    if h : (x.dom.filter (· ≤ c - 1)).Nonempty then intLeReifVCIn o x ((x.dom.filter (· ≤ c - 1)).max' h) b else False
  else intLeReifVCIn o x c b

/-- `int_le_reif` of a constant and a variable, the last case (`redefs_lin_reifs.mzn` 52–56); `int_ge_reif__POST` means
`b <-> y >= c`. -/
def intLeReifCVIn (o : Opts) (c : Int) (y b : V) : Prop :=
  if o.post then (b.val = 1 ↔ y.val ≥ c) else intLeReifVC o y.neg (-c) b

/-- `int_le_reif` of a constant and a variable (`redefs_lin_reifs.mzn` 36–57). -/
def intLeReifCV (o : Opts) (c : Int) (y b : V) : Prop :=
  if b.fixed then (if b.fix = 1 then c ≤ y.val else c > y.val)
  else if c ≤ y.lb then b.val = 1
  else if y.ub < c then b.val = 0
  else if c ∉ y.dom then
    if h : (y.dom.filter (c + 1 ≤ ·)).Nonempty then intLeReifCVIn o ((y.dom.filter (c + 1 ≤ ·)).min' h) y b else False
  else intLeReifCVIn o c y b

/-- `int_le_reif` (`redefs_lin_reifs.mzn` 21–33). -/
def intLeReif (o : Opts) (x y b : V) : Prop :=
  if b.fixed then (if b.fix = 1 then x.val ≤ y.val else x.val > y.val)
  else if x.ub ≤ y.lb then b.val = 1
  else if y.ub < x.lb then b.val = 0
  else if o.post && o.diff then (b.val = 1 ↔ (x.sub y).val ≤ 0)
  else intLeReifNopost o x y b

/-- `int_lt_reif` (`redefs_lin_reifs.mzn` 91–94). -/
def intLtReif (o : Opts) (x y b : V) : Prop :=
  if x.fixed then intLeReif o (x.addC 1) y b else intLeReif o x (y.addC (-1)) b

/-- `aux_int_eq_iff_1` (`redefs_lin_reifs.mzn` 382–400).  With the two options set it aborts.  The comparisons inside the
sum of the last case are reified. -/
def auxIntEqIff1 (o : Opts) (x y p : V) : Prop :=
  if p.fixed then (if p.fix = 1 then x.val = y.val else intNe o x y)
  else if o.post && o.diff then False
  else if o.eqOld then
    ∃ q1 q2 : Bool, auxIntLeIf1 o x y p ∧ auxIntGeIf1 o x y p ∧ auxIntLtIf0 o x y (V.bit q1) ∧
      auxIntGtIf0 o x y (V.bit q2) ∧ (V.bit q1).val + (V.bit q2).val = p.val + 1
  else
    ∃ q1 q2 : Bool, intLeReif o x y (V.bit q1) ∧ intLeReif o y x (V.bit q2) ∧
      1 + p.val = (V.bit q1).val + (V.bit q2).val

/-- `aux_int_eq_iff_1__WEAK1` (`redefs_lin_reifs.mzn` 417–423). -/
def auxIntEqIff1Weak (o : Opts) (x y p : V) : Prop :=
  ∃ q1 q2 : Bool, auxIntLtIf0 o (x.sub p) y (V.bit q1) ∧ auxIntGtIf0 o (x.add p) y (V.bit q2) ∧
    (V.bit q1).val + (V.bit q2).val ≤ 2 - 2 * p.val ∧ (V.bit q1).val + (V.bit q2).val ≤ 1 + p.val

/-- `alt_1_aux_int_eq_iff_1` (`redefs_lin_reifs.mzn` 426–433). -/
def auxIntEqIff1Alt (o : Opts) (x y p : V) : Prop :=
  ∃ q1 q2 : Bool, auxIntLtIf0 o (x.sub p) y (V.bit q1) ∧ auxIntGtIf0 o (x.add p) y (V.bit q2) ∧
    (V.bit q1).val ≤ 1 - p.val ∧ (V.bit q2).val ≤ 1 - p.val ∧ (V.bit q1).val + (V.bit q2).val ≤ 1 + p.val

/-- `int_eq_reif` with a constant (`redefs_lin_reifs.mzn` 148–171); `int_eq_reif__POST` means `b <-> x = c`.  For a domain
of two values the other value is the largest one that is not `c`. -/
def intEqReifC (o : Opts) (x : V) (c : Int) (b : V) : Prop :=
  if b.fixed then (if b.fix = 1 then x.val = c else intNeC o x c)
  else if c ∈ x.dom then
    if x.fixed then (b.val = 1 ↔ c = x.fix)
    else if x.dom.card = 2 then
      if h : (x.dom \ {c}).Nonempty then
        x.val = (x.dom \ {c}).max' h + b.val * (c - (x.dom \ {c}).max' h)
      else False
    else if o.post then (b.val = 1 ↔ x.val = c)
    else if x.dom.card < o.unaryEq then ∃ p, EqEncode o x p ∧ p c = b.val
    else auxIntEqIff1 o x (V.const c) b
  else b.val = 0

/-- `int_eq_reif` (`redefs_lin_reifs.mzn` 129–145). -/
def intEqReif (o : Opts) (x y b : V) : Prop :=
  if b.fixed then (if b.fix = 1 then x.val = y.val else intNe o x y)
  else if 0 < (x.dom ∩ y.dom).card then
    if x.fixed then (if y.fixed then (b.val = 1 ↔ x.fix = y.fix) else intEqReifC o y x.fix b)
    else if y.fixed then intEqReifC o x y.fix b
    else if o.post && o.diff then intEqReifC o (x.sub y) 0 b
    else auxIntEqIff1 o x y b
  else b.val = 0

/-- `int_ne_reif` (`redefs_lin_reifs.mzn` 173). -/
def intNeReif (o : Opts) (x y b : V) : Prop := intEqReif o x y b.inv

/-- `int_ne_reif` with a constant (`redefs_lin_reifs.mzn` 175). -/
def intNeReifC (o : Opts) (x : V) (c : Int) (b : V) : Prop := intEqReifC o x c b.inv

/-! ## Indicator constraints on floats -/

/-- `aux_float_le_zero_if_0` (`redefs_lin_halfreifs.mzn` 110–123). -/
def auxFloatLeZeroIf0 (o : Opts) (x : F) (p : V) : Prop :=
  if p.fixed then (if p.fix = 0 then x.val ≤ 0 else True)
  else if 0 < x.lb then p.val = 1
  else if o.post && o.aux then (1 - p.val = 1 → x.val ≤ 0)
  else if o.ind then (p.val = 0 → x.val ≤ 0)
  else x.val ≤ x.ub * p.val

/-- `float_lt(x, y)` at the top level (`redefinitions.mzn` 52–54). -/
def floatLt (o : Opts) (x y : F) : Prop := x.val ≤ y.val - o.eps

/-- `aux_float_lt_zero_if_0` (`redefs_lin_halfreifs.mzn` 125–145); `aux_float_lt_zero_if_1__POST` with its tolerance means
`x <= -eps` if the indicator is 1. -/
def auxFloatLtZeroIf0 (o : Opts) (x : F) (p : V) : Prop :=
  if p.fixed then (if p.fix = 0 then floatLt o x (F.const 0) else True)
  else if 0 ≤ x.lb then p.val = 1
  else if o.post && o.aux then (1 - p.val = 1 → x.val ≤ -o.eps)
  else if o.ind then (p.val = 0 → (x.addC o.eps).val ≤ 0)
  else x.val ≤ (x.ub + o.eps) * p.val - o.eps

/-- `aux_float_le_if_0` (`redefs_lin_halfreifs.mzn` 190–191). -/
def auxFloatLeIf0 (o : Opts) (x y : F) (p : V) : Prop := auxFloatLeZeroIf0 o (x.sub y) p

/-- `aux_float_ge_if_0` (`redefs_lin_halfreifs.mzn` 193–194). -/
def auxFloatGeIf0 (o : Opts) (x y : F) (p : V) : Prop := auxFloatLeZeroIf0 o (y.sub x) p

/-- `aux_float_le_if_1` (`redefs_lin_halfreifs.mzn` 196–197). -/
def auxFloatLeIf1 (o : Opts) (x y : F) (p : V) : Prop := auxFloatLeZeroIf0 o (x.sub y) p.inv

/-- `aux_float_ge_if_1` (`redefs_lin_halfreifs.mzn` 199–200). -/
def auxFloatGeIf1 (o : Opts) (x y : F) (p : V) : Prop := auxFloatLeZeroIf0 o (y.sub x) p.inv

/-- `aux_float_lt_if_0` (`redefs_lin_halfreifs.mzn` 202–203). -/
def auxFloatLtIf0 (o : Opts) (x y : F) (p : V) : Prop := auxFloatLtZeroIf0 o (x.sub y) p

/-- `aux_float_gt_if_0` (`redefs_lin_halfreifs.mzn` 205–206). -/
def auxFloatGtIf0 (o : Opts) (x y : F) (p : V) : Prop := auxFloatLtZeroIf0 o (y.sub x) p

/-- `aux_float_lt_if_1` (`redefs_lin_halfreifs.mzn` 208–209). -/
def auxFloatLtIf1 (o : Opts) (x y : F) (p : V) : Prop := auxFloatLtZeroIf0 o (x.sub y) p.inv

/-- `aux_float_gt_if_1` (`redefs_lin_halfreifs.mzn` 211–212). -/
def auxFloatGtIf1 (o : Opts) (x y : F) (p : V) : Prop := auxFloatLtZeroIf0 o (y.sub x) p.inv

/-- `aux_float_eq_if_1` (`redefs_lin_halfreifs.mzn` 16–29). -/
def auxFloatEqIf1 (o : Opts) (x y : F) (p : V) : Prop :=
  if p.fixed then (if p.fix = 1 then x.val = y.val else True)
  else if x.fixed ∧ y.fixed then (if x.fix ≠ y.fix then p.val = 0 else True)
  else if (x.sub y).fixed then (if (x.sub y).fix ≠ 0 then p.val = 0 else True)
  else if o.post && o.aux && o.diff then (p.val = 1 → (x.sub y).val = 0)
  else if o.ind then (p.val = 1 → x.val = y.val)
  else auxFloatLeIf1 o x y p ∧ auxFloatGeIf1 o x y p

/-! ## Reified and half-reified comparisons of floats -/

/-- `float_le_reif__NOPOST` (`redefs_lin_reifs.mzn` 281–283). -/
def floatLeReifNopost (o : Opts) (x y : F) (b : V) : Prop := auxFloatLeIf1 o x y b ∧ auxFloatGtIf0 o x y b

/-- `float_le_reif` of a variable and a constant (`redefs_lin_reifs.mzn` 234–248); `float_le_reif__POST` with its tolerance
means `x <= c` or `x >= c + eps`. -/
def floatLeReifVC (o : Opts) (x : F) (c : ℚ) (b : V) : Prop :=
  if b.fixed then (if b.fix = 1 then x.val ≤ c else floatLt o (F.const c) x)
  else if x.ub ≤ c then b.val = 1
  else if c < x.lb then b.val = 0
  else if o.post then (b.val = 1 → x.val ≤ c) ∧ (b.val = 0 → c + o.eps ≤ x.val)
  else floatLeReifNopost o x (F.const c) b

/-- `float_le_reif` of a constant and a variable (`redefs_lin_reifs.mzn` 251–264). -/
def floatLeReifCV (o : Opts) (c : ℚ) (y : F) (b : V) : Prop :=
  if b.fixed then (if b.fix = 1 then c ≤ y.val else floatLt o y (F.const c))
  else if c ≤ y.lb then b.val = 1
  else if y.ub < c then b.val = 0
  else if o.post then (b.val = 1 → c ≤ y.val) ∧ (b.val = 0 → y.val ≤ c - o.eps)
  else floatLeReifVC o y.neg (-c) b

/-- `float_le_reif` (`redefs_lin_reifs.mzn` 267–278). -/
def floatLeReif (o : Opts) (x y : F) (b : V) : Prop :=
  if b.fixed then (if b.fix = 1 then x.val ≤ y.val else floatLt o y x)
  else if x.ub ≤ y.lb then b.val = 1
  else if y.ub < x.lb then b.val = 0
  else if o.post && o.diff then floatLeReifVC o (x.sub y) 0 b
  else floatLeReifNopost o (x.sub y) (F.const 0) b

/-- `float_lt_reif` (`redefs_lin_reifs.mzn` 286–294); `aux_float_lt_zero_iff_1__POST` with its tolerance means `x <= -eps`
or `x >= 0`. -/
def floatLtReif (o : Opts) (x y : F) (b : V) : Prop :=
  if b.fixed then (if b.fix = 1 then floatLt o x y else y.val ≤ x.val)
  else if o.post && o.diff then (b.val = 1 → (x.sub y).val ≤ -o.eps) ∧ (b.val = 0 → 0 ≤ (x.sub y).val)
  else auxFloatLtIf1 o x y b ∧ auxFloatGeIf0 o x y b

/-- `float_ne__SIMPLE` (`redefs_lin_reifs.mzn` 300–306). -/
def floatNeSimple (o : Opts) (x y : F) : Prop :=
  ∃ v : Bool, auxFloatLtIf1 o x y (V.bit v) ∧ auxFloatGtIf0 o x y (V.bit v)

/-- `float_ne` with a constant (`redefs_lin_reifs.mzn` 297–298); `float_ne__POST` with its tolerance means that `x` is at
least `eps` away from `c`. -/
def floatNeC (o : Opts) (x : F) (c : ℚ) : Prop :=
  if o.post then x.val ≤ c - o.eps ∨ c + o.eps ≤ x.val else floatNeSimple o x (F.const c)

/-- `float_ne` (`redefs_lin_reifs.mzn` 309–314). -/
def floatNe (o : Opts) (x y : F) : Prop :=
  if o.post && o.diff then floatNeC o (x.sub y) 0 else floatNeSimple o (x.sub y) (F.const 0)

/-- `aux_float_eq_iff_1` (`redefs_lin_reifs.mzn` 435–452). -/
def auxFloatEqIff1 (o : Opts) (x y : F) (p : V) : Prop :=
  if p.fixed then (if p.fix = 1 then x.val = y.val else floatNe o x y)
  else if o.post && o.diff then False
  else if o.eqOld then
    ∃ q1 q2 : Bool, auxFloatLeIf1 o x y p ∧ auxFloatGeIf1 o x y p ∧ auxFloatLtIf0 o x y (V.bit q1) ∧
      auxFloatGtIf0 o x y (V.bit q2) ∧ (V.bit q1).val + (V.bit q2).val = 1 + p.val
  else
    ∃ q1 q2 : Bool, floatLeReif o x y (V.bit q1) ∧ floatLeReif o y x (V.bit q2) ∧
      1 + p.val = (V.bit q1).val + (V.bit q2).val

/-- `float_eq_reif` (`redefs_lin_reifs.mzn` 319–330); `float_eq_reif__POST` with its tolerance means equality or a distance
of at least `eps`. -/
def floatEqReif (o : Opts) (x y : F) (b : V) : Prop :=
  if b.fixed then (if b.fix = 1 then x.val = y.val else floatNe o x y)
  else if x.ub < y.lb ∨ y.ub < x.lb then b.val = 0
  else if x.fixed ∧ y.fixed then (b.val = 1 ↔ x.fix = y.fix)
  else if o.post && o.diff then
    (b.val = 1 → (x.sub y).val = 0) ∧ (b.val = 0 → (x.sub y).val ≤ -o.eps ∨ o.eps ≤ (x.sub y).val)
  else auxFloatEqIff1 o x y b

/-- `float_ne_reif` (`redefs_lin_reifs.mzn` 332). -/
def floatNeReif (o : Opts) (x y : F) (b : V) : Prop := floatEqReif o x y b.inv

/-- `float_le_imp` (`redefs_lin_imp.mzn` 92–101). -/
def floatLeImp (o : Opts) (x y : F) (b : V) : Prop :=
  if b.fixed then (if b.fix = 1 then x.val ≤ y.val else True)
  else if x.ub ≤ y.lb then True
  else if y.ub < x.lb then b.val = 0
  else auxFloatLeIf1 o x y b

/-- `float_lt_imp` (`redefs_lin_imp.mzn` 104–105). -/
def floatLtImp (o : Opts) (x y : F) (b : V) : Prop :=
  if b.fixed then (if b.fix = 1 then floatLt o x y else True) else auxFloatLtIf1 o x y b

/-- `float_eq_imp` (`redefs_lin_imp.mzn` 108–117). -/
def floatEqImp (o : Opts) (x y : F) (b : V) : Prop :=
  if b.fixed then (if b.fix = 1 then x.val = y.val else True)
  else if x.ub < y.lb ∨ y.ub < x.lb then b.val = 0
  else if x.fixed ∧ y.fixed then (b.val = 1 → x.fix = y.fix)
  else auxFloatEqIf1 o x y b

/-- `aux_float_ne_if_1` (`redefs_lin_halfreifs.mzn` 46–60). -/
def auxFloatNeIf1 (o : Opts) (x y : F) (p : V) : Prop :=
  if p.fixed then (if p.fix = 1 then floatNe o x y else True)
  else if x.fixed ∧ y.fixed then (if x.fix = y.fix then p.val = 0 else True)
  else if (x.sub y).fixed then (if (x.sub y).fix = 0 then p.val = 0 else True)
  else ∃ q1 q2 : Bool, floatLtImp o x y (V.bit q1) ∧ floatLtImp o y x (V.bit q2) ∧
    (V.bit q1).val + (V.bit q2).val = p.val

/-- `float_ne_imp` (`redefs_lin_imp.mzn` 120–129). -/
def floatNeImp (o : Opts) (x y : F) (b : V) : Prop :=
  if b.fixed then (if b.fix = 1 then floatNe o x y else True)
  else if x.ub < y.lb ∨ y.ub < x.lb then True
  else if x.fixed ∧ y.fixed then (b.val = 1 → x.fix ≠ y.fix)
  else auxFloatNeIf1 o x y b

/-! ## Linear constraints -/

/-- `sum2float(as, xs)` (`redefs_lin_reifs.mzn` 180–184). -/
def sum2float (ts : List (Int × V)) : F := F.lin (ts.map (fun t => ((t.1 : ℚ), F.ofV t.2)))

/-- `int_lin_le_reif` (`redefs_lin_reifs.mzn` 187–194). -/
def intLinLeReif (o : Opts) (ts : List (Int × V)) (c : Int) (b : V) : Prop :=
  if o.post && o.diff then intLeReifVC o (V.lin ts) c b
  else if o.avoidNI then
    auxFloatLeIf1 o (sum2float ts) (F.const c) b ∧ auxFloatGeIf0 o (sum2float ts) (F.const ((c + 1 : Int) : ℚ)) b
  else intLeReifNopost o (V.lin ts) (V.const c) b

/-- `int_lin_eq_reif` (`redefs_lin_reifs.mzn` 204–211); `aux_int_eq_iff_1__float` (402–414) always stops with an
assertion. -/
def intLinEqReif (o : Opts) (ts : List (Int × V)) (c : Int) (b : V) : Prop :=
  if o.post && o.diff then intEqReifC o (V.lin ts) c b
  else if o.avoidNI && o.eqOld then False
  else auxIntEqIff1 o (V.lin ts) (V.const c) b

/-- `int_lin_ne` (`redefs_lin_reifs.mzn` 214–221). -/
def intLinNe (o : Opts) (ts : List (Int × V)) (c : Int) : Prop :=
  if o.post && o.diff then intNeC o (V.lin ts) c
  else if o.avoidNI then intLinEqReif o ts c (V.const 0)
  else intNeSimple o (V.lin ts) c

/-- `int_lin_ne_reif` (`redefs_lin_reifs.mzn` 224–229). -/
def intLinNeReif (o : Opts) (ts : List (Int × V)) (c : Int) (b : V) : Prop :=
  if o.post && o.diff then intNeReifC o (V.lin ts) c b else intLinEqReif o ts c b.inv

/-- `int_lin_le_imp` (`redefs_lin_imp.mzn` 59–68). -/
def intLinLeImp (o : Opts) (ts : List (Int × V)) (c : Int) (b : V) : Prop :=
  match ts with
  | [t1, t2] =>
    if c = 0 ∧ |t1.1| = 1 ∧ t1.1 = -1 * t2.1 then
      if t1.1 < 0 then intLeImp o t2.2 t1.2 b else intLeImp o t1.2 t2.2 b
    else rest
  | _ => rest
where
  /-- The cases for other linear expressions (62–67). -/
  rest : Prop :=
    if o.post && o.diff then intLeImp o (V.lin ts) (V.const c) b
    else if o.avoidNI then auxFloatLeIf1 o (sum2float ts) (F.const c) b
    else auxIntLeIf1 o (V.lin ts) (V.const c) b

/-- `int_lin_eq_imp` (`redefs_lin_imp.mzn` 78–87). -/
def intLinEqImp (o : Opts) (ts : List (Int × V)) (c : Int) (b : V) : Prop :=
  match ts with
  | [t1, t2] => if c = 0 ∧ |t1.1| = 1 ∧ t1.1 = -1 * t2.1 then intEqImp o t1.2 t2.2 b else rest
  | _ => rest
where
  /-- The cases for other linear expressions (81–86). -/
  rest : Prop :=
    if o.post && o.diff then intEqImpC o (V.lin ts) c b
    else if o.avoidNI then auxFloatEqIf1 o (sum2float ts) (F.const c) b
    else auxIntEqIf1 o (V.lin ts) (V.const c) b

/-- `float_lin_lt` (`redefinitions.mzn` 56–57). -/
def floatLinLt (o : Opts) (ts : List (ℚ × F)) (c : ℚ) : Prop := floatLt o (F.lin ts) (F.const c)

/-- `float_lin_eq_reif` (`redefs_lin_reifs.mzn` 336–346). -/
def floatLinEqReif (o : Opts) (ts : List (ℚ × F)) (c : ℚ) (b : V) : Prop :=
  if o.post && o.diff then floatEqReif o (F.lin ts) (F.const c) b else auxFloatEqIff1 o (F.lin ts) (F.const c) b

/-- `float_lin_ne_reif` (`redefs_lin_reifs.mzn` 348–358): with both options `float_ne_reif` is called with `not b`. -/
def floatLinNeReif (o : Opts) (ts : List (ℚ × F)) (c : ℚ) (b : V) : Prop :=
  if o.post && o.diff then floatNeReif o (F.lin ts) (F.const c) b.inv
  else auxFloatEqIff1 o (F.lin ts) (F.const c) b.inv

/-- `float_lin_le_reif` (`redefs_lin_reifs.mzn` 360–370). -/
def floatLinLeReif (o : Opts) (ts : List (ℚ × F)) (c : ℚ) (b : V) : Prop :=
  if o.post && o.diff then floatLeReifVC o (F.lin ts) c b else floatLeReifNopost o (F.lin ts) (F.const c) b

/-- `float_lin_lt_reif` (`redefs_lin_reifs.mzn` 372–377). -/
def floatLinLtReif (o : Opts) (ts : List (ℚ × F)) (c : ℚ) (b : V) : Prop := floatLtReif o (F.lin ts) (F.const c) b

/-- The shape `x - y # 0` or `-x + y # 0` of a linear constraint on floats (`redefs_lin_imp.mzn` 139, 153, 167, 181). -/
def isDiff (ts : List (ℚ × F)) (c : ℚ) : Option (ℚ × F × F) :=
  match ts with
  | [t1, t2] => if c = 0 ∧ |t1.1| = 1 ∧ t1.1 = -1 * t2.1 then some (t1.1, t1.2, t2.2) else none
  | _ => none

/-- `float_lin_eq_imp` (`redefs_lin_imp.mzn` 133–145). -/
def floatLinEqImp (o : Opts) (ts : List (ℚ × F)) (c : ℚ) (b : V) : Prop :=
  match isDiff ts c with
  | some (_, x, y) => floatEqImp o x y b
  | none =>
    if o.post && o.diff then floatEqImp o (F.lin ts) (F.const c) b else auxFloatEqIf1 o (F.lin ts) (F.const c) b

/-- `float_lin_ne_imp` (`redefs_lin_imp.mzn` 147–159): with both options `float_ne_imp` is called with `not b`. -/
def floatLinNeImp (o : Opts) (ts : List (ℚ × F)) (c : ℚ) (b : V) : Prop :=
  match isDiff ts c with
  | some (_, x, y) => floatNeImp o x y b
  | none =>
    if o.post && o.diff then floatNeImp o (F.lin ts) (F.const c) b.inv else auxFloatNeIf1 o (F.lin ts) (F.const c) b

/-- `float_lin_le_imp` (`redefs_lin_imp.mzn` 161–173). -/
def floatLinLeImp (o : Opts) (ts : List (ℚ × F)) (c : ℚ) (b : V) : Prop :=
  match isDiff ts c with
  | some (a, x, y) => if a < 0 then floatLeImp o y x b else floatLeImp o x y b
  | none =>
    if o.post && o.diff then floatLeImp o (F.lin ts) (F.const c) b else auxFloatLeIf1 o (F.lin ts) (F.const c) b

/-- `float_lin_lt_imp` (`redefs_lin_imp.mzn` 175–187). -/
def floatLinLtImp (o : Opts) (ts : List (ℚ × F)) (c : ℚ) (b : V) : Prop :=
  match isDiff ts c with
  | some (a, x, y) => if a < 0 then floatLtImp o y x b else floatLtImp o x y b
  | none =>
    if o.post && o.diff then floatLtImp o (F.lin ts) (F.const c) b else auxFloatLtIf1 o (F.lin ts) (F.const c) b

/-! ## Boolean constraints -/

/-- The sum of the values of an array of variables. -/
def sumVal (xs : List V) : Int := (xs.map V.val).sum

/-- `bool_not` (`redefs_bool_reifs.mzn` 18). -/
def boolNot (x y : V) : Prop := x.val + y.val = 1

/-- `bool_and__INT` (`redefs_bool_reifs.mzn` 29–33). -/
def boolAndInt (x y z : V) : Prop := x.val + y.val ≤ z.val + 1 ∧ x.val ≥ z.val ∧ y.val ≥ z.val

/-- `array_bool_or` (`redefs_bool_reifs.mzn` 115–131). -/
def arrayBoolOr (xs : List V) (b : V) : Prop :=
  if ∃ x ∈ xs, x.fixed ∧ x.fix = 1 then b.val = 1
  else if b.fixed then
    if b.fix = 1 then sumVal xs ≥ 1 else ∀ x ∈ xs, x.val = 0
  else sumVal xs ≥ b.val ∧ ∀ x ∈ xs, b.val ≥ x.val

/-- `array_bool_and` (`redefs_bool_reifs.mzn` 134–150). -/
def arrayBoolAnd (xs : List V) (b : V) : Prop :=
  if ∃ x ∈ xs, x.fixed ∧ x.fix ≠ 1 then b.val = 0
  else if b.fixed then
    if b.fix ≠ 1 then sumVal xs ≤ xs.length - 1 else ∀ x ∈ xs, x.val = 1
  else xs.length - sumVal xs ≥ 1 - b.val ∧ ∀ x ∈ xs, b.val ≤ x.val

/-- `bool_and` (`redefs_bool_reifs.mzn` 20–27). -/
def boolAnd (x y b : V) : Prop := arrayBoolAnd [x, y] b

/-- `bool_or` (`redefs_bool_reifs.mzn` 35–49). -/
def boolOr (x y b : V) : Prop := arrayBoolOr [x, y] b

/-- `bool_xor` with two arguments (`redefs_bool_reifs.mzn` 51). -/
def boolXor2 (x y : V) : Prop := 1 = x.val + y.val

/-- `bool_xor` (`redefs_bool_reifs.mzn` 53–63), also `bool_ne_reif` (84). -/
def boolXor (x y b : V) : Prop :=
  x.val ≤ y.val + b.val ∧ y.val ≤ x.val + b.val ∧ b.val ≤ x.val + y.val ∧ x.val + y.val + b.val ≤ 2

/-- `bool_eq` (`redefinitions.mzn` 25–27). -/
def boolEq (x y : V) : Prop := x.val = y.val

/-- `bool_eq_reif` (`redefs_bool_reifs.mzn` 65–82). -/
def boolEqReif (x y b : V) : Prop :=
  if b.fixed then (if b.fix = 1 then boolEq x y else boolNot x y)
  else if y.fixed then (if y.fix = 1 then boolEq x b else boolNot x b)
  else if x.fixed then (if x.fix = 1 then boolEq y b else boolNot y b)
  else x.val + y.val ≤ b.val + 1 ∧ x.val + b.val ≤ y.val + 1 ∧ y.val + b.val ≤ x.val + 1 ∧
    x.val + y.val + b.val ≥ 1

/-- `bool_le` (`redefs_bool_reifs.mzn` 86–90). -/
def boolLe (x y : V) : Prop := x.val ≤ y.val

/-- `bool_le_reif` (`redefs_bool_reifs.mzn` 92–105). -/
def boolLeReif (x y b : V) : Prop := 1 - x.val + y.val ≥ b.val ∧ 1 - x.val ≤ b.val ∧ y.val ≤ b.val

/-- `bool_lt` (`redefs_bool_reifs.mzn` 107–108). -/
def boolLt (x y : V) : Prop := x.val = 0 ∧ y.val = 1

/-- `bool_lt_reif` (`redefs_bool_reifs.mzn` 110): the conjunction of `not x` and `y` is `b`. -/
def boolLtReif (x y b : V) : Prop := boolAnd x.inv y b

/-- `array_bool_xor` (`redefs_bool_reifs.mzn` 153–159). -/
def arrayBoolXor (xs : List V) : Prop :=
  ∃ m : Int, 0 ≤ m ∧ m ≤ ((xs.length : Int) - 1).tdiv 2 ∧
    1 ≤ sumVal xs ∧ sumVal xs ≤ (((xs.length : Int) - 1).tdiv 2) * 2 + 1 ∧ sumVal xs = 1 + 2 * m

/-- `bool_clause` (`redefs_bool_reifs.mzn` 161–168). -/
def boolClause (xs ys : List V) : Prop := sumVal xs - sumVal ys + ys.length ≥ 1

/-- `bool_lin_eq` (`redefs_bool_reifs.mzn` 170–171). -/
def boolLinEq (ts : List (Int × V)) (y : V) : Prop := (V.lin ts).val = y.val

/-- `bool_lin_eq_reif` (`redefs_bool_reifs.mzn` 173–178). -/
def boolLinEqReif (o : Opts) (ts : List (Int × V)) (c : Int) (b : V) : Prop :=
  auxIntEqIff1 o (V.lin ts) (V.const c) b

/-- `bool_eq_imp` (`redefs_bool_imp.mzn` 6–15). -/
def boolEqImp (x y b : V) : Prop :=
  if b.fixed then (if b.fix = 1 then boolEq x y else True)
  else x.val + b.val ≤ y.val + 1 ∧ y.val + b.val ≤ x.val + 1

/-- `bool_xor_imp` (`redefs_bool_imp.mzn` 49–54), also `bool_ne_imp` (17–18). -/
def boolXorImp (x y b : V) : Prop := x.val + y.val ≥ b.val ∧ x.val + y.val + b.val ≤ 2

/-- `bool_le_imp` (`redefs_bool_imp.mzn` 20–29). -/
def boolLeImp (x y b : V) : Prop := 1 - x.val + y.val ≥ b.val

/-- `array_bool_and_imp` (`redefs_bool_imp.mzn` 72–86). -/
def arrayBoolAndImp (xs : List V) (b : V) : Prop :=
  if b.fixed then (if b.fix = 1 then ∀ x ∈ xs, x.val = 1 else True)
  else if ∀ x ∈ xs, x.fixed ∧ x.fix = 1 then True
  else ∀ x ∈ xs, x.val ≥ b.val

/-- `array_bool_or_imp` (`redefs_bool_imp.mzn` 57–70): `as` are the values of the new variables `a1`, of which `a1[i] -> xs[i]` is a
clause. -/
def arrayBoolOrImp (xs : List V) (b : V) : Prop :=
  if ∀ x ∈ xs, x.fixed ∧ x.fix ≠ 1 then b.val = 0
  else if ∃ x ∈ xs, x.fixed ∧ x.fix = 1 then True
  else ∃ as : List Bool, as.length = xs.length ∧
    (∀ t ∈ as.zip xs, (V.bit t.1).val ≤ t.2.val) ∧ sumVal (as.map V.bit) = b.val

/-- `bool_and_imp` (`redefs_bool_imp.mzn` 43–47). -/
def boolAndImp (x y b : V) : Prop := arrayBoolAndImp [x, y] b

/-- `bool_or_imp` (`redefs_bool_imp.mzn` 37–41). -/
def boolOrImp (x y b : V) : Prop := arrayBoolOrImp [x, y] b

/-- `bool_lt_imp` (`redefs_bool_imp.mzn` 31–35). -/
def boolLtImp (x y b : V) : Prop := boolAndImp x.inv y b

/-- `bool_lin_eq_imp` (`redefs_bool_imp.mzn` 89–94). -/
def boolLinEqImp (o : Opts) (ts : List (Int × V)) (c : Int) (b : V) : Prop :=
  auxIntEqIf1 o (V.lin ts) (V.const c) b

end MZ.LinLib
