import Mathlib.Data.Int.Interval
import Mathlib.Data.Finset.Max
import Mathlib.Data.Rat.Defs
import Mathlib.Algebra.Order.Field.Rat
import Mathlib.Algebra.Order.Ring.Rat
import Mathlib.Algebra.BigOperators.Group.Finset.Basic
import Mathlib.Algebra.BigOperators.Group.Finset.Piecewise
import Mathlib.Algebra.BigOperators.Ring.Finset
import Mathlib.Algebra.Order.BigOperators.Group.Finset
import Mathlib.Algebra.Order.Ring.Int
import Mathlib.Tactic.Linarith
import Mathlib.Tactic.Ring
import Mathlib.Tactic.Tauto
import Mathlib.Tactic.NormNum

/-!
# Variables of the linear library

The predicates of `share/minizinc/linear` choose a translation by looking at the domains of their arguments and at
options, and then post linear constraints.  A model of one of them is the relation that the posted constraints put on the
values of the arguments.  A variable is therefore modelled by its domain at translation time together with the value that
a candidate solution gives to it.  All integer domains are finite and not empty, all float variables have bounds: where a
bound is missing the library stops with an assertion.  `abort` and a failed `assert` are modelled by `False`: no solution
comes out.
-/

namespace MZ.LinLib

/-- An integer variable: its domain, and its value in a candidate solution (`include/minizinc/ast.hh` 1445–1540, a
`VarDecl` with the domain of its type-inst).  A `var bool` is a variable with a domain inside `0..1`: `bool2int` is a
reverse map (`share/minizinc/linear/redefinitions.mzn` 11–29), the solver sees the 0/1 variable only. -/
structure V where
  dom : Finset Int
  val : Int
  mem : val ∈ dom

/-- `lb(x)` (`lib/builtins.cpp` 280–303). -/
def V.lb (x : V) : Int := x.dom.min' ⟨x.val, x.mem⟩

/-- `ub(x)` (`lib/builtins.cpp` 406–429). -/
def V.ub (x : V) : Int := x.dom.max' ⟨x.val, x.mem⟩

/-- `is_fixed(x)` (`lib/builtins.cpp` 1660–1731): the domain has one element. -/
def V.fixed (x : V) : Prop := x.dom.card = 1

instance (x : V) : Decidable x.fixed := by unfold V.fixed; infer_instance

/-- `fix(x)` (`lib/builtins.cpp` 1738–1750): the element of the domain of a fixed variable. -/
def V.fix (x : V) : Int := x.lb

/-- The variable is Boolean. -/
def V.IsB (x : V) : Prop := x.dom ⊆ {0, 1}

theorem V.lb_le (x : V) : x.lb ≤ x.val := Finset.min'_le _ _ x.mem
theorem V.le_ub (x : V) : x.val ≤ x.ub := Finset.le_max' _ _ x.mem
theorem V.lb_mem (x : V) : x.lb ∈ x.dom := Finset.min'_mem _ _
theorem V.ub_mem (x : V) : x.ub ∈ x.dom := Finset.max'_mem _ _
theorem V.lb_le_of (x : V) {c : Int} (h : c ∈ x.dom) : x.lb ≤ c := Finset.min'_le _ _ h
theorem V.le_ub_of (x : V) {c : Int} (h : c ∈ x.dom) : c ≤ x.ub := Finset.le_max' _ _ h

theorem V.fixed_iff (x : V) : x.fixed ↔ x.dom = {x.val} := by
  unfold V.fixed
  rw [Finset.card_eq_one]
  constructor
  · rintro ⟨a, ha⟩
    have := x.mem
    rw [ha, Finset.mem_singleton] at this
    rw [ha, this]
  · intro h; exact ⟨_, h⟩

theorem V.fix_eq {x : V} (h : x.fixed) : x.fix = x.val := by
  have h1 := x.lb_mem
  rw [(x.fixed_iff).1 h, Finset.mem_singleton] at h1
  exact h1

theorem V.IsB.val_or {x : V} (h : x.IsB) : x.val = 0 ∨ x.val = 1 := by
  have := h x.mem
  simpa using this

/-- A variable with an interval domain. -/
def V.icc (l u v : Int) (h1 : l ≤ v) (h2 : v ≤ u) : V := ⟨Finset.Icc l u, v, Finset.mem_Icc.2 ⟨h1, h2⟩⟩

theorem V.icc_lb (l u v : Int) (h1 : l ≤ v) (h2 : v ≤ u) : (V.icc l u v h1 h2).lb = l := by
  apply le_antisymm
  · exact Finset.min'_le _ _ (Finset.mem_Icc.2 ⟨le_refl _, h1.trans h2⟩)
  · exact (Finset.mem_Icc.1 (V.lb_mem (V.icc l u v h1 h2))).1

theorem V.icc_ub (l u v : Int) (h1 : l ≤ v) (h2 : v ≤ u) : (V.icc l u v h1 h2).ub = u := by
  apply le_antisymm
  · exact (Finset.mem_Icc.1 (V.ub_mem (V.icc l u v h1 h2))).2
  · exact Finset.le_max' _ _ (Finset.mem_Icc.2 ⟨h1.trans h2, le_refl _⟩)

/-- A constant used as a variable. -/
def V.const (c : Int) : V := ⟨{c}, c, Finset.mem_singleton_self c⟩

/-- The variable that is introduced for the expression `x - y`; its domain is the interval of the bounds
(`compute_int_bounds`). -/
def V.sub (x y : V) : V :=
  V.icc (x.lb - y.ub) (x.ub - y.lb) (x.val - y.val)
    (by have := x.lb_le; have := y.le_ub; omega) (by have := x.le_ub; have := y.lb_le; omega)

/-- … for `x + c` with a constant. -/
def V.addC (x : V) (c : Int) : V :=
  V.icc (x.lb + c) (x.ub + c) (x.val + c) (by have := x.lb_le; omega) (by have := x.le_ub; omega)

/-- … for `-x`. -/
def V.neg (x : V) : V :=
  V.icc (-x.ub) (-x.lb) (-x.val) (by have := x.le_ub; omega) (by have := x.lb_le; omega)

/-- … for `1 - p`, and for `not p`. -/
def V.inv (p : V) : V :=
  V.icc (1 - p.ub) (1 - p.lb) (1 - p.val) (by have := p.le_ub; omega) (by have := p.lb_le; omega)

/-- … for `x + y`. -/
def V.add (x y : V) : V :=
  V.icc (x.lb + y.lb) (x.ub + y.ub) (x.val + y.val)
    (by have := x.lb_le; have := y.lb_le; omega) (by have := x.le_ub; have := y.le_ub; omega)

/-- … for `c * x` with a constant. -/
def V.smul (c : Int) (x : V) : V :=
  V.icc (min (c * x.lb) (c * x.ub)) (max (c * x.lb) (c * x.ub)) (c * x.val)
    (by
      rcases le_total 0 c with h | h
      · exact (min_le_left _ _).trans (mul_le_mul_of_nonneg_left x.lb_le h)
      · exact (min_le_right _ _).trans (mul_le_mul_of_nonpos_left x.le_ub h))
    (by
      rcases le_total 0 c with h | h
      · exact (mul_le_mul_of_nonneg_left x.le_ub h).trans (le_max_right _ _)
      · exact (mul_le_mul_of_nonpos_left x.lb_le h).trans (le_max_left _ _))

/-- … for `sum (i in index_set(xs)) (as[i] * xs[i])`. -/
def V.lin : List (Int × V) → V
  | [] => V.const 0
  | t :: ts => (V.smul t.1 t.2).add (V.lin ts)

@[simp] theorem V.const_val (c : Int) : (V.const c).val = c := rfl
@[simp] theorem V.sub_val (x y : V) : (x.sub y).val = x.val - y.val := rfl
@[simp] theorem V.addC_val (x : V) (c : Int) : (x.addC c).val = x.val + c := rfl
@[simp] theorem V.neg_val (x : V) : x.neg.val = -x.val := rfl
@[simp] theorem V.inv_val (x : V) : x.inv.val = 1 - x.val := rfl
@[simp] theorem V.add_val (x y : V) : (x.add y).val = x.val + y.val := rfl
@[simp] theorem V.smul_val (c : Int) (x : V) : (x.smul c).val = c * x.val := rfl

theorem V.lin_val (ts : List (Int × V)) : (V.lin ts).val = (ts.map (fun t => t.1 * t.2.val)).sum := by
  induction ts with
  | nil => rfl
  | cons t ts ih => simp [V.lin, ih]

theorem V.const_lb (c : Int) : (V.const c).lb = c := by
  have := (V.const c).lb_mem
  exact Finset.mem_singleton.1 this

theorem V.const_ub (c : Int) : (V.const c).ub = c := by
  have := (V.const c).ub_mem
  exact Finset.mem_singleton.1 this

theorem V.IsB.lb {x : V} (h : x.IsB) : x.lb = 0 ∨ x.lb = 1 := by simpa using h x.lb_mem
theorem V.IsB.ub {x : V} (h : x.IsB) : x.ub = 0 ∨ x.ub = 1 := by simpa using h x.ub_mem

theorem V.IsB.inv {x : V} (h : x.IsB) : x.inv.IsB := by
  intro c hc
  have h1 := (Finset.mem_Icc.1 hc).1
  have h2 := (Finset.mem_Icc.1 hc).2
  have := h.lb; have := h.ub
  simp only [Finset.mem_insert, Finset.mem_singleton]
  omega

/-- A new `var 0..1` with a value. -/
def V.bit (v : Bool) : V := V.icc 0 1 (if v then 1 else 0) (by split <;> omega) (by split <;> omega)

theorem V.bit_isB (v : Bool) : (V.bit v).IsB := by
  intro c hc
  have h1 := (Finset.mem_Icc.1 hc).1
  have h2 := (Finset.mem_Icc.1 hc).2
  simp only [Finset.mem_insert, Finset.mem_singleton]
  omega

@[simp] theorem V.bit_val (v : Bool) : (V.bit v).val = if v then 1 else 0 := rfl

/-- A new unconstrained `var 0..1` or `var bool` is a choice of its value. -/
theorem V.exists_bit (P : V → Prop) : (∃ v : Bool, P (V.bit v)) ↔ P (V.bit false) ∨ P (V.bit true) := by
  constructor
  · rintro ⟨v, h⟩; cases v <;> tauto
  · rintro (h | h); exacts [⟨_, h⟩, ⟨_, h⟩]

/-- A float variable: its bounds, and its value in a candidate solution.  Floats are modelled by rational numbers. -/
structure F where
  lb : ℚ
  ub : ℚ
  val : ℚ
  lb_le : lb ≤ val
  le_ub : val ≤ ub

/-- `is_fixed(x)` (`lib/builtins.cpp` 1660–1731) for a float variable. -/
def F.fixed (x : F) : Prop := x.lb = x.ub

instance (x : F) : Decidable x.fixed := by unfold F.fixed; infer_instance

/-- `fix(x)` for a float variable. -/
def F.fix (x : F) : ℚ := x.lb

theorem F.fix_eq {x : F} (h : x.fixed) : x.fix = x.val :=
  le_antisymm x.lb_le (by have := x.le_ub; unfold F.fixed at h; unfold F.fix; rw [h]; exact this)

/-- A constant used as a float variable. -/
def F.const (c : ℚ) : F := ⟨c, c, c, le_refl _, le_refl _⟩

/-- The variable for `x - y`. -/
def F.sub (x y : F) : F :=
  ⟨x.lb - y.ub, x.ub - y.lb, x.val - y.val, by have := x.lb_le; have := y.le_ub; linarith,
    by have := x.le_ub; have := y.lb_le; linarith⟩

/-- The variable for `x + c`. -/
def F.addC (x : F) (c : ℚ) : F :=
  ⟨x.lb + c, x.ub + c, x.val + c, by have := x.lb_le; linarith, by have := x.le_ub; linarith⟩

/-- The variable for `-x`. -/
def F.neg (x : F) : F := ⟨-x.ub, -x.lb, -x.val, by have := x.le_ub; linarith, by have := x.lb_le; linarith⟩

/-- An integer variable coerced to float (`int2float`). -/
def F.ofV (x : V) : F := ⟨x.lb, x.ub, x.val, by exact_mod_cast x.lb_le, by exact_mod_cast x.le_ub⟩

/-- The variable for `x + y`. -/
def F.add (x y : F) : F :=
  ⟨x.lb + y.lb, x.ub + y.ub, x.val + y.val, by have := x.lb_le; have := y.lb_le; linarith,
    by have := x.le_ub; have := y.le_ub; linarith⟩

/-- The variable for `c * x`. -/
def F.smul (c : ℚ) (x : F) : F :=
  ⟨min (c * x.lb) (c * x.ub), max (c * x.lb) (c * x.ub), c * x.val,
    (by
      rcases le_total 0 c with h | h
      · exact (min_le_left _ _).trans (mul_le_mul_of_nonneg_left x.lb_le h)
      · exact (min_le_right _ _).trans (mul_le_mul_of_nonpos_left x.le_ub h)),
    (by
      rcases le_total 0 c with h | h
      · exact (mul_le_mul_of_nonneg_left x.le_ub h).trans (le_max_right _ _)
      · exact (mul_le_mul_of_nonpos_left x.lb_le h).trans (le_max_left _ _))⟩

/-- The variable for `sum (i in index_set(xs)) (as[i] * xs[i])`. -/
def F.lin : List (ℚ × F) → F
  | [] => F.const 0
  | t :: ts => (F.smul t.1 t.2).add (F.lin ts)

@[simp] theorem F.const_val (c : ℚ) : (F.const c).val = c := rfl
@[simp] theorem F.sub_val (x y : F) : (x.sub y).val = x.val - y.val := rfl
@[simp] theorem F.addC_val (x : F) (c : ℚ) : (x.addC c).val = x.val + c := rfl
@[simp] theorem F.neg_val (x : F) : x.neg.val = -x.val := rfl
@[simp] theorem F.ofV_val (x : V) : (F.ofV x).val = x.val := rfl
@[simp] theorem F.add_val (x y : F) : (x.add y).val = x.val + y.val := rfl
@[simp] theorem F.smul_val (c : ℚ) (x : F) : (x.smul c).val = c * x.val := rfl

theorem F.lin_val (ts : List (ℚ × F)) : (F.lin ts).val = (ts.map (fun t => t.1 * t.2.val)).sum := by
  induction ts with
  | nil => rfl
  | cons t ts ih => simp [F.lin, ih]

/-- The options of the linear library (`share/minizinc/linear/options.mzn` 31, 100–192).  `fAuxIntEqOLD00` and
`fAuxFloatEqOLD00` are the same option there. -/
structure Opts where
  /-- `fPostprocessDomains` -/
  post : Bool
  /-- `fPostproDom_DIFF` -/
  diff : Bool
  /-- `fPostproDom_AUX` -/
  aux : Bool
  /-- `fMZN__UseIndicators` -/
  ind : Bool
  /-- `fAvoidNI` -/
  avoidNI : Bool
  /-- `fAuxIntEqOLD00`, `fAuxFloatEqOLD00` -/
  eqOld : Bool
  /-- `nMZN__UnaryLenMax_neq` -/
  unaryNeq : Nat
  /-- `nMZN__UnaryLenMax_eq` -/
  unaryEq : Nat
  /-- `nMZN__UnaryLenMax_setInReif` -/
  unarySet : Nat
  /-- `nMZN__UnarySizeMax_intTimes` -/
  unaryTimes : Nat
  /-- `MZN__QuadrIntCard`, `none` for infinity -/
  quadr : Option Nat
  /-- `float_lt_EPS` -/
  eps : ℚ

end MZ.LinLib
