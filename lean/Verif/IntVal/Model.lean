/-!
# `IntVal` (include/minizinc/values.hh 31–307, lib/values.cpp 18–20)

MiniZinc's integer type: a `long long` and an infinity flag. Every signed machine
operation goes through `ll`, whose outcome is `ub` when the C++ result would not fit
(signed overflow is undefined behaviour), so that "no undefined behaviour" is a
statement about the model and not an assumption.
-/
namespace MZ

/-- Outcome of a C++ operation: a value, a thrown exception, or undefined behaviour. -/
inductive Res (α : Type) where
  | ok (a : α)
  | err
  | ub
deriving DecidableEq, Repr

namespace Res
def bind {α β : Type} : Res α → (α → Res β) → Res β
  | ok a, f => f a
  | err, _ => err
  | ub, _ => ub

instance : Monad Res where
  pure := ok
  bind := bind

@[simp] theorem ok_bind {α β : Type} (a : α) (f : α → Res β) : (ok a >>= f) = f a := rfl
@[simp] theorem err_bind {α β : Type} (f : α → Res β) : ((err : Res α) >>= f) = err := rfl
@[simp] theorem ub_bind {α β : Type} (f : α → Res β) : ((ub : Res α) >>= f) = ub := rfl
@[simp] theorem pure_eq {α : Type} (a : α) : (pure a : Res α) = ok a := rfl
@[simp] theorem ok_map {α β : Type} (a : α) (f : α → β) : f <$> (ok a) = ok (f a) := rfl
@[simp] theorem err_map {α β : Type} (f : α → β) : f <$> (err : Res α) = err := rfl
@[simp] theorem ub_map {α β : Type} (f : α → β) : f <$> (ub : Res α) = ub := rfl
end Res

/-- `std::numeric_limits<long long int>::min()`. -/
def LMIN : Int := -9223372036854775808
/-- `std::numeric_limits<long long int>::max()`. -/
def LMAX : Int := 9223372036854775807
/-- `std::numeric_limits<int>::max()`. -/
def INTMAX : Int := 2147483647

/-- `x` is representable as a `long long int`. -/
def inLL (x : Int) : Prop := LMIN ≤ x ∧ x ≤ LMAX

instance (x : Int) : Decidable (inLL x) := inferInstanceAs (Decidable (_ ∧ _))

/-- Result of a signed `long long` operation whose exact value is `x`. -/
def ll (x : Int) : Res Int := if inLL x then .ok x else .ub

/-- values.hh 45–56 `IntVal::safePlus`. -/
def safePlus (x y : Int) : Res Int :=
  if x < 0 then do
    let t ← ll (LMIN - x)
    if y < t then .err else ll (x + y)
  else do
    let t ← ll (LMAX - x)
    if y > t then .err else ll (x + y)

/-- values.hh 57–68 `IntVal::safeMinus`. -/
def safeMinus (x y : Int) : Res Int :=
  if x < 0 then do
    let t ← ll (x - LMIN)
    if y > t then .err else ll (x - y)
  else do
    let t ← ll (x - LMAX)
    if y < t then .err else ll (x - y)

/-- values.hh 73–74: `(x < 0 ? 0 - x : x)`. -/
def absLL (x : Int) : Res Int := if x < 0 then ll (0 - x) else .ok x

/-- values.hh 69–79 `IntVal::safeMult`. `0 - x` is computed in `long long` (so it may
overflow) and then converted to `unsigned long long`, which is the identity on the
non-negative results; the division is unsigned. -/
def safeMult (x y : Int) : Res Int :=
  if y = 0 then .ok 0 else do
    let xAbs ← absLL x
    let yAbs ← absLL y
    if xAbs > LMAX / yAbs then .err else ll (x * y)

/-- values.hh 80–91 `IntVal::safeDiv` (C++ division truncates). -/
def safeDiv (x y : Int) : Res Int :=
  if y = 0 then .err
  else if x = 0 then .ok 0
  else if x = LMIN ∧ y = -1 then .err
  else ll (x.tdiv y)

/-- values.hh 92–100 `IntVal::safeMod`. `x % y` is undefined when `x / y` does not fit. -/
def safeMod (x y : Int) : Res Int :=
  if y = 0 then .err
  else if y = -1 then .ok 0
  else do
    let _ ← ll (x.tdiv y)
    .ok (x.tmod y)

/-- values.hh 31–43: the data members `_v` and `_infinity`. -/
structure IntVal where
  v : Int
  inf : Bool
deriving DecidableEq, Repr

namespace IntVal

/-- values.hh 104 `IntVal(long long int v)`. -/
def fin (v : Int) : IntVal := ⟨v, false⟩

/-- lib/values.cpp 18–20. -/
def minint : IntVal := fin LMIN
def maxint : IntVal := fin LMAX
def infinity : IntVal := ⟨1, true⟩

/-- values.hh 114–116. -/
def isFinite (x : IntVal) : Bool := !x.inf
def isPlusInfinity (x : IntVal) : Bool := x.inf && x.v == 1
def isMinusInfinity (x : IntVal) : Bool := x.inf && x.v == -1

/-- values.hh 107–112 `toInt`. -/
def toInt (x : IntVal) : Res Int := if !x.isFinite then .err else .ok x.v

/-- values.hh 146–150 unary minus (applied to `_v`, the infinity flag is kept). -/
def neg (x : IntVal) : Res IntVal := do
  let r ← safeMinus 0 x.v
  .ok ⟨r, x.inf⟩

/-- values.hh 250–255 `operator+` (and `+=`, 118–124). -/
def add (x y : IntVal) : Res IntVal :=
  if !(x.isFinite && y.isFinite) then .err else fin <$> safePlus x.v y.v

/-- values.hh 256–261 `operator-` (and `-=`, 125–131). -/
def sub (x y : IntVal) : Res IntVal :=
  if !(x.isFinite && y.isFinite) then .err else fin <$> safeMinus x.v y.v

/-- values.hh 262–275 `operator*`. -/
def mul (x y : IntVal) : Res IntVal :=
  if !x.isFinite then
    if y.isFinite && (y.v == 1 || y.v == -1) then do
      let r ← safeMult x.v y.v
      .ok ⟨r, !x.isFinite⟩
    else .err
  else if !y.isFinite then
    if x.isFinite && (y.v == 1 || y.v == -1) then do
      let r ← safeMult x.v y.v
      .ok ⟨r, true⟩
    else .err
  else fin <$> safeMult x.v y.v

/-- values.hh 132–138 `operator*=` (unlike `operator*` it rejects every infinity). -/
def mulAssign (x y : IntVal) : Res IntVal :=
  if !(x.isFinite && y.isFinite) then .err else (fun r => ⟨r, x.inf⟩) <$> safeMult x.v y.v

/-- values.hh 276–284 `operator/`. -/
def div (x y : IntVal) : Res IntVal :=
  if y.isFinite && (y.v == 1 || y.v == -1) then do
    let r ← safeMult x.v y.v
    .ok ⟨r, !x.isFinite⟩
  else if !(x.isFinite && y.isFinite) then .err
  else fin <$> safeDiv x.v y.v

/-- values.hh 285–290 `operator%`. -/
def mod (x y : IntVal) : Res IntVal :=
  if !(x.isFinite && y.isFinite) then .err else fin <$> safeMod x.v y.v

/-- values.hh 151–165 `operator++` (value after the increment). -/
def incr (x : IntVal) : Res IntVal :=
  if !x.isFinite then .err else (fun r => ⟨r, x.inf⟩) <$> safePlus x.v 1

/-- values.hh 166–180 `operator--` (value after the decrement). -/
def decr (x : IntVal) : Res IntVal :=
  if !x.isFinite then .err else (fun r => ⟨r, x.inf⟩) <$> safeMinus x.v 1

/-- values.hh 215–220 `plus(int)`. -/
def plus (x : IntVal) (k : Int) : Res IntVal :=
  if x.isFinite then fin <$> safePlus x.v k else .ok x

/-- values.hh 222–227 `minus(int)`. -/
def minus (x : IntVal) (k : Int) : Res IntVal :=
  if x.isFinite then fin <$> safeMinus x.v k else .ok x

/-- values.hh 235–237 `operator==`. -/
def eqb (x y : IntVal) : Bool := x.inf == y.inf && x.v == y.v

/-- values.hh 238–241 `operator<=` (`toInt` is only reached for finite operands). -/
def le (x y : IntVal) : Bool :=
  y.isPlusInfinity || x.isMinusInfinity || (x.isFinite && y.isFinite && decide (x.v ≤ y.v))

/-- values.hh 242–246 `operator<`. -/
def lt (x y : IntVal) : Bool :=
  (y.isPlusInfinity && !x.isPlusInfinity) || (x.isMinusInfinity && !y.isMinusInfinity) ||
    (x.isFinite && y.isFinite && decide (x.v < y.v))

/-- values.hh 247 `operator>=`, 248 `operator>`, 249 `operator!=`. -/
def ge (x y : IntVal) : Bool := le y x
def gt (x y : IntVal) : Bool := lt y x
def neb (x y : IntVal) : Bool := !(eqb x y)

/-- `std::min`/`std::max` instantiated at `IntVal` (they only use `operator<`):
`min(a,b) = (b < a) ? b : a`, `max(a,b) = (a < b) ? b : a`. -/
def min (x y : IntVal) : IntVal := if lt y x then y else x
def max (x y : IntVal) : IntVal := if lt x y then y else x

/-- values.hh 302–307 `abs`. -/
def abs (x : IntVal) : Res IntVal :=
  if !x.isFinite then .ok infinity else if lt x (fin 0) then neg x else .ok x

/-- The loop of `pow`, values.hh 203–206: `n` iterations remain, `i` is the C++ `int`
counter, `r` the accumulated result. `i++` is undefined at `INT_MAX`. -/
def powLoop (b : IntVal) : Nat → Int → IntVal → Res IntVal
  | 0, _, r => .ok r
  | n + 1, i, r => do
    let r' ← mulAssign r b
    if i = INTMAX then .ub else powLoop b n (i + 1) r'

/-- values.hh 181–208 `pow`. -/
def pow (b e : IntVal) : Res IntVal :=
  if !e.isFinite || !b.isFinite then .err
  else if eqb e (fin 0) then .ok (fin 1)
  else if eqb e (fin 1) then .ok b
  else if e.v < 0 then
    if eqb b (fin 0) then .err
    else if eqb b (fin 1) then .ok (fin 1)
    else if eqb b (fin (-1)) then do
      let m ← mod e (fin 2)
      .ok (if eqb m (fin 0) then fin 1 else fin (-1))
    else .ok (fin 0)
  else powLoop b e.v.toNat 0 (fin 1)

end IntVal
end MZ
