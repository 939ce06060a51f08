import Verif.Arr.Props
/-!
# Flattening of array accesses

`flatten_arrayaccess` (lib/flatten/flatten_arrayaccess.cpp 23–379) and the functions `element` it calls
(share/minizinc/std/stdlib/stdlib_internal.mzn 236–592) with the redefinitions of the FlatZinc predicates
(share/minizinc/std/redefinitions-2.0.2.mzn 11–12, redefinitions-2.5.2.mzn 4–13), on top of the model of array literals
(`Verif.Arr.Model`). Everything is considered under one assignment of the variables.
-/
namespace MZ
namespace Access
open Arr

variable {α : Type}

/-! ## Fixed and variable indices: the slice for the fixed ones -/

/-- Lines 66–91 `nonpar`: the numbers of the dimensions with a variable index; `some v` is a fixed index. -/
def nonparOf : List (Option Int) → Nat → List Nat
  | [], _ => []
  | some _ :: ix, i => nonparOf ix (i + 1)
  | none :: ix, i => i :: nonparOf ix (i + 1)

/-- Lines 66–91 `idx`: the fixed indices, and the minimum of the dimension for the others. -/
def startIdx : List (Option Int) → List (Int × Int) → List Int
  | some v :: ix, _ :: D => v :: startIdx ix D
  | none :: ix, p :: D => p.1 :: startIdx ix D
  | _, _ => []

/-- Line 88 `dims`: the bounds of the dimensions with a variable index. -/
def subDims : List (Option Int) → List (Int × Int) → List (Int × Int)
  | some _ :: ix, _ :: D => subDims ix D
  | none :: ix, p :: D => p :: subDims ix D
  | _, _ => []

/-- The state of the loop 120–159: `stack` (last element first), `idx`, `elems`. -/
structure St (α : Type) where
  stack : List Nat
  idx : List Int
  elems : List α

/-- Lines 124–145: the loop over the last of the dimensions with a variable index, with `n` values left from `i`
on. `none`: an access is out of bounds. -/
def inner (acc : List Int → Res (Option α)) (p : Nat) (i : Int) : Nat → List Int × List α → Res (Option (List Int × List α))
  | 0, s => .ok (some s)
  | n + 1, s =>
    match acc (s.1.set p i) with
    | .ok (some e) => inner acc p (i + 1) n (s.1.set p i, s.2 ++ [e])
    | .ok none => .ok none
    | .err => .err
    | .ub => .ub

/-- What one iteration of the loop does. -/
inductive Step (α : Type) where
  | next (s : St α)
  | undef
  | bad

/-- 121–158: one iteration, for the array with index sets `D` and the dimensions `np` with a variable index. -/
def step (acc : List Int → Res (Option α)) (D : List (Int × Int)) (np : List Nat) (cur : Nat) (s : St α) : Step α :=
  match np[cur]? with
  | none => .bad
  | some p =>
    match D[p]?, s.idx[p]? with
    | some (lo, hi), some v =>
      if cur = np.length - 1 then
        match inner acc p lo (hi - lo + 1).toNat (s.idx, s.elems) with
        | .ok (some (idx, elems)) => .next ⟨s.stack.tail, idx, elems⟩
        | .ok none => .undef
        | _ => .bad
      else if v = hi then .next ⟨s.stack.tail, s.idx.set p lo, s.elems⟩
      else
        .next ⟨(List.range' (cur + 1) (np.length - (cur + 1))).reverse ++ s.stack, s.idx.set p (v + 1), s.elems⟩
    | _, _ => .bad

/-- The result of the loop: the elements, or an access out of bounds; `none` if it is not finished. -/
inductive Sl (α : Type) where
  | elems (es : List α)
  | undef
  | bad

/-- 120–159: at most `fuel` iterations. -/
def loop (acc : List Int → Res (Option α)) (D : List (Int × Int)) (np : List Nat) : Nat → St α → Option (Sl α)
  | 0, _ => none
  | fuel + 1, s =>
    match s.stack with
    | [] => some (.elems s.elems)
    | cur :: _ =>
      match step acc D np cur s with
      | .next s' => loop acc D np fuel s'
      | .undef => some .undef
      | .bad => some .bad

/-- 57–166: the elements of the slice for the fixed indices. -/
def slice (a : Lit α) (D : List (Int × Int)) (ix : List (Option Int)) (fuel : Nat) : Option (Sl α) :=
  let np := nonparOf ix 0
  loop (access a) D np fuel ⟨(List.range np.length).reverse, startIdx ix D, []⟩

/-! ## An access whose index is an access to a fixed array -/

/-- 190–200: the elements of the composed array; `none`: an index is out of bounds, nothing is composed. -/
def composed (al : Lit α) (lo hi : Int) (inner : Lit Int) : Nat → Nat → Res (Option (List α))
  | _, 0 => .ok (some [])
  | i, n + 1 =>
    match get inner i with
    | .ok v =>
      if v < lo ∨ v > hi then .ok none
      else
        match get al (v - lo).toNat with
        | .ok e =>
          match composed al lo hi inner (i + 1) n with
          | .ok (some es) => .ok (some (e :: es))
          | r => r
        | .err => .err
        | .ub => .ub
    | .err => .err
    | .ub => .ub

/-! ## The functions `element` -/

/-- flatzinc_builtins.mzn 274–282: the FlatZinc constraint on an array with indices from 1. -/
def fznElement (i : Int) (E : List Int) (y : Int) : Prop := 1 ≤ i ∧ E[(i - 1).toNat]? = some y

/-- redefinitions-2.0.2.mzn 11–12 `array_var_int_element_nonshifted`, for the index set `lo..`. -/
def nonshifted (i lo : Int) (E : List Int) (y : Int) : Prop := fznElement (i - (lo - 1)) E y

/-- `card(lo..hi)`. -/
def card (p : Int × Int) : Int := Max.max 0 (p.2 - p.1 + 1)

/-- `i in lo..hi`. -/
def isIn (i : Int) (p : Int × Int) : Prop := p.1 ≤ i ∧ i ≤ p.2

instance (i : Int) (p : Int × Int) : Decidable (isIn i p) := inferInstanceAs (Decidable (_ ∧ _))

/-- redefinitions-2.5.2.mzn 4–13 `array_var_int_element2d_nonshifted`. -/
def nonshifted2 (i1 i2 : Int) (p1 p2 : Int × Int) (E : List Int) (y : Int) : Prop :=
  nonshifted (i1 * card p2 + i2 - (p1.1 * card p2 + p2.1 - 1)) 1 E y

/-- stdlib_internal.mzn 236–246 `element_t`; `dom` is `dom_bounds_array(x)`. -/
def elementT (dom : Int → Prop) (i : Int) (p : Int × Int) (E : List Int) (r : Int) : Prop :=
  if E.length = 0 then r = 0 else dom r ∧ isIn i p ∧ nonshifted i p.1 E r

/-- 248–256 `element_mt`. -/
def elementMt (dom : Int → Prop) (i : Int) (p : Int × Int) (E : List Int) (r : Int) : Prop :=
  ∃ i2, dom r ∧ isIn i2 p ∧ (isIn i p → i2 = i) ∧ (isIn i p ∨ i2 = p.1) ∧ nonshifted i2 p.1 E r

/-- 258–269 `element_t` in two dimensions. -/
def elementT2 (dom : Int → Prop) (i1 i2 : Int) (p1 p2 : Int × Int) (E : List Int) (r : Int) : Prop :=
  if E.length = 0 then r = 0 else dom r ∧ isIn i1 p1 ∧ isIn i2 p2 ∧ nonshifted2 i1 i2 p1 p2 E r

/-- 271–283 `element_mt` in two dimensions. -/
def elementMt2 (dom : Int → Prop) (i1 i2 : Int) (p1 p2 : Int × Int) (E : List Int) (r : Int) : Prop :=
  ∃ j1 j2, dom r ∧ isIn j1 p1 ∧ isIn j2 p2 ∧ ((isIn i1 p1 ∧ isIn i2 p2) → (j1 = i1 ∧ j2 = i2)) ∧
    ((isIn i1 p1 ∧ isIn i2 p2) ∨ (j1 = p1.1 ∧ j2 = p2.1)) ∧ nonshifted2 j1 j2 p1 p2 E r

/-- 316–352: the position in three dimensions. -/
def lin3 (i1 i2 i3 : Int) (p1 p2 p3 : Int × Int) : Int :=
  let d2 := card p2
  let d3 := card p3
  i1 * (d2 * d3) + i2 * d3 + i3 - (p1.1 * d2 * d3 + p2.1 * d3 + p3.1 - 1)

/-- 354–407: four dimensions. -/
def lin4 (i1 i2 i3 i4 : Int) (p1 p2 p3 p4 : Int × Int) : Int :=
  let d2 := card p2
  let d3 := card p3
  let d4 := card p4
  i1 * (d2 * d3 * d4) + i2 * (d3 * d4) + i3 * d4 + i4 -
    (p1.1 * d2 * d3 * d4 + p2.1 * d3 * d4 + p3.1 * d4 + p4.1 - 1)

/-- 409–491: five dimensions. -/
def lin5 (i1 i2 i3 i4 i5 : Int) (p1 p2 p3 p4 p5 : Int × Int) : Int :=
  let d2 := card p2
  let d3 := card p3
  let d4 := card p4
  let d5 := card p5
  i1 * (d2 * d3 * d4 * d5) + i2 * (d3 * d4 * d5) + i3 * (d4 * d5) + i4 * d5 + i5 -
    (p1.1 * d2 * d3 * d4 * d5 + p2.1 * d3 * d4 * d5 + p3.1 * d4 * d5 + p4.1 * d5 + p5.1 - 1)

/-- 493–587: six dimensions. -/
def lin6 (i1 i2 i3 i4 i5 i6 : Int) (p1 p2 p3 p4 p5 p6 : Int × Int) : Int :=
  let d2 := card p2
  let d3 := card p3
  let d4 := card p4
  let d5 := card p5
  let d6 := card p6
  i1 * (d2 * d3 * d4 * d5 * d6) + i2 * (d3 * d4 * d5 * d6) + i3 * (d4 * d5 * d6) + i4 * (d5 * d6) + i5 * d6 + i6 -
    (p1.1 * d2 * d3 * d4 * d5 * d6 + p2.1 * d3 * d4 * d5 * d6 + p3.1 * d4 * d5 * d6 + p4.1 * d5 * d6 + p5.1 * d6 +
      p6.1 - 1)

/-- The constraint `element_t` for an access with these indices to an array with these index sets; for other numbers of
dimensions there is no function. -/
def elT (dom : Int → Prop) (E : List Int) (r : Int) : List Int → List (Int × Int) → Prop
  | [i], [p] => elementT dom i p E r
  | [i1, i2], [p1, p2] => elementT2 dom i1 i2 p1 p2 E r
  | [i1, i2, i3], [p1, p2, p3] => elementT dom (lin3 i1 i2 i3 p1 p2 p3) (1, E.length) E r
  | [i1, i2, i3, i4], [p1, p2, p3, p4] => elementT dom (lin4 i1 i2 i3 i4 p1 p2 p3 p4) (1, E.length) E r
  | [i1, i2, i3, i4, i5], [p1, p2, p3, p4, p5] =>
    elementT dom (lin5 i1 i2 i3 i4 i5 p1 p2 p3 p4 p5) (1, E.length) E r
  | [i1, i2, i3, i4, i5, i6], [p1, p2, p3, p4, p5, p6] =>
    elementT dom (lin6 i1 i2 i3 i4 i5 i6 p1 p2 p3 p4 p5 p6) (1, E.length) E r
  | _, _ => False

/-- The same for `element_mt`. -/
def elMt (dom : Int → Prop) (E : List Int) (r : Int) : List Int → List (Int × Int) → Prop
  | [i], [p] => elementMt dom i p E r
  | [i1, i2], [p1, p2] => elementMt2 dom i1 i2 p1 p2 E r
  | [i1, i2, i3], [p1, p2, p3] => elementMt dom (lin3 i1 i2 i3 p1 p2 p3) (1, E.length) E r
  | [i1, i2, i3, i4], [p1, p2, p3, p4] => elementMt dom (lin4 i1 i2 i3 i4 p1 p2 p3 p4) (1, E.length) E r
  | [i1, i2, i3, i4, i5], [p1, p2, p3, p4, p5] =>
    elementMt dom (lin5 i1 i2 i3 i4 i5 p1 p2 p3 p4 p5) (1, E.length) E r
  | [i1, i2, i3, i4, i5, i6], [p1, p2, p3, p4, p5, p6] =>
    elementMt dom (lin6 i1 i2 i3 i4 i5 i6 p1 p2 p3 p4 p5 p6) (1, E.length) E r
  | _, _ => False

/-- The test `has_bounds(idx) /\ lb(idx) >= min(..) /\ ub(idx) <= max(..)` for all indices. -/
def bndsIn : List (Option (Int × Int)) → List (Int × Int) → Bool
  | [], [] => true
  | some (l, u) :: bs, p :: D => decide (l ≥ p.1) && decide (u ≤ p.2) && bndsIn bs D
  | _, _ => false

/-- `constraint idx in index_set(x)` for all indices. -/
def allIn : List Int → List (Int × Int) → Bool
  | [], [] => true
  | i :: is, p :: D => decide (isIn i p) && allIn is D
  | _, _ => false

/-- 285–587 `element`: the constraints hold for result `r` and definedness `b`. `root`: in root context, where `b` is
required to be true. -/
def element (root : Bool) (bs : List (Option (Int × Int))) (dom : Int → Prop) (t : List Int) (D : List (Int × Int))
    (E : List Int) (b : Bool) (r : Int) : Prop :=
  if E.length = 0 ∨ root then b = allIn t D ∧ elT dom E r t D
  else if bndsIn bs D then b = true ∧ elT dom E r t D
  else b = allIn t D ∧ elMt dom E r t D

/-- An optional value. -/
abbrev OInt := Option Int

/-- 594–609, …: `idx default min(index_set(x))` for all indices. -/
def defaults : List OInt → List (Int × Int) → List Int
  | i :: is, p :: D => i.getD p.1 :: defaults is D
  | _, _ => []

/-- 589–592 and 594–715 `element` for optional indices: in one dimension the conditional is flattened (C67), so that only the
definedness of the selected branch counts. -/
def elementOpt (root : Bool) (bs : List (Option (Int × Int))) (dom : Int → Prop) (t : List OInt) (D : List (Int × Int))
    (E : List Int) (b : Bool) (r : OInt) : Prop :=
  match t, D with
  | [none], [_] => b = true ∧ r = none
  | [some i], [p] => ∃ v, element root bs dom [i] [p] E b v ∧ r = some v
  | t, D =>
    if E.length = 0 then b = t.all (fun i => i.isNone) ∧ r = none
    else
      ∃ v, element root bs dom (defaults t D) D E b v ∧
        r = if t.any (fun i => i.isNone) then none else some v

/-! ## All of it -/

/-- An index: fixed (`none` is `<>`), or a variable with its value. -/
inductive Ix where
  | par (v : OInt)
  | var (v : Int)
deriving DecidableEq, Repr

/-- The index is a variable. -/
def Ix.isVar : Ix → Bool
  | .par _ => false
  | .var _ => true

/-- The result of flattening an access: it does not end; something is read that is not there; it is undefined; or constraints
for a result and its definedness. -/
inductive Flat where
  | hang
  | bad
  | con (P : Bool → OInt → Prop)

/-- 78–92: the fixed indices, `<>` replaced by the minimum. -/
def fixed : List Ix → List (Int × Int) → List (Option Int)
  | .par v :: ix, p :: D => some (v.getD p.1) :: fixed ix D
  | .var _ :: ix, _ :: D => none :: fixed ix D
  | _, _ => []

/-- The values of the variable indices (`newaccess`). -/
def varIdx : List Ix → List Int
  | [] => []
  | .par _ :: ix => varIdx ix
  | .var v :: ix => v :: varIdx ix

/-- 93–117: all indices are fixed. -/
def allFixed (a : Lit Int) (ix : List Ix) (D : List (Int × Int)) : Flat :=
  if ix.all (fun i => decide (i = .par none)) then .con fun b r => b = true ∧ r = none
  else
    match access a ((fixed ix D).map fun v => v.getD 0) with
    | .ok (some e) =>
      .con fun b r => b = true ∧ r = if ix.any (fun i => decide (i = .par none)) then none else some e
    | .ok none => .con fun b _ => b = false
    | _ => .bad

/-- 23–379 `flatten_arrayaccess` for integer arrays; `fuel` bounds the iterations of the loop. -/
def flatten (root : Bool) (bs : List (Option (Int × Int))) (dom : Int → Prop) (a : Lit Int) (D : List (Int × Int))
    (E : List Int) (ix : List Ix) (fuel : Nat) : Flat :=
  if ix.all Ix.isVar then
    .con fun b r => ∃ v, element root bs dom (varIdx ix) D E b v ∧ r = some v
  else if (varIdx ix).isEmpty then allFixed a ix D
  else
    match slice a D (fixed ix D) fuel with
    | none => .hang
    | some .bad => .bad
    | some .undef => .con fun b _ => b = false
    | some (.elems es) =>
      .con fun b r => ∃ v, element root bs dom (varIdx ix) (subDims (fixed ix D) D) es b v ∧ r = some v

end Access
end MZ
