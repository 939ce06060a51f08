import Verif.Arr.Props
import Verif.Ranges.Model
/-!
# Array builtins (lib/builtins.cpp 1280–1546, 3637–3672)

Sets are range lists (`Verif.Ranges.Model`). Arguments are evaluated values.
-/
namespace MZ
namespace Arr

variable {α : Type}

/-- `static_cast<int>` of a 64-bit number. -/
def i32 (x : Int) : Int := (x + 2147483648) % 4294967296 - 2147483648

/-- Arithmetic on `unsigned int`. -/
def u32 (x : Int) : Int := x % 4294967296

/-- One index set of `arrayXd`. -/
inductive XDim
  | empty
  | range (lo hi : Int)
  | open (lo : Int)

/-- builtins.cpp 1288–1310: the cases for one index set; `err` is an `EvalError`. -/
def xdOne (s : List Range) : Res XDim :=
  match s with
  | [] => .ok .empty
  | [r] =>
    match r.lo, r.hi with
    | .fin a, .fin b => .ok (.range (i32 a) (i32 b))
    | .fin a, _ => .ok (.open (i32 a))
    | _, _ => .err
  | _ => .err

/-- 1298: the width of a dimension is computed in `int`. -/
def width32 (lo hi : Int) : Res Int :=
  if hi - lo < 2147483647 ∧ -2147483648 ≤ hi - lo then .ok (u32 (hi - lo + 1)) else .ub

/-- 1287–1311: the loop over the index sets. `dim1d` is an `unsigned int`. -/
def xdLoop : List (List Range) → Bool → Int → Res (List XDim × Int)
  | [], _, dim1d => .ok ([], dim1d)
  | s :: r, seen, dim1d => do
    let x ← xdOne s
    match x with
    | .empty => do
      let y ← xdLoop r seen 0
      .ok (.empty :: y.1, y.2)
    | .range lo hi => do
      let w ← width32 lo hi
      let y ← xdLoop r seen (u32 (dim1d * w))
      .ok (.range lo hi :: y.1, y.2)
    | .open lo =>
      if seen then .err
      else do
        let y ← xdLoop r true dim1d
        .ok (.open lo :: y.1, y.2)

/-- The dimension given to the constructor; `q` is `al->size() / dim1d`. -/
def xdFinish (q : Int) : XDim → (Int × Int)
  | .empty => (1, 0)
  | .range lo hi => (lo, hi)
  | .open lo => (lo, lo + (q - 1))

/-- The upper bound of the completed dimension is computed in `int`. -/
def openFits (q : Int) : XDim → Bool
  | .open lo => decide (lo + (q - 1) ≤ 2147483647)
  | _ => true

/-- Whether there is a dimension without upper bound. -/
def isOpen : XDim → Bool
  | .open _ => true
  | _ => false

/-- 1280–1333 `b_arrayXd` with `d` index sets. -/
def arrayXd (sets : List (List Range)) (al : Lit α) : Res (Lit α) := do
  let x ← xdLoop sets false 1
  let n ← size al
  if x.1.any isOpen then
    if x.2 = 0 then .ub
    else if n % x.2 ≠ 0 then .err
    else if x.1.all (openFits (n / x.2)) then
      if u32 (x.2 * (n / x.2)) ≠ n then .err else redim al (x.1.map (xdFinish (n / x.2)))
    else .ub
  else if x.2 ≠ n then .err
  else redim al (x.1.map (xdFinish 0))

/-- 1334–1345 `b_array1d_list`. -/
def array1dList (al : Lit α) : Res (Lit α) := do
  let lo ← min al 0
  if ndims al = 1 ∧ lo = 1 then .ok al else redim1 al

/-- 1354–1378: the two-argument `arrayXd`. -/
def arrayXd2 (a0 a1 : Lit α) : Res (Lit α) := do
  let b0 ← boundsFrom a0 0 (ndims a0)
  let b1 ← boundsFrom a1 0 (ndims a1)
  if ndims a0 = ndims a1 ∧ b0 = b1 then .ok a1 else redim a1 b0

/-- `n` consecutive elements from position `off`. -/
def getRange (a : Lit α) (off : Nat) : Nat → Res (List α)
  | 0 => .ok []
  | n + 1 => do
    let e ← get a off
    let r ← getRange a (off + 1) n
    .ok (e :: r)

/-- 1436–1445: the loop copying alternate blocks of the two arrays. -/
def concatBlocks (a0 a1 : Lit α) (bs0 bs1 : Nat) : Nat → Nat → Nat → Res (List α)
  | 0, _, _ => .ok []
  | n + 1, off0, off1 => do
    let x ← getRange a0 off0 bs0
    let y ← getRange a1 off1 bs1
    let r ← concatBlocks a0 a1 bs0 bs1 n (off0 + bs0) (off1 + bs1)
    .ok (x ++ (y ++ r))

/-- 1405–1415: the index sets of the concatenation in dimension `idx` (from 1); `err` when other index sets differ. -/
def concatDims (idx : Nat) : Nat → List (Int × Int) → List (Int × Int) → Res (List (Int × Int))
  | i, p :: r, q :: s =>
    if i + 1 ≠ idx then
      if p ≠ q then .err
      else do
        let t ← concatDims idx (i + 1) r s
        .ok (p :: t)
    else do
      let t ← concatDims idx (i + 1) r s
      .ok ((1, p.2 - p.1 + 1 + q.2 - q.1 + 1) :: t)
  | _, _, _ => .ok []

/-- 1395–1450 `b_concat_index`; `idx` counts from 1. Products are exact numbers. -/
def concatIndex (eqv : α → α → Bool) (a0 a1 : Lit α) (idx : Nat) : Res (Lit α) := do
  if ndims a0 ≠ ndims a1 then .err
  else do
    let b0 ← boundsFrom a0 0 (ndims a0)
    let b1 ← boundsFrom a1 0 (ndims a1)
    let d ← concatDims idx 0 b0 b1
    let total := (prodW d).toNat
    if total = 0 then .ok (mkDims eqv [] d)
    else do
      let inner := prodW (d.drop idx)
      let l0 ← min a0 (idx - 1)
      let h0 ← max a0 (idx - 1)
      let l1 ← min a1 (idx - 1)
      let h1 ← max a1 (idx - 1)
      let bs0 := ((h0 - l0 + 1) * inner).toNat
      let bs1 := ((h1 - l1 + 1) * inner).toNat
      let e ← concatBlocks a0 a1 bs0 bs1 (total / (bs0 + bs1)) 0 0
      .ok (mkDims eqv e d)

/-- The finite end of a range, or the bound of the array. -/
def orBound (x : Ext) (b : Int) : Int :=
  match x with
  | .fin a => i32 a
  | _ => b

/-- 3644–3656, 1474–1486: one range of a slice; `none` is an undefined result (not contiguous or out of bounds). -/
def sliceOne (s : List Range) (b : Int × Int) : Option (Int × Int) :=
  match s with
  | [] => some (1, 0)
  | [r] =>
    if orBound r.lo b.1 < b.1 ∨ orBound r.hi b.2 > b.2 then none else some (orBound r.lo b.1, orBound r.hi b.2)
  | _ => none

/-- 3642–3657: the ranges of a slice. -/
def sliceAll : List (List Range) → List (Int × Int) → Option (List (Int × Int))
  | [], _ => some []
  | s :: r, b :: bs =>
    match sliceOne s b with
    | none => none
    | some p => match sliceAll r bs with
      | none => none
      | some t => some (p :: t)
  | _ :: _, [] => none

/-- 3659–3668: the index sets of the result of a slice. -/
def newDim (s : List Range) : Res (Int × Int) :=
  match s with
  | [] => .ok (1, 0)
  | r :: rs =>
    match r.lo, ((r :: rs).getLast (by simp)).hi with
    | .fin a, .fin b => .ok (i32 a, i32 b)
    | _, _ => .err

/-- All of them. -/
def newDims : List (List Range) → Res (List (Int × Int))
  | [] => .ok []
  | s :: r => do
    let p ← newDim s
    let t ← newDims r
    .ok (p :: t)

/-- 3637–3672 `b_slice`; `none` is an undefined result. -/
def bSlice (al : Lit α) (slice dims : List (List Range)) : Res (Option (Lit α)) := do
  let b ← boundsFrom al 0 (ndims al)
  match sliceAll slice b with
  | none => .ok none
  | some s => do
    let d ← newDims dims
    let r ← mkSlice al d s
    .ok (some r)

/-- The integers `lo, …, lo + n - 1`. -/
def upFrom (lo : Int) : Nat → List Int
  | 0 => []
  | n + 1 => lo :: upFrom (lo + 1) n

/-- `Ranges::ToValues` on a finite set. -/
def valuesOf : List Range → List Int
  | [] => []
  | r :: rs =>
    match r.lo, r.hi with
    | .fin a, .fin b => upFrom a (b - a + 1).toNat ++ valuesOf rs
    | _, _ => valuesOf rs

/-- 1531–1539: the loop over the selected values of one block. -/
def selectVals (al : Lit α) (off inner : Nat) (lo : Int) : List Int → Res (List α)
  | [] => .ok []
  | v :: vs => do
    let x ← getRange al (off + (v - lo).toNat * inner) inner
    let r ← selectVals al off inner lo vs
    .ok (x ++ r)

/-- 1527–1541: the loop over the blocks. -/
def selectBlocks (al : Lit α) (inner span : Nat) (lo : Int) (vs : List Int) : Nat → Nat → Res (List α)
  | 0, _ => .ok []
  | n + 1, off => do
    let x ← selectVals al off inner lo vs
    let r ← selectBlocks al inner span lo vs n (off + span)
    .ok (x ++ r)

/-- 1458–1546 `b_select_from_index`; `idx` counts from 1, `none` is an undefined result. A set of several ranges has finite bounds
here: with an infinite bound the comparison 1499 already fails. -/
def selectIndex (eqv : α → α → Bool) (al : Lit α) (idx : Nat) (sel : List Range) : Res (Option (Lit α)) := do
  let b ← boundsFrom al 0 (ndims al)
  match b[idx - 1]? with
  | none => .err
  | some (lo, hi) =>
    if sel.length ≤ 1 then
      if sel = [⟨.fin lo, .fin hi⟩] then .ok (some al)
      else match sliceOne sel (lo, hi) with
        | none => .ok none
        | some p => do
          let r ← mkSlice al (b.set (idx - 1) p) (b.set (idx - 1) p)
          .ok (some r)
    else if sel.any (fun r => decide (r.lo < .fin lo) || decide (r.hi > .fin hi)) then .ok none
    else do
      let vs := valuesOf sel
      let d := b.set (idx - 1) (1, vs.length)
      let total := (prodW d).toNat
      let inner := (prodW (d.drop idx)).toNat
      let e ← selectBlocks al inner ((hi - lo + 1).toNat * inner) lo vs (total / (vs.length * inner)) 0
      .ok (some (mkDims eqv e d))

end Arr
end MZ
