import Verif.Linear.Lemmas
/-!
# Array literals (lib/ast.cpp 380–545, include/minizinc/ast.hh 880–981, include/minizinc/ast.hpp 295–411)

Index bounds and element counts are exact numbers (an array of 2^31 or more elements cannot be created). Reading outside a
vector, a division by zero and a violated assertion are `ub`.
-/
namespace MZ
namespace Arr

variable {α : Type}

/-- ast.hh 884–894: the vector of elements (with its flag `compressed`), or a view of another array; and `_dims`. -/
inductive Lit (α : Type) where
  | vec (v : List α) (flag : Bool) (dims : List Int)
  | slice (al : Lit α) (dims : List Int)

/-- `_dims`. -/
def Lit.raw : Lit α → List Int
  | .vec _ _ d => d
  | .slice _ d => d

/-- ast.cpp 380–382 `dims`. -/
def ndims : Lit α → Nat
  | .vec _ _ d => if d.isEmpty then 1 else d.length / 2
  | .slice al d => (d.length - 2 * ndims al) / 2

/-- `_dims[k]`. -/
def at? (d : List Int) (k : Nat) : Res Int :=
  match d[k]? with
  | some x => .ok x
  | none => .ub

/-- ast.cpp 383–389 `min`. -/
def min (a : Lit α) (i : Nat) : Res Int :=
  if a.raw.isEmpty then (if i = 0 then .ok 1 else .ub) else at? a.raw (2 * i)

/-- 390–396 `max`. -/
def max (a : Lit α) (i : Nat) : Res Int :=
  match a with
  | .vec v _ d => if d.isEmpty then (if i = 0 then .ok v.length else .ub) else at? d (2 * i + 1)
  | .slice _ d => if d.isEmpty then .ub else at? d (2 * i + 1)

/-- The pairs `(min(i), max(i))` for `i` from `k` up to `k + n - 1`. -/
def boundsFrom (a : Lit α) (k : Nat) : Nat → Res (List (Int × Int))
  | 0 => .ok []
  | n + 1 => do
    let lo ← min a k
    let hi ← max a k
    let r ← boundsFrom a (k + 1) n
    .ok ((lo, hi) :: r)

/-- The product of `max(i) - min(i) + 1`. -/
def prodW : List (Int × Int) → Int
  | [] => 1
  | (lo, hi) :: r => (hi - lo + 1) * prodW r

/-- ast.cpp 398–407 `length`. -/
def length (a : Lit α) : Res Int :=
  if ndims a = 0 then .ok 0
  else do
    let b ← boundsFrom a 0 (ndims a)
    .ok (prodW b)

/-- ast.hh 966 `size`. -/
def size (a : Lit α) : Res Int :=
  match a with
  | .vec v false _ => .ok v.length
  | a => length a

/-- ast.cpp 435–442: the body of the loop of `origIdx`, from the last dimension to the first; each entry holds the slice bounds and the
bounds of the underlying array in that dimension. -/
def origLoop : List ((Int × Int) × (Int × Int)) → Int → Int → Res Int
  | [], _, _ => .ok 0
  | ((s0, s1), (a0, a1)) :: r, cur, mult =>
    if s1 - s0 + 1 ≤ 0 then .ub
    else do
      let rest ← origLoop r (cur / (s1 - s0 + 1)) (mult * (a1 - a0 + 1))
      .ok (mult * (cur % (s1 - s0 + 1) + (s0 - a0)) + rest)

/-- `(_dims[off + 2 * k], _dims[off + 2 * k + 1])` for `n` values of `k`. -/
def pairsFrom (d : List Int) (off : Nat) : Nat → Res (List (Int × Int))
  | 0 => .ok []
  | n + 1 => do
    let lo ← at? d off
    let hi ← at? d (off + 1)
    let r ← pairsFrom d (off + 2) n
    .ok ((lo, hi) :: r)

/-- 430–444 `origIdx`. -/
def origIdx (al : Lit α) (d : List Int) (i : Nat) : Res Nat := do
  let s ← pairsFrom d (((d.length - 2 * ndims al) / 2) * 2) (ndims al)
  let b ← boundsFrom al 0 (ndims al)
  let o ← origLoop (List.zip s b).reverse i 1
  if o < 0 then .ub else .ok o.toNat

/-- An element of the vector. -/
def elem (v : List α) (i : Nat) : Res α :=
  match v[i]? with
  | some x => .ok x
  | none => .ub

/-- ast.hh 979–981 `operator[]` with ast.cpp 446–454 `getSlice`. -/
def get : Lit α → Nat → Res α
  | .vec v false _, i => elem v i
  | .vec v true d, i => do
    let len ← length (.vec v true d)
    let off := len - v.length
    if (i : Int) ≤ off then elem v 0
    else if off < 0 then .ub
    else elem v (i - off.toNat)
  | .slice al d, i => do
    let o ← origIdx al d i
    get al o

/-- A vector with element `i` replaced. -/
def upd (v : List α) (i : Nat) (e : α) : Res (List α) :=
  if i < v.length then .ok (v.set i e) else .ub

/-- ast.hh 971–977 `set` with ast.cpp 456–469 `setSlice`. -/
def set : Lit α → Nat → α → Res (Lit α)
  | .vec v false d, i, e => do let v' ← upd v i e; .ok (.vec v' false d)
  | .vec v true d, i, e => do
    let len ← length (.vec v true d)
    let off := len - v.length
    if (i : Int) ≤ off then do
      let v' ← upd v 0 e
      .ok (.vec v' true d)
    else if off < 0 then .ub
    else do
      let v' ← upd v (i - off.toNat) e
      .ok (.vec v' true d)
  | .slice al d, i, e => do
    let o ← origIdx al d i
    let al' ← set al o e
    .ok (.slice al' d)

/-- The flattened pairs of bounds. -/
def flat : List (Int × Int) → List Int
  | [] => []
  | (lo, hi) :: r => lo :: hi :: flat r

/-- ast.cpp 492–531 `compress`, without the flag `flat`. -/
def compress (eqv : α → α → Bool) (v : List α) (d : List Int) : Lit α :=
  match v with
  | v0 :: v1 :: v2 :: v3 :: r =>
    if eqv v0 v1 && eqv v1 v2 && eqv v2 v3 then .vec (v0 :: r.dropWhile (fun x => eqv x v0)) true d
    else .vec v false (if d.length ≠ 2 ∨ d[0]? ≠ some 1 then d else [])
  | _ => .vec v false (if d.length ≠ 2 ∨ d[0]? ≠ some 1 then d else [])

/-- ast.cpp 533–545: the constructor with given dimensions. -/
def mkDims (eqv : α → α → Bool) (v : List α) (dims : List (Int × Int)) : Lit α := compress eqv v (flat dims)

/-- ast.hpp 359–369: the one-dimensional constructor. -/
def mk1 (eqv : α → α → Bool) (v : List α) : Lit α := compress eqv v [1, v.length]

/-- ast.hpp 387–405: the two-dimensional constructor. -/
def mk2 (eqv : α → α → Bool) (v : List (List α)) : Lit α :=
  compress eqv v.flatten [1, v.length, 1, (v.head?.map (fun r => (r.length : Int))).getD 0]

/-- ast.hpp 295–327: existing content with new dimensions. -/
def redim (v : Lit α) (dims : List (Int × Int)) : Res (Lit α) :=
  match v with
  | .slice al d => do
    let s ← pairsFrom d (((d.length - 2 * ndims al) / 2) * 2) (ndims al)
    .ok (.slice al (flat dims ++ flat s))
  | .vec u flag _ =>
    .ok (.vec u flag (if flag = true ∨ (flat dims).length ≠ 2 ∨ (flat dims)[0]? ≠ some 1 then flat dims else []))

/-- 329–357: existing content as a one-dimensional array. -/
def redim1 (v : Lit α) : Res (Lit α) :=
  match v with
  | .slice al d => do
    let n ← size v
    let s ← pairsFrom d (((d.length - 2 * ndims al) / 2) * 2) (ndims al)
    .ok (.slice al ([1, n] ++ flat s))
  | .vec u true _ => do
    let n ← length v
    .ok (.vec u true [1, n])
  | .vec u false _ => .ok (.vec u false [])

/-- ast.cpp 471–490: the constructor for slices. -/
def mkSlice (v : Lit α) (dims slice : List (Int × Int)) : Res (Lit α) :=
  if slice.length ≠ ndims v then .ub else .ok (.slice v (flat dims ++ flat slice))

/-- 416–419: `d[i] = _dims[dimOffset + i]` for `i` from 2. -/
def copyFrom (d : List Int) (k : Nat) : Nat → Res (List Int)
  | 0 => .ok []
  | n + 1 => do
    let x ← at? d k
    let r ← copyFrom d (k + 1) n
    .ok (x :: r)

/-- 408–428 `make1d`. -/
def make1d (a : Lit α) : Res (Lit α) :=
  if a.raw.isEmpty then .ok a
  else match a with
    | .slice al d => do
      let n ← length (.slice al d)
      let r ← copyFrom d (((d.length - 2 * ndims al) / 2) * 2 + 2) (2 * ndims al)
      .ok (.slice al ([1, n] ++ r))
    | .vec v flag d => do
      let n ← length (.vec v flag d)
      .ok (.vec v flag [1, n])

/-- eval_par.hh 65–74: the loop over the dimensions; `none` is `success.fail`. -/
def accLoop : List (Int × Int) → List Int → Int → Int → Res (Option Int)
  | [], _, _, acc => .ok (some acc)
  | (lo, hi) :: r, ix :: xs, realdim, acc =>
    if ix < lo ∨ ix > hi then .ok none
    else
      let rd := realdim.tdiv (hi - lo + 1)
      accLoop r xs rd (acc + (ix - lo) * rd)
  | _ :: _, [], _, _ => .ub

/-- eval_par.hh 57–77 `eval_arrayaccess` on evaluated indices; `none` is an access out of bounds. -/
def access (a : Lit α) (idx : List Int) : Res (Option α) := do
  let b ← boundsFrom a 0 (ndims a)
  let r ← accLoop b idx (prodW b) 0
  match r with
  | none => .ok none
  | some k => if k < 0 then .ub else do
    let e ← get a k.toNat
    .ok (some e)

end Arr
end MZ
