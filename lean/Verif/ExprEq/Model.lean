import Verif.Ranges.Model
/-!
# Equality, order and hash values of expressions

`Expression::equal` (include/minizinc/ast.hpp 14–40), `Expression::equalInternal`
(lib/ast.cpp 2343–2571), `Expression::compare` (lib/ast.cpp 2069–2341) and the `rehash` functions
(lib/ast.cpp 301–379, 548–571, 577–581, 641–654, 690–713, 898–906, 922–936, 1056–1072, 1105–1114).

Expressions are trees. Every boxed node carries its type and its *stored* hash value (`_hash`),
which is whatever the program last computed; the theorems about equality do not assume that it
is up to date. Simplifications:
* node addresses are only kept for the two kinds of nodes that are not compared by content
  (anonymous variables and type-inst identifiers: equal if they are the same node). For the others the test `e0 == e1` of
  `Expression::equal` is left out: identical pointers are identical trees, and `C66_refl` shows
  that the comparison by content then answers "equal" as well;
* an array literal is given by its `_dims` and by the elements that `operator[]` reads
  (C18 and C19 are about compressed literals and slices);
* an identifier is given by what `decl()`, `v()` and `idn()` return, a redirected identifier
  by the values of the identifier it is redirected to;
* finite doubles and the two infinities are given by their position in the order of the
  doubles (0 for both zeros) and by a flag for the negative zero.
-/
namespace MZ
namespace ExprEq

/-- A `FloatVal`: position in the order of the doubles, and whether it is `-0.0`. -/
structure Flt where
  val : Ext
  negZero : Bool
deriving DecidableEq, Repr

/-- `_type` (as an integer, see C16) and `_hash` of a node. -/
structure Hd where
  ty : Nat
  h : Nat
deriving DecidableEq, Repr

/-- `Expression*`: a null pointer, an unboxed literal or a node (ast.hh 343–364). -/
inductive E where
  | nul
  | intU (v : Int)
  | fltU (f : Flt)
  | int (hd : Hd) (v : Ext)
  | flt (hd : Hd) (f : Flt)
  | setI (hd : Hd) (s : List Range)
  | setF (hd : Hd) (s : List (Flt × Flt))
  | setV (hd : Hd) (v : List E)
  | bool (hd : Hd) (b : Bool)
  | str (hd : Hd) (s : List Nat)
  | id (hd : Hd) (decl : Option Nat) (name : List Nat) (idn : Int)
  | anon (hd : Hd) (addr : Nat)
  | arr (hd : Hd) (dims : List Int) (els : List E)
  | acc (hd : Hd) (v : E) (idx : List E)
  | fld (hd : Hd) (v field : E)
  | comp (hd : Hd) (set : Bool) (e : E) (g : List E) (gIndex : List Nat)
  | ite (hd : Hd) (ifThen : List E) (els : E)
  | bin (hd : Hd) (op : Nat) (lhs rhs : E)
  | un (hd : Hd) (op : Nat) (e : E)
  | call (hd : Hd) (name : List Nat) (decl : Option Nat) (args : List E)
  | vd (hd : Hd) (ti ident e : E)
  | lets (hd : Hd) (defs : List E) (body : E)
  | ti (hd : Hd) (ranges : List E) (dom : E)
  | tiid (hd : Hd) (addr : Nat) (name : List Nat)
deriving Inhabited

/-- ast.hpp 33–38: the tests on the type and on the stored hash value. -/
def hdEq (a b : Hd) : Bool := a.ty == b.ty && a.h == b.h

/-- ast.cpp 2386–2394: two identifiers. `flat d` is `VarDecl::flat()` of the declaration `d`. -/
def idEq (flat : Nat → Option Nat) (d0 : Option Nat) (n0 : List Nat) (i0 : Int)
    (d1 : Option Nat) (n1 : List Nat) (i1 : Int) : Bool :=
  match d0, d1 with
  | some d0, some d1 => d0 == d1 || ((flat d0).isSome && flat d0 == flat d1)
  | _, _ => n0 == n1 && i0 == i1

/-- iter.hh `Ranges::equal` on the ranges of two float sets (see `Ranges.equal` for integers). -/
def fltRangesEq : List (Flt × Flt) → List (Flt × Flt) → Bool
  | a :: i, b :: j => if a.1.val = b.1.val ∧ a.2.val = b.2.val then fltRangesEq i j else false
  | [], [] => true
  | _, _ => false

/-- ast.cpp 2457–2461: `_gIndex` is compared at the positions of the first comprehension. -/
def gIndexEq : List Nat → List Nat → Bool
  | [], _ => true
  | a :: i, b :: j => a == b && gIndexEq i j
  | _ :: _, [] => false

mutual
/-- ast.hpp 14–40 `Expression::equal` with ast.cpp 2343–2571 `equalInternal`, case by case.
Reading `_gIndex` of the second comprehension beyond its end (2457–2461) is `false` here;
`C66_gindex` shows that it does not happen. -/
def equal (flat : Nat → Option Nat) : E → E → Bool
  | .nul, .nul => true
  | .intU v, .intU w => v == w
  | .fltU f, .fltU g => f.val == g.val
  | .int h v, .int k w => hdEq h k && v == w
  | .flt h f, .flt k g => hdEq h k && f.val == g.val
  | .setI h s, .setI k t => hdEq h k && Ranges.equal s t
  | .setF h s, .setF k t => hdEq h k && fltRangesEq s t
  | .setV h v, .setV k w => hdEq h k && equalL flat v w
  | .bool h a, .bool k b => hdEq h k && a == b
  | .str h s, .str k t => hdEq h k && s == t
  | .id h d0 n0 i0, .id k d1 n1 i1 => hdEq h k && idEq flat d0 n0 i0 d1 n1 i1
  | .anon h a, .anon k b => a == b && h == k
  | .arr h d0 e0, .arr k d1 e1 => hdEq h k && (d0 == d1 && equalL flat e0 e1)
  | .acc h v0 x0, .acc k v1 x1 => hdEq h k && (equal flat v0 v1 && equalL flat x0 x1)
  | .fld h v0 f0, .fld k v1 f1 => hdEq h k && (equal flat f0 f1 && equal flat v0 v1)
  | .comp h s0 e0 g0 x0, .comp k s1 e1 g1 x1 =>
    hdEq h k && (s0 == s1 && (equal flat e0 e1 && (equalL flat g0 g1 && gIndexEq x0 x1)))
  | .ite h c0 e0, .ite k c1 e1 => hdEq h k && (equalL flat c0 c1 && equal flat e0 e1)
  | .bin h o0 l0 r0, .bin k o1 l1 r1 =>
    hdEq h k && (o0 == o1 && (equal flat l0 l1 && equal flat r0 r1))
  | .un h o0 e0, .un k o1 e1 => hdEq h k && (o0 == o1 && equal flat e0 e1)
  | .call h n0 d0 a0, .call k n1 d1 a1 =>
    hdEq h k && (n0 == n1 && (d0 == d1 && equalL flat a0 a1))
  | .vd h t0 i0 e0, .vd k t1 i1 e1 =>
    hdEq h k && (equal flat t0 t1 && (equal flat i0 i1 && equal flat e0 e1))
  | .lets h d0 b0, .lets k d1 b1 => hdEq h k && (equal flat b0 b1 && equalL flat d0 d1)
  | .ti h r0 d0, .ti k r1 d1 => hdEq h k && (equalL flat r0 r1 && equal flat d0 d1)
  | .tiid h a _, .tiid k b _ => a == b && h == k
  | _, _ => false
/-- The loops of `equalInternal` over two vectors, which first compare the sizes
(ast.cpp 2372–2381, 2398–2416, 2424–2433, 2451–2456, 2470–2476, 2512–2519, 2543–2549, 2557–2562).
Simplification: the loops that run backwards give the same result. -/
def equalL (flat : Nat → Option Nat) : List E → List E → Bool
  | [], [] => true
  | a :: as, b :: bs => equal flat a b && equalL flat as bs
  | _, _ => false
end

/-! ## The order -/

/-- The result of a comparison: `-1`, `0` or `1`. -/
def sgn {α : Type} [DecidableEq α] (lt : α → α → Bool) (a b : α) : Int :=
  if lt a b then -1 else if a = b then 0 else 1

/-- Bytewise `operator<` of strings (aststring.hh 253–263, see C47). -/
def strLt : List Nat → List Nat → Bool
  | [], [] => false
  | [], _ :: _ => true
  | _ :: _, [] => false
  | a :: as, b :: bs => a < b || (a == b && strLt as bs)

/-- ast.cpp 2065–2067 `cmp_astr`. -/
def cmpStr (a b : List Nat) : Int := if a = b then 0 else if strLt a b then -1 else 1

/-- `a < b ? -1 : (a == b ? 0 : 1)` on integers. -/
def cmpInt (a b : Int) : Int := sgn (fun x y => decide (x < y)) a b
/-- `a < b ? -1 : (a == b ? 0 : 1)` on `IntVal`s and `FloatVal`s. -/
def cmpExt (a b : Ext) : Int := sgn (fun x y => decide (x < y)) a b

/-- `c != 0 ? c : d`. -/
def thenCmp (c d : Int) : Int := if c ≠ 0 then c else d

/-- ast.cpp 2118–2127: the ranges of two integer sets with the same number of ranges. -/
def cmpRanges : List Range → List Range → Int
  | a :: i, b :: j => thenCmp (cmpExt a.lo b.lo) (thenCmp (cmpExt a.hi b.hi) (cmpRanges i j))
  | _, _ => 0
/-- ast.cpp 2133–2142: the ranges of two float sets with the same number of ranges. -/
def cmpFltRanges : List (Flt × Flt) → List (Flt × Flt) → Int
  | a :: i, b :: j =>
    thenCmp (cmpExt a.1.val b.1.val) (thenCmp (cmpExt a.2.val b.2.val) (cmpFltRanges i j))
  | _, _ => 0
/-- ast.cpp 2278–2282: the positions of two `_gIndex` vectors of the same size. -/
def cmpNats : List Nat → List Nat → Int
  | a :: i, b :: j => thenCmp (cmpInt a b) (cmpNats i j)
  | _, _ => 0

/-- ast.cpp 2155–2167: identifiers. -/
def cmpId (n0 : List Nat) (i0 : Int) (n1 : List Nat) (i1 : Int) : Int :=
  thenCmp (cmpInt i0 i1) (if i0 = -1 then cmpStr n0 n1 else 0)

/-- ast.hh 343–364: the position of the kind of node in `ExpressionId` (null comes first). -/
def eid : E → Int
  | .nul => -1
  | .intU _ => 0
  | .fltU _ => 1
  | .int .. => 0
  | .flt .. => 1
  | .setI .. => 2
  | .setF .. => 2
  | .setV .. => 2
  | .bool .. => 3
  | .str .. => 4
  | .id .. => 5
  | .anon .. => 6
  | .arr .. => 7
  | .acc .. => 8
  | .fld .. => 9
  | .comp .. => 10
  | .ite .. => 11
  | .bin .. => 12
  | .un .. => 13
  | .call .. => 14
  | .vd .. => 15
  | .lets .. => 16
  | .ti .. => 17
  | .tiid .. => 18

/-- The value of an integer literal, boxed or not (ast.hh 675–677). -/
def intOf : E → Option Ext
  | .intU v => some (.fin v)
  | .int _ v => some v
  | _ => none
/-- The value of a float literal, boxed or not (ast.hh 699–701). -/
def fltOf : E → Option Ext
  | .fltU f => some f.val
  | .flt _ f => some f.val
  | _ => none
/-- `SetLit::v()`: empty for set literals that hold ranges (ast.cpp 2145–2146). -/
def setElems : E → Nat
  | .setV _ v => v.length
  | _ => 0

mutual
/-- ast.cpp 2069–2341 `Expression::compare`. The test for identical pointers (2070–2072) is left
out, as in `equal`. -/
def cmp : E → E → Int
  | .setI _ s, .setI _ t => thenCmp (cmpInt s.length t.length) (cmpRanges s t)
  | .setF _ s, .setF _ t => thenCmp (cmpInt s.length t.length) (cmpFltRanges s t)
  | .setV _ v, .setV _ w => thenCmp (cmpInt v.length w.length) (cmpL v w)
  | .bool _ a, .bool _ b => cmpInt a.toNat b.toNat
  | .str _ s, .str _ t => cmpStr s t
  | .id _ _ n0 i0, .id _ _ n1 i1 => cmpId n0 i0 n1 i1
  | .arr _ _ e0, .arr _ _ e1 => thenCmp (cmpInt e0.length e1.length) (cmpL e0 e1)
  | .acc _ v0 x0, .acc _ v1 x1 =>
    thenCmp (cmp v0 v1) (thenCmp (cmpInt x0.length x1.length) (cmpL x0 x1))
  | .fld _ v0 f0, .fld _ v1 f1 => thenCmp (cmp f0 f1) (cmp v0 v1)
  | .comp _ s0 e0 g0 x0, .comp _ s1 e1 g1 x1 =>
    thenCmp (cmpInt s0.toNat s1.toNat) (thenCmp (cmp e0 e1)
      (thenCmp (cmpInt g0.length g1.length) (thenCmp (cmpL g0 g1)
        (thenCmp (cmpInt x0.length x1.length) (cmpNats x0 x1)))))
  | .ite _ c0 e0, .ite _ c1 e1 =>
    thenCmp (cmpInt c0.length c1.length) (thenCmp (cmpL c0 c1) (cmp e0 e1))
  | .bin _ o0 l0 r0, .bin _ o1 l1 r1 =>
    thenCmp (cmpInt o0 o1) (thenCmp (cmp l0 l1) (cmp r0 r1))
  | .un _ o0 e0, .un _ o1 e1 => thenCmp (cmpInt o0 o1) (cmp e0 e1)
  | .call _ n0 _ a0, .call _ n1 _ a1 =>
    thenCmp (cmpStr n0 n1) (thenCmp (cmpInt a0.length a1.length) (cmpL a0 a1))
  | .vd _ t0 i0 e0, .vd _ t1 i1 e1 => thenCmp (cmp i0 i1) (thenCmp (cmp t0 t1) (cmp e0 e1))
  | .lets _ d0 b0, .lets _ d1 b1 =>
    thenCmp (cmp b0 b1) (thenCmp (cmpInt d0.length d1.length) (cmpL d0 d1))
  | .ti _ r0 d0, .ti _ r1 d1 =>
    thenCmp (cmpInt r0.length r1.length) (thenCmp (cmpL r0 r1) (cmp d0 d1))
  | .tiid _ _ n0, .tiid _ _ n1 => cmpStr n0 n1
  | a, b =>
    if eid a ≠ eid b then (if eid a < eid b then -1 else 1)
    else match intOf a, intOf b with
      | some x, some y => cmpExt x y
      | _, _ => match fltOf a, fltOf b with
        | some x, some y => cmpExt x y
        | _, _ => cmpInt (setElems a) (setElems b)
/-- The loops of `compare` over two vectors of the same size. -/
def cmpL : List E → List E → Int
  | a :: as, b :: bs => thenCmp (cmp a b) (cmpL as bs)
  | _, _ => 0
end

end ExprEq
end MZ
