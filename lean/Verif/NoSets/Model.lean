import Verif.LinArith.Model
import Verif.LexOrd.Model

/-!
# Elimination of set variables

`share/minizinc/std/nosets.mzn`: for solvers without set variables each set variable becomes an array of Booleans.  A set variable is
a finite upper bound with a value below it.  A predicate is a proposition about the values; new variables are existential
quantifiers.  Unless another file is given, the line numbers are those of `nosets.mzn`.  Unbounded set variables, for which
`set_eq` aborts, are left out, and so are `set2bools` with two arguments (31–48, 51–52), which the library does not use, and the
search annotations (502–525).
-/

namespace MZ.NoSets

open MZ.Globals MZ.LinLib MZ.LinArith

/-- A set variable: its upper bound, its value in a solution, and whether it is a constant (`is_fixed`). -/
structure SV where
  ub : Finset Int
  val : Finset Int
  sub : val ⊆ ub
  par : Bool
  eq : par = true → ub = val

/-- `lb(x)`: constants have a lower bound, all others `{}` (`lib/builtins.cpp` 882–888). -/
def SV.lb (x : SV) : Finset Int := if x.par = true then x.val else ∅

/-- The index set of `set2bools(x)`: `min(ub(x))..max(ub(x))`, or empty (16–30, 49–50). -/
def idx (x : SV) : Finset Int :=
  if x.ub = ∅ then ∅ else Finset.Icc (minOf x.ub fun i => i) (maxOf x.ub fun i => i)

/-- `reverse_map_ab2si(b)` (10–14). -/
def reverseMap (I : Finset Int) (b : Int → Bool) : Finset Int := I.filter fun i => b i = true

/-- `b = set2bools(x)` (16–30, 49–50, 53–54).  Outside of the index set `b` is false: an access there is undefined, which makes the
Boolean false. -/
def IsBits (x : SV) (b : Int → Bool) : Prop :=
  (∀ i, i ∉ idx x → b i = false) ∧
  if x.par = true then ∀ i ∈ idx x, b i = decide (i ∈ x.val)
  else (∀ i ∈ idx x, if i ∈ x.ub then True else b i = false) ∧ x.val = reverseMap (idx x) b

/-! ## Subset and equality -/

/-- `set_subset` (324–330). -/
def setSubset (s t : SV) : Prop :=
  ∃ bx bt, IsBits s bx ∧ IsBits t bt ∧
    ∀ i ∈ idx s, if ¬ i ∈ idx t then ¬ bx i = true else (bx i = true → bt i = true)

/-- `set_subset_reif` (332–339). -/
def setSubsetReif (s t : SV) (b : Prop) : Prop :=
  ∃ bx bt, IsBits s bx ∧ IsBits t bt ∧
    (b ↔ ∀ i ∈ idx s, if ¬ i ∈ idx t then ¬ bx i = true else (bx i = true → bt i = true))

/-- `set_subset_imp` (341–348). -/
def setSubsetImp (s t : SV) (b : Prop) : Prop :=
  ∃ bx bt, IsBits s bx ∧ IsBits t bt ∧
    (b → ∀ i ∈ idx s, if ¬ i ∈ idx t then ¬ bx i = true else (bx i = true → bt i = true))

/-- `set_superset` (351). -/
def setSuperset (s t : SV) : Prop := setSubset t s

/-- `set_superset_reif` (352–353). -/
def setSupersetReif (s t : SV) (b : Prop) : Prop := setSubsetReif t s b

/-- `set_superset_imp` (354–355). -/
def setSupersetImp (s t : SV) (b : Prop) : Prop := setSubsetImp t s b

/-- `set_eq` (56–79) of bounded sets. -/
def setEq (s t : SV) : Prop :=
  setSubset t s ∧ setSubset s t ∧ ∃ bx bt, IsBits s bx ∧ IsBits t bt ∧
    ∀ i ∈ idx s ∪ idx t, if ¬ i ∈ idx s then ¬ bt i = true else if ¬ i ∈ idx t then ¬ bx i = true else bx i = bt i

/-- `set_ne` (119–131). -/
def setNe (s t : SV) : Prop :=
  ∃ bx bt, IsBits s bx ∧ IsBits t bt ∧
    ∃ i ∈ idx s ∪ idx t, if ¬ i ∈ idx s then bt i = true else if ¬ i ∈ idx t then bx i = true else bx i ≠ bt i

/-- `set_eq_reif` (81–98); `fixed` is `is_fixed(b)`. -/
def setEqReif (fixed : Bool) (s t : SV) (b : Bool) : Prop :=
  if fixed = true then (if true = b then setEq s t else setNe s t)
  else ∃ bx bt, IsBits s bx ∧ IsBits t bt ∧
    (b = true ↔ ∀ i ∈ idx s ∪ idx t,
      if ¬ i ∈ idx s then ¬ bt i = true else if ¬ i ∈ idx t then ¬ bx i = true else bx i = bt i)

/-- `set_eq_imp` (100–117). -/
def setEqImp (fixed : Bool) (s t : SV) (b : Bool) : Prop :=
  if fixed = true then (if b = true then setEq s t else True)
  else ∃ bx bt, IsBits s bx ∧ IsBits t bt ∧
    (b = true → ∀ i ∈ idx s ∪ idx t,
      if ¬ i ∈ idx s then ¬ bt i = true else if ¬ i ∈ idx t then ¬ bx i = true else bx i = bt i)

/-- `set_ne_reif` (133–134). -/
def setNeReif (fixed : Bool) (s t : SV) (b : Bool) : Prop := setEqReif fixed s t (!b)

/-- `set_ne_imp` (136–153). -/
def setNeImp (fixed : Bool) (s t : SV) (b : Bool) : Prop :=
  if fixed = true then (if b = true then setNe s t else True)
  else ∃ bx bt, IsBits s bx ∧ IsBits t bt ∧
    (b = true → ∃ i ∈ idx s ∪ idx t,
      if ¬ i ∈ idx s then bt i = true else if ¬ i ∈ idx t then bx i = true else bx i ≠ bt i)

/-! ## Membership and cardinality -/

/-- `set_in` of a constant or a variable (412–415). -/
def setIn (x : Int) (s : SV) : Prop := ∃ bt, IsBits s bt ∧ bt x = true

/-- `set_in_reif` of a constant (417–418). -/
def setInReifC (x : Int) (s : SV) (b : Prop) : Prop :=
  if x ∈ s.ub then ∃ bt, IsBits s bt ∧ (b ↔ bt x = true) else ¬ b

/-- `set_in_reif` of a variable (419–420). -/
def setInReif (x : Int) (s : SV) (b : Prop) : Prop := ∃ bt, IsBits s bt ∧ (b ↔ bt x = true)

/-- `set_in_imp` of a constant (422–423). -/
def setInImpC (x : Int) (s : SV) (b : Prop) : Prop :=
  if x ∈ s.ub then ∃ bt, IsBits s bt ∧ (b → bt x = true) else ¬ b

/-- `set_in_imp` of a variable (424). -/
def setInImp (x : Int) (s : SV) (b : Prop) : Prop := ∃ bt, IsBits s bt ∧ (b → bt x = true)

/-- `set_card` (407–410). -/
def setCard (s : SV) (x : Int) : Prop := ∃ bx, IsBits s bx ∧ ∑ i ∈ idx s, b2i (bx i = true) = x

/-! ## Order -/

/-- `xb = array1d(l..u, [i in s | i in l..u])` (166, 168; the same lines are repeated in every predicate below). -/
def Members (s : SV) (l u : Int) (xb : Int → Bool) : Prop := ∀ i ∈ Finset.Icc l u, setInReifC i s (xb i = true)

/-- `max(s union {l - 1})` (167, 169). -/
def top (s : SV) (l : Int) : Int := maxOf (s.val ∪ {l - 1}) fun i => i

/-- One link of the chain (172–179): `[chain[i + 1], xmax < i, ymax > i, chain[i + 1]][cmp]` with `cmp = 2 * xb[i] + yb[i] + 1`. -/
def link (xb yb : Int → Bool) (xmax ymax i : Int) (chain : Int → Bool) : Bool :=
  let cmp := 2 * b2i (xb i = true) + b2i (yb i = true) + 1
  if cmp = 1 then chain (i + 1)
  else if cmp = 2 then decide (xmax < i)
  else if cmp = 3 then decide (ymax > i)
  else chain (i + 1)

/-- The Booleans and the chain of `set_le` (163–180). -/
def chainLe (s t : SV) (chain : Int → Bool) (l u : Int) : Prop :=
  ∃ xb yb, Members s l u xb ∧ Members t l u yb ∧
    (∀ i ∈ Finset.Icc l (u - 1), chain i = link xb yb (top s l) (top t l) i chain) ∧
    (chain u = true ↔ (xb u = true → yb u = true))

/-- The Booleans and the chain of `set_lt` (247–264). -/
def chainLt (s t : SV) (chain : Int → Bool) (l u : Int) : Prop :=
  ∃ xb yb, Members s l u xb ∧ Members t l u yb ∧
    (∀ i ∈ Finset.Icc l (u - 1), chain i = link xb yb (top s l) (top t l) i chain) ∧
    (chain u = true ↔ (¬ xb u = true ∧ yb u = true))

/-- `l` (163–164). -/
def lowest (s t : SV) : Int := minOf (s.ub ∪ t.ub) fun i => i

/-- `u` (165). -/
def highest (s t : SV) : Int := maxOf (s.ub ∪ t.ub) fun i => i

/-- The empty set constant `{}` (160, 188, 216). -/
def emptySet : SV := ⟨∅, ∅, Finset.Subset.refl _, true, fun _ => rfl⟩

/-- `set_le` (156–182). -/
def setLe (s t : SV) : Prop :=
  if s.ub = ∅ then True
  else if t.ub = ∅ then setEq s emptySet
  else ∃ chain, chainLe s t chain (lowest s t) (highest s t) ∧ chain (lowest s t) = true

/-- `set_le_reif` (184–210). -/
def setLeReif (fixed : Bool) (s t : SV) (b : Bool) : Prop :=
  if s.ub = ∅ then True
  else if t.ub = ∅ then setEqReif fixed s emptySet b
  else ∃ chain, chainLe s t chain (lowest s t) (highest s t) ∧ (b = true ↔ chain (lowest s t) = true)

/-- `set_le_imp` (212–238). -/
def setLeImp (fixed : Bool) (s t : SV) (b : Bool) : Prop :=
  if s.ub = ∅ then True
  else if t.ub = ∅ then setEqImp fixed s emptySet b
  else ∃ chain, chainLe s t chain (lowest s t) (highest s t) ∧ (b = true → chain (lowest s t) = true)

/-- `card(t) >= 1`, reified by `set_card` (242, 270, 298). -/
def nonEmpty (t : SV) (p : Prop → Prop) : Prop := ∃ n : Int, setCard t n ∧ p (n ≥ 1)

/-- `set_lt` (240–266). -/
def setLt (s t : SV) : Prop :=
  if s.ub = ∅ then nonEmpty t fun c => c
  else if t.ub = ∅ then False
  else ∃ chain, chainLt s t chain (lowest s t) (highest s t) ∧ chain (lowest s t) = true

/-- `set_lt_reif` (268–294). -/
def setLtReif (s t : SV) (b : Bool) : Prop :=
  if s.ub = ∅ then nonEmpty t fun c => (b = true ↔ c)
  else if t.ub = ∅ then ¬ b = true
  else ∃ chain, chainLt s t chain (lowest s t) (highest s t) ∧ (b = true ↔ chain (lowest s t) = true)

/-- `set_lt_imp` (296–322). -/
def setLtImp (s t : SV) (b : Bool) : Prop :=
  if s.ub = ∅ then nonEmpty t fun c => (b = true → c)
  else if t.ub = ∅ then ¬ b = true
  else ∃ chain, chainLt s t chain (lowest s t) (highest s t) ∧ (b = true → chain (lowest s t) = true)

/-! ## Operations -/

/-- `z = set_intersect(x, y)` (357–366). -/
def setIntersect (x y z : SV) : Prop :=
  ∃ bx bt bz, IsBits x bx ∧ IsBits y bt ∧ z.ub = idx x ∩ idx y ∧ IsBits z bz ∧
    ∀ i ∈ idx z, (bz i = true ↔ bx i = true ∧ bt i = true)

/-- `z = set_union(x, y)` (368–384). -/
def setUnion (x y z : SV) : Prop :=
  ∃ bx bt bz, IsBits x bx ∧ IsBits y bt ∧ z.ub = idx x ∪ idx y ∧ IsBits z bz ∧
    ∀ i ∈ idx x ∪ idx y,
      if i ∈ idx x then (if i ∈ idx y then (bz i = true ↔ bx i = true ∨ bt i = true) else bz i = bx i) else bz i = bt i

/-- `z = set_diff(x, y)` (386–393). -/
def setDiff (x y z : SV) : Prop :=
  ∃ bx bt bz, IsBits x bx ∧ IsBits y bt ∧ z.ub = x.ub \ y.lb ∧ IsBits z bz ∧
    ∀ i ∈ z.ub, (bz i = true ↔ bx i = true ∧ ¬ bt i = true)

/-- `z = set_symdiff(x, y)` (395–405). -/
def setSymdiff (x y z : SV) : Prop :=
  ∃ bx bt bz, IsBits x bx ∧ IsBits y bt ∧ z.ub = (x.ub \ y.lb) ∪ (y.ub \ x.lb) ∧ IsBits z bz ∧
    ∀ i ∈ z.ub, bz i = xor (bx i) (bt i)

/-! ## Element -/

/-- `if k in ub(xs[i]) then set2bools(xs[i])[k] else false endif` at the value of the index (446, 461, 482, 497). -/
def elemBit (x : SV) (bx : Int → Bool) (k : Int) : Bool := if k ∈ x.ub then bx k else false

/-- `array_var_set_element` (430–464); `uby` is the upper bound of `y` after it was narrowed.  The arrays for the indices that lie in
a gap of the domain of the index are never used. -/
def arrayVarSetElement (ix : V) (xs : Arr SV) (y : SV) (uby : Finset Int) : Prop :=
  ∃ h : ix.val ∈ xs.idx.filter (fun i => (xs i).lb ⊆ y.ub ∧ y.lb ⊆ (xs i).ub),
    let d := restrict ix _ h
    let sUB := d.dom.biUnion fun i => (xs i).ub
    let sLB := sUB.filter fun k => ∀ i ∈ d.dom, k ∈ (xs i).lb
    y.val ⊆ sUB ∧ sLB ⊆ y.val ∧
    ∃ bt, IsBits y bt ∧ ∃ bx : Int → Int → Bool, (∀ i, IsBits (xs i) (bx i)) ∧
      (∀ k ∈ uby, bt k =
        if k ∈ sUB then (if k ∈ sLB then true else elemBit (xs d.val) (bx d.val) k) else false) ∧
      ∀ k ∈ sUB \ uby, if k ∈ sLB then False else ¬ elemBit (xs d.val) (bx d.val) k = true

/-- A constant used as a set variable (482, `set2bools(xs[i])` of a constant). -/
def SV.const (s : Finset Int) : SV := ⟨s, s, Finset.Subset.refl _, true, fun _ => rfl⟩

/-- `array_set_element` (466–500). -/
def arraySetElement (ix : V) (xs : Arr (Finset Int)) (y : SV) (uby : Finset Int) : Prop :=
  ∃ h : ix.val ∈ xs.idx.filter (fun i => xs i ⊆ y.ub ∧ y.lb ⊆ xs i),
    let d := restrict ix _ h
    let sUB := d.dom.biUnion fun i => xs i
    let sLB := sUB.filter fun k => ∀ i ∈ d.dom, k ∈ xs i
    y.val ⊆ sUB ∧ sLB ⊆ y.val ∧
    ∃ bt, IsBits y bt ∧ ∃ bx : Int → Int → Bool, (∀ i, IsBits (SV.const (xs i)) (bx i)) ∧
      (∀ k ∈ uby, bt k =
        if k ∈ sUB then (if k ∈ sLB then true else elemBit (SV.const (xs d.val)) (bx d.val) k) else false) ∧
      ∀ k ∈ sUB \ uby, if k ∈ sLB then False else ¬ elemBit (SV.const (xs d.val)) (bx d.val) k = true

end MZ.NoSets
