import Verif.Mip.Base
import Verif.Mip.Spec

/-! # Linearisation of domain constraints (`lib/MIPdomains.cpp`)

A group of variables linked by linear equations with two variables, all integer, with an integer reference variable.  Not
modelled: `float` variables, the half-reified `aux_…_if_1` constraints (which the library emits only with `fMIPdomAux`),
and the limits of `int` in `cardInt` and `split2Bits`. -/

namespace MZ.Mip

/-- `INT_EPS` (`lib/MIPdomains.cpp` 43). -/
def eps : ℚ := 1 / 100000

/-- `std::round`: halves go away from zero. -/
def stdRound (v : ℚ) : Int := if 0 ≤ v then ⌊v + 1 / 2⌋ else ⌈v - 1 / 2⌉

/-- `rndUpIfInt` (`lib/MIPdomains.cpp` 1384–1386). -/
def rndUp (v : ℚ) : Int := ⌈v - eps⌉

/-- `rndDownIfInt` (`lib/MIPdomains.cpp` 1387–1389). -/
def rndDown (v : ℚ) : Int := ⌊v + eps⌋

/-- The cast to `long long`: towards zero (`lib/MIPdomains.cpp` 1863). -/
def trunc (v : ℚ) : Int := if 0 ≤ v then ⌊v⌋ else ⌈v⌉

/-- The number of a finite bound. -/
def toQ : E → ℚ
  | some (some q) => q
  | _ => 0

/-- One range of `convertIntSet` (`lib/MIPdomains.cpp` 1898–1909). -/
def convRange (A B : ℚ) (r : IRange) : Intv :=
  let m := if A < 0 then (r.hi, r.lo) else (r.lo, r.hi)
  ⟨match m.1 with | some a => fin (rndUp (a * A + B)) | none => ⊥,
   match m.2 with | some b => fin (rndDown (b * A + B)) | none => ⊤⟩

/-- `convertIntSet` (`lib/MIPdomains.cpp` 1892–1910). -/
def convertIntSet (A B : ℚ) (S : List IRange) : List Intv := S.foldl (fun s r => insertI s (convRange A B r)) []

/-- `computeDelta` for integers (`lib/MIPdomains.cpp` 1929–1940). -/
def computeDelta (A : ℚ) : ℚ := max 1 |A|

/-- `cutDeltas` of one interval (`lib/MIPdomains.cpp` 197–202). -/
def cutDeltas1 (s : List Intv) (l r : E) (d : ℚ) : List Intv := cutDeltas s (insertI [] ⟨l, r⟩) d

/-- The constraints in `projectVariableConstr` (`lib/MIPdomains.cpp` 1280–1369). -/
def projectPost (A B : ℚ) (s : List Intv) : Post → List Intv
  | .setIn S => intersect s (convertIntSet A B S)
  | .setInReif S _ => cutDeltas s (convertIntSet A B S) (max 1 |A|)
  | .leReif c _ =>
    if A < 0 then cutDeltas1 s (fin (rndUp (A * c + B))) ⊤ (computeDelta A)
    else cutDeltas1 s ⊥ (fin (rndDown (A * c + B))) (computeDelta A)
  | .geReif c _ =>
    if A < 0 then cutDeltas1 s ⊥ (fin (rndDown (A * c + B))) (computeDelta A)
    else cutDeltas1 s (fin (rndUp (A * c + B))) ⊤ (computeDelta A)
  | .eqReif c _ =>
    if eps < |A * c + B - stdRound (A * c + B)| then s
    else cutDeltas1 s (fin (stdRound (A * c + B))) (fin (stdRound (A * c + B))) (computeDelta A)
  | .ne c =>
    if eps < |A * c + B - stdRound (A * c + B)| then s
    else cutOut s (fin (stdRound (A * c + B) - computeDelta A)) (fin (stdRound (A * c + B) + computeDelta A))

/-- `projectVariableConstr` (`lib/MIPdomains.cpp` 1243–1372). -/
def project (dom : Doms) (s : List Intv) (w : View) : List Intv :=
  w.posts.foldl (projectPost w.A w.B) (match dom w.var with | some S => intersect s (convertIntSet w.A w.B S) | none => s)

/-- The domain decomposition (`lib/MIPdomains.cpp` 1162–1185). -/
def decompose (dom : Doms) (views : List View) : List Intv := views.foldl (project dom) [⟨⊥, ⊤⟩]

/-- `getBounds` (`lib/MIPdomains.cpp` 2228–2235). -/
def getBounds (s : List Intv) : Intv :=
  match s.head?, s.getLast? with
  | some a, some b => ⟨a.left, b.right⟩
  | _, _ => ⟨⊤, ⊥⟩

/-- `checkFiniteBounds` (`lib/MIPdomains.cpp` 2237–2243). -/
def checkFiniteBounds (s : List Intv) : Bool := !s.isEmpty && decide (⊥ < (getBounds s).left) && decide ((getBounds s).right < ⊤)

/-- `checkDisjunctStrict` (`lib/MIPdomains.cpp` 2245–2259). -/
def checkDisjunctStrict : List Intv → Bool
  | [] => true
  | [e] => decide (e.left ≤ e.right)
  | e :: f :: rest => decide (e.left ≤ e.right) && decide (e.right < f.left) && checkDisjunctStrict (f :: rest)

/-- `setVarDomain`: the old domain is overwritten (`lib/MIPdomains.cpp` 1755–1776). -/
def setVarDomain (dom : Doms) (x : Nat) (lb ub : Int) : Doms :=
  fun y => if y = x then some [⟨some lb, some ub⟩] else dom y

/-- The body of `makeRangeDomains` (`lib/MIPdomains.cpp` 1394–1407). -/
def rangeDomain (b : Intv) (dom : Doms) (w : View) : Doms :=
  let lb0 := (toQ b.left - w.B) / w.A
  let ub0 := (toQ b.right - w.B) / w.A
  setVarDomain dom w.var (rndUp (min lb0 ub0)) (rndDown (max lb0 ub0))

/-- `makeRangeDomains` (`lib/MIPdomains.cpp` 1391–1408). -/
def makeRangeDomains (s : List Intv) (views : List View) (dom : Doms) : Doms := views.foldl (rangeDomain (getBounds s)) dom

/-- The flags of the values from `a` to `b - 1` get the domain `0..0` (`lib/MIPdomains.cpp` 1430–1440 and 1443–1450). -/
def zeroFlags (iMin : Int) (pp : List Arg) (dom : Doms) (a b : Int) : Doms :=
  (List.range (b - a).toNat).foldl
    (fun d (k : Nat) => match pp[(a + k - iMin).toNat]? with | some (.var x) => setVarDomain d x 0 0 | _ => d) dom

/-- The loop of `syncWithEqEncoding` (`lib/MIPdomains.cpp` 1429–1450). -/
def syncLoop (iMin : Int) (pp : List Arg) : List Intv → Int → Doms → Doms
  | [], v, dom => zeroFlags iMin pp dom v (iMin + pp.length)
  | e :: t, v, dom =>
    if max v (iMin + pp.length) < ⌈toQ e.left⌉ then zeroFlags iMin pp dom v (iMin + pp.length)
    else syncLoop iMin pp t (trunc (toQ e.right + 1)) (zeroFlags iMin pp dom v ⌈toQ e.left⌉)

/-- The assertions of `syncWithEqEncoding` (`lib/MIPdomains.cpp` 1420–1421; again in `relateReifFlag`, 1706–1707). -/
def encCovers (iMin : Int) (pp : List Arg) (s : List Intv) : Bool :=
  decide (toQ (getBounds s).right - toQ (getBounds s).left + 1 ≤ pp.length) && decide ((iMin : ℚ) ≤ toQ (getBounds s).left)

/-- `cardInt` (`lib/MIPdomains.cpp` 2261–2268). -/
def cardInt (s : List Intv) : Int := (s.map fun e => 1 + stdRound (toQ e.right - toQ e.left)).sum

/-- `maxInterval` (`lib/MIPdomains.cpp` 2270–2276). -/
def maxInterval (s : List Intv) : ℚ := s.foldl (fun m e => max m (toQ e.right - toQ e.left)) (-1)

/-- The integers from `a` to `b`. -/
def upTo (a b : Int) : List Int := (List.range (b + 1 - a).toNat).map fun k : Nat => a + (k : Int)

/-- `split2Bits` (`lib/MIPdomains.cpp` 2278–2287). -/
def split2Bits (s : List Intv) : List Intv :=
  s.foldl (fun t e => (upTo (stdRound (toQ e.left)) (stdRound (toQ e.right))).foldl (fun t (v : Int) => insertI t ⟨fin v, fin v⟩) t) []

/-- `considerDenseEncoding` (`lib/MIPdomains.cpp` 1462–1470). -/
def considerDenseEncoding (nMax : Int) (dMax : ℚ) (s : List Intv) : List Intv :=
  if maxInterval s ≤ nMax ∨ (cardInt s : ℚ) ≤ dMax * s.length then split2Bits s else s

/-- `addLinConstr` for integers: terms with a coefficient close to 0 are left out, the other coefficients are cast
(`lib/MIPdomains.cpp` 1792–1890). -/
def addLinConstr (terms : List (ℚ × Arg)) (eq : Bool) (rhs : ℚ) : Lin :=
  ⟨(terms.filter fun t => decide (1 / 100000000 < |t.1|)).map fun t => (trunc t.1, t.2), eq, trunc rhs⟩

/-- Pairs of a coefficient and the flag of the interval. -/
def flagTerms (s : List Intv) (c : Intv → ℚ) : List (ℚ × Arg) := s.zipIdx.map fun p => (c p.1, .flag p.2)

/-- `createDomainFlags` (`lib/MIPdomains.cpp` 1474–1503). -/
def createDomainFlags (ref : Nat) (s : List Intv) : List Lin :=
  addLinConstr (flagTerms s fun _ => 1) true 1 ::
    if 1 / 1000000 < maxInterval s then
      [addLinConstr (flagTerms s (fun e => toQ e.left) ++ [(-1, .var ref)]) false 0,
       addLinConstr (flagTerms s (fun e => - toQ e.right) ++ [(1, .var ref)]) false 0]
    else [addLinConstr (flagTerms s (fun e => toQ e.left) ++ [(-1, .var ref)]) true 0]

/-- The flags that `relateReifFlag` collects for one interval, with an equality encoding (`lib/MIPdomains.cpp` 1708–1715). -/
def encFlags (iMin : Int) (pp : List Arg) (e : Intv) : List Arg :=
  let lo := match e.left with | some (some q) => max iMin ⌈q⌉ | some ⊤ => iMin + pp.length | ⊥ => iMin
  let hi := match e.right with | some (some q) => min (iMin + pp.length - 1) ⌊q⌋ | some ⊤ => iMin + pp.length - 1 | ⊥ => iMin - 1
  (upTo lo hi).filterMap fun v => pp[(v - iMin).toNat]?

/-- The flags that `relateReifFlag` collects for one interval, without an equality encoding; `none` is a failed assertion
(`lib/MIPdomains.cpp` 1718–1741).  `flags` says that the subintervals have flags. -/
def intvFlags (flags : Bool) (s : List Intv) (e : Intv) : Option (List Arg) :=
  let it1 := (s.takeWhile fun d => decide (d.left < e.left)).length
  let it2 := (s.takeWhile fun d => decide (d.left ≤ e.right)).length
  if (∀ d ∈ (s.take it1).getLast?, d.right < e.left) ∧ (∀ d ∈ (s.take it2).getLast?, d.right ≤ e.right) then
    if flags then some ((List.range' it1 (it2 - it1)).map .flag)
    else if it1 < it2 ∧ s.length ≠ 1 then none
    else some ((List.range' it1 (it2 - it1)).map fun _ => .const 1)
  else none

/-- `relateReifFlag` (`lib/MIPdomains.cpp` 1693–1753). -/
def relateReifFlag (enc : Option (Int × List Arg)) (flags : Bool) (s : List Intv) (st : Doms × List Lin) (f : Nat)
    (SS : List Intv) : Option (Doms × List Lin) := do
  let args ← match enc with
    | some (iMin, pp) => some (SS.flatMap (encFlags iMin pp))
    | none => (SS.mapM (intvFlags flags s)).map List.flatten
  if args = [] then some (setVarDomain st.1 f 0 0, st.2)
  else some (st.1, st.2 ++ [addLinConstr (args.map (fun a => (-1, a)) ++ [(1, .var f)]) true 0])

/-- `rndIfBothInt` (`lib/MIPdomains.cpp` 1377–1383). -/
def rndIfBothInt (v : ℚ) : ℚ := if |v - stdRound v| < eps then stdRound v else v

/-- One constraint in `implementPOSTs` (`lib/MIPdomains.cpp` 1517–1576). -/
def implementPost (enc : Option (Int × List Arg)) (flags : Bool) (s : List Intv) (A B : ℚ) (st : Doms × List Lin) :
    Post → Option (Doms × List Lin)
  | .setIn _ | .ne _ => some st
  | .setInReif S f => relateReifFlag enc flags s st f (convertIntSet A B S)
  | .leReif c f =>
    relateReifFlag enc flags s st f
      [if A < 0 then ⟨fin (rndUp (A * c + B)), ⊤⟩ else ⟨⊥, fin (rndDown (A * c + B))⟩]
  | .geReif c f =>
    relateReifFlag enc flags s st f
      [if A < 0 then ⟨⊥, fin (rndDown (A * c + B))⟩ else ⟨fin (rndUp (A * c + B)), ⊤⟩]
  | .eqReif c f => relateReifFlag enc flags s st f [⟨fin (rndIfBothInt (A * c + B)), fin (rndIfBothInt (A * c + B))⟩]

/-- `implementPOSTs` (`lib/MIPdomains.cpp` 1506–1690). -/
def implementPosts (enc : Option (Int × List Arg)) (flags : Bool) (s : List Intv) (views : List View) (st : Doms × List Lin) :
    Option (Doms × List Lin) :=
  views.foldlM (fun st w => w.posts.foldlM (implementPost enc flags s w.A w.B) st) st

/-- What becomes of a group of variables. -/
inductive Res where
  /-- An error or a failed assertion. -/
  | abort
  /-- The model is found to be inconsistent. -/
  | unsat
  /-- The new domains, the number of new 0-1 variables, and the linear constraints. -/
  | ok (dom : Doms) (n : Nat) (outs : List Lin)

/-- The result of `implementPOSTs`. -/
def Res.of (n : Nat) : Option (Doms × List Lin) → Res
  | none => .abort
  | some st => .ok st.1 n st.2

/-- `DomainDecomp::doProcess` (`lib/MIPdomains.cpp` 1165–1238).  `enc` is the equality encoding of the reference variable, if
it has one, `nMax` and `dMax` are options. -/
def process (nMax : Int) (dMax : ℚ) (dom : Doms) (ref : Nat) (views : List View) (enc : Option (Int × List Arg)) : Res :=
  let s := decompose dom views
  if s = [] then .unsat
  else if checkFiniteBounds s = false ∨ checkDisjunctStrict s = false then .abort
  else
    let dom1 := makeRangeDomains s views dom
    match enc with
    | some (iMin, pp) =>
      if encCovers iMin pp s = false then .abort
      else .of 0 (implementPosts enc false s views (syncLoop iMin pp s iMin dom1, []))
    | none =>
      if 2 ≤ s.length then
        let s' := considerDenseEncoding nMax dMax s
        .of s'.length (implementPosts none true s' views (dom1, createDomainFlags ref s'))
      else .of 0 (implementPosts none false s views (dom1, []))

end MZ.Mip
