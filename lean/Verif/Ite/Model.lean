import Verif.Ranges.Model
/-!
# Flattening of conditional expressions

`flatten_ite` (lib/flatten/flatten_ite.cpp 139–583) with `get_conjuncts` (24–49),
`classify_conjunct` (51–78) and `ite_struct_split` (80–137), the domain constraint it posts
(`flatten_dom_constraint`, lib/flatten/flatten_binop.cpp 1010–1042), and the predicates it calls
(share/minizinc/std/fzn_if_then_else_*.mzn).

Everything is considered under one assignment of the variables of the flat model: a flattened
expression is given by its value (`FArm`). What `flat_exp` returns for conditions and branches
is an input.
-/
namespace MZ
namespace Ite

/-! ## Splitting conditional constraints -/

/-- A term on one side of an equation: an identifier, `<>`, or something else. -/
inductive Tm where
  | id (x : Nat)
  | absent
  | tm (n : Nat)
deriving DecidableEq, Repr

/-- A branch of a conditional constraint, as far as `flatten_ite` looks at it. `scalar`: the left
hand side is no array, tuple or record (line 55). -/
inductive Bx where
  | and (l r : Bx)
  | eq (scalar : Bool) (lhs rhs : Tm)
  | other (n : Nat)
deriving DecidableEq, Repr

/-- The number of nodes. -/
def Bx.size : Bx → Nat
  | .and l r => l.size + r.size + 1
  | _ => 1

/-- 33–47: the loop over the stack. -/
def conjLoop : List Bx → List Bx
  | [] => []
  | .and l r :: st => conjLoop (l :: r :: st)
  | .eq s l r :: st => .eq s l r :: conjLoop st
  | .other n :: st => .other n :: conjLoop st
termination_by st => (st.map Bx.size).sum
decreasing_by all_goals (simp [Bx.size]; try omega)

/-- 24–49 `get_conjuncts`. -/
def getConjuncts (b : Bx) : List Bx := conjLoop [b]

/-- 57–62: the identifier and the other side. -/
def pick : Tm → Tm → Option (Nat × Tm)
  | .id x, r => some (x, r)
  | l, .id x => some (x, l)
  | _, _ => none

/-- `eq_branches[i]` (an identifier, the other side of its equation, the equation) and
`other_branches[i]`. Identifiers are compared by name (`IdEq`, hash.hh 63–73), which is what a
number stands for here. -/
structure Br where
  eqs : List (Nat × Tm × Bx)
  oth : List Bx
deriving Repr

/-- 65–70: `eq_occurrences`. -/
def incr (occ : List (Nat × Nat)) (x : Nat) : List (Nat × Nat) :=
  match occ with
  | [] => [(x, 1)]
  | (y, n) :: occ => if y = x then (y, n + 1) :: occ else (y, n) :: incr occ x

/-- The entry of an identifier in `eq_branches[i]`. -/
def look (eqs : List (Nat × Tm × Bx)) (x : Nat) : Option (Tm × Bx) :=
  match eqs with
  | [] => none
  | (y, t) :: eqs => if y = x then some t else look eqs x

/-- 51–78 `classify_conjunct`. -/
def classify (s : List (Nat × Nat) × Br) (e : Bx) : List (Nat × Nat) × Br :=
  match e with
  | .eq true l r =>
    match pick l r with
    | some (x, t) =>
      if (look s.2.eqs x).isNone then (incr s.1 x, ⟨s.2.eqs ++ [(x, t, e)], s.2.oth⟩)
      else (s.1, ⟨s.2.eqs, s.2.oth ++ [e]⟩)
    | none => (s.1, ⟨s.2.eqs, s.2.oth ++ [e]⟩)
  | _ => (s.1, ⟨s.2.eqs, s.2.oth ++ [e]⟩)

/-- 177–193: all branches (the `else` branch is the last). -/
def classifyAll (occ : List (Nat × Nat)) : List Bx → List (Nat × Nat) × List Br
  | [] => (occ, [])
  | b :: bs =>
    let s := (getConjuncts b).foldl classify (occ, ⟨[], []⟩)
    let r := classifyAll s.1 bs
    (r.1, s.2 :: r.2)

/-- What a generated conditional has in a branch: a term, or the conjunction of constraints
(232–246: `true`, a single constraint, or `forall`). -/
inductive Arm where
  | tm (t : Tm)
  | conj (bs : List Bx)
deriving DecidableEq, Repr

/-- A generated conditional: for the variable `x`, or (`none`) for the constraint itself; the
arms in the order of the branches, the `else` branch last (`results`, `e_then`, `e_else`). -/
structure Row where
  target : Option Nat
  arms : List Arm
deriving DecidableEq, Repr

/-- Lines 211–217: an identifier that is not frequent in a branch; the equation becomes one of
the other constraints. -/
def unsplit (x : Nat) (b : Br) : Br :=
  match look b.eqs x with
  | some (_, e) => ⟨b.eqs.filter (fun p => p.1 != x), b.oth ++ [e]⟩
  | none => b

/-- 197–206: the arm of an identifier in a branch. -/
def eqArm (x : Nat) (b : Br) : Arm :=
  match look b.eqs x with
  | some (t, _) => .tm t
  | none => .tm (.id x)

/-- 194–222: the loop over the identifiers; `n` is the number of conditions. The state is the
branches, the conditionals, and `noOtherBranches`. -/
def splitLoop (n : Nat) : List (Nat × Nat) → List Br × List Row × Bool → List Br × List Row × Bool
  | [], s => s
  | (x, k) :: occ, (brs, rows, no) =>
    if k ≥ n then splitLoop n occ (brs, rows ++ [⟨some x, brs.map (eqArm x)⟩], no)
    else
      splitLoop n occ
        (brs.map (unsplit x), rows, no && brs.all (fun b => (look b.eqs x).isNone))

/-- 226–260: the arm of the conditional for the constraint itself in a branch. -/
def othArm (whole : Bx) (b : Br) : Arm := if b.eqs.isEmpty then .conj [whole] else .conj b.oth

/-- 168–261: the conditionals generated for a constraint at the root. `branches` are the `then`
branches and the `else` branch; `iter` is the order in which the hash table `eq_occurrences` is
traversed. -/
def split (iter : List (Nat × Nat) → List (Nat × Nat)) (branches : List Bx) : List Row × Bool :=
  let c := classifyAll [] branches
  let n := branches.length - 1
  let s := splitLoop n (iter c.1) (c.2, [], c.2.all (fun b => b.oth.isEmpty))
  if s.2.2 then (s.2.1, true)
  else (s.2.1 ++ [⟨none, List.zipWith othArm branches s.1⟩], false)

/-! ## The conditionals -/

/-- A flattened condition: a fixed value, or a variable (with its value in the assignment). -/
inductive Cd where
  | par (b : Bool)
  | var (b : Bool)
deriving DecidableEq, Repr

/-- The truth value of a condition. -/
def Cd.truth : Cd → Bool
  | .par b => b
  | .var b => b

/-- A value of a variable. -/
inductive Vl where
  | int (n : Int)
  | absent
  | oth (k : Nat)
deriving DecidableEq, Repr

/-- A flattened branch: value, definedness, whether definedness is `literalTrue`, whether its type
is an integer type (`Type::isint`, also for optional integers), and the bounds computed for it. -/
structure FArm where
  r : Vl
  d : Bool
  dTrue : Bool
  isInt : Bool
  bnds : Option (Ext × Ext)
deriving Repr

/-- One entry of `conditions` and the corresponding entries of `defined[j]` and `branches[j]`;
`counted`: its bounds are taken into account (`cond`, line 366). -/
structure Col where
  cond : Cd
  arms : List FArm
  counted : Bool
deriving Repr

/-- What the loop over the conditions (310–393) does. -/
inductive LoopRes where
  | take (i : Nat)
  | done (cols : List Col) (allPar : Bool)
deriving Repr

/-- 310–393. `arms i` are the flattened `i`-th `then` branches of the generated conditionals,
`dummy i` the dummy values of their types. -/
def loop (arms dummy : Nat → List FArm) : List Cd → Nat → Bool → List Col → LoopRes
  | [], _, allPar, acc => .done acc allPar
  | .par true :: _, i, allPar, acc =>
    if allPar then .take i else .done (acc ++ [⟨.par true, arms i, true⟩]) allPar
  | .par false :: cs, i, allPar, acc =>
    loop arms dummy cs (i + 1) allPar (acc ++ [⟨.par false, dummy i, false⟩])
  | .var b :: cs, i, _, acc =>
    loop arms dummy cs (i + 1) false (acc ++ [⟨.var b, arms i, true⟩])

/-- The result of `flatten_ite`: the flattening of a single branch, or conditionals. -/
inductive Out where
  | branch (i : Nat)
  | els
  | cols (cs : List Col)
deriving Repr

/-- 310–448: all conditions and branches. -/
def run (conds : List Cd) (arms dummy : Nat → List FArm) (els : List FArm) : Out :=
  match loop arms dummy conds 0 true [] with
  | .take i => .branch i
  | .done cols allPar =>
    if allPar then .els
    else
      match cols.getLast? with
      | some ⟨.par true, _, _⟩ => .cols cols
      | _ => .cols (cols ++ [⟨.par true, els, true⟩])

/-- 366–374, 428–434: the bounds of conditional `j` in the branches that count; `none` if one of
them has no bounds. -/
def boundsList (j : Nat) : List Col → Option (List (Ext × Ext))
  | [] => some []
  | c :: cs =>
    match boundsList j cs with
    | none => none
    | some bs =>
      match c.arms[j]? with
      | some a =>
        if c.counted && a.isInt then
          match a.bnds with
          | some b => some (b :: bs)
          | none => none
        else some bs
      | none => some bs

/-- `IntVal::isFinite`. -/
def isFin : Ext → Bool
  | .fin _ => true
  | _ => false

/-- 455–466: the bounds posted for an integer variable, if any. -/
def postBounds (j : Nat) (cs : List Col) : Option (Ext × Ext) :=
  match boundsList j cs with
  | none => none
  | some bs =>
    let lb := bs.foldl (fun a b => min a b.1) .posInf
    let ub := bs.foldl (fun a b => max a b.2) .negInf
    if isFin lb || isFin ub then some (lb, ub) else none

/-- A result variable: its value, type, domain, and whether it has a right hand side. -/
structure Target where
  v : Vl
  isInt : Bool
  opt : Bool
  dom : Option (List Range)
  hasE : Bool
deriving Repr

/-- What becomes of a variable whose domain is restricted. -/
inductive DomAfter where
  | fail
  | fixed (n : Ext)
  | dom (d : List Range)
deriving Repr

/-- flatten_binop.cpp 1014–1042 `flatten_dom_constraint` at the root, for one identifier (the
identifiers it is equal to, line 1040, are left out). The type of the variable is not looked at
other than for sets. -/
def postDom (dom : Option (List Range)) (hasE : Bool) (lb ub : Ext) : DomAfter :=
  match dom with
  | none => .dom (IntSet.ofBounds lb ub)
  | some d =>
    let n := Ranges.inter d (IntSet.ofBounds lb ub)
    if n.isEmpty then .fail
    else if Ranges.equal d n then .dom d
    else
      match IntSet.min? n, IntSet.max? n with
      | some mn, some mx => if !hasE && mn == mx then .fixed mn else .dom n
      | _, _ => .dom n

/-- Whether a value of a variable is allowed: the domain of an optional variable is about the
values it takes if it is present. -/
def DomAfter.allows (opt : Bool) : DomAfter → Vl → Prop
  | .fail, _ => False
  | .fixed n, v => ∃ k, n = .fin k ∧ v = .int k
  | .dom d, v => (opt = true ∧ v = .absent) ∨ ∃ k, v = .int k ∧ ∃ r ∈ d, r.lo ≤ .fin k ∧ .fin k ≤ r.hi

/-! ## The predicates -/

/-- The auxiliary variables of fzn_if_then_else_*.mzn: `d[i] = (not c[i-1] /\ d[i-1])`, and
`d[i] = true` for the first. -/
def chainOk (c : List Bool) (d : Nat → Bool) : Prop :=
  ∀ i, i < c.length →
    if i > 0 then ∃ b, c[i - 1]? = some b ∧ d i = (!b && d (i - 1)) else d i = true

/-- fzn_if_then_else_int.mzn (and the versions for other types). -/
def iteInt {V : Type} (c : List Bool) (x : List V) (y : V) : Prop :=
  ∃ d, chainOk c d ∧ ∀ i, i < c.length → c[i]? = some true → d i = true → x[i]? = some y

/-- fzn_if_then_else_partiality.mzn. -/
def itePartial (c : List Bool) (df : List Bool) (b : Bool) : Prop :=
  ∃ d, chainOk c d ∧
    (∀ i, i < c.length → b = true → c[i]? = some true → d i = true → df[i]? = some true) ∧
    (∀ i, i < c.length → d i = true → c[i]? = some true → df[i]? = some true → b = true)

/-- 536–555: a branch is defined if it is defined in all conditionals. -/
def colDef (c : Col) : Bool := c.arms.all (fun a => a.d)

/-- The values of conditional `j` in the branches (line 497). -/
def colVals (j : Nat) (cs : List Col) : List Vl :=
  cs.map fun c => match c.arms[j]? with
    | some a => a.r
    | none => .absent

/-- 450–583: the constraints hold, for the values of the result variables and of the definedness
variable `b`. -/
def holds (cs : List Col) (ts : List Target) (b : Bool) : Prop :=
  (∀ j t, ts[j]? = some t →
    (t.isInt = true → ∀ lb ub, postBounds j cs = some (lb, ub) →
      (postDom t.dom t.hasE lb ub).allows t.opt t.v) ∧
    iteInt (cs.map fun c => c.cond.truth) (colVals j cs) t.v) ∧
  if cs.all (fun c => c.arms.all (fun a => a.dTrue)) then b = true
  else itePartial (cs.map fun c => c.cond.truth) (cs.map colDef) b

end Ite
end MZ
