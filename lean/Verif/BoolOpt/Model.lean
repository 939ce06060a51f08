import Verif.Linear.Lemmas

/-!
# Simplification of Boolean constraints in the optimiser

Model of the Boolean part of `optimize`, `lib/optimize.cpp:470-1168`: the treatment of conjunctions,
disjunctions, clauses, equalities and aliases, of variables with fixed values, and the unification of variables.
`EnvI::fail` (`lib/flatten.cpp:1222-1241`) throws, so that nothing that follows it is executed.
-/

namespace MZ
namespace BoolOpt

abbrev Var := Nat

/-- An element of an argument array: an identifier or a literal. -/
inductive Elem where
  | var (v : Var)
  | lit (b : Bool)
  deriving DecidableEq

/-- The expressions considered. -/
inductive Con where
  /-- `forall(al)` -/
  | conj (al : List Elem)
  /-- `exists(al)` -/
  | disj (al : List Elem)
  /-- `clause(p, n)` -/
  | clause (p n : List Elem)
  /-- `bool_eq(a, b)` -/
  | eq (a b : Elem)
  /-- an identifier -/
  | id (v : Var)
  | const (b : Bool)
  deriving DecidableEq

/-- A constraint item, or a variable declaration whose right hand side is not a literal. -/
inductive Item where
  | con (c : Con)
  | defn (v : Var) (c : Con)
  deriving DecidableEq

/-- The flat model: the domains of the Boolean variables, the right hand sides that are literals, the items
that are not removed, and the variables that were redirected to another one. -/
structure Model where
  dom : Var → Option Bool
  rhs : Var → Option Bool
  items : List Item
  eqs : List (Var × Var) := []
  failed : Bool := false

/-- The effect of a step on one item: new domains and right hand sides; what replaces the item; a pair of
variables to be unified. -/
structure Out where
  dom : Var → Option Bool
  rhs : Var → Option Bool
  item : Option Item
  fail : Bool := false
  unify : Option (Var × Var) := none

/-- Assigning a domain or a right hand side. -/
def set (f : Var → Option Bool) (v : Var) (b : Bool) : Var → Option Bool := fun w => if w = v then some b else f w

/-- The arrays of a Boolean connective, each with the value that has no effect in it,
`lib/optimize.cpp:738-739`, `:1077-1078`, `:1999-2000`. -/
def Con.args : Con → List (Bool × List Elem)
  | .conj al => [(true, al)]
  | .disj al => [(false, al)]
  | .clause p n => [(false, p), (true, n)]
  | _ => []

/-- `isConjunction`. -/
def Con.isConj : Con → Bool
  | .conj _ => true
  | _ => false

/-- The value of an element that is known from its domain. -/
def elemVal (dom : Var → Option Bool) : Elem → Option Bool
  | .lit b => some b
  | .var v => dom v

/-- Some element has the value that decides the connective, `lib/optimize.cpp:2003-2020`. -/
def subsumed (val : Elem → Option Bool) (c : Con) : Bool :=
  c.args.any (fun p => p.2.any (fun e => decide (val e = some (!p.1))))

/-- The elements whose value is not known, with the position of the array, `lib/optimize.cpp:1995-2027`.  Only
the number of them, and the element if there is just one, are used, so that the order of the search does not
matter. -/
def openIn (val : Elem → Option Bool) (l : List Elem) : List Var :=
  l.filterMap (fun e => match e with | .var v => if val e = none then some v else none | .lit _ => none)

def openElems (val : Elem → Option Bool) : Con → List (Nat × Var)
  | .conj al => (openIn val al).map (0, ·)
  | .disj al => (openIn val al).map (0, ·)
  | .clause p n => (openIn val p).map (0, ·) ++ (openIn val n).map (1, ·)
  | _ => []

/-- The variable occurs in the arguments, `lib/optimize.cpp:1849-1871`. -/
def Con.mentions (v : Var) : Con → Bool
  | .eq a b => decide (a = .var v) || decide (b = .var v)
  | c => c.args.any (fun p => p.2.any (fun e => decide (e = .var v)))

/-- The item is a constraint. -/
def Item.isCon : Item → Bool
  | .con _ => true
  | .defn _ _ => false

/-- Nothing changes. -/
def same (dom rhs : Var → Option Bool) (it : Item) : Out := ⟨dom, rhs, some it, false, none⟩

/-- The connective of the item is known to have the value `b`: a constraint is removed, or the model fails; the
domain of a defined variable is set, or compared.  `lib/optimize.cpp:1965-1989`, `:2029-2045`, `:2046-2063`, `:2131-2148`. -/
def decided (dom rhs : Var → Option Bool) (it : Item) (b : Bool) : Out :=
  match it with
  | .con _ => if b then ⟨dom, rhs, none, false, none⟩ else ⟨dom, rhs, some it, true, none⟩
  | .defn v _ =>
    match dom v with
    | none => ⟨set dom v b, rhs, some it, false, none⟩
    | some d => if d = b then ⟨dom, rhs, some it, false, none⟩ else ⟨dom, rhs, some it, true, none⟩

/-- `bool_eq` with at least one fixed argument, `lib/optimize.cpp:1914-1962`; the state 2 (not fixed) is `none`. -/
def simplifyEq (dom rhs : Var → Option Bool) (it : Item) (a b : Elem) : Out :=
  let p := if elemVal dom a = none then (b, a) else (a, b)
  match elemVal dom p.1 with
  | none => same dom rhs it
  | some x =>
    match it with
    | .con _ =>
      match elemVal dom p.2, p.2 with
      | none, .var w => ⟨set dom w x, rhs, none, false, none⟩
      | none, .lit _ => same dom rhs it
      | some y, _ => if x ≠ y then ⟨dom, rhs, some it, true, none⟩ else ⟨dom, rhs, none, false, none⟩
    | .defn v _ =>
      match dom v with
      | some true =>
        match elemVal dom p.2, p.2 with
        | none, .var w => ⟨set dom w x, rhs, some it, false, none⟩
        | none, .lit _ => same dom rhs it
        | some y, _ => if x ≠ y then ⟨dom, rhs, some it, true, none⟩ else same dom rhs it
      | some false =>
        match elemVal dom p.2, p.2 with
        | none, .var w => ⟨set dom w (!x), rhs, some it, false, none⟩
        | none, .lit _ => same dom rhs it
        | some y, _ => if x ≠ y then same dom rhs it else ⟨dom, rhs, some it, true, none⟩
      | none => same dom rhs it

/-- At most one literal is said to be open, `lib/optimize.cpp:1991-2101`. -/
def simplifyFew (dom rhs : Var → Option Bool) (it : Item) (c : Con) : Out :=
  if subsumed (elemVal dom) c then decided dom rhs it (!c.isConj)
  else
    match openElems (elemVal dom) c with
    | [] =>
      let r := decided dom rhs it c.isConj
      match it with
      | .con _ => r
      | .defn _ _ => if r.fail then r else { r with item := none }
    | [(i, w)] =>
      match it with
      | .con _ => ⟨set dom w (decide (i = 0)), rhs, some it, false, none⟩
      | .defn v _ =>
        match dom v with
        | some d => ⟨set dom w (if d then decide (i = 0) else decide (i ≠ 0)), rhs, some it, false, none⟩
        | none => if i = 0 then ⟨dom, rhs, none, false, some (v, w)⟩ else same dom rhs it
    | _ => same dom rhs it

/-- A clause with more than one open literal, `lib/optimize.cpp:2103-2152`. -/
def simplifyClause (dom rhs : Var → Option Bool) (it : Item) (vd : Var) (isTrue : Bool) (p n : List Elem) : Out :=
  let al := if isTrue then p else n
  let other := if isTrue then n else p
  match it, al, other with
  | .con _, [x], [_] =>
    if x ≠ .var vd then
      match x with
      | .lit b => if b = isTrue then ⟨dom, rhs, none, false, none⟩ else ⟨dom, rhs, some it, true, none⟩
      | .var w =>
        match dom w with
        | none => ⟨set dom w isTrue, rhs, some it, false, none⟩
        | some d => if d = isTrue then ⟨dom, rhs, none, false, none⟩ else ⟨dom, rhs, some it, true, none⟩
    else decided dom rhs it true
  | _, _, _ => if al.any (fun e => decide (e = .var vd)) then decided dom rhs it true else same dom rhs it

/-- The expression of a constraint, or the right hand side of a declaration, `lib/optimize.cpp:1874-1888`. -/
def Item.expr : Item → Con
  | .con c => c
  | .defn _ c => c

/-- The Boolean connectives in `simplify_bool_constraint`, `lib/optimize.cpp:1963-2152`. -/
def simplifyConn (dom rhs : Var → Option Bool) (it : Item) (vd : Var) (isTrue : Bool) (count : Int) (c : Con) : Out :=
  if c.mentions vd = false then same dom rhs it
  else
    match isTrue, c with
    | true, .disj _ => decided dom rhs it true
    | false, .conj _ => decided dom rhs it false
    | _, _ =>
      if count ≤ 1 then simplifyFew dom rhs it c
      else
        match c with
        | .clause p n => simplifyClause dom rhs it vd isTrue p n
        | _ => same dom rhs it

/-- `simplify_bool_constraint`, `lib/optimize.cpp:1826-2158`, for an item and a variable with a fixed domain that
occurs in it.  `count` is the number of open literals recorded for the call (`decrement_non_fixed_vars`,
`:1800-1824`); nothing is assumed about it.  Annotations, queues and the decision to remove the variable are not
modelled. -/
def simplifyBool (dom rhs : Var → Option Bool) (it : Item) (vd : Var) (isTrue : Bool) (count : Int) : Out :=
  match it.expr with
  | .id w =>
    match it with
    | .con _ => same dom rhs it
    | .defn v _ =>
      match dom v with
      | none => ⟨set dom v isTrue, rhs, some it, false, none⟩
      | some _ => if dom w = some (!isTrue) then ⟨dom, rhs, some it, true, none⟩ else same dom rhs it
  | .const b => if b && it.isCon then ⟨dom, rhs, none, false, none⟩ else same dom rhs it
  | .eq a b => if (Con.eq a b).mentions vd then simplifyEq dom rhs it a b else same dom rhs it
  | c => simplifyConn dom rhs it vd isTrue count c

/-- A domain is set if there is none, otherwise compared, for each variable; the value comes with the variable. -/
def fixAll (dom : Var → Option Bool) : List (Var × Bool) → Option (Var → Option Bool)
  | [] => some dom
  | (v, b) :: l =>
    match dom v with
    | none => fixAll (set dom v b) l
    | some d => if d = b then fixAll dom l else none

/-- The variables of an array. -/
def varsOf (l : List Elem) : List Var := l.filterMap (fun e => match e with | .var v => some v | .lit _ => none)

/-- The right hand side of a variable with a fixed domain, `lib/optimize.cpp:872-924`. -/
def propagateRhs (dom rhs : Var → Option Bool) (v : Var) (isTrue : Bool) (c : Con) : Out :=
  let todo : List (Var × Bool) :=
    match c with
    | .id w => [(w, isTrue)]
    | .conj al => if isTrue then (varsOf al).map (·, true) else []
    | .disj al => if isTrue then [] else (varsOf al).map (·, false)
    | .clause p n => if isTrue then [] else (varsOf p).map (·, false) ++ (varsOf n).map (·, true)
    | _ => []
  match fixAll dom todo with
  | none => ⟨dom, rhs, some (.defn v c), true, none⟩
  | some dom' => ⟨dom', rhs, some (.defn v c), false, none⟩

/-- The merge loop over two sorted vectors of pointers, `lib/optimize.cpp:773-788`. -/
def common : List Nat → List Nat → Bool
  | [], _ => false
  | _, [] => false
  | x :: xs, y :: ys =>
    if x = y then true
    else if x < y then common xs (y :: ys)
    else common (x :: xs) ys
  termination_by xs ys => xs.length + ys.length

/-- `std::sort`. -/
def insertSorted (x : Nat) : List Nat → List Nat
  | [] => [x]
  | y :: l => if x ≤ y then x :: y :: l else y :: insertSorted x l

def sort : List Nat → List Nat
  | [] => []
  | x :: l => insertSorted x (sort l)

/-- The value of an element that is known from its domain or its right hand side, `lib/optimize.cpp:742-767`. -/
def elemVal2 (dom rhs : Var → Option Bool) : Elem → Option Bool
  | .lit b => some b
  | .var v =>
    match dom v with
    | some b => some b
    | none => rhs v

/-- Some variable occurs in both arrays, `lib/optimize.cpp:770-789`; `addr` are the addresses of the variables. -/
def tautology (addr : Var → Nat) (val : Elem → Option Bool) : Con → Bool
  | .clause p n => common (sort ((openIn val p).map addr)) (sort ((openIn val n).map addr))
  | _ => false

/-- Phase 2 for one item, `lib/optimize.cpp:714-845`.  A defined variable whose value becomes known gets a
literal as its right hand side.  Items that are not Boolean connectives do not come here.  `has v`: the
declaration of `v` has a right hand side. -/
def phase2 (addr : Var → Nat) (has : Var → Bool) (dom rhs : Var → Option Bool) (it : Item) : Out :=
  let c := it.expr
  if c.args = [] then same dom rhs it
  else if subsumed (elemVal2 dom rhs) c || tautology addr (elemVal2 dom rhs) c then
    match it with
    | .con _ => if c.isConj then ⟨dom, rhs, some it, true, none⟩ else ⟨dom, rhs, none, false, none⟩
    | .defn v _ =>
      match dom v with
      | some d => if d = c.isConj then ⟨dom, rhs, some it, true, none⟩ else same dom rhs it
      | none => ⟨set dom v (!c.isConj), set rhs v (!c.isConj), none, false, none⟩
  else
    match it, openElems (elemVal2 dom rhs) c with
    | .con _, [(i, w)] =>
      ⟨set dom w (decide (i ≠ 1)), if has w then rhs else set rhs w (decide (i ≠ 1)), none, false, none⟩
    | _, _ => same dom rhs it

/-- The arrays without the elements whose value is known, `lib/optimize.cpp:1080-1100`. -/
def compact (dom : Var → Option Bool) (l : List Elem) : List Elem := l.filter (fun e => decide (elemVal dom e = none))

def Con.compact (dom : Var → Option Bool) : Con → Con
  | .conj al => .conj (BoolOpt.compact dom al)
  | .disj al => .disj (BoolOpt.compact dom al)
  | .clause p n => .clause (BoolOpt.compact dom p) (BoolOpt.compact dom n)
  | c => c

/-- Phase 4 for one item, `lib/optimize.cpp:1055-1154`. -/
def phase4 (dom rhs : Var → Option Bool) (it : Item) : Out :=
  let c := it.expr
  if c.args = [] then same dom rhs it
  else
    let defined (v : Var) (result : Bool) : Out :=
      match dom v with
      | some d => if d = !result then ⟨dom, rhs, some it, true, none⟩ else ⟨dom, set rhs v result, none, false, none⟩
      | none => ⟨set dom v result, set rhs v result, none, false, none⟩
    if subsumed (elemVal dom) c then
      match it with
      | .con _ => if c.isConj then ⟨dom, rhs, some it, true, none⟩ else ⟨dom, rhs, none, false, none⟩
      | .defn v _ => defined v (!c.isConj)
    else if (c.compact dom).args.all (fun p => p.2.isEmpty) then
      match it with
      | .con _ => if c.isConj then ⟨dom, rhs, none, false, none⟩ else ⟨dom, rhs, some it, true, none⟩
      | .defn v _ => defined v c.isConj
    else
      match it with
      | .con _ => same dom rhs (.con (c.compact dom))
      | .defn v _ => same dom rhs (.defn v (c.compact dom))

/-! ## Unification -/

def Elem.subst (a b : Var) : Elem → Elem
  | .var v => .var (if v = a then b else v)
  | .lit x => .lit x

def Con.subst (a b : Var) : Con → Con
  | .conj al => .conj (al.map (·.subst a b))
  | .disj al => .disj (al.map (·.subst a b))
  | .clause p n => .clause (p.map (·.subst a b)) (n.map (·.subst a b))
  | .eq x y => .eq (x.subst a b) (y.subst a b)
  | .id v => .id (if v = a then b else v)
  | .const x => .const x

def Item.subst (a b : Var) : Item → Item
  | .con c => .con (c.subst a b)
  | .defn v c => .defn (if v = a then b else v) (c.subst a b)

/-- The item defines the variable. -/
def Item.defines (v : Var) : Item → Bool
  | .con _ => false
  | .defn w _ => decide (w = v)

/-- The declaration of the variable has a right hand side. -/
def Model.hasRhs (m : Model) (v : Var) : Bool := (m.rhs v).isSome || m.items.any (·.defines v)

/-- A variable that is defined as itself; such a right hand side is removed, `lib/optimize.cpp:250-297`. -/
def Item.selfAlias : Item → Bool
  | .defn v (.id w) => decide (v = w)
  | _ => false

/-- `unify`, `lib/optimize.cpp:244-390`: the first variable is redirected to the second one, which gets its right
hand side and the intersection of the domains.  `out v`: the variable is an output variable; then it is
kept. -/
def Model.unify (out : Var → Bool) (m : Model) (x y : Var) : Model :=
  if x = y then m
  else
    let a := if out x then y else x
    let b := if out x then x else y
    let items := if m.hasRhs a then m.items.filter (fun it => !it.defines b) else m.items
    let items := (items.map (·.subst a b)).filter (fun it => !it.selfAlias)
    let rhs := fun v => if v = a then none else if v = b then (if m.hasRhs a then m.rhs a else m.rhs b) else m.rhs v
    let dom := fun v => if v = a then none else if v = b then (if (m.dom b).isSome then m.dom b else m.dom a) else m.dom v
    ⟨dom, rhs, items, (a, b) :: m.eqs,
      m.failed || match m.dom a, m.dom b with | some p, some q => decide (p ≠ q) | _, _ => false⟩

/-- A step on one item is applied to the model. -/
def Model.apply (out : Var → Bool) (m : Model) (pre post : List Item) (o : Out) : Model :=
  let m' : Model := ⟨o.dom, o.rhs, pre ++ o.item.toList ++ post, m.eqs, m.failed || o.fail⟩
  match o.unify with
  | none => m'
  | some (a, b) => m'.unify out a b

/-! ## Top-level constraints -/

/-- The variables of a top-level constraint that are to be fixed, in phase 1, `lib/optimize.cpp:609-640`: the
variables without a domain of a conjunction, or of a constraint that is just an identifier. -/
def queued (dom : Var → Option Bool) : Item → List Var
  | .con (.conj al) => (varsOf al).filter (fun v => decide (dom v = none))
  | .con (.id v) => if dom v = none then [v] else []
  | _ => []

/-- Phase 1 finds a variable that is fixed to false in a top-level constraint, `lib/optimize.cpp:618-621`,
`:632-634`. -/
def contradicts (dom : Var → Option Bool) : Item → Bool
  | .con (.conj al) => (varsOf al).any (fun v => decide (dom v = some false))
  | .con (.id v) => decide (dom v = some false)
  | _ => false

/-- The variables queued by phase 1 are fixed, `lib/optimize.cpp:847-858`.  A declaration that was removed because
its variable was redirected to another one is skipped. -/
def Model.assign (m : Model) : List Var → Model
  | [] => m
  | v :: l =>
    if m.eqs.any (fun p => decide (p.1 = v)) then m.assign l
    else if m.dom v = none then Model.assign { m with dom := set m.dom v true } l
    else m.assign l

/-- The item is a constraint that phase 1 puts into the list of constraints to be removed. -/
def Item.isTop : Item → Bool
  | .con (.conj _) => true
  | .con (.id _) => true
  | _ => false

/-- The clean up after phase 3, `lib/optimize.cpp:1043-1049`.  Whatever has become of them, these constraints are
removed. -/
def Model.cleanup (m : Model) : Model := { m with items := m.items.filter (fun it => !it.isTop) }

end BoolOpt
end MZ
