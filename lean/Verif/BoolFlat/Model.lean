import Verif.BoolFlat.Syntax

/-!
# Flattening Boolean expressions with contexts

A model of the part of the compiler that turns Boolean expressions into a flat model: contexts
and the negation flag, dualisation under negation, aggregation of nested conjunctions and
disjunctions, clauses, merging, removal of duplicates, common subexpression elimination, binding
to a fresh variable, to a given variable or to "true", and context annotations.

Not modelled here: types other than Boolean (integer terms and predicate arguments are opaque),
optional types, user-defined operators and reifications, redefinitions of builtins by a solver
library, multi-pass variable unification, the special treatment of linear comparisons of
constants or of domains.
-/

namespace MZ
namespace BoolFlat

/-- include/minizinc/model.hh 495–517 (`Ctx`), without the integer context. -/
structure Ctx where
  b : BCtx
  neg : Bool
deriving DecidableEq, Repr

/-- `Ctx()`: the default context. -/
def Ctx.root : Ctx := ⟨.root, false⟩

/-- The variable `r` an expression is bound to: `nullptr`, `constants.varTrue` or a given
declaration. -/
inductive Tgt where
  | fresh
  | tru
  | var (v : Nat)
deriving DecidableEq, Repr

/-! ### Access to the state -/

/-- Change declaration `v`. -/
def St.upd (s : St) (v : Nat) (f : Decl → Decl) : St :=
  { s with decls := s.decls.modify v f }

/-- lib/flatten.cpp 1222–1241 (`EnvI::fail`): the model is inconsistent.  (The program may stop
here by an exception; the model records the fact and goes on.) -/
def St.fail (s : St) : St := { s with failed := true }

/-- lib/flatten.cpp 317–344 (`EnvI::addCtxAnn`), on the annotation itself. -/
def mergeAnn (old : Option BCtx) (c : BCtx) : Option BCtx :=
  match old with
  | none => some c
  | some o =>
    if o = c ∨ o = .root ∨ (o = .mix ∧ c ≠ .root) then some o
    else if c = .root then some .root
    else some .mix

/-- lib/flatten.cpp 317–344 (`EnvI::addCtxAnn`). -/
def addCtxAnn (s : St) (v : Nat) (c : BCtx) : St :=
  s.upd v fun d => { d with ann := mergeAnn d.ann c }

/-- `addCtxAnn` if the flat expression is an identifier. -/
def annFE (s : St) (e : FE) (c : BCtx) : St :=
  match e with
  | .lit _ => s
  | .var v => addCtxAnn s v c

/-- lib/flatten.cpp 282–299 (`EnvI::annToCtx`). -/
def annToCtx : Option BCtx → BCtx
  | some c => c
  | none => .mix

/-- The right-hand side of declaration `v`. -/
def St.rhsOf (s : St) (v : Nat) : Option FC := (s.decls[v]?).bind (·.rhs)

/-- The domain of declaration `v`. -/
def St.domOf (s : St) (v : Nat) : Option Bool := (s.decls[v]?).bind (·.dom)

/-- lib/eval_par.cpp 3783–3815 (`follow_id_to_decl`), on declarations; the fuel is the number of
declarations. -/
def followN (s : St) : Nat → Nat → Nat
  | 0, v => v
  | n + 1, v =>
    match s.rhsOf v with
    | some (.alias (.var w)) => followN s n w
    | _ => v

/-- lib/eval_par.cpp 3783–3815 (`follow_id_to_decl`). -/
def follow (s : St) (v : Nat) : Nat := followN s s.decls.length v

/-- lib/eval_par.cpp 3817–3826 (`follow_id_to_value`). -/
def followVal (s : St) : FE → FE
  | .lit b => .lit b
  | .var v =>
    match s.rhsOf (follow s v) with
    | some (.alias (.lit b)) => .lit b
    | _ => .var (follow s v)

/-- Set the domain of a declaration (lib/flatten.cpp 137–159, `set_computed_domain`). -/
def setDom (s : St) (v : Nat) (b : Bool) : St := s.upd v fun d => { d with dom := some b }

/-- Set the right-hand side of a declaration (`VarDecl::e`). -/
def setRhs (s : St) (v : Nat) (c : FC) : St := s.upd v fun d => { d with rhs := some c }

/-- Post a constraint (`EnvI::flatAddItem`). -/
def addCon (s : St) (c : Con) : St := { s with cons := s.cons ++ [c] }

/-- lib/flatten.cpp 651–753 (`new_vardecl`) with 3214 (`addCtxAnn(nvd, ctx.b)`): a new declaration
with a right-hand side and a context annotation. -/
def newDecl (s : St) (c : FC) (b : BCtx) : St × Nat :=
  ({ s with decls := s.decls ++ [⟨false, some c, some b, none⟩] }, s.decls.length)

/-- `EnvI::cseMapFind`. -/
def cseFind (s : St) (c : FC) : Option FE :=
  (s.cse.find? fun p => decide (p.1 = c)).map (·.2)

/-- `EnvI::cseMapInsert`. -/
def cseInsert (s : St) (c : FC) (e : FE) : St := { s with cse := (c, e) :: s.cse }

/-- The elements of the array arguments of a call. -/
def FC.arrayArgs : FC → List FE
  | .all_ es => es
  | .any_ es => es
  | .clause ps ns => ps ++ ns
  | _ => []

/-- lib/flatten.cpp 6110–6145 (`cse_result_change_ctx`): the loop over the stack.  Identifiers
that are scalar arguments are not followed (line 6137 pushes the null pointer `redirect`). -/
def cseWalk (new : BCtx) : Nat → Bool → List FE → St → St
  | 0, _, _, s => s
  | _ + 1, _, [], s => s
  | n + 1, _, .lit _ :: st, s => cseWalk new n false st s
  | n + 1, first, .var v :: st, s =>
    match s.rhsOf v with
    | none => cseWalk new n false st s
    | some (.alias (.lit _)) => cseWalk new n false st s
    | some (.alias (.var w)) => cseWalk new n false (.var w :: st) s
    | some c =>
      let old := annToCtx ((s.decls[v]?).bind (·.ann))
      if (first = false ∨ old ≠ new) ∧ old ≠ .root ∧ old ≠ .mix then
        cseWalk new n false (c.arrayArgs.reverse ++ st)
          (addCtxAnn s v (if first = true ∧ new = .root then .root else .mix))
      else cseWalk new n false st s

/-- The number of steps the stack loop can take: the arguments of a declaration are pushed at
most once, and each pushed identifier may lead through a chain of identifiers. -/
def cseFuel (s : St) : Nat :=
  ((s.decls.map fun d => (d.rhs.map fun c => c.arrayArgs.length).getD 0).sum + 1)
    * (s.decls.length + 1)

/-- lib/flatten.cpp 6110–6145 (`cse_result_change_ctx`). -/
def cseChange (s : St) (e : FE) (new : BCtx) : St := cseWalk new (cseFuel s) true [e] s

/-! ### Binding -/

/-- lib/flatten.cpp 3261–3288 and 3371–3399 (`bind` to a declaration of a Boolean literal). -/
def bindLit (s : St) (v : Nat) (b : Bool) : St × FE :=
  match s.rhsOf v with
  | none =>
    match s.domOf v with
    | some b' => if b' = b then (setRhs s v (.alias (.lit b)), .lit b)
                 else ((setRhs s v (.alias (.lit b))).fail, .var v)
    | none => (setDom (setRhs s v (.alias (.lit b))) v b, .lit b)
  | some _ =>
    match s.domOf v with
    | some b' => if b' = b then (s, .lit true) else (s.fail, .lit true)
    | none => (setDom s v b, .lit true)

/-- lib/flatten.cpp 3338–3369 and 3454–3465 (`bind` to a declaration of an identifier): an alias
if the declaration has no right-hand side, an equality constraint otherwise. -/
def bindVar (s : St) (v w : Nat) : St × FE :=
  match s.rhsOf v with
  | none => if v = w then (s, .var v) else (setRhs s v (.alias (.var w)), .var v)
  | some c =>
    if v = w ∨ c = .alias (.var w) ∨ s.rhsOf w = some (.alias (.var v)) then (s, .var v)
    else (addCon s (.eqv v w), .var v)

/-- lib/flatten.cpp 3523–3552: calls for which the half-reified form is never chosen. -/
def FC.noHalf : FC → Bool
  | .all_ _ => true
  | .any_ _ => true
  | _ => false

/-- lib/flatten.cpp 3063–3104, 3180–3254, 3338–3369, 3466–3564 (`bind` of a call without
negation). -/
def bindCall (s : St) (b : BCtx) (tgt : Tgt) (c : FC) : St × FE :=
  match tgt with
  | .tru => (addCon s (.call c), .lit true)
  | .fresh => let r := newDecl s c b; (r.1, .var r.2)
  | .var v =>
    match s.rhsOf v with
    | none => (setRhs s v c, .var v)
    | some _ =>
      let h := s.hr && decide ((s.decls[v]?).bind (·.ann) = some .pos) && !c.noHalf
      (addCon s (.reif h c v), .var v)

/-- lib/flatten.cpp 2999–3018 (`bind`: an identifier is replaced by the end of its chain, both are
annotated with a non-root context). -/
def bindAnn (s : St) (b : BCtx) (v : Nat) : St :=
  if b = .root then s
  else
    let s1 := addCtxAnn s (follow s v) b
    if follow s v = v then s1 else addCtxAnn s1 v b

/-- lib/flatten.cpp 3063–3093 (`bind` of an identifier to `varTrue`). -/
def bindTru (s : St) (w : Nat) : St × FE :=
  match s.domOf w with
  | some false => (s.fail, .lit true)
  | some true => (s, .lit true)
  | none => (setDom s w true, .lit true)

/-- lib/flatten.cpp 3032–3058 (`bind` of a negated identifier to `varTrue`). -/
def bindFls (s : St) (w : Nat) : St × FE :=
  match s.domOf w with
  | some true => (s.fail, .lit true)
  | _ => (setDom s w false, .lit true)

/-- lib/flatten.cpp 2999–3640 (`bind` of a literal or identifier without negation). -/
def bindPos (s : St) (b : BCtx) (tgt : Tgt) (e : FE) : St × FE :=
  match e with
  | .lit x =>
    match tgt with
    | .tru => if x then (s, .lit true) else (s.fail, .lit true)
    | .fresh => (s, .lit x)
    | .var v => bindLit s v x
  | .var u =>
    let w := follow s u
    let s1 := bindAnn s b u
    match tgt with
    | .tru => bindTru s1 w
    | .fresh => (s1, .var w)
    | .var v => bindVar s1 v w

/-- lib/flatten/flatten_call.cpp 1092–1115 and 1203–1255, non-negated context: look the call up in
the table of common subexpressions (and bind the result found, after adapting its context), or
bind the call and enter it into the table. -/
def post (s : St) (b : BCtx) (tgt : Tgt) (c : FC) : St × FE :=
  match cseFind s c with
  | some e => bindPos (cseChange s e b) b tgt e
  | none =>
    let r := bindCall s b tgt c
    (cseInsert r.1 c r.2, r.2)

/-- lib/flatten/flatten_id.cpp 17–130 (`flatten_id`): the expression an identifier stands for; a
literal if the declaration is bound to one, or has no right-hand side and a fixed domain. -/
def idVal (s : St) (v : Nat) : FE :=
  let w := follow s v
  match s.rhsOf w with
  | some (.alias (.lit b)) => .lit b
  | some _ => .var w
  | none =>
    match s.domOf w with
    | some b => .lit b
    | none => .var w

/-- lib/flatten.cpp 3021–3031 (`wrap_bool_not`): flatten the call `bool_not(e)` in the root
context.  Its argument is flattened in a mixed context. -/
def notCall (s : St) (tgt : Tgt) (e : FE) : St × FE :=
  match e with
  | .lit b => bindPos s .root tgt (.lit !b)
  | .var v =>
    let r := bindPos s .mix .fresh (idVal s v)
    post r.1 .root tgt (.not_ r.2)

/-- lib/flatten.cpp 2999–3640 (`bind` of a literal or identifier). -/
def bindFE (s : St) (c : Ctx) (tgt : Tgt) (e : FE) : St × FE :=
  match c.neg with
  | false => bindPos s c.b tgt e
  | true =>
    match e with
    | .lit b => bindPos s .root tgt (.lit !b)
    | .var u =>
      let w := follow s u
      let s1 := bindAnn s c.b u
      match tgt with
      | .tru => bindFls s1 w
      | _ => notCall s1 tgt (.var w)

/-- lib/flatten/flatten_id.cpp 17–130 (`flatten_id`). -/
def flatId (s : St) (c : Ctx) (tgt : Tgt) (v : Nat) : St × FE := bindFE s c tgt (idVal s v)

/-- `flat_exp` of a literal or identifier. -/
def flatFE (s : St) (c : Ctx) (tgt : Tgt) (e : FE) : St × FE :=
  match e with
  | .lit b => bindFE s c tgt (.lit b)
  | .var v => flatId s c tgt v

/-- lib/flatten/flatten_call.cpp 1203–1255 (a predicate call in any context): under negation the
table of common subexpressions is not used for the call itself and `bind` wraps it into
`bool_not`, whose argument is flattened in a mixed context. -/
def postPred (s : St) (c : Ctx) (tgt : Tgt) (f : FC) : St × FE :=
  match c.neg with
  | false => post s c.b tgt f
  | true =>
    let r := post s .mix .fresh f
    post r.1 .root tgt (.not_ r.2)

/-! ### Merging and duplicates -/

/-- lib/flatten/flatten_call.cpp 32–75 (`same_call`): the call an expression stands for. -/
def callOf (s : St) : FE → Option FC
  | .lit _ => none
  | .var v => s.rhsOf (follow s v)

/-- The order in which `Expression::compare` puts literals and identifiers. -/
def FE.key : FE → Nat
  | .lit false => 0
  | .lit true => 1
  | .var v => v + 2

/-- Insertion into a sorted list. -/
def insertFE (x : FE) : List FE → List FE
  | [] => [x]
  | y :: ys => if x.key ≤ y.key then x :: y :: ys else y :: insertFE x ys

/-- `std::sort` with `CmpExp` (lib/flatten/flatten_call.cpp 77–86). -/
def sortFE : List FE → List FE
  | [] => []
  | x :: xs => insertFE x (sortFE xs)

/-- lib/flatten/flatten_call.cpp 92–109: the loop of `remove_dups`.  `none`: a literal other than
the identity was found. -/
def dedupFE (identity : Bool) : Option FE → List FE → Option (List FE)
  | _, [] => some []
  | prev, x :: xs =>
    if prev = some x then dedupFE identity prev xs
    else
      match x with
      | .lit b => if b = identity then dedupFE identity (some x) xs else none
      | .var _ => (dedupFE identity (some x) xs).map (x :: ·)

/-- lib/flatten/flatten_call.cpp 87–110 (`remove_dups`). -/
def removeDups (s : St) (identity : Bool) (xs : List FE) : Option (List FE) :=
  dedupFE identity none (sortFE (xs.map (followVal s)))

/-- lib/flatten/flatten_call.cpp 111–130 (`contains_dups`). -/
def containsDups : Nat → List FE → List FE → Bool
  | 0, _, _ => false
  | _ + 1, [], _ => false
  | _ + 1, _ :: _, [] => false
  | n + 1, x :: xs, y :: ys =>
    if x = y then true
    else if x.key < y.key then containsDups n xs (y :: ys)
    else containsDups n (x :: xs) ys

/-- lib/flatten/flatten_call.cpp 837–882: what a positive element of a clause is replaced by:
new positive and negative elements, or nothing if it is to be kept. -/
def posMerge : Option FC → Option (List FE × List FE)
  | some (.any_ es) => some (es, [])
  | some (.clause ps ns) => some (ps, ns)
  | some (.iff_ a (.lit false)) => some ([], [a])
  | some (.iff_ (.lit false) b) => some ([], [b])
  | some (.iff_ a (.lit true)) => some ([a], [])
  | some (.iff_ (.lit true) b) => some ([b], [])
  | some (.not_ a) => some ([], [a])
  | _ => none

/-- lib/flatten/flatten_call.cpp 885–930: what a negative element of a clause is replaced by. -/
def negMerge : Option FC → Option (List FE × List FE)
  | some (.all_ es) => some ([], es)
  | some (.iff_ a (.lit false)) => some ([a], [])
  | some (.iff_ (.lit false) b) => some ([b], [])
  | some (.iff_ a (.lit true)) => some ([], [a])
  | some (.iff_ (.lit true) b) => some ([], [b])
  | some (.not_ a) => some ([a], [])
  | _ => none

/-- Whether a kept element can be dropped because its domain is the given literal. -/
def dropDom (s : St) (b : Bool) : FE → Bool
  | .lit _ => false
  | .var v => decide (s.domOf v = some b)

/-- The two stacks, the set of seen identifiers and the two result lists of lib/flatten/flatten_call.cpp
803–932. -/
structure Exp where
  ps : List FE
  ns : List FE
  seen : List FE
  pa : List FE
  na : List FE

/-- Is the element an identifier that was seen before? -/
def seenId (seen : List FE) : FE → Bool
  | .lit _ => false
  | .var v => decide (FE.var v ∈ seen)

/-- lib/flatten/flatten_call.cpp 828–884: one step of the positive loop. -/
def posStep (s : St) (x : Exp) (cur : FE) (ps : List FE) : Exp :=
  if seenId x.seen cur then { x with ps := ps, pa := x.pa ++ [cur] }
  else
    match posMerge (callOf s cur) with
    | some (p, n) => { x with ps := p.reverse ++ ps, ns := n.reverse ++ x.ns, seen := cur :: x.seen }
    | none =>
      if dropDom s false cur then { x with ps := ps, seen := cur :: x.seen }
      else { x with ps := ps, seen := cur :: x.seen, pa := x.pa ++ [cur] }

/-- lib/flatten/flatten_call.cpp 886–931: one step of the negative loop. -/
def negStep (s : St) (x : Exp) (cur : FE) (ns : List FE) : Exp :=
  if seenId x.seen cur then { x with ns := ns, na := x.na ++ [cur] }
  else
    match negMerge (callOf s cur) with
    | some (p, n) => { x with ps := p.reverse ++ x.ps, ns := n.reverse ++ ns, seen := cur :: x.seen }
    | none =>
      if dropDom s true cur then { x with ns := ns, seen := cur :: x.seen }
      else { x with ns := ns, seen := cur :: x.seen, na := x.na ++ [cur] }

/-- lib/flatten/flatten_call.cpp 820–932: the loops over the two stacks.  `neg` tells which inner
loop is running; what is left when the fuel ends is kept unmerged. -/
def expand (s : St) : Nat → Bool → Exp → List FE × List FE
  | 0, _, x => (x.pa ++ x.ps, x.na ++ x.ns)
  | n + 1, true, x =>
    match x.ns with
    | cur :: ns => expand s n true (negStep s x cur ns)
    | [] => expand s n false x
  | n + 1, false, x =>
    match x.ps with
    | cur :: ps => expand s n false (posStep s x cur ps)
    | [] =>
      match x.ns with
      | [] => (x.pa, x.na)
      | _ :: _ => expand s n true x

/-- A bound on the steps of `expand`: an identifier is expanded at most once. -/
def expandFuel (s : St) (pos neg : List FE) : Nat :=
  2 * (pos.length + neg.length +
    (s.decls.map fun d => (d.rhs.map fun c => c.arrayArgs.length + 1).getD 0).sum) + 4

/-- lib/flatten/flatten_call.cpp 799–985 and the tail of `flatten_call`: `exists` and `clause` on
flat elements, without negation. -/
def callClause (s : St) (b : BCtx) (tgt : Tgt) (pos neg : List FE) : St × FE :=
  let x := expand s (expandFuel s pos neg) false ⟨pos.reverse, neg.reverse, [], [], []⟩
  match removeDups s false x.1 with
  | none => bindPos s b tgt (.lit true)
  | some pa =>
    match removeDups s true x.2 with
    | none => bindPos s b tgt (.lit true)
    | some na =>
      if containsDups (pa.length + na.length + 1) pa na then bindPos s b tgt (.lit true)
      else
        match na with
        | [] =>
          match pa with
          | [] => bindPos s b tgt (.lit false)
          | [e] => bindPos s b tgt e
          | _ => post s b tgt (.any_ pa)
        | e :: na' =>
          if pa = [] ∧ na' = [] then bindFE s ⟨b.dn, true⟩ tgt e
          else post s b tgt (.clause pa (e :: na'))

/-- lib/flatten/flatten_call.cpp 988–1001: nested `forall` calls are merged. -/
def mergeAll (s : St) : List FE → List FE
  | [] => []
  | e :: es =>
    match callOf s e with
    | some (.all_ xs) => xs ++ mergeAll s es
    | _ => e :: mergeAll s es

/-- lib/flatten/flatten_call.cpp 988–1025 and the tail of `flatten_call`: `forall` on flat
elements, without negation. -/
def callAll (s : St) (b : BCtx) (tgt : Tgt) (es : List FE) : St × FE :=
  match removeDups s true (mergeAll s es) with
  | none => bindPos s b tgt (.lit false)
  | some al =>
    match al with
    | [] => bindPos s b tgt (.lit true)
    | [e] => bindPos s b tgt e
    | _ => post s b tgt (.all_ al)

/-! ### Lists of arguments -/

/-- lib/flatten/flatten_call.cpp 706–745: the elements of a `forall` (`conj = true`) or `exists`
are flattened in turn; irrelevant literals are dropped, a literal that decides the result ends
the loop. -/
def elems {α : Type} (f : St → α → St × FE) (conj : Bool) : St → List α → List FE → St × List FE
  | s, [], acc => (s, acc)
  | s, e :: es, acc =>
    let r := f s e
    match r.2 with
    | .lit b => if b = conj then elems f conj r.1 es acc else (r.1, [.lit b])
    | .var v => elems f conj r.1 es (acc ++ [.var v])

/-- Flatten the elements of a list in turn. -/
def mapFlat {α : Type} (f : St → α → St × FE) : St → List α → St × List FE
  | s, [] => (s, [])
  | s, e :: es =>
    let r := f s e
    let rs := mapFlat f r.1 es
    (rs.1, r.2 :: rs.2)

/-- Post a list of expressions as constraints. -/
def postEach {α : Type} (f : St → α → St × FE) : St → List α → St
  | s, [] => s
  | s, e :: es => postEach f (f s e).1 es

/-- lib/flatten.cpp 3645–3725 (`conj`) in a non-negated context. -/
def conjPos (s : St) (b : BCtx) (tgt : Tgt) (es : List FE) : St × FE :=
  if FE.lit false ∈ es then bindPos s .root tgt (.lit false)
  else
    match es.filter (fun e => decide (e ≠ .lit true)) with
    | [] => bindPos s .root tgt (.lit true)
    | [e] => bindPos s b tgt e
    | nt =>
      if tgt = .tru then (postEach (fun s e => bindPos s b .tru e) s nt, .lit true)
      else
        let r := elems (fun s e => flatFE s ⟨b.up, false⟩ .fresh e) true s nt []
        callAll r.1 b tgt r.2

/-- A flat expression, possibly under `not`. -/
def signed (x : Bool × FE) : FE :=
  match x with
  | (f, .lit b) => .lit (b != f)
  | (_, .var v) => .var v

/-- `flat_exp` of `not e` in a non-negated context, for a flat expression `e` that is itself
possibly under `not` (the flag). -/
def flatNot (s : St) (b : BCtx) (tgt : Tgt) (x : Bool × FE) : St × FE :=
  if x.1 then flatFE s ⟨b.dn.dn, false⟩ tgt x.2 else flatFE s ⟨b.dn, true⟩ tgt x.2

/-- lib/flatten.cpp 3676–3725 (`conj`) in a negated context; `b` is the context before it is
negated. -/
def conjNeg (s : St) (b : BCtx) (tgt : Tgt) (es : List (Bool × FE)) : St × FE :=
  if es.any (fun x => decide (signed x = .lit false)) then bindPos s .root tgt (.lit true)
  else
    match es.filter (fun x => decide (signed x ≠ .lit true)) with
    | [] => bindPos s .root tgt (.lit false)
    | [x] => flatNot s b.dn tgt x
    | nf =>
      let r := elems (fun s x => flatNot s b.dn.up .fresh x) false s nf []
      callClause r.1 b.dn tgt r.2 []

/-! ### Comparisons -/

/-- The complement of a comparison operator (lib/flatten/flatten_binop.cpp 2151–2221). -/
def Cmp.compl : Cmp → Cmp
  | .le => .gq
  | .lq => .gr
  | .gr => .lq
  | .gq => .le
  | .eq => .nq
  | .nq => .eq

/-- lib/flatten/flatten_binop.cpp 1613–1730 (the end of `flatten_bool_op` for a comparison): `eb` is
the definedness of the operands, `cc` the comparison call, already complemented if the context is
negated. -/
def cmpTail (s : St) (c : Ctx) (tgt : Tgt) (eb : FE) (cc : FC) : St × FE :=
  let cj : St → FE → St × FE := fun s r =>
    if c.neg then conjNeg s c.b tgt [(false, eb), (true, r)]
    else conjPos (annFE s r c.b) c.b tgt [eb, r]
  if eb = .lit false then
    if c.neg then conjNeg s c.b tgt [(false, eb)] else conjPos s c.b tgt [eb]
  else
    match cseFind s cc with
    | some r => cj (cseChange s r c.b) r
    | none =>
      let b := if c.neg then c.b.dn else c.b
      if eb = .lit true then post s b tgt cc
      else
        let r := post s b .fresh cc
        cj r.1 r.2

/-- The comparison call for a comparison in context `c`. -/
def cmpCall (c : Ctx) (o : Cmp) (t0 t1 : Nat) : FC :=
  .cmp (if c.neg then o.compl else o) t0 t1

/-- lib/flatten/flatten_binop.cpp 1453–1730 (`flatten_bool_op` for a comparison of integer terms): the
definedness of the operands is posted as a constraint in the root context and reified
otherwise. -/
def flatCmp (s : St) (c : Ctx) (tgt : Tgt) (o : Cmp) (t0 t1 : Nat) (d : Option Nat) : St × FE :=
  match d with
  | none => cmpTail s c tgt (.lit true) (cmpCall c o t0 t1)
  | some p =>
    let r := if c.b = .root then post s .root .tru (.pred p) else post s c.b .fresh (.pred p)
    cmpTail r.1 c tgt r.2 (cmpCall c o t0 t1)

/-- lib/flatten/flatten_binop.cpp 2151–2221: the integer context in which the left-hand side of a
comparison is flattened; `bool2int` (lib/flatten/flatten_call.cpp 426–433) makes it the Boolean
context of its argument. -/
def cntCtx (o : Cmp) (b : BCtx) : BCtx :=
  match o with
  | .le => b.dn
  | .lq => b.dn
  | .gr => b.up
  | .gq => b.up
  | .eq => .mix
  | .nq => .mix

/-! ### Source expressions -/

mutual
/-- Is the expression a parameter expression (no variables)? -/
def BE.par : BE → Bool
  | .lit _ => true
  | .var _ => false
  | .pred _ => false
  | .cmp .. => false
  | .cnt .. => false
  | .not e => BE.par e
  | .and a b => BE.par a && BE.par b
  | .or a b => BE.par a && BE.par b
  | .impl a b => BE.par a && BE.par b
  | .rimpl a b => BE.par a && BE.par b
  | .equiv a b => BE.par a && BE.par b
  | .xor a b => BE.par a && BE.par b
  | .forall_ es => BE.pars es
  | .exists_ es => BE.pars es
/-- `BE.par` for every element. -/
def BE.pars : List BE → Bool
  | [] => true
  | e :: es => BE.par e && BE.pars es
end

/-- The value of a parameter expression (`eval_bool`). -/
def BE.pval (e : BE) : Bool := e.val ⟨fun _ => false, fun _ => 0⟩ fun _ => false

/-- Is the expression an identifier? -/
def BE.isVar : BE → Bool
  | .var _ => true
  | _ => false

/-- lib/flatten/flatten_call.cpp 643–650: negative elements of a clause that are moved to the positive
ones under `not`: operators and `forall`/`exists` calls. -/
def BE.isOp : BE → Bool
  | .cmp .. => true
  | .cnt .. => true
  | .and .. => true
  | .or .. => true
  | .impl .. => true
  | .rimpl .. => true
  | .equiv .. => true
  | .xor .. => true
  | .forall_ _ => true
  | .exists_ _ => true
  | _ => false

/-- lib/flatten/flatten_binop.cpp 356–394 (the loop of `aggregate_and_or_ops`): the elements of a
nested conjunction (`isOr = false`) or disjunction, with a sign; the flag is the current sign. -/
def aggr (isOr : Bool) : Bool → BE → List (Bool × BE)
  | true, .or a b => if isOr then aggr isOr true a ++ aggr isOr true b else [(true, .or a b)]
  | true, .and a b => if isOr then [(true, .and a b)] else aggr isOr true a ++ aggr isOr true b
  | false, .and a b =>
    if isOr then aggr isOr false a ++ aggr isOr false b else [(false, .and a b)]
  | false, .or a b =>
    if isOr then [(false, .or a b)] else aggr isOr false a ++ aggr isOr false b
  | false, .not e => aggr isOr true e
  | true, .not e => if isOr then [(false, e)] else [(true, .not e)]
  | p, e => [(p, e)]

/-- The elements of one sign. -/
def withSign (p : Bool) (xs : List (Bool × BE)) : List BE :=
  (xs.filter fun x => decide (x.1 = p)).map (·.2)

/-- lib/flatten/flatten_binop.cpp 1856–1872: the operands of a nested conjunction (or, under negation,
disjunction) at the top level. -/
def leaves (isOr : Bool) : BE → List BE
  | .or a b => if isOr then leaves isOr a ++ leaves isOr b else [.or a b]
  | .and a b => if isOr then [.and a b] else leaves isOr a ++ leaves isOr b
  | e => [e]

/-- lib/flatten/flatten_call.cpp 618–636: elements under `not` change sides. -/
def nots : List BE → List BE
  | [] => []
  | .not e :: es => e :: nots es
  | _ :: es => nots es

/-- lib/flatten/flatten_call.cpp 618–636: elements that are not under `not`. -/
def plains : List BE → List BE
  | [] => []
  | .not _ :: es => plains es
  | e :: es => e :: plains es

/-- lib/flatten/flatten_call.cpp 638–671: the negative elements of a clause.  Returns the flat negative
elements and the elements moved to the positive ones. -/
def negElems (f : St → BE → St × FE) : St → List BE → List FE → List BE → St × List FE × List BE
  | s, [], acc, mv => (s, acc, mv)
  | s, e :: es, acc, mv =>
    if e.isOp then negElems f s es acc (mv ++ [.not e])
    else
      let r := f s e
      match r.2 with
      | .lit b => if b then negElems f r.1 es acc mv else (r.1, [.lit false], mv)
      | .var v => negElems f r.1 es (acc ++ [.var v]) mv

/-- lib/flatten/flatten_call.cpp 674–697: the positive elements of a clause; a true one makes the
negative ones irrelevant. -/
def posElems (f : St → BE → St × FE) : St → List BE → List FE → List FE → St × List FE × List FE
  | s, [], acc, na => (s, acc, na)
  | s, e :: es, acc, na =>
    let r := f s e
    match r.2 with
    | .lit b => if b then (r.1, [.lit true], []) else posElems f r.1 es acc na
    | .var v => posElems f r.1 es (acc ++ [.var v]) na

/-- lib/flatten/flatten_call.cpp 605–705 and 799–985 (a `clause` call without negation). -/
def flatClause (f : St → Ctx → Tgt → BE → St × FE) (s : St) (b : BCtx) (tgt : Tgt)
    (pos neg : List BE) : St × FE :=
  let r := negElems (fun s e => f s ⟨b.dn, false⟩ .fresh e) s (nots pos ++ plains neg) [] []
  let q := posElems (fun s e => f s ⟨b.up, false⟩ .fresh e) r.1
    (plains pos ++ nots neg ++ r.2.2) [] r.2.1
  callClause q.1 b tgt q.2.1 q.2.2

/-- lib/flatten/flatten_call.cpp 706–745, 799–1025 (a `forall` or `exists` call): the elements are
flattened in context `ec`, the call is posted in context `b`. -/
def flatQuant (f : St → Ctx → Tgt → BE → St × FE) (s : St) (conj : Bool) (ec : Ctx) (b : BCtx)
    (tgt : Tgt) (es : List BE) : St × FE :=
  let r := elems (fun s e => f s ec .fresh e) conj s es []
  if conj then callAll r.1 b tgt r.2 else callClause r.1 b tgt r.2 []

/-- `addCtxAnn` on the result if it is an identifier. -/
def annRes (r : St × FE) (b : BCtx) : St × FE := (annFE r.1 r.2 b, r.2)

/-- lib/flatten/flatten_binop.cpp 1851–1896 (`BOT_AND`); `neg` is `negArgs`. -/
def flatAnd (f : St → Ctx → Tgt → BE → St × FE) (s : St) (b : BCtx) (neg : Bool) (tgt : Tgt)
    (x y : BE) : St × FE :=
  if tgt = .tru then
    (postEach (fun s e => (f s (if neg then ⟨.neg, true⟩ else ⟨.root, false⟩) .tru e)) s
      (leaves neg x ++ leaves neg y), .lit true)
  else
    let els := aggr false (!neg) x ++ aggr false (!neg) y
    annRes (flatQuant f s true ⟨b.up, false⟩ b tgt
      (withSign true els ++ (withSign false els).map .not)) b

/-- lib/flatten/flatten_binop.cpp 1885–1896 (`BOT_OR`). -/
def flatOr (f : St → Ctx → Tgt → BE → St × FE) (s : St) (b : BCtx) (neg : Bool) (tgt : Tgt)
    (x y : BE) : St × FE :=
  let els := aggr true (!neg) x ++ aggr true (!neg) y
  if withSign false els = [] then
    annRes (flatQuant f s false ⟨b.up, false⟩ b tgt (withSign true els)) b
  else annRes (flatClause f s b tgt (withSign true els) (withSign false els)) b

/-- lib/flatten/flatten_binop.cpp 1978–2071 (`BOT_IMPL`). -/
def flatImpl (f : St → Ctx → Tgt → BE → St × FE) (s : St) (c : Ctx) (tgt : Tgt)
    (x y : BE) : St × FE :=
  if c.b = .root ∧ tgt = .tru ∧ x.par = true then
    if x.pval then f s Ctx.root .tru y else (s, .lit true)
  else if c.b = .root ∧ tgt = .tru ∧ y.par = true then
    if y.pval then (s, .lit true) else f s ⟨.neg, true⟩ .tru x
  else if c.neg then
    annRes (flatQuant f s true ⟨c.b.dn.up, false⟩ c.b.dn tgt [x, .not y]) c.b.dn
  else annRes (flatClause f s c.b tgt [y] [x]) c.b

/-- lib/flatten/flatten_binop.cpp 2081–2106 and 2120–2146: `<->` (`xor = false`) or `xor` bound to
true; `b` is the context the operator was called with. -/
def flatEqTru (f : St → Ctx → Tgt → BE → St × FE) (s : St) (b : BCtx) (xor : Bool)
    (x y : BE) : St × FE :=
  if x.par then f s ⟨b.dn, true⟩ .tru y
  else
    let r := f s ⟨.mix, false⟩ .fresh x
    match r.2 with
    | .lit v => if v = xor then f r.1 ⟨b.dn, true⟩ .tru y else f r.1 ⟨b, false⟩ .tru y
    | .var v =>
      let q := f r.1 ⟨.mix, xor⟩ (.var v) y
      (addCtxAnn q.1 v .mix, .lit true)

/-- The call for `<->` or `xor`. -/
def eqCall (xor : Bool) (a b : FE) : FC := if xor then .xor_ a b else .iff_ a b

/-- lib/flatten/flatten_binop.cpp 1453–1730 (`flatten_bool_op` for `bool_eq` and `bool_ne`). -/
def eqTail (s : St) (b : BCtx) (xor : Bool) (tgt : Tgt) (x y : FE) : St × FE :=
  match x, y with
  | .lit u, .lit v => bindPos s b tgt (.lit ((u == v) != xor))
  | _, _ =>
    match cseFind s (eqCall xor x y) with
    | some r => bindPos (annFE (cseChange s r b) r b) b tgt r
    | none => post s b tgt (eqCall xor x y)

/-- lib/flatten/flatten_binop.cpp 2072–2150 (`BOT_EQUIV`, `BOT_XOR`); `b0` is the context the operator
was called with, `b` the context after negation. -/
def flatEq (f : St → Ctx → Tgt → BE → St × FE) (s : St) (b0 b : BCtx) (xor : Bool) (tgt : Tgt)
    (x y : BE) : St × FE :=
  if x.par = true ∧ x.pval ≠ xor then f s ⟨b, false⟩ tgt y
  else if y.par = true ∧ y.pval ≠ xor then f s ⟨b, false⟩ tgt x
  else if tgt = .tru then
    if y.par || y.isVar then flatEqTru f s b0 xor y x else flatEqTru f s b0 xor x y
  else
    let r0 := f s ⟨.mix, false⟩ .fresh x
    let r1 := f r0.1 ⟨.mix, false⟩ .fresh y
    eqTail r1.1 b xor tgt r0.2 r1.2

/-- lib/flatten/flatten_call.cpp 434–449, 503–523 (`forall`, `exists`): under negation the other
quantifier is used and the elements are negated, but the context of the call is not. -/
def flatCall (f : St → Ctx → Tgt → BE → St × FE) (s : St) (c : Ctx) (conj : Bool) (tgt : Tgt)
    (es : List BE) : St × FE :=
  let conj' := conj != c.neg
  if c.b = .root ∧ conj' = true ∧ tgt = .tru then
    (postEach (fun s e => f s ⟨.root, c.neg⟩ .tru e) s es, .lit true)
  else flatQuant f s conj' ⟨c.b.up, c.neg⟩ c.b tgt es

/-- lib/flatten/flat_exp.cpp (`flat_exp`, dispatch), lib/flatten/flatten_unop.cpp 16–35 (`not`),
lib/flatten/flatten_binop.cpp 1728–2225 (`flatten_binop`) and lib/flatten/flatten_call.cpp.  The first
argument bounds the depth of recursion. -/
def flat : Nat → St → Ctx → Tgt → BE → St × FE
  | 0, s, _, _, _ => (s, .lit true)
  | n + 1, s, c, tgt, e =>
    if e.par then bindFE s c tgt (.lit e.pval)
    else
      match e with
      | .lit b => bindFE s c tgt (.lit b)
      | .var x => flatId s c tgt x
      | .pred p => postPred s c tgt (.pred p)
      | .cmp o t0 t1 d => flatCmp s c tgt o t0 t1 d
      | .cnt o es t =>
        let r := mapFlat (fun s e => flat n s ⟨cntCtx o c.b, false⟩ .fresh e) s es
        cmpTail r.1 c tgt (.lit true) (.cnt (if c.neg then o.compl else o) r.2 t)
      | .not e => flat n s ⟨c.b.dn, !c.neg⟩ tgt e
      | .and x y =>
        if c.neg then flatOr (flat n) s c.b.dn true tgt x y
        else flatAnd (flat n) s c.b false tgt x y
      | .or x y =>
        if c.neg then flatAnd (flat n) s c.b.dn true tgt x y
        else flatOr (flat n) s c.b false tgt x y
      | .impl x y => flatImpl (flat n) s c tgt x y
      | .rimpl x y => flatImpl (flat n) s c tgt y x
      | .equiv x y =>
        flatEq (flat n) s c.b (if c.neg then c.b.dn else c.b) c.neg tgt x y
      | .xor x y =>
        flatEq (flat n) s c.b (if c.neg then c.b.dn else c.b) (!c.neg) tgt x y
      | .forall_ es => flatCall (flat n) s c true tgt es
      | .exists_ es => flatCall (flat n) s c false tgt es

mutual
/-- The size of an expression. -/
def BE.size : BE → Nat
  | .lit _ => 1
  | .var _ => 1
  | .pred _ => 1
  | .cmp .. => 1
  | .cnt _ es _ => 1 + BE.sizes es
  | .not e => 1 + BE.size e
  | .and a b => 1 + BE.size a + BE.size b
  | .or a b => 1 + BE.size a + BE.size b
  | .impl a b => 1 + BE.size a + BE.size b
  | .rimpl a b => 1 + BE.size a + BE.size b
  | .equiv a b => 1 + BE.size a + BE.size b
  | .xor a b => 1 + BE.size a + BE.size b
  | .forall_ es => 1 + BE.sizes es
  | .exists_ es => 1 + BE.sizes es
/-- The size of a list of expressions. -/
def BE.sizes : List BE → Nat
  | [] => 0
  | e :: es => BE.size e + BE.sizes es
end

/-- lib/flatten.cpp 4243–4290 (`FlattenModelVisitor`) and lib/flatten/flatten_vardecl.cpp: a constraint
is flattened in the root context and bound to true; the right-hand side of a Boolean declaration
is flattened in a mixed context and bound to the declaration. -/
def flatItem (s : St) : Item → St
  | .decl v e => (flat e.size s ⟨.mix, false⟩ (.var v) e).1
  | .con e => (flat e.size s Ctx.root .tru e).1

/-- The state before flattening: `n` declared Boolean variables. -/
def initSt (hr : Bool) (n : Nat) : St :=
  ⟨hr, List.replicate n ⟨true, none, none, none⟩, [], [], false⟩

/-- Flatten the items of a model with `n` Boolean variables. -/
def compile (hr : Bool) (n : Nat) (items : List Item) : St :=
  items.foldl flatItem (initSt hr n)

end BoolFlat
end MZ
