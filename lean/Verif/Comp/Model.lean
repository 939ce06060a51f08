import Verif.IntVal.Model
/-!
# Comprehensions

The type checker's rewriting of where clauses (`vComprehension`, lib/typecheck.cpp 2412–2558), the rewriting of variable where
clauses and of generators over set variables (`flatten_comp`, lib/flatten/flatten_comp.cpp 42–289), the evaluation of the
generators (`eval_comp`, include/minizinc/eval_par.hh 179–357) and the assembly of indexed comprehensions (359–411).
Everything is considered under one assignment of the variables. Undefinedness and errors in the sets of generators and in where
clauses are not modelled (an undefined where clause is false).
-/
namespace MZ
namespace Comp

/-- A value: an integer, absent, or a set. -/
inductive Val where
  | int (i : Int)
  | absent
  | set (s : List Int)
deriving DecidableEq, Repr

/-- The values of the declarations of generators, which are numbered. -/
abbrev Env := Nat → Val

/-- A declaration gets a value (`decl->e(..)`). -/
def upd (env : Env) (d : Nat) (v : Val) : Env := fun x => if x = d then v else env x

/-- A Boolean expression that is not a conjunction: the declarations in it, whether its type is par, its value. -/
structure Cond where
  fv : List Nat
  isPar : Bool
  val : Env → Bool

/-- A where clause: conjunctions of such expressions. -/
inductive W where
  | leaf (c : Cond)
  | and (l r : W)

/-- The type of the expression. -/
def W.isPar : W → Bool
  | .leaf c => c.isPar
  | .and l r => l.isPar && r.isPar

/-- Its value. -/
def W.val : W → Env → Bool
  | .leaf c, env => c.val env
  | .and l r, env => l.val env && r.val env

/-- The declarations in it. -/
def W.fv : W → List Nat
  | .leaf c => c.fv
  | .and l r => l.fv ++ r.fv

/-- A set variable: its value, its upper bound `ub(S)`; whether the expression is an identifier; `set2iter(S)` if that function
has a body. -/
structure VSet where
  fv : List Nat
  isId : Bool
  val : Env → List Int
  ub : Env → List Int
  iter : Option (Env → List Val)

/-- What a generator ranges over: a fixed set or an array, a set variable; or an assignment. -/
inductive Src where
  | par (fv : List Nat) (vals : Env → List Val)
  | vset (s : VSet)
  | asn (fv : List Nat) (v : Env → Val)

/-- A generator; assignments have one declaration and no where clause. -/
structure Gen where
  decls : List Nat
  src : Src
  wh : Option W

/-- The generator is an assignment (`in == nullptr`). -/
def Gen.isAsn (g : Gen) : Bool :=
  match g.src with
  | .asn _ _ => true
  | _ => false

/-! ## The type checker -/

/-- The number of nodes. -/
def W.size : W → Nat
  | .leaf _ => 1
  | .and l r => l.size + r.size + 1

/-- The same for a stack. -/
def stackSize : List W → Nat
  | [] => 0
  | w :: s => w.size + stackSize s

theorem W.size_pos (w : W) : 0 < w.size := by cases w <;> simp [W.size]

/-- typecheck.cpp 2462–2479: `wherePartsStack` (top first) and `whereParts`. -/
def partsLoop (stack : List W) (acc : List Cond) : List Cond :=
  match stack with
  | [] => acc
  | .leaf c :: s => partsLoop s (acc ++ [c])
  | .and l r :: s => partsLoop (l :: r :: s) acc
termination_by stackSize stack
decreasing_by
  · simp [stackSize, W.size]
  · simp only [stackSize, W.size]; omega

/-- 2412–2422 `generatorMap`: the declarations in order, each with the number of its generator; the position in the list is
`declCount`. -/
def gmapFrom : Nat → List Gen → List (Nat × Nat)
  | _, [] => []
  | i, g :: gs => g.decls.map (fun d => (d, i)) ++ gmapFrom (i + 1) gs

/-- `generatorMap.find`: the generator and the `declCount`. -/
def find : List (Nat × Nat) → Nat → Nat → Option (Nat × Nat)
  | [], _, _ => none
  | (d', g) :: l, k, d => if d' = d then some (g, k) else find l (k + 1) d

/-- 2490–2496: the first generator that is not an assignment. -/
def firstIn : Nat → List Gen → Option (Nat × Nat)
  | _, [] => none
  | i, g :: gs =>
    if g.isAsn then firstIn (i + 1) gs
    else
      match g.decls with
      | d :: _ => some (i, d)
      | [] => none

/-- 2505–2509: the loop over assignments; `fuel` is the number of generators. -/
def skip (gens : List Gen) : Nat → Nat → Nat × Nat → Nat × Nat
  | 0, _, st => st
  | fuel + 1, gen, st =>
    match gens[gen]?, gens[gen + 1]? with
    | some g, some g' =>
      if g.isAsn ∧ gen < gens.length - 1 then
        match g'.decls with
        | d :: _ => skip gens fuel (gen + 1) (st.1 + 1, d)
        | [] => st
      else st
    | _, _ => st

/-- 2498–2511 `vId`; the state is `declIndex` and `decl`. -/
def vId (gens : List Gen) (st : Nat × Nat) (d : Nat) : Nat × Nat :=
  match find (gmapFrom 0 gens) 0 d with
  | some (g, k) => if k > st.1 then skip gens gens.length g (k, d) else st
  | none => st

/-- 2481–2516: the declaration a part of a where clause is moved to. -/
def latest (gens : List Gen) (c : Cond) : Option Nat :=
  match firstIn 0 gens with
  | some st => some (c.fv.foldl (vId gens) st).2
  | none => none

/-- The parts of a where clause. -/
def partsOf : Option W → List Cond
  | some w => partsLoop [w] []
  | none => []

/-- 2481–2516 `whereMap`: the parts of all where clauses, each with the declaration it is moved to. -/
def whereParts (gens : List Gen) : List Cond → List (Nat × Cond)
  | [] => []
  | c :: cs =>
    match latest gens c with
    | some d => (d, c) :: whereParts gens cs
    | none => whereParts gens cs

/-- All parts, in order. -/
def allParts : List Gen → List Cond
  | [] => []
  | g :: gs => (if g.isAsn then [] else partsOf g.wh) ++ allParts gs

/-- `whereMap[d]`. -/
def whereMap (wm : List (Nat × Cond)) (d : Nat) : List Cond := (wm.filter fun p => p.1 = d).map Prod.snd

/-- 2538–2550: the parts as one expression again. -/
def conj : Cond → List Cond → W
  | c, cs => cs.foldl (fun w c => .and w (.leaf c)) (.leaf c)

/-- 2524–2557: the new generators for a generator; `acc` is `decls`. -/
def rebuildGen (wm : List (Nat × Cond)) (src : Src) : List Nat → List Nat → List Gen
  | _, [] => []
  | acc, d :: ds =>
    match whereMap wm d with
    | c :: cs => ⟨acc ++ [d], src, some (conj c cs)⟩ :: rebuildGen wm src [] ds
    | [] =>
      match ds with
      | [] => [⟨acc ++ [d], src, none⟩]
      | _ => rebuildGen wm src (acc ++ [d]) ds

/-- 2524–2557: all new generators. `none`: a part is moved to an assignment, whose value would become a conjunction. -/
def rebuild (wm : List (Nat × Cond)) : List Gen → Option (List Gen)
  | [] => some []
  | g :: gs =>
    match rebuild wm gs with
    | none => none
    | some r =>
      if g.isAsn then
        if g.decls.all (fun d => (whereMap wm d).isEmpty) then some (g :: r) else none
      else some (rebuildGen wm g.src [] g.decls ++ r)

/-- 2412–2558: what the type checker makes of the generators. -/
def typecheck (gens : List Gen) : Option (List Gen) :=
  rebuild (whereParts gens (allParts gens)) gens

/-! ## Variable where clauses and sets -/

/-- flatten_comp.cpp 139–156: one side of a conjunction is added to `parWhere`, `todo` or `where`. -/
def putSide (w : W) (st : List (W × W) × List W × List W) : List (W × W) × List W × List W :=
  if w.isPar then (st.1, st.2.1 ++ [w], st.2.2)
  else
    match w with
    | .and a b => ((a, b) :: st.1, st.2.1, st.2.2)
    | .leaf c => (st.1, st.2.1, st.2.2 ++ [.leaf c])

/-- The number of nodes on the stack. -/
def todoSize (todo : List (W × W)) : Nat := (todo.map fun p => p.1.size + p.2.size).sum

theorem putSide_size (w : W) (st : List (W × W) × List W × List W) : todoSize (putSide w st).1 < todoSize st.1 + w.size := by
  have := W.size_pos w
  unfold putSide
  split
  · simp only; omega
  · cases w with
    | and a b => simp only [todoSize, List.map_cons, List.sum_cons, W.size]; omega
    | leaf c => simp only [W.size]; omega

/-- 132–158: the loop with the stack `todo` of conjunctions; `par` is `parWhere`, `ws` is what is added to `where`. -/
def splitLoop (todo : List (W × W)) (par ws : List W) : List W × List W :=
  match todo with
  | [] => (par, ws)
  | (l, r) :: s =>
    splitLoop (putSide l (putSide r (s, par, ws))).1 (putSide l (putSide r (s, par, ws))).2.1
      (putSide l (putSide r (s, par, ws))).2.2
termination_by todoSize todo
decreasing_by
  have h1 := putSide_size l (putSide r (s, par, ws))
  have h2 := putSide_size r (s, par, ws)
  simp only at h2
  have : todoSize ((l, r) :: s) = l.size + r.size + todoSize s := rfl
  omega

/-- 159–182: the fixed conjuncts as one expression; for more than two a call of `forall`. -/
def parWhere : List W → Option W
  | [] => none
  | [a] => some a
  | [a, b] => some (.and a b)
  | ws => some (.leaf ⟨ws.flatMap W.fv, true, fun env => ws.all fun w => w.val env⟩)

/-- 124–190: the new where clause of the generator, and what is added to `where`. -/
def splitWhere : Option W → Option W × List W
  | none => (none, [])
  | some w =>
    if w.isPar then (some w, [])
    else
      match w with
      | .and l r =>
        let (par, ws) := splitLoop [(l, r)] [] []
        (parWhere par, ws)
      | .leaf c => (none, [.leaf c])

/-- The value of a declaration is an integer in the set. -/
def inSet (v : Val) (s : List Int) : Bool :=
  match v with
  | .int i => s.contains i
  | _ => false

/-- The members of a set that is the value of a declaration. -/
def asSet : Val → List Int
  | .set s => s
  | _ => []

/-- `occurs`. -/
def occurs : Val → Bool
  | .absent => false
  | _ => true

/-- `deopt`; any value if it is absent. -/
def deopt : Val → Val
  | .absent => .int 0
  | v => v

/-- 52–199: the new generators for a generator and what is added to `where`; `fresh` is the number of the next new declaration. In
the first case for set variables the where clause is `orig_where[i]` before it is set. -/
def transGen (fresh : Nat) (g : Gen) : List Gen × List W × Nat :=
  match g.src with
  | .asn _ _ => ([g], [], fresh)
  | .par _ _ =>
    let (ow, ws) := splitWhere g.wh
    ([⟨g.decls, g.src, ow⟩], ws, fresh)
  | .vset s =>
    let (ow, ws) := splitWhere g.wh
    match s.iter with
    | some it =>
      let news := (List.range g.decls.length).map (· + fresh)
      (⟨news, .par s.fv it, none⟩ ::
          (g.decls.zip news).map (fun p => ⟨[p.1], .asn [p.2] (fun env => deopt (env p.2)), none⟩),
        news.map (fun n => .leaf ⟨[n], false, fun env => occurs (env n)⟩) ++ ws,
        fresh + g.decls.length)
    | none =>
      if s.isId then
        ([⟨g.decls, .par s.fv (fun env => (s.ub env).map .int), ow⟩],
          g.decls.map (fun d => .leaf ⟨d :: s.fv, false, fun env => inSet (env d) (s.val env)⟩) ++ ws, fresh)
      else
        ([⟨[fresh], .asn s.fv (fun env => .set (s.val env)), none⟩,
            ⟨g.decls, .par s.fv (fun env => (s.ub env).map .int), ow⟩],
          g.decls.map (fun d => .leaf ⟨[d, fresh], false, fun env => inSet (env d) (asSet (env fresh))⟩) ++ ws, fresh + 1)

/-- 48–200: all generators. -/
def trans : Nat → List Gen → List Gen × List W × Nat
  | fresh, [] => ([], [], fresh)
  | fresh, g :: gs =>
    let (g', ws, f) := transGen fresh g
    let (gs', ws', f') := trans f gs
    (g' ++ gs', ws ++ ws', f')

/-- 201–216: the condition. -/
def condVal (ws : List W) (env : Env) : Bool := ws.all fun w => w.val env

/-! ## Evaluation of the generators -/

/-- eval_par.hh 311–345 and 230–246: the values of a generator; for a set variable its bounds. -/
def evalVals : Src → Env → List Val
  | .par _ vals, env => vals env
  | .vset s, env => (s.ub env).map .int
  | .asn _ v, env => [v env]

/-- 180–250: the declarations of a generator one after the other, then the where clause, which is not looked at if it is variable,
then the next generator. -/
def evalDecls (vals : List Val) (wh : Option W) (rest : Env → List Env) : List Nat → Env → List Env
  | [], env =>
    match wh with
    | none => rest env
    | some w => if w.isPar then (if w.val env then rest env else []) else rest env
  | d :: ds, env => vals.flatMap fun v => evalDecls vals wh rest ds (upd env d v)

/-- 304–357: the values of the declarations for which an element is generated. -/
def evalGens : List Gen → Env → List Env
  | [], env => [env]
  | g :: gs, env =>
    if g.isAsn then evalDecls (evalVals g.src env) none (evalGens gs) g.decls env
    else evalDecls (evalVals g.src env) g.wh (evalGens gs) g.decls env

/-! ## The elements -/

/-- The elements of the comprehension in a call of `forall` (227–230). -/
def elemsForall (gens : List Gen) (ws : List W) (e : Env → Bool) (env : Env) : List Bool :=
  (evalGens gens env).map fun v => !condVal ws v || e v

/-- In a call of `exists` (231–234). -/
def elemsExists (gens : List Gen) (ws : List W) (e : Env → Bool) (env : Env) : List Bool :=
  (evalGens gens env).map fun v => condVal ws v && e v

/-- In a call of `sum` (235–263): `none` is undefined; a product if the type of the element is par, otherwise a conditional, which
is only undefined if the selected branch is (C67). -/
def elemsSum (isPar : Bool) (gens : List Gen) (ws : List W) (e : Env → Option Int) (env : Env) : List (Option Int) :=
  (evalGens gens env).map fun v =>
    if isPar then (e v).map fun x => (if condVal ws v then 1 else 0) * x
    else if condVal ws v then e v else some 0

/-- In other places (264–273): the inner `none` is absent. -/
def elemsOther (gens : List Gen) (ws : List W) (e : Env → Option Int) (env : Env) : List (Option (Option Int)) :=
  (evalGens gens env).map fun v => if condVal ws v then (e v).map some else some none

/-- 201–289: the generators and conditions of the comprehension that is evaluated: the original ones if there are no conditions. -/
def flatGens (fresh : Nat) (gens : List Gen) : List Gen × List W :=
  let (gs, ws, _) := trans fresh gens
  if ws.isEmpty then (gens, []) else (gs, ws)

/-! ## Indexed comprehensions -/

/-- `static_cast<int>`. -/
def wrap32 (i : Int) : Int := (i + 2 ^ 31) % 2 ^ 32 - 2 ^ 31

/-- eval_par.hh 215–217: the least and the greatest index of each dimension; `none` is the initial value. -/
def minmax : List (Option (Int × Int)) → List Int → List (Option (Int × Int))
  | m :: ms, i :: is => some (match m with | none => (i, i) | some (a, b) => (Min.min a i, Max.max b i)) :: minmax ms is
  | ms, _ => ms

/-- 364–384: `size`, `dimSize` and `dims`, from the last dimension on. `none`: there are no elements. -/
def sizes : List (Option (Int × Int)) → Option (Int × List Int × List (Int × Int))
  | [] => some (1, [], [])
  | m :: ms =>
    match sizes ms, m with
    | some (size, ds, dims), some (a, b) => some (size * (b - a + 1), size :: ds, (wrap32 a, wrap32 b) :: dims)
    | _, _ => none

/-- 397–401: the position of an element; the indices are stored as `int`. -/
def posOf : List (Option (Int × Int)) → List Int → List Int → Int
  | some (a, _) :: ms, d :: ds, i :: is => wrap32 ((wrap32 i - a) * d) + posOf ms ds is
  | _, _, _ => 0

/-- 394–408: the elements at their positions. -/
def place {α : Type} (ms : List (Option (Int × Int))) (ds : List Int) : List (List Int × α) → List (Option α) → Res (List (Option α))
  | [], arr => .ok arr
  | (is, e) :: r, arr =>
    let p := posOf ms ds is
    if p < 0 ∨ p ≥ arr.length then .ub
    else
      match arr[p.toNat]? with
      | some none => place ms ds r (arr.set p.toNat (some e))
      | some (some _) => .err
      | none => .ub

/-- 359–411: the index sets and the elements of the array with `n` dimensions. -/
def assemble {α : Type} (n : Nat) (items : List (List Int × α)) : Res (List (Int × Int) × List (Option α)) :=
  let ms := items.foldl (fun ms p => minmax ms p.1) (List.replicate n none)
  match sizes ms with
  | none => if items.length = 0 then .ok (List.replicate n (1, 0), []) else .err
  | some (size, ds, dims) =>
    if size ≠ items.length then .err
    else
      match place ms ds items (List.replicate items.length none) with
      | .ok arr => .ok (dims, arr)
      | .err => .err
      | .ub => .ub

end Comp
end MZ
