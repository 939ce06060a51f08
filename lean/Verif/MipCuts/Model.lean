import Verif.LinGlob.Circ

/-!
# Cut generators of the MIP interface

`solvers/MIP/MIP_solverinstance.cpp`: the generator of subtour elimination cuts for `circuit` and that of the cuts for elements of
arrays of float variables.  Numbers are rationals instead of doubles.
-/

namespace MZ.MipCuts

/-- `CutDef` with sense `GQ` (`include/minizinc/solvers/MIP/MIP_wrap.hh` 96–124): terms (column, coefficient), right hand side. -/
structure CutDef where
  terms : List (Nat × ℚ)
  rhs : ℚ

/-- `addVar` (`MIP_wrap.hh` 107–110). -/
def CutDef.addVar (c : CutDef) (i : Nat) (a : ℚ) : CutDef := ⟨c.terms ++ [(i, a)], c.rhs⟩

/-- `compute_sparse` (`MIP_wrap.hh` 26–36). -/
def computeSparse (ts : List (Nat × ℚ)) (x : Nat → ℚ) : ℚ := ts.foldl (fun v t => v + t.2 * x t.1) 0

/-- `computeViol` for sense `GQ` (`MIP_wrap.hh` 111–123). -/
def CutDef.viol (c : CutDef) (x : Nat → ℚ) : ℚ := c.rhs - computeSparse c.terms x

/-- The cut as a constraint. -/
def CutDef.Holds (c : CutDef) (x : Nat → ℚ) : Prop := computeSparse c.terms x ≥ c.rhs

/-- What a call of a generator does: throws, adds no cut, or adds a cut. -/
inductive Outcome where
  | abort
  | noCut
  | cut (c : CutDef)

/-! ## Subtour elimination -/

/-- `validate` (`MIP_solverinstance.cpp` 129–139): the upper bounds on the diagonal are 0. -/
def validate (n : Nat) (varX : Nat → Nat) (colUB : Nat → ℚ) : Bool :=
  (List.range n).all fun i => !(decide (colUB (varX (i * n + i)) > 0))

/-- The checks on the point (147–154). -/
def pointOk (n : Nat) (varX : Nat → Nat) (x : Nat → ℚ) : Bool :=
  (List.range n).all fun i => (List.range n).all fun j =>
    (if i = j then decide (1 / 10000 > |x (varX (n * i + j))|) else true) &&
      decide (-(1 / 10000) < x (varX (n * i + j)) ∧ 1 + 1 / 10000 > x (varX (n * i + j)))

/-- `mapFlow` (143–160): what the pair `(i, j)` adds to its undirected edge. -/
def flow (n : Nat) (varX : Nat → Nat) (x : Nat → ℚ) (i j : Nat) : ℚ :=
  if 1 / 10000 ≤ x (varX (n * i + j)) then x (varX (n * i + j)) else 0

/-- The weight of the undirected edge of `a < b` (155–157). -/
def weight (n : Nat) (varX : Nat → Nat) (x : Nat → ℚ) (a b : Nat) : ℚ := flow n varX x a b + flow n varX x b a

/-- The weight of a cut in the undirected graph, as the minimum cut algorithm sees it (`lib/algorithms/min_cut.cpp` 36–65). -/
def cutWeight (n : Nat) (w : Nat → Nat → ℚ) (S : Finset Nat) : ℚ :=
  ∑ a ∈ Finset.range n, ∑ b ∈ Finset.range n, if a < b ∧ (a ∈ S ↔ ¬ b ∈ S) then w a b else 0

/-- The terms of the cut (182–194). -/
def secTerms (n : Nat) (varX : Nat → Nat) (S : Finset Nat) : List (Nat × ℚ) :=
  (List.range n).flatMap fun i => if i ∈ S then
    (List.range n).flatMap fun j => if ¬ j ∈ S then [(varX (n * i + j), 1)] else [] else []

/-- `SECCutGen::generate` (141–208).  `minCut` is `MinCut::solve`: the nodes of parity 1 and the value, or nothing when it throws
(`lib/algorithms/min_cut.cpp` 15–20). -/
def secGenerate (minCut : Nat → (Nat → Nat → ℚ) → Option (Finset Nat × ℚ)) (n : Nat) (varX : Nat → Nat) (x : Nat → ℚ) : Outcome :=
  if pointOk n varX x = true then
    match minCut n (weight n varX x) with
    | none => .abort
    | some (S, v) =>
      if v ≤ 1999 / 1000 then
        let c : CutDef := ⟨secTerms n varX S, 1⟩
        if c.viol x > 1 / 10000 then .cut c else .abort
      else .noCut
  else .abort

/-! ## Element cuts -/

/-- One step of the loop of `XBZCutGen::generate` (84–101). -/
def xbzStep (lb ub : Nat → ℚ) (x : Nat → ℚ) (c : CutDef) (t : Nat × Nat) : CutDef :=
  let ix := t.1
  let ib := t.2
  if x ix + lb ix * (x ib - 1) - ub ix * x ib < 0 then
    let c := (c.addVar ix 1).addVar ib (lb ix)
    ⟨c.terms, c.rhs + lb ix⟩
  else c.addVar ib (ub ix)

/-- `XBZCutGen::generate` (78–115); `vars` are the pairs of `varX` and `varB`. -/
def xbzGenerate (lb ub : Nat → ℚ) (vars : List (Nat × Nat)) (z : Nat) (x : Nat → ℚ) : Outcome :=
  let c := vars.foldl (xbzStep lb ub x) ((⟨[], 0⟩ : CutDef).addVar z (-1))
  if c.viol x > 1 / 100 then .cut c else .noCut

end MZ.MipCuts
