import Verif.LexOrd.Spec

/-! # What the extensional constraints mean

Written from the documentation strings: automata accept sequences, decision diagrams have paths, tables have rows. -/

namespace MZ.Ext.Spec
open MZ.Globals MZ.LexOrd.Spec

/-- A deterministic automaton with partial transition function `step` accepts a sequence from a state. -/
def Accepts (step : Int → Int → Option Int) (F : Finset Int) : Int → List Int → Prop
  | q, [] => q ∈ F
  | q, x :: w => ∃ q', step q x = some q' ∧ Accepts step F q' w

/-- The transition function of `regular(xs, Q, S, d, q0, F)`: symbols `S`, "state 0 is an always failing state". -/
def stepOf (d : Int → Int → Int) (S : Int → Prop) [DecidablePred S] (q x : Int) : Option Int :=
  if S x ∧ d q x ≠ 0 then some (d q x) else none

/-- A nondeterministic automaton accepts a sequence from a state. -/
def AcceptsN (step : Int → Int → Finset Int) (F : Finset Int) : Int → List Int → Prop
  | q, [] => q ∈ F
  | q, x :: w => ∃ q' ∈ step q x, AcceptsN step F q' w

/-- An automaton accepts a sequence with the given sum of transition costs. -/
def AcceptsCost (step : Int → Int → Option Int) (cost : Int → Int → Int) (F : Finset Int) : Int → List Int → Int → Prop
  | q, [], t => q ∈ F ∧ t = 0
  | q, x :: w, t => ∃ q', step q x = some q' ∧ AcceptsCost step cost F q' w (t - cost q x)

/-- A decision diagram: nodes `1..N` with levels, edges `1..E`, node 0 is the true node, node 1 the root. -/
structure Diagram where
  N : Int
  level : Int → Int
  E : Int
  src : Int → Int
  label : Int → Finset Int
  dst : Int → Int

/-- A path from a node to the true node that spells a sequence. -/
def Diagram.Path (m : Diagram) : Int → List Int → Prop
  | n, [] => n = 0
  | n, x :: w => ∃ e, 1 ≤ e ∧ e ≤ m.E ∧ m.src e = n ∧ x ∈ m.label e ∧ m.Path (m.dst e) w

/-- A path with the given sum of edge costs. -/
def Diagram.CostPath (m : Diagram) (cost : Int → Int) : Int → List Int → Int → Prop
  | n, [], t => n = 0 ∧ t = 0
  | n, x :: w, t => ∃ e, 1 ≤ e ∧ e ≤ m.E ∧ m.src e = n ∧ x ∈ m.label e ∧ m.CostPath cost (m.dst e) w (t - cost e)

/-- The documented form of a diagram for `L` variables: "the root is level 1, T is level length(xs)+1", edges lead
from a level to the next. -/
structure Diagram.Layered (m : Diagram) (L : Int) : Prop where
  root : 1 ≤ m.N ∧ m.level 1 = 1
  src : ∀ e, 1 ≤ e → e ≤ m.E → 1 ≤ m.src e ∧ m.src e ≤ m.N
  dst : ∀ e, 1 ≤ e → e ≤ m.E → 0 ≤ m.dst e ∧ m.dst e ≤ m.N
  step : ∀ e, 1 ≤ e → e ≤ m.E → m.level (m.src e) + 1 = if m.dst e = 0 then L + 1 else m.level (m.dst e)

/-- "there cannot be two edges with the same label leaving the same node". -/
def Diagram.Deterministic (m : Diagram) : Prop :=
  ∀ e f, 1 ≤ e → e ≤ m.E → 1 ≤ f → f ≤ m.E → m.src e = m.src f → (∃ v, v ∈ m.label e ∧ v ∈ m.label f) → e = f

/-- No dangling nodes: every node has an outgoing edge, and every node but the root an incoming one. -/
def Diagram.Full (m : Diagram) : Prop :=
  (∀ n, 1 ≤ n → n ≤ m.N → ∃ e, 1 ≤ e ∧ e ≤ m.E ∧ m.src e = n) ∧
  (∀ n, 2 ≤ n → n ≤ m.N → ∃ e, 1 ≤ e ∧ e ≤ m.E ∧ m.dst e = n)

/-- The array equals a row of the table. -/
def InTable {α : Type} (xs : Arr α) (t : Mat α) : Prop :=
  ∃ r, t.lo1 ≤ r ∧ r ≤ t.hi1 ∧ ∀ j ∈ xs.idx, xs j = t.val r j

/-- The array agrees with a row of the table wherever both values occur. -/
def InTableOpt {α : Type} (xs : Arr (Option α)) (t : Mat (Option α)) : Prop :=
  ∃ r, t.lo1 ≤ r ∧ r ≤ t.hi1 ∧ ∀ j ∈ xs.idx, ∀ a b, xs j = some a → t.val r j = some b → a = b

end MZ.Ext.Spec
