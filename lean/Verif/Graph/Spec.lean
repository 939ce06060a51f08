import Verif.Globals.Base
import Mathlib.Logic.Relation
import Mathlib.Data.Finset.Card

/-! # What the graph constraints mean

Written from the documentation strings: a graph is given by its nodes and the end points of its edges, a subgraph by
the selected nodes `V` and edges `A`. -/

namespace MZ.Graph.Spec
open MZ.Globals

/-- A graph: nodes `nlo..nhi`, edges `elo..ehi`. -/
structure Digraph where
  nlo : Int
  nhi : Int
  elo : Int
  ehi : Int
  src : Int → Int
  dst : Int → Int

/-- The indices selected by an array of Booleans. -/
noncomputable def selected (lo hi : Int) (p : Int → Prop) : Finset Int :=
  open Classical in (Finset.Icc lo hi).filter p

/-- The same graph with all edges turned round. -/
def Digraph.rev (g : Digraph) : Digraph := ⟨g.nlo, g.nhi, g.elo, g.ehi, g.dst, g.src⟩

/-- The end points of selected edges are selected. -/
def Subgraph (g : Digraph) (V A : Finset Int) : Prop := ∀ e ∈ A, g.src e ∈ V ∧ g.dst e ∈ V

/-- A selected edge leads from `a` to `b`. -/
def Step (g : Digraph) (A : Finset Int) (a b : Int) : Prop := ∃ e ∈ A, g.src e = a ∧ g.dst e = b

/-- A selected edge connects `a` and `b`. -/
def Link (g : Digraph) (A : Finset Int) (a b : Int) : Prop := Step g A a b ∨ Step g A b a

/-- "the subgraph … of a given directed graph … reachable from root". -/
def DReachable (g : Digraph) (root : Int) (V A : Finset Int) : Prop :=
  root ∈ V ∧ Subgraph g V A ∧ ∀ n ∈ V, Relation.ReflTransGen (Step g A) root n

/-- "the subgraph … of a given undirected graph … reachable from root". -/
def Reachable (g : Digraph) (root : Int) (V A : Finset Int) : Prop :=
  root ∈ V ∧ Subgraph g V A ∧ ∀ n ∈ V, Relation.ReflTransGen (Link g A) root n

/-- "a tree rooted at root" in a directed graph: everything is reachable from the root, which no edge enters, and
exactly one edge enters every other node. -/
def DTree (g : Digraph) (root : Int) (V A : Finset Int) : Prop :=
  DReachable g root V A ∧ (∀ e ∈ A, g.dst e ≠ root) ∧ ∀ n ∈ V, n ≠ root → ∃! e, e ∈ A ∧ g.dst e = n

/-- "a tree" in an undirected graph: connected with one edge less than nodes. -/
def Tree (g : Digraph) (root : Int) (V A : Finset Int) : Prop := Reachable g root V A ∧ A.card + 1 = V.card

/-- A path from `s` to `t` without repeated nodes: `V` are its nodes, `A` its edges; `step e a b` says that edge `e`
may be used from `a` to `b`. -/
inductive IsPath (step : Int → Int → Int → Prop) : Int → Int → Finset Int → Finset Int → Prop
  | single (s : Int) : IsPath step s s {s} ∅
  | cons (e s v t : Int) (V A : Finset Int) : step e s v → s ∉ V → IsPath step v t V A →
      IsPath step s t (insert s V) (insert e A)

/-- Edges of a directed graph are used in their direction. -/
def along (g : Digraph) (e a b : Int) : Prop := g.elo ≤ e ∧ e ≤ g.ehi ∧ g.src e = a ∧ g.dst e = b

/-- Edges of an undirected graph are used in either direction. -/
def either (g : Digraph) (e a b : Int) : Prop := along g e a b ∨ along g e b a

/-- "connected" in an undirected graph: some node is selected and selected edges lead from any selected node to any
other. -/
def Connected (g : Digraph) (V A : Finset Int) : Prop :=
  V.Nonempty ∧ Subgraph g V A ∧ ∀ a ∈ V, ∀ b ∈ V, Relation.ReflTransGen (Link g A) a b

/-- "connected" in a directed graph, strongly: the edges are used in their direction. -/
def StronglyConnected (g : Digraph) (V A : Finset Int) : Prop :=
  V.Nonempty ∧ Subgraph g V A ∧ ∀ a ∈ V, ∀ b ∈ V, Relation.ReflTransGen (Step g A) a b

/-- No walk along selected edges returns to where it began. -/
def Acyclic (g : Digraph) (A : Finset Int) : Prop := ∀ n, ¬ Relation.TransGen (Step g A) n n

/-- "define a circuit where xs[i] = j means that j is the successor of i": every node is reached by following the
successors from any node. -/
def Circuit (xs : Arr Int) : Prop :=
  (∀ i ∈ xs.idx, xs i ∈ xs.idx) ∧ ∀ i ∈ xs.idx, ∀ j ∈ xs.idx, ∃ k : Nat, xs.val^[k] i = j

/-- "a subcircuit … xs[i] = i means that i is not in the circuit": following the successors leads from any node in the
circuit to any other and back to itself. -/
def Subcircuit (xs : Arr Int) : Prop :=
  (∀ i ∈ xs.idx, xs i ∈ xs.idx) ∧
  ∀ i ∈ xs.idx, ∀ j ∈ xs.idx, xs i ≠ i → xs j ≠ j → ∃ k : Nat, xs.val^[k + 1] i = j

/-- The same with absent successors: absent nodes are not in the circuit and no node is its own successor. -/
def CircuitOpt (xs : Arr (Option Int)) : Prop :=
  (∀ i ∈ xs.idx, xs i ≠ some i) ∧ Subcircuit ⟨xs.lo, xs.hi, fun i => (xs i).getD i⟩

end MZ.Graph.Spec
