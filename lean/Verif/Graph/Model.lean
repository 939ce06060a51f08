import Verif.Graph.Spec
import Verif.Count.Lemmas

/-! # The graph constraints of the library

An access `a[i]` outside the index set of `a` makes the innermost enclosing Boolean expression false.  The wrappers
assert that the index sets agree: nodes `1..N` and edges `1..E` in the versions with numbers (`_int`), the index sets
of `ns` and `es` in the others (`_enum`). -/

namespace MZ.Graph
open MZ.Globals MZ.Graph.Spec

/-- Access to an array of Booleans with index set `lo..hi` (`lib/eval_par.cpp` 1032–1083). -/
def at_ (lo hi : Int) (p : Int → Prop) (i : Int) : Prop := lo ≤ i ∧ i ≤ hi ∧ p i

/-- `sum (e in lo..hi) (p[e])`. -/
noncomputable def cnt (lo hi : Int) (p : Int → Prop) : Int :=
  open Classical in ∑ e ∈ Finset.Icc lo hi, b2i (p e)

/-- `sum (e in lo..hi) (p[e] * w[e])`. -/
noncomputable def wsum (lo hi : Int) (p : Int → Prop) (w : Int → Int) : Int :=
  open Classical in ∑ e ∈ Finset.Icc lo hi, b2i (p e) * w e

/-- `from ++ to` for arrays of length `E` that start at `lo`: the result is indexed from 1
(`lib/builtins.cpp`, concatenation of arrays). -/
def app {α : Type} (lo E : Int) (f h : Int → α) (k : Int) : α := if k ≤ E then f (lo + k - 1) else h (lo + k - E - 1)

/-- `share/minizinc/std/fzn_subgraph_int.mzn` 1–8. -/
def fznSubgraphInt (N E : Int) (src dst : Int → Int) (ns es : Int → Prop) : Prop :=
  ∀ e, 1 ≤ e → e ≤ E → (es e → at_ 1 N ns (src e)) ∧ (es e → at_ 1 N ns (dst e))

/-- `share/minizinc/std/fzn_subgraph_enum.mzn` 1–6. -/
def fznSubgraphEnum (g : Digraph) (ns es : Int → Prop) : Prop :=
  ∀ e, g.elo ≤ e → e ≤ g.ehi →
    (es e → at_ g.nlo g.nhi ns (g.src e)) ∧ (es e → at_ g.nlo g.nhi ns (g.dst e))

/-- `share/minizinc/std/fzn_dreachable_int.mzn` 3–36. -/
def fznDreachableInt (N E : Int) (src dst : Int → Int) (root : Int) (ns es : Int → Prop) : Prop :=
  ∃ dist parent : Int → Int,
    (∀ n, 1 ≤ n → n ≤ N → (0 ≤ dist n ∧ dist n ≤ N - 1) ∧ 0 ≤ parent n ∧ parent n ≤ N) ∧
    at_ 1 N ns root ∧
    at_ 1 N (fun r => dist r = 0) root ∧
    (∀ n, 1 ≤ n → n ≤ N → ¬ ns n → parent n = 0) ∧
    (∀ n, 1 ≤ n → n ≤ N → ¬ ns n → dist n = 0) ∧
    (∀ n, 1 ≤ n → n ≤ N → ns n → (n = root ∨ 0 < parent n)) ∧
    (∀ n, 1 ≤ n → n ≤ N → 0 < parent n → ns n ∧ at_ 1 N ns (parent n)) ∧
    (∀ n, 1 ≤ n → n ≤ N → 0 < parent n → at_ 1 N (fun p => dist n = dist p + 1) (parent n)) ∧
    (∀ n, 1 ≤ n → n ≤ N → 0 < parent n → ∃ e, 1 ≤ e ∧ e ≤ E ∧ es e ∧ src e = parent n ∧ dst e = n) ∧
    fznSubgraphInt N E src dst ns es

/-- `share/minizinc/std/fzn_dreachable_enum.mzn` 3–36. -/
def fznDreachableEnum (g : Digraph) (root : Int) (ns es : Int → Prop) : Prop :=
  ∃ dist parent : Int → Int,
    (∀ n, g.nlo ≤ n → n ≤ g.nhi →
      (0 ≤ dist n ∧ dist n ≤ ((Finset.Icc g.nlo g.nhi).card : Int) - 1) ∧ g.nlo ≤ parent n ∧ parent n ≤ g.nhi) ∧
    at_ g.nlo g.nhi ns root ∧
    at_ g.nlo g.nhi (fun r => dist r = 0) root ∧
    at_ g.nlo g.nhi (fun r => parent r = root) root ∧
    (∀ n, g.nlo ≤ n → n ≤ g.nhi → ¬ ns n → parent n = n) ∧
    (∀ n, g.nlo ≤ n → n ≤ g.nhi → ¬ ns n → dist n = 0) ∧
    (∀ n, g.nlo ≤ n → n ≤ g.nhi → ns n → (n = root ∨ parent n ≠ n)) ∧
    (∀ n, g.nlo ≤ n → n ≤ g.nhi → parent n ≠ n → ns n ∧ at_ g.nlo g.nhi ns (parent n)) ∧
    (∀ n, g.nlo ≤ n → n ≤ g.nhi → parent n ≠ n → at_ g.nlo g.nhi (fun p => dist n = dist p + 1) (parent n)) ∧
    (∀ n, g.nlo ≤ n → n ≤ g.nhi → parent n ≠ n →
      ∃ e, g.elo ≤ e ∧ e ≤ g.ehi ∧ g.dst e = n ∧ es e ∧ g.src e = parent n) ∧
    fznSubgraphEnum g ns es

/-- `share/minizinc/std/fzn_reachable_int.mzn` 3–17. -/
def fznReachableInt (N E : Int) (src dst : Int → Int) (root : Int) (ns es : Int → Prop) : Prop :=
  fznDreachableInt N (2 * E) (app 1 E src dst) (app 1 E dst src) root ns (app 1 E es es)

/-- The number of edges of the `_enum` versions, `length(es)`. -/
def edges (g : Digraph) : Int := ((Finset.Icc g.elo g.ehi).card : Int)

/-- The graph with every edge in both directions, edges `1..2*E`: `dfrom = from ++ to`, `dto = to ++ from`
(`share/minizinc/std/fzn_reachable_enum.mzn` 11–14, `fzn_tree_enum.mzn` 9–11, `fzn_path_enum.mzn` 13–15). -/
def both (g : Digraph) : Digraph :=
  ⟨g.nlo, g.nhi, 1, 2 * edges g, app g.elo (edges g) g.src g.dst, app g.elo (edges g) g.dst g.src⟩

/-- `share/minizinc/std/fzn_reachable_enum.mzn` 3–19; the domain of the local `dr` is the index set of `ns`. -/
def fznReachableEnum (g : Digraph) (root : Int) (ns es : Int → Prop) : Prop :=
  (g.nlo ≤ root ∧ root ≤ g.nhi) ∧ fznDreachableEnum (both g) root ns (app g.elo (edges g) es es)

/-- `share/minizinc/std/fzn_dtree_int.mzn` 3–41. -/
def fznDtreeInt (N E : Int) (src dst : Int → Int) (root : Int) (ns es : Int → Prop) : Prop :=
  ∃ dist parent : Int → Int,
    (∀ n, 1 ≤ n → n ≤ N → (0 ≤ dist n ∧ dist n ≤ N - 1) ∧ 0 ≤ parent n ∧ parent n ≤ N) ∧
    at_ 1 N ns root ∧
    at_ 1 N (fun r => dist r = 0) root ∧
    (∀ n, 1 ≤ n → n ≤ N → ¬ ns n → parent n ≤ 0) ∧
    (∀ n, 1 ≤ n → n ≤ N → ¬ ns n → dist n = 0) ∧
    (∀ n, 1 ≤ n → n ≤ N → ns n → (n = root ∨ 0 < parent n)) ∧
    (∀ n, 1 ≤ n → n ≤ N → 0 < parent n → ns n ∧ at_ 1 N ns (parent n)) ∧
    (∀ n, 1 ≤ n → n ≤ N → 0 < parent n → at_ 1 N (fun p => dist n = dist p + 1) (parent n)) ∧
    (∀ n, 1 ≤ n → n ≤ N → 0 < parent n → ∃ e, 1 ≤ e ∧ e ≤ E ∧ es e ∧ src e = parent n ∧ dst e = n) ∧
    (∀ e, 1 ≤ e → e ≤ E → es e → at_ 1 N (fun n => parent n = src e) (dst e)) ∧
    cnt 1 E es = cnt 1 N ns - 1 ∧
    fznSubgraphInt N E src dst ns es

/-- `share/minizinc/std/fzn_dtree_enum.mzn` 3–39. -/
def fznDtreeEnum (g : Digraph) (root : Int) (ns es : Int → Prop) : Prop :=
  ∃ dist parent : Int → Int,
    (∀ n, g.nlo ≤ n → n ≤ g.nhi →
      (0 ≤ dist n ∧ dist n ≤ ((Finset.Icc g.nlo g.nhi).card : Int) - 1) ∧ g.nlo ≤ parent n ∧ parent n ≤ g.nhi) ∧
    at_ g.nlo g.nhi ns root ∧
    at_ g.nlo g.nhi (fun r => dist r = 0) root ∧
    at_ g.nlo g.nhi (fun r => parent r = root) root ∧
    (∀ n, g.nlo ≤ n → n ≤ g.nhi → ¬ ns n → parent n = n) ∧
    (∀ n, g.nlo ≤ n → n ≤ g.nhi → ¬ ns n → dist n = 0) ∧
    (∀ n, g.nlo ≤ n → n ≤ g.nhi → ns n → (n = root ∨ parent n ≠ n)) ∧
    (∀ n, g.nlo ≤ n → n ≤ g.nhi → parent n ≠ n → ns n ∧ at_ g.nlo g.nhi ns (parent n)) ∧
    (∀ n, g.nlo ≤ n → n ≤ g.nhi → parent n ≠ n → at_ g.nlo g.nhi (fun p => dist n = dist p + 1) (parent n)) ∧
    (∀ n, g.nlo ≤ n → n ≤ g.nhi → parent n ≠ n →
      ∃ e, g.elo ≤ e ∧ e ≤ g.ehi ∧ g.dst e = n ∧ es e ∧ g.src e = parent n) ∧
    (∀ e, g.elo ≤ e → e ≤ g.ehi → es e → at_ g.nlo g.nhi (fun n => parent n = g.src e) (g.dst e)) ∧
    cnt g.elo g.ehi es = cnt g.nlo g.nhi ns - 1 ∧
    fznSubgraphEnum g ns es

/-- `share/minizinc/std/fzn_tree_int.mzn` 3–19. -/
def fznTreeInt (N E : Int) (src dst : Int → Int) (root : Int) (ns es : Int → Prop) : Prop :=
  ∃ des : Int → Prop, (∀ e, 1 ≤ e → e ≤ E → (es e ↔ des e ∨ des (e + E))) ∧
    fznDtreeInt N (2 * E) (app 1 E src dst) (app 1 E dst src) root ns des

/-- `share/minizinc/std/fzn_tree_enum.mzn` 1–16. -/
def fznTreeEnum (g : Digraph) (root : Int) (ns es : Int → Prop) : Prop :=
  ∃ des : Int → Prop, (∀ e, 1 ≤ e → e ≤ edges g → (es (e - 1 + g.elo) ↔ des e ∨ des (e + edges g))) ∧
    fznDtreeEnum (both g) root ns des

/-- `share/minizinc/std/fzn_dpath_int.mzn` 4–13. -/
def fznDpathInt (N E : Int) (src dst : Int → Int) (source sink : Int) (ns es : Int → Prop) : Prop :=
  fznDtreeInt N E src dst source ns es ∧ fznDtreeInt N E dst src sink ns es

/-- `share/minizinc/std/fzn_dpath_enum.mzn` 4–40. -/
def fznDpathEnum (g : Digraph) (source sink : Int) (ns es : Int → Prop) : Prop :=
  ∃ dist : Int → Int,
    (∀ n, g.nlo ≤ n → n ≤ g.nhi → 0 ≤ dist n ∧ dist n ≤ ((Finset.Icc g.nlo g.nhi).card : Int) - 1) ∧
    at_ g.nlo g.nhi ns source ∧
    at_ g.nlo g.nhi ns sink ∧
    at_ g.nlo g.nhi (fun r => dist r = 0) source ∧
    (∀ n, g.nlo ≤ n → n ≤ g.nhi → ¬ ns n → dist n = 0) ∧
    (∀ n, g.nlo ≤ n → n ≤ g.nhi → ns n ∧ n ≠ source → ∃ e, g.elo ≤ e ∧ e ≤ g.ehi ∧ g.dst e = n ∧ es e) ∧
    (∀ n, g.nlo ≤ n → n ≤ g.nhi → ns n ∧ n ≠ sink → ∃ e, g.elo ≤ e ∧ e ≤ g.ehi ∧ g.src e = n ∧ es e) ∧
    (∀ n, g.nlo ≤ n → n ≤ g.nhi → ns n ∧ n ≠ source → cnt g.elo g.ehi (fun e => g.dst e = n ∧ es e) ≤ 1) ∧
    (∀ n, g.nlo ≤ n → n ≤ g.nhi → ns n ∧ n ≠ sink → cnt g.elo g.ehi (fun e => g.src e = n ∧ es e) ≤ 1) ∧
    (∀ e, g.elo ≤ e → e ≤ g.ehi → es e →
      (g.nlo ≤ g.dst e ∧ g.dst e ≤ g.nhi) ∧ (g.nlo ≤ g.src e ∧ g.src e ≤ g.nhi) ∧
        dist (g.dst e) = dist (g.src e) + 1) ∧
    cnt g.nlo g.nhi ns = cnt g.elo g.ehi es + 1 ∧
    fznSubgraphEnum g ns es

/-- `share/minizinc/std/fzn_path_int.mzn` 4–21. -/
def fznPathInt (N E : Int) (src dst : Int → Int) (source sink : Int) (ns es : Int → Prop) : Prop :=
  ∃ des : Int → Prop, (∀ e, 1 ≤ e → e ≤ E → (es e ↔ des e ∨ des (e + E))) ∧
    fznDpathInt N (2 * E) (app 1 E src dst) (app 1 E dst src) source sink ns des

/-- `share/minizinc/std/fzn_path_enum.mzn` 4–20. -/
def fznPathEnum (g : Digraph) (source sink : Int) (ns es : Int → Prop) : Prop :=
  ∃ des : Int → Prop, (∀ e, 1 ≤ e → e ≤ edges g → (es (e - 1 + g.elo) ↔ des e ∨ des (e + edges g))) ∧
    fznDpathEnum (both g) source sink ns des

/-- `share/minizinc/std/fzn_dag.mzn` 1–15. -/
def fznDag (g : Digraph) (ns es : Int → Prop) : Prop := open Classical in
  ∃ dist : Int → Int,
    (∀ n, g.nlo ≤ n → n ≤ g.nhi → 0 ≤ dist n ∧ dist n ≤ ((Finset.Icc g.nlo g.nhi).card : Int) - 1) ∧
    (∀ n, g.nlo ≤ n → n ≤ g.nhi → ¬ ns n → dist n = 0) ∧
    (∀ e, g.elo ≤ e → e ≤ g.ehi → es e → dist (g.src e) + 1 ≤ dist (g.dst e)) ∧
    ∀ n, g.nlo ≤ n → n ≤ g.nhi →
      dist n = ((Finset.Icc g.elo g.ehi).filter fun e => g.dst e = n).fold max 0
        fun e => (dist (g.src e) + 1) * b2i (es e)

/-- `share/minizinc/std/fzn_connected.mzn` 3–8. -/
def fznConnected (g : Digraph) (ns es : Int → Prop) : Prop :=
  ∃ r, (g.nlo ≤ r ∧ r ≤ g.nhi) ∧ fznReachableEnum g r ns es

/-- `share/minizinc/std/fzn_dconnected.mzn` 3–8. -/
def fznDconnected (g : Digraph) (ns es : Int → Prop) : Prop :=
  ∃ r, (g.nlo ≤ r ∧ r ≤ g.nhi) ∧ fznDreachableEnum g r ns es

/-- `share/minizinc/std/fzn_steiner.mzn` 3–12. -/
def fznSteiner (N E : Int) (src dst w : Int → Int) (ns es : Int → Prop) (weight : Int) : Prop :=
  ∃ r, (1 ≤ r ∧ r ≤ N) ∧ fznTreeInt N E src dst r ns es ∧ weight = wsum 1 E es w

/-- `share/minizinc/std/fzn_dsteiner.mzn` 3–13. -/
def fznDsteiner (N E : Int) (src dst w : Int → Int) (root : Int) (ns es : Int → Prop) (weight : Int) : Prop :=
  fznDtreeInt N E src dst root ns es ∧ weight = wsum 1 E es w

/-- `share/minizinc/std/fzn_wst.mzn` 3–15. -/
def fznWst (N E : Int) (src dst w : Int → Int) (es : Int → Prop) (weight : Int) : Prop :=
  ∃ r, (1 ≤ r ∧ r ≤ N) ∧ fznTreeInt N E src dst r (fun _ => True) es ∧ weight = wsum 1 E es w

/-- `share/minizinc/std/fzn_dwst.mzn` 3–15. -/
def fznDwst (N E : Int) (src dst w : Int → Int) (root : Int) (es : Int → Prop) (weight : Int) : Prop :=
  fznDtreeInt N E src dst root (fun _ => True) es ∧ weight = wsum 1 E es w

/-- `steiner` (`share/minizinc/std/steiner.mzn` 76–95); `fixedTrue` says whether all of `ns` is fixed to true when the
constraint is compiled. -/
def steiner (fixedTrue : Bool) (N E : Int) (src dst w : Int → Int) (ns es : Int → Prop) (weight : Int) : Prop :=
  if fixedTrue then fznWst N E src dst w es weight else fznSteiner N E src dst w ns es weight

/-- `dsteiner` (`share/minizinc/std/steiner.mzn` 42–62). -/
def dsteiner (fixedTrue : Bool) (N E : Int) (src dst w : Int → Int) (root : Int) (ns es : Int → Prop)
    (weight : Int) : Prop :=
  if fixedTrue then fznDwst N E src dst w root es weight else fznDsteiner N E src dst w root ns es weight

/-- `d_weighted_spanning_tree` without the numbers of nodes and edges
(`share/minizinc/std/weighted_spanning_tree.mzn` 36–61): the nodes are `1..max`, `array1d` renumbers the edges, and
there is no `else`. -/
def dWeightedSpanningTree (lo hi : Int) (src dst w : Int → Int) (root : Int) (es : Int → Prop) (weight : Int) : Prop :=
  let S := Finset.Icc lo hi
  0 < (S.card : Int) →
    fznDwst (max (maxOf S src) (maxOf S dst)) S.card (fun k => src (lo + k - 1)) (fun k => dst (lo + k - 1))
      (fun k => w (lo + k - 1)) root (fun k => es (lo + k - 1)) weight

/-- `weighted_spanning_tree` without the numbers of nodes and edges
(`share/minizinc/std/weighted_spanning_tree.mzn` 102–125). -/
def weightedSpanningTree (lo hi : Int) (src dst w : Int → Int) (es : Int → Prop) (weight : Int) : Prop :=
  let S := Finset.Icc lo hi
  0 < (S.card : Int) →
    fznWst (max (maxOf S src) (maxOf S dst)) S.card (fun k => src (lo + k - 1)) (fun k => dst (lo + k - 1))
      (fun k => w (lo + k - 1)) (fun k => es (lo + k - 1)) weight

/-- `share/minizinc/std/fzn_bounded_path_int.mzn` 3–14. -/
def fznBoundedPathInt (N E : Int) (src dst w : Int → Int) (source sink : Int) (ns es : Int → Prop)
    (weight : Int) : Prop :=
  fznPathInt N E src dst source sink ns es ∧ weight = wsum 1 E es w

/-- `share/minizinc/std/fzn_bounded_path_enum.mzn` 3–12. -/
def fznBoundedPathEnum (g : Digraph) (w : Int → Int) (source sink : Int) (ns es : Int → Prop) (weight : Int) : Prop :=
  fznPathEnum g source sink ns es ∧ weight = wsum g.elo g.ehi es w

/-- `share/minizinc/std/fzn_bounded_dpath_int.mzn` 3–14. -/
def fznBoundedDpathInt (N E : Int) (src dst w : Int → Int) (source sink : Int) (ns es : Int → Prop)
    (weight : Int) : Prop :=
  fznDpathInt N E src dst source sink ns es ∧ weight = wsum 1 E es w

/-- `share/minizinc/std/fzn_bounded_dpath_enum.mzn` 3–13. -/
def fznBoundedDpathEnum (g : Digraph) (w : Int → Int) (source sink : Int) (ns es : Int → Prop)
    (weight : Int) : Prop :=
  fznDpathEnum g source sink ns es ∧ weight = wsum g.elo g.ehi es w

/-- `share/minizinc/std/fzn_circuit.mzn` 3–19 (`all_different` is `MZ.Count`'s; here its meaning, pairwise different
elements, `C74_all_different`). -/
def fznCircuit (xs : Arr Int) : Prop :=
  if xs.len = 0 then True
  else
    ∃ order : Int → Int,
      (∀ i ∈ xs.idx, 1 ≤ order i ∧ order i ≤ xs.len) ∧
      (∀ i ∈ xs.idx, ∀ j ∈ xs.idx, i < j → xs i ≠ xs j) ∧
      (∀ i ∈ xs.idx, ∀ j ∈ xs.idx, i < j → order i ≠ order j) ∧
      (∀ i ∈ xs.idx, xs i ≠ i) ∧
      order xs.lo = 1 ∧
      ∀ i ∈ xs.idx, xs i ∈ xs.idx ∧ order (xs i) = if order i = xs.len then 1 else order i + 1

/-- `share/minizinc/std/fzn_subcircuit.mzn` 3–43. -/
def fznSubcircuit (xs : Arr Int) : Prop :=
  if xs.len = 0 then True
  else
    let u := xs.hi
    let firstin := minOf xs.idx fun i => u + 1 + b2i (xs i ≠ i) * (i - u - 1)
    ∃ order : Int → Int, ∃ lastin : Int,
      (∀ i ∈ xs.idx, 1 ≤ order i ∧ order i ≤ xs.len) ∧
      (xs.lo ≤ firstin ∧ firstin ≤ u + 1) ∧
      lastin ∈ xs.idx ∧
      (∀ i ∈ xs.idx, ∀ j ∈ xs.idx, i < j → xs i ≠ xs j) ∧
      (∀ i ∈ xs.idx, ∀ j ∈ xs.idx, i < j → order i ≠ order j) ∧
      (firstin > u → ∀ i ∈ xs.idx, ¬ (xs i ≠ i)) ∧
      (¬ (firstin > u) →
        (firstin ∈ xs.idx ∧ order firstin = 1) ∧
        lastin > firstin ∧
        xs lastin = firstin ∧
        xs lastin ≠ lastin ∧
        (firstin ∈ xs.idx ∧ xs firstin ≠ firstin) ∧
        (∀ i ∈ xs.idx, xs i ≠ i ∧ xs i ≠ firstin → xs i ∈ xs.idx ∧ order (xs i) = order i + 1) ∧
        ∀ i ∈ xs.idx, xs i ≠ i ∨ order lastin < order i)

/-- `if occurs(xs[i]) then deopt(xs[i]) else i endif` (`share/minizinc/std/fzn_circuit_opt.mzn` 5). -/
def deoptOr (o : Option Int) (i : Int) : Int :=
  match o with
  | some v => v
  | none => i

/-- `share/minizinc/std/fzn_circuit_opt.mzn` 3–7. -/
def fznCircuitOpt (xs : Arr (Option Int)) : Prop :=
  fznSubcircuit ⟨xs.lo, xs.hi, fun i => deoptOr (xs i) i⟩ ∧
    ∀ i ∈ xs.idx, ∀ v, xs i = some v → v ≠ i

end MZ.Graph
